/-
C133: a log which grows keeps its anomalies, for the bytes of files.
-/
import Verif.Whole.Trees
import Verif.Report.Grown
import Verif.Iterator.Grown
namespace LJ.Whole
open LJ.Process (Str Bytes Ev)
open LJ.Paths (Source)
open LJ.Report (train report)
open LJ.Process.Spec (Kept)
open Spec (Ordinary)

/-- the same files, after `more` was written at the end of one of them -/
def Machine.append (M : Machine) (path : Str) (more : Bytes) : Machine :=
  { M with files := fun p => if p = path then (M.files p).map (· ++ more) else M.files p }

theorem read_short {json : Bool} {reads : List Bytes} (hb : LJ.Iterator.Spec.Blocks reads) (h : ∀ p ∈ LJ.Iterator.Spec.pieces json reads.flatten, p.1.length < 6000) :
    Spec.read json reads = (LJ.Iterator.Spec.lines json 6000 reads.flatten).map Except.ok := by
  have h1 := LJ.Iterator.C125_exact Unit json reads hb
  have h2 := LJ.Iterator.C02_lines_spec Unit false json reads hb (LJ.Iterator.noOverflow_of_short h)
  rw [h1] at h2
  unfold Spec.read
  rw [(Prod.mk.inj h2).1]

theorem short_before {json : Bool} {content : Bytes} (h : LJ.Iterator.Spec.Ended content) (more : Bytes)
    (hs : ∀ p ∈ LJ.Iterator.Spec.pieces json (content ++ more), p.1.length < 6000) : ∀ p ∈ LJ.Iterator.Spec.pieces json content, p.1.length < 6000 := by
  obtain ⟨before, rfl, hb⟩ := h
  obtain ⟨ps, st, ln, h⟩ := LJ.Iterator.split_ended json before false false [] 1 (fun _ => rfl) hb
  have h0 := h []
  have h1 := h more
  unfold LJ.Iterator.Spec.pieces at hs ⊢
  rw [List.append_assoc, List.singleton_append, h1] at hs
  rw [h0]
  intro p hp
  rcases List.mem_append.1 hp with hp | hp
  · exact hs p (List.mem_append_left _ hp)
  · have : p = ([], ln) := by simpa [LJ.Iterator.Spec.split] using hp
    rw [this]
    exact Nat.zero_lt_succ _

/-- C133, for files and directories, by a release build, with any model: something is written at the end of a file which ends with a line return, not after a backslash, and which
is the last one of its name in the target.  When no line of this file is too long and nothing of this name fails to be read, the contexts reported for this name before are still
reported, in front of the new ones, with the same anomalies and lines before them, and the same lines after them, possibly followed by more. -/
theorem C133_trees_partial {M : Machine} (hM : Ordinary M) (hrel : M.checks = false) (m : LJ.Report.Model Local Source Str)
    {o1 o2 : List (Str × List Source) → List (Str × List Source)} (h1 : ∀ g, (o1 g).Perm g) (h2 : ∀ g, (o2 g).Perm g) {target : Local} {base : Nat} {path : Str}
    {data more : Bytes} (hf : M.files path = some data) (hended : LJ.Iterator.Spec.Ended data)
    (hshort : ∀ p ∈ LJ.Iterator.Spec.pieces (Spec.json (.loc base (some path))) (data ++ more), p.1.length < 6000) (ht : Spec.CanList M target) {ss : List Source}
    (hlast : ((Spec.sourcesOf M target).filter fun s => Spec.nameOf s = Spec.nameOf (.loc base (some path))) = ss ++ [.loc base (some path)])
    (hother : ∀ b, .loc b (some path) ∉ ss) :
    ∃ r r', report M.world m o1 target = some (.ok r) ∧ report (M.append path more).world m o2 target = some (.ok r') ∧
      ((∀ x ∈ r'.readErrors, Spec.nameOf x.1 ≠ Spec.nameOf (.loc base (some path))) →
        Kept (LJ.Report.Spec.contextsOf r (Spec.nameOf (.loc base (some path)))) (LJ.Report.Spec.contextsOf r' (Spec.nameOf (.loc base (some path))))) := by
  have hs : LJ.Report.SearchOk M.world := LJ.Report.searchOk_indexWorld hM.fp
  have made : ∀ {w : LJ.Report.World Local Source Str ℝ Unit Unit} {o t} (_ : LJ.Report.SearchOk w) (_ : ∀ g : List (Str × List Source), (o g).Perm g)
      (m : LJ.Report.Model Local Source Str), LJ.Report.Spec.Usable w.valid (w.list t) → ∃ r, report w m o t = some (.ok r) := by
    intro w o t hs ho m ht
    obtain ⟨res, e, h⟩ := LJ.Report.report_total hs m o ho t
    obtain ⟨r, rfl⟩ := h.2 ht
    exact ⟨r, e⟩
  have hs' : LJ.Report.SearchOk (M.append path more).world := LJ.Report.searchOk_indexWorld hM.fp
  obtain ⟨r, hr⟩ := made hs h1 m ht
  obtain ⟨r', hr'⟩ := made (w := (M.append path more).world) (t := target) hs' h2 m ht
  refine ⟨r, r', hr, hr', fun herr => ?_⟩
  have hf' : (M.append path more).files path = some (data ++ more) := by
    show (if path = path then _ else _) = _
    rw [if_pos rfl, hf]
    rfl
  obtain ⟨reader, ho, hread⟩ := openSource_read hrel hM.blocks (n := base) hf
  obtain ⟨reader', ho', hread'⟩ := openSource_read (M := M.append path more) hrel hM.blocks (n := base) hf'
  obtain ⟨tl, htl⟩ := LJ.Iterator.C133_lines (Spec.json (.loc base (some path))) 6000 hended more
  refine LJ.Report.C133_partial (w := M.world) (o := (M.append path more).world.openSource) hs m h1 h2 hr hr' hlast ?_ ho ho' (more := tl.map Except.ok) ?_ herr
  · intro x hx
    rw [world_open, world_open]
    cases x with
    | loc b p =>
      cases p with
      | none => rfl
      | some p =>
        rw [openSource_eq, openSource_eq]
        have hp : p ≠ path := by
          rintro rfl
          exact hother b hx
        have : (M.append path more).files p = M.files p := if_neg hp
        rw [this]
        rfl
    | _ => rfl
  · show reader' (Spec.json (.loc base (some path))) = reader (Spec.json (.loc base (some path))) ++ _
    have e : (M.append path more).cut = M.cut := rfl
    rw [hread, hread', e, read_short (hM.blocks _ _) (by rw [hM.whole]; exact hshort),
      read_short (hM.blocks _ _) (by rw [hM.whole]; exact short_before hended more hshort), hM.whole, hM.whole, ← htl, List.map_append]

/-- C133 for one file, wherever it is in the target and whatever happens to the others: something is written at the end of a file which ends with a line return, not after a backslash,
and none of its lines is too long.  When it is read without a failure, the contexts reported for it before are still reported, in front of the new ones. -/
theorem C133_trees_file_partial {M : Machine} (hM : Ordinary M) (hrel : M.checks = false) (m : LJ.Report.Model Local Source Str)
    {o1 o2 : List (Str × List Source) → List (Str × List Source)} (h1 : ∀ g, (o1 g).Perm g) (h2 : ∀ g, (o2 g).Perm g) {target : Local} {base : Nat} {path : Str}
    {data more : Bytes} (hf : M.files path = some data) (hended : LJ.Iterator.Spec.Ended data)
    (hshort : ∀ p ∈ LJ.Iterator.Spec.pieces (Spec.json (.loc base (some path))) (data ++ more), p.1.length < 6000) (ht : Spec.CanList M target)
    (hnd : (Spec.sourcesOf M target).Nodup) (hone : ∀ b, .loc b (some path) ∈ Spec.sourcesOf M target → b = base) :
    ∃ r r', report M.world m o1 target = some (.ok r) ∧ report (M.append path more).world m o2 target = some (.ok r') ∧
      ((∀ e, (.loc base (some path), e) ∉ r'.readErrors) →
        Kept (LJ.Report.Spec.contextsIn r (Spec.nameOf (.loc base (some path))) (.loc base (some path)))
          (LJ.Report.Spec.contextsIn r' (Spec.nameOf (.loc base (some path))) (.loc base (some path)))) := by
  have hs : LJ.Report.SearchOk M.world := LJ.Report.searchOk_indexWorld hM.fp
  have made : ∀ {w : LJ.Report.World Local Source Str ℝ Unit Unit} {o t} (_ : LJ.Report.SearchOk w) (_ : ∀ g : List (Str × List Source), (o g).Perm g)
      (m : LJ.Report.Model Local Source Str), LJ.Report.Spec.Usable w.valid (w.list t) → ∃ r, report w m o t = some (.ok r) := by
    intro w o t hs ho m ht
    obtain ⟨res, e, h⟩ := LJ.Report.report_total hs m o ho t
    obtain ⟨r, rfl⟩ := h.2 ht
    exact ⟨r, e⟩
  have hs' : LJ.Report.SearchOk (M.append path more).world := LJ.Report.searchOk_indexWorld hM.fp
  obtain ⟨r, hr⟩ := made hs h1 m ht
  obtain ⟨r', hr'⟩ := made (w := (M.append path more).world) (t := target) hs' h2 m ht
  refine ⟨r, r', hr, hr', fun herr => ?_⟩
  have hf' : (M.append path more).files path = some (data ++ more) := by
    show (if path = path then _ else _) = _
    rw [if_pos rfl, hf]
    rfl
  obtain ⟨reader, ho, hread⟩ := openSource_read hrel hM.blocks (n := base) hf
  obtain ⟨reader', ho', hread'⟩ := openSource_read (M := M.append path more) hrel hM.blocks (n := base) hf'
  obtain ⟨tl, htl⟩ := LJ.Iterator.C133_lines (Spec.json (.loc base (some path))) 6000 hended more
  refine LJ.Report.C133_file_partial (w := M.world) (o := (M.append path more).world.openSource) (s := .loc base (some path)) hs m h1 h2 hr hr' hnd ?_ ho ho'
    (more := tl.map Except.ok) ?_ herr
  · intro x hx hne
    rw [world_open, world_open]
    cases x with
    | loc b p =>
      cases p with
      | none => rfl
      | some p =>
        rw [openSource_eq, openSource_eq]
        have hp : p ≠ path := by
          rintro rfl
          exact hne (by rw [hone b hx])
        have : (M.append path more).files p = M.files p := if_neg hp
        rw [this]
        rfl
    | _ => rfl
  · show reader' (Spec.json (.loc base (some path))) = reader (Spec.json (.loc base (some path))) ++ _
    have e : (M.append path more).cut = M.cut := rfl
    rw [hread, hread', e, read_short (hM.blocks _ _) (by rw [hM.whole]; exact hshort),
      read_short (hM.blocks _ _) (by rw [hM.whole]; exact short_before hended more hshort), hM.whole, hM.whole, ← htl, List.map_append]

/-- a log -/
noncomputable def oneLog : Machine := { toyMachine fun p => if p = "app.log".toList then some (Spec.utf8 "disk vanished\n".toList) else none with checks := false }

/-- The hypotheses are met. -/
example : Ordinary oneLog ∧ oneLog.files "app.log".toList = some (Spec.utf8 "disk vanished\n".toList) ∧ LJ.Iterator.Spec.Ended (Spec.utf8 "disk vanished\n".toList) ∧
    (∀ p ∈ LJ.Iterator.Spec.pieces (Spec.json (.loc 0 (some "app.log".toList))) (Spec.utf8 "disk vanished\n".toList ++ Spec.utf8 "all lost\n".toList), p.1.length < 6000) ∧
    Spec.CanList oneLog (.file "app.log".toList) ∧
    ((Spec.sourcesOf oneLog (.file "app.log".toList)).filter fun s => Spec.nameOf s = Spec.nameOf (.loc 0 (some "app.log".toList))) = [] ++ [.loc 0 (some "app.log".toList)] ∧
    (Spec.sourcesOf oneLog (.file "app.log".toList)).Nodup := by
  refine ⟨⟨(toyMachine_ordinary oneLog.files).fp, (toyMachine_ordinary oneLog.files).blocks, (toyMachine_ordinary oneLog.files).whole⟩, by decide +kernel,
    ⟨Spec.utf8 "disk vanished".toList, by decide +kernel, by decide +kernel⟩, by decide +kernel, ⟨?_, by decide +kernel⟩, by decide +kernel, by decide +kernel⟩
  intro e he
  have : (Except.error e : Except Unit Source) ∈ [Except.ok (Source.loc 0 (some "app.log".toList))] := he
  simp at this

end LJ.Whole

/-
C136: how the lines of a kind of log are spread over the files of a target, for the bytes of files.
-/
import Verif.Whole.Listed
import Verif.Report.Rotated
import Verif.Iterator.Cut
import Verif.Whole.Grown
namespace LJ.Whole
open LJ.Process (Str Bytes Ev)
open LJ.Paths (Source)
open LJ.Report (train report)

/-- the same machine, with other files -/
def Machine.restored (M : Machine) (files : Str → Option Bytes) (walk : Str → List (Except Unit LJ.Paths.Entry)) (cut : Str → Bytes → List Bytes) : Machine :=
  { M with files := files, walk := walk, cut := cut }

namespace Spec

/-- The texts of the lines of a file. -/
def textsOf (M : Machine) (s : Source) : List Str :=
  match contentOf M s with
  | .ok evs => evs.filterMap fun e => match e with | .ok l => decode l.1 | .error _ => none
  | .error _ => []

/-- The tokens of the lines of the files of a name. -/
def tokensOf (M : Machine) (target : Local) (n : Str) : List Str :=
  ((sourcesOf M target).filter fun s => nameOf s = n).flatMap fun s => (textsOf M s).map M.tok

end Spec

theorem reads_map {lines : List LJ.Process.LogLine} {src : List LJ.Process.Spec.Line} (h : LJ.Process.Spec.Reads decode lines src) :
    (lines.map (Except.ok (ε := Unit))).filterMap (fun e => match e with | .ok l => decode l.1 | .error _ => none) = src.map (·.text) := by
  induction h with
  | nil => rfl
  | cons a _ ih =>
    rw [List.map_cons, List.filterMap_cons]
    simp only [a.1]
    rw [ih, List.map_cons]

theorem target_read {M : Machine} (hrel : M.checks = false) (hblocks : ∀ p d, LJ.Iterator.Spec.Blocks (M.cut p d)) {target : Local}
    (hgood : ∀ s ∈ Spec.sourcesOf M target, Spec.Readable M s) :
    ∃ text, LJ.Report.Spec.AllRead M.world text target ∧ ∀ n, LJ.Report.Spec.normals M.world text target n = Spec.tokensOf M target n := by
  have hsrc : ∀ s, ∃ src : List LJ.Process.Spec.Line, s ∈ Spec.sourcesOf M target → (∃ reader lines, M.world.openSource s = .ok reader ∧
      reader (M.world.isJson s) = lines.map Except.ok ∧ LJ.Process.Spec.Reads decode lines src ∧ LJ.Process.Spec.NoMarker src) ∧
      src.map (·.text) = Spec.textsOf M s := by
    intro s
    by_cases hmem : s ∈ Spec.sourcesOf M target
    · obtain ⟨evs, h1, h2⟩ := hgood s hmem
      obtain ⟨lines, src, g1, g2, g3⟩ := reads_texts h2
      refine ⟨src, fun _ => ⟨?_, ?_⟩⟩
      · rw [← content_of hrel hblocks] at h1
        unfold LJ.Report.content at h1
        cases hopen : M.world.openSource s with
        | error e => rw [hopen] at h1; cases h1
        | ok reader =>
          rw [hopen] at h1
          exact ⟨reader, lines, rfl, (Except.ok.inj h1).trans g1, g2, g3⟩
      · unfold Spec.textsOf
        rw [h1, g1]
        exact (reads_map g2).symm
    · exact ⟨[], fun h => absurd h hmem⟩
  choose text htext using hsrc
  refine ⟨text, fun s hs => (htext s hs).1, fun n => ?_⟩
  unfold LJ.Report.Spec.normals Spec.tokensOf
  have : ∀ l : List Source, (∀ s ∈ l, s ∈ Spec.sourcesOf M target) →
      (l.flatMap fun s => (text s).map fun x => M.world.tokenize x.text) = l.flatMap fun s => (Spec.textsOf M s).map M.tok := by
    intro l hl
    induction l with
    | nil => rfl
    | cons s l ih =>
      rw [List.flatMap_cons, List.flatMap_cons, ih fun x hx => hl x (.tail _ hx), ← (htext s (hl s (.head _))).2, List.map_map]
      rfl
  exact this _ fun s hs => (List.mem_filter.1 hs).1

/-- C136, for files and directories, by a release build, with any model.  Two states of the files are compared, and two targets; their files can be read.
When the lines of the files of a name have the same tokens in both, whatever the number, the order and the names of these files, and whatever else
is in the targets, the same is found for this name.  When these lines come in the same order, it is found in the same order.  When the second target
has more lines, what was found still is, and the rest is in the lines which are new. -/
theorem C136_trees {M : Machine} (hrel : M.checks = false) (hfp : M.fp.Standard) (hblocks : ∀ p d, LJ.Iterator.Spec.Blocks (M.cut p d))
    (m : LJ.Report.Model Local Source Str) {files : Str → Option Bytes} {walk : Str → List (Except Unit LJ.Paths.Entry)} {cut : Str → Bytes → List Bytes}
    (hcut : ∀ p d, LJ.Iterator.Spec.Blocks (cut p d)) {o o' : List (Str × List Source) → List (Str × List Source)}
    (ho : ∀ g, (o g).Perm g) (ho' : ∀ g, (o' g).Perm g) {target target' : Local}
    (ht : Spec.CanList M target) (ht' : Spec.CanList (M.restored files walk cut) target')
    (hgood : ∀ s ∈ Spec.sourcesOf M target, Spec.Readable M s)
    (hgood' : ∀ s ∈ Spec.sourcesOf (M.restored files walk cut) target', Spec.Readable (M.restored files walk cut) s) :
    ∃ r r', report M.world m o target = some (.ok r) ∧ report (M.restored files walk cut).world m o' target' = some (.ok r') ∧
      ∀ n, ((∀ t, t ∈ Spec.tokensOf M target n ↔ t ∈ Spec.tokensOf (M.restored files walk cut) target' n) → (Spec.found M r n).Perm (Spec.found M r' n)) ∧
        (Spec.tokensOf M target n = Spec.tokensOf (M.restored files walk cut) target' n → Spec.found M r n = Spec.found M r' n) ∧
        ((∀ t ∈ Spec.tokensOf M target n, t ∈ Spec.tokensOf (M.restored files walk cut) target' n) →
          (∀ x ∈ Spec.found M r n, x ∈ Spec.found M r' n) ∧ ∀ x ∈ Spec.found M r' n, x ∈ Spec.found M r n ∨ x.1 ∉ Spec.tokensOf M target n) := by
  have hs : LJ.Report.SearchOk M.world := LJ.Report.searchOk_indexWorld hfp
  have hs' : LJ.Report.SearchOk (M.restored files walk cut).world := LJ.Report.searchOk_indexWorld hfp
  obtain ⟨res, hr, h⟩ := LJ.Report.report_total hs m o ho target
  obtain ⟨r, rfl⟩ := h.2 ht
  obtain ⟨res, hr', h'⟩ := LJ.Report.report_total hs' m o' ho' target'
  obtain ⟨r', rfl⟩ := h'.2 ht'
  obtain ⟨text, t1, t2⟩ := target_read hrel hblocks hgood
  obtain ⟨text', t1', t2'⟩ := target_read (M := M.restored files walk cut) hrel hcut hgood'
  have ew : (M.restored files walk cut).world =
    LJ.Report.restored M.world (M.restored files walk cut).world.list (M.restored files walk cut).world.openSource := rfl
  refine ⟨r, r', hr, hr', fun n => ⟨fun h => ?_, fun h => ?_, fun h => ?_⟩⟩
  · rw [← t2, ← t2'] at h
    exact LJ.Report.C136_same hs ho ho' hr (ew ▸ hr') t1 (ew ▸ t1') h
  · rw [← t2, ← t2'] at h
    exact LJ.Report.C136_split hs ho ho' hr (ew ▸ hr') t1 (ew ▸ t1') h
  · rw [← t2, ← t2'] at h
    rw [← t2]
    exact LJ.Report.C136_more hs ho ho' hr (ew ▸ hr') t1 (ew ▸ t1') h

/-! ### A log which is cut -/

/-- the texts of a file which is not JSON and has no long line -/
theorem texts_plain {M : Machine} (hblocks : ∀ p d, LJ.Iterator.Spec.Blocks (M.cut p d)) (hwhole : ∀ p d, (M.cut p d).flatten = d) {b : Nat} {path : Str}
    {data : Bytes} (hf : M.files path = some data) (hj : Spec.json (.loc b (some path)) = false)
    (hs : ∀ p ∈ LJ.Iterator.Spec.pieces false data, p.1.length < 6000) :
    Spec.textsOf M (.loc b (some path)) = ((LJ.Iterator.Spec.lines false 6000 data).map Prod.fst).filterMap decode := by
  have e : Spec.contentOf M (.loc b (some path)) = .ok ((LJ.Iterator.Spec.lines false 6000 data).map Except.ok) := by
    unfold Spec.contentOf
    have : Spec.reads M (.loc b (some path)) = some (M.cut path data) := by
      show (M.files path).map (M.cut path) = _
      rw [hf]
      rfl
    rw [this, hj]
    simp only
    rw [read_short (hblocks _ _) (by rw [hwhole]; exact hs), hwhole]
  unfold Spec.textsOf
  rw [e]
  simp only
  rw [List.filterMap_map, List.filterMap_map]
  rfl

/-- C136, a log which is cut: a file which is not JSON, and has no long line, is cut after a line return (not after a backslash) into two files, of the same
name, which are at its place in the listing, while the other files stay.  The lines of the files of this name have the same tokens, in the same
order: hence by `C136_trees` the same is found. -/
theorem C136_trees_cut {M : Machine} (hM : Spec.Ordinary M) {files : Str → Option Bytes} {walk : Str → List (Except Unit LJ.Paths.Entry)}
    {target target' : Local} {n path path1 path2 : Str} {b b1 b2 : Nat} {first second : Bytes} {before after : List Source}
    (hf : M.files path = some (first ++ second)) (hf1 : files path1 = some first) (hf2 : files path2 = some second) (hended : LJ.Iterator.Spec.Ended first)
    (hj : Spec.json (.loc b (some path)) = false) (hj1 : Spec.json (.loc b1 (some path1)) = false) (hj2 : Spec.json (.loc b2 (some path2)) = false)
    (hs : ∀ p ∈ LJ.Iterator.Spec.pieces false (first ++ second), p.1.length < 6000)
    (hs1 : ∀ p ∈ LJ.Iterator.Spec.pieces false first, p.1.length < 6000) (hs2 : ∀ p ∈ LJ.Iterator.Spec.pieces false second, p.1.length < 6000)
    (hl : (Spec.sourcesOf M target).filter (fun s => Spec.nameOf s = n) = before ++ .loc b (some path) :: after)
    (hl' : (Spec.sourcesOf (M.restored files walk M.cut) target').filter (fun s => Spec.nameOf s = n) =
      before ++ .loc b1 (some path1) :: .loc b2 (some path2) :: after)
    (hsame : ∀ s ∈ before ++ after, Spec.reads (M.restored files walk M.cut) s = Spec.reads M s) :
    Spec.tokensOf M target n = Spec.tokensOf (M.restored files walk M.cut) target' n := by
  have hsame' : ∀ s ∈ before ++ after, Spec.textsOf (M.restored files walk M.cut) s = Spec.textsOf M s := by
    intro s hs
    unfold Spec.textsOf Spec.contentOf
    rw [hsame s hs]
  have hflat : ∀ l : List Source, (∀ s ∈ l, s ∈ before ++ after) →
      (l.flatMap fun s => (Spec.textsOf (M.restored files walk M.cut) s).map M.tok) = l.flatMap fun s => (Spec.textsOf M s).map M.tok := by
    intro l hl
    induction l with
    | nil => rfl
    | cons s l ih => rw [List.flatMap_cons, List.flatMap_cons, ih fun x hx => hl x (.tail _ hx), hsame' s (hl s (.head _))]
  unfold Spec.tokensOf
  rw [hl, hl', List.flatMap_append, List.flatMap_append, List.flatMap_cons, List.flatMap_cons, List.flatMap_cons]
  show _ = (before.flatMap fun s => (Spec.textsOf (M.restored files walk M.cut) s).map M.tok) ++
    ((Spec.textsOf (M.restored files walk M.cut) _).map M.tok ++ ((Spec.textsOf (M.restored files walk M.cut) _).map M.tok ++
      (after.flatMap fun s => (Spec.textsOf (M.restored files walk M.cut) s).map M.tok)))
  rw [hflat before (fun s hs => by simp [hs]), hflat after (fun s hs => by simp [hs]), texts_plain hM.blocks hM.whole hf hj hs,
    texts_plain (M := M.restored files walk M.cut) hM.blocks hM.whole hf1 hj1 hs1,
    texts_plain (M := M.restored files walk M.cut) hM.blocks hM.whole hf2 hj2 hs2, LJ.Iterator.C136_cut 6000 hended, List.filterMap_append, List.map_append,
    List.append_assoc]

/-! ### Cases -/

/-- the log of a directory, and the files it was rotated into -/
noncomputable def wholeLog : Machine :=
  { toyMachine fun p => if p = "logs/app1.log".toList then some (Spec.utf8 "disk vanished\nall lost\n".toList ++ Spec.utf8 "time out\n".toList) else none with
    checks := false
    walk := fun _ => [.ok ⟨false, true, .loc 4 (some "logs/app1.log".toList)⟩] }

def rotatedFiles (p : Str) : Option Bytes :=
  if p = "logs/app2.log".toList then some (Spec.utf8 "disk vanished\nall lost\n".toList)
  else if p = "logs/app3.log".toList then some (Spec.utf8 "time out\n".toList) else none

def rotatedWalk (_ : Str) : List (Except Unit LJ.Paths.Entry) :=
  [.ok ⟨false, true, .loc 4 (some "logs/app2.log".toList)⟩, .ok ⟨false, true, .loc 4 (some "logs/app3.log".toList)⟩]

theorem wholeLog_sources (c : Local) (h : c = .directory "logs".toList) : Spec.sourcesOf wholeLog c = [.loc 4 (some "logs/app1.log".toList)] := by
  subst h
  decide +kernel

theorem rotated_sources (c : Local) (h : c = .directory "logs".toList) : Spec.sourcesOf (wholeLog.restored rotatedFiles rotatedWalk wholeLog.cut) c =
    [.loc 4 (some "logs/app2.log".toList), .loc 4 (some "logs/app3.log".toList)] := by
  subst h
  decide +kernel

/-- a file whose lines are checked to be texts -/
theorem readable_of {M : Machine} {s : Source} (h : (match Spec.contentOf M s with
    | .ok evs => evs.all fun e => match e with
      | .ok l => (match decode l.1 with | some t => !LJ.Process.contains "TASK [log-classify".toList t | none => false)
      | .error _ => false
    | .error _ => false) = true) : Spec.Readable M s := by
  unfold Spec.Readable
  cases hc : Spec.contentOf M s with
  | error e => rw [hc] at h; cases h
  | ok evs => rw [hc] at h; exact ⟨evs, rfl, texts_of h⟩

/-- The hypotheses are met: a log which is cut into two files. -/
example : Spec.Ordinary wholeLog ∧ Spec.CanList wholeLog (.directory "logs".toList) ∧
    Spec.CanList (wholeLog.restored rotatedFiles rotatedWalk wholeLog.cut) (.directory "logs".toList) ∧
    (∀ s ∈ Spec.sourcesOf wholeLog (.directory "logs".toList), Spec.Readable wholeLog s) ∧
    (∀ s ∈ Spec.sourcesOf (wholeLog.restored rotatedFiles rotatedWalk wholeLog.cut) (.directory "logs".toList),
      Spec.Readable (wholeLog.restored rotatedFiles rotatedWalk wholeLog.cut) s) ∧
    LJ.Iterator.Spec.Ended (Spec.utf8 "disk vanished\nall lost\n".toList) ∧
    (∀ p ∈ LJ.Iterator.Spec.pieces false (Spec.utf8 "disk vanished\nall lost\n".toList ++ Spec.utf8 "time out\n".toList), p.1.length < 6000) ∧
    Spec.json (.loc 4 (some "logs/app1.log".toList)) = false ∧
    (Spec.sourcesOf wholeLog (.directory "logs".toList)).filter (fun s => Spec.nameOf s = Spec.nameOf (.loc 4 (some "logs/app1.log".toList))) =
      [] ++ .loc 4 (some "logs/app1.log".toList) :: [] ∧
    (Spec.sourcesOf (wholeLog.restored rotatedFiles rotatedWalk wholeLog.cut) (.directory "logs".toList)).filter
      (fun s => Spec.nameOf s = Spec.nameOf (.loc 4 (some "logs/app1.log".toList))) =
      [] ++ .loc 4 (some "logs/app2.log".toList) :: .loc 4 (some "logs/app3.log".toList) :: [] := by
  refine ⟨⟨(toyMachine_ordinary wholeLog.files).fp, (toyMachine_ordinary wholeLog.files).blocks, (toyMachine_ordinary wholeLog.files).whole⟩, ⟨?_, ?_⟩, ⟨?_, ?_⟩,
    ?_, ?_, ⟨Spec.utf8 "disk vanished\nall lost".toList, by decide +kernel, by decide +kernel⟩, by decide +kernel, by decide +kernel,
    by rw [wholeLog_sources _ rfl]; decide +kernel, by rw [rotated_sources _ rfl]; decide +kernel⟩
  · intro e he
    have : (Except.error e : Except Unit Source) ∈ [.ok (.loc 4 (some "logs/app1.log".toList))] := he
    simp at this
  · decide +kernel
  · intro e he
    have : (Except.error e : Except Unit Source) ∈ [.ok (.loc 4 (some "logs/app2.log".toList)), .ok (.loc 4 (some "logs/app3.log".toList))] := he
    simp at this
  · decide +kernel
  · intro s hs
    rw [wholeLog_sources _ rfl] at hs
    cases List.mem_singleton.1 hs
    exact readable_of (by decide +kernel)
  · intro s hs
    rw [rotated_sources _ rfl] at hs
    have : s = .loc 4 (some "logs/app2.log".toList) ∨ s = .loc 4 (some "logs/app3.log".toList) := by
      rcases List.mem_cons.1 hs with h | h
      · exact .inl h
      · exact .inr (List.mem_singleton.1 h)
    rcases this with rfl | rfl
    · exact readable_of (by decide +kernel)
    · exact readable_of (by decide +kernel)

end LJ.Whole

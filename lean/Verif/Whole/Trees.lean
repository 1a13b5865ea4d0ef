/-
C127: exactly what the comparison of files and directories reports, whatever their bytes are and however they are read.
-/
import Verif.Whole.Exact
import Verif.Report.Learned
namespace LJ.Whole
open LJ.Process (Str Bytes Ev)
open LJ.Paths (Source)
open LJ.Report (train report lookupOrSingle)
open Spec (Near)

namespace Spec

/-- The files of a content which are not ignored. -/
def sourcesOf (M : Machine) (c : Local) : List Source := LJ.Report.Spec.validSources (fun s => LJ.Paths.isValid s.asStr) (M.list c)

/-- The content can be listed, without an error, and has a file which is not ignored. -/
def CanList (M : Machine) (c : Local) : Prop := LJ.Report.Spec.Usable (fun s : Source => LJ.Paths.isValid s.asStr) (M.list c)

/-- The name of a file. -/
def nameOf (s : Source) : Str := s.indexName.getD []

/-- A file is JSON. -/
def json (s : Source) : Bool := s.isJson.getD false

/-- The bytes of a file, if it exists, with the reads which return them. -/
def reads (M : Machine) : Source → Option (List Bytes)
  | .loc _ (some path) => (M.files path).map (M.cut path)
  | _ => none

/-- The lines of a file. -/
def contentOf (M : Machine) (s : Source) : Except Unit (List (Ev Unit)) :=
  match reads M s with
  | some bs => .ok (read (json s) bs)
  | none => .error ()

/-- The tokens learned from baselines for a name, if any. -/
def known (M : Machine) (baselines : List Local) (n : Str) : Option (List Str) :=
  (LJ.Report.Spec.baselineFor nameOf (baselines.flatMap (sourcesOf M)) n).map
    (LJ.Report.Spec.learned M.tok decode json fun s js => ((reads M s).map (read js)).getD [])

/-- For each name, the distances to the tokens learned for this name. -/
def Distances (M : Machine) (baselines : List Local) (dist : Str → Option (Str → ℝ)) : Prop :=
  ∀ n, match known M baselines n with
    | none => dist n = none
    | some tokens => ∃ f, dist n = some f ∧ Near M.hash tokens f

/-- A distance which makes an anomaly. -/
noncomputable def over (d : ℝ) : Bool := decide (d > LJ.Process.THRESHOLD)

/-- What a report of files says of a name. -/
noncomputable def said (M : Machine) (files : List Source) (dist : Str → Option (Str → ℝ)) (n : Str) : List (LJ.Report.Spec.Said Source ℝ Unit Unit) :=
  match dist n with
  | some f => LJ.Report.Spec.said M.tok f over decode (contentOf M) [] (files.filter fun s => nameOf s = n)
  | none => []

/-- The report is this one: for each name, the files with their anomalies, contexts and counts, and their errors; the total of the lines; and the files of the
names which have no baseline. -/
structure Describes (M : Machine) (files : List Source) (dist : Str → Option (Str → ℝ)) (r : LJ.Report.Report Local Source Str ℝ Unit Unit) : Prop where
  logs : ∀ n, (r.logReports.filter fun l => l.indexName = n).map (fun l => (l.source, l.anomalies, l.lineCount, l.byteCount)) =
    ((said M files dist n).filter fun x => !x.anomalies.isEmpty).map fun x => (x.source, x.anomalies, x.lines, x.bytes)
  errors : ∀ n, r.readErrors.filter (fun x => nameOf x.1 = n) = (said M files dist n).filterMap fun x => x.error.map fun e => (x.source, e)
  lines : ∀ names : List Str, names.Nodup → (∀ n, n ∈ names ↔ ∃ s ∈ files, nameOf s = n) →
    r.totalLineCount = (names.map fun n => ((said M files dist n).map (·.lines)).sum).sum
  missing : ∀ ss, ss ∈ r.indexErrors ↔ ∃ n, dist n = none ∧ ss ≠ [] ∧ ss = files.filter fun s => nameOf s = n

end Spec

theorem open_reads {M : Machine} (hrel : M.checks = false) (hb : ∀ p d, LJ.Iterator.Spec.Blocks (M.cut p d)) (s : Source) :
    match Spec.reads M s with
    | some bs => ∃ reader, M.world.openSource s = .ok reader ∧ ∀ js, reader js = Spec.read js bs
    | none => M.world.openSource s = .error () := by
  cases s with
  | loc n p =>
    cases p with
    | none => rfl
    | some path =>
      have e : Spec.reads M (.loc n (some path)) = (M.files path).map (M.cut path) := rfl
      rw [e]
      cases hf : M.files path with
      | none =>
        have h := openSource_eq M n path
        rw [hf] at h
        exact h
      | some data => exact openSource_read hrel hb hf
  | _ => rfl

theorem content_of {M : Machine} (hrel : M.checks = false) (hb : ∀ p d, LJ.Iterator.Spec.Blocks (M.cut p d)) :
    LJ.Report.content M.world = Spec.contentOf M := by
  funext s
  have h := open_reads hrel hb s
  unfold LJ.Report.content Spec.contentOf
  cases hr : Spec.reads M s with
  | none => rw [hr] at h; rw [h]
  | some bs =>
    rw [hr] at h
    obtain ⟨reader, h1, h2⟩ := h
    rw [h1]
    simp only [h2]
    rfl

theorem lines_of {M : Machine} (hrel : M.checks = false) (hb : ∀ p d, LJ.Iterator.Spec.Blocks (M.cut p d)) :
    LJ.Report.readLines M.world = fun s js => ((Spec.reads M s).map (Spec.read js)).getD [] := by
  funext s js
  have h := open_reads hrel hb s
  unfold LJ.Report.readLines
  cases hr : Spec.reads M s with
  | none => rw [hr] at h; rw [h]; rfl
  | some bs =>
    rw [hr] at h
    obtain ⟨reader, h1, h2⟩ := h
    rw [h1]
    simp only [h2]
    rfl

theorem over_of (M : Machine) : M.world.over = Spec.over := by
  funext d
  show decide _ = decide _
  rw [decide_eq_decide]

/-- a model trained on contents gives the distances to what is learned for each name -/
theorem trained_distances {M : Machine} (hrel : M.checks = false) (hfp : M.fp.Standard) (hb : ∀ p d, LJ.Iterator.Spec.Blocks (M.cut p d))
    {o : List (Str × List Source) → List (Str × List Source)} (ho : ∀ g, (o g).Perm g) {cs : List Local} {m : LJ.Report.Model Local Source Str}
    (hm : train M.world o cs = .ok m) : ∃ dist, Spec.Distances M cs dist ∧
      ∀ n, match lookupOrSingle m.indexes n with
        | some i => ∃ f, dist n = some f ∧ LJ.Process.Spec.Pointwise (M.world.search i.chunks) f
        | none => dist n = none := by
  have hnear : ∀ i : LJ.Report.Index Source, ∃ f, LJ.Process.Spec.Pointwise (M.world.search i.chunks) f ∧ Near M.hash i.chunks.flatten f :=
    fun i => index_near hfp i.chunks
  choose f h1 h2 using hnear
  refine ⟨fun n => (lookupOrSingle m.indexes n).map f, ?_, ?_⟩
  · intro n
    have := LJ.Report.lookup_baseline ho hm n
    unfold Spec.known
    have e : (cs.flatMap (Spec.sourcesOf M)) = cs.flatMap fun c => LJ.Report.Spec.validSources M.world.valid (M.world.list c) := rfl
    have e' : Spec.nameOf = M.world.nameOf := rfl
    rw [e, e']
    cases hbf : LJ.Report.Spec.baselineFor M.world.nameOf (cs.flatMap fun c => LJ.Report.Spec.validSources M.world.valid (M.world.list c)) n with
    | none =>
      rw [hbf] at this
      simp only at this
      simp only [Option.map_none, this]
    | some ss =>
      rw [hbf] at this
      obtain ⟨i, hi, ht⟩ := this
      simp only [Option.map_some, hi]
      refine ⟨_, rfl, near_congr (fun x => ?_) (h2 i)⟩
      rw [LJ.Report.learned_index ht x, lines_of hrel hb]
      rfl
  · intro n
    cases hl : lookupOrSingle m.indexes n with
    | none => simp only [hl, Option.map_none]
    | some i => exact ⟨f i, by simp only [hl, Option.map_some], h1 i⟩

/-- training on contents -/
theorem train_contents {M : Machine} (hrel : M.checks = false) (hb : ∀ p d, LJ.Iterator.Spec.Blocks (M.cut p d))
    {o : List (Str × List Source) → List (Str × List Source)} (ho : ∀ g, (o g).Perm g) {cs : List Local} (hl : ∀ c ∈ cs, Spec.CanList M c)
    (hf : ∀ c ∈ cs, ∀ s ∈ Spec.sourcesOf M c, Spec.reads M s ≠ none) : ∃ m, train M.world o cs = .ok m := by
  refine (LJ.Report.C75_train (w := M.world) ho cs).1.2 ⟨hl, fun c hc s hs => ?_⟩
  have h := open_reads hrel hb s
  cases hr : Spec.reads M s with
  | none => exact absurd hr (hf c hc s hs)
  | some bs =>
    rw [hr] at h
    obtain ⟨reader, h1, _⟩ := h
    exact ⟨reader, h1⟩

/-- the report made with a model which gives these distances -/
theorem report_describes {M : Machine} (hrel : M.checks = false) (hfp : M.fp.Standard) (hblocks : ∀ p d, LJ.Iterator.Spec.Blocks (M.cut p d))
    {o : List (Str × List Source) → List (Str × List Source)} (h2 : ∀ g, (o g).Perm g) {target : Local} (ht : Spec.CanList M target)
    {m : LJ.Report.Model Local Source Str} {dist : Str → Option (Str → ℝ)}
    (hpt : ∀ n, match lookupOrSingle m.indexes n with
      | some i => ∃ f, dist n = some f ∧ LJ.Process.Spec.Pointwise (M.world.search i.chunks) f
      | none => dist n = none) :
    ∃ r, report M.world m o target = some (.ok r) ∧ Spec.Describes M (Spec.sourcesOf M target) dist r := by
  obtain ⟨r, hr, hrest⟩ := LJ.Report.C127_report (w := M.world) m h2 target (LJ.Report.searchOk_indexWorld hfp) ht
    (dist := dist) (by
      intro n
      have h := hpt n
      cases hl : lookupOrSingle m.indexes n with
      | none => rw [hl] at h; exact h
      | some i => rw [hl] at h; exact h)
  have hsaid : LJ.Report.Spec.saidOf M.world (LJ.Report.Spec.validSources M.world.valid (M.world.list target)) dist = Spec.said M (Spec.sourcesOf M target) dist := by
    funext n
    unfold LJ.Report.Spec.saidOf Spec.said
    rw [content_of hrel hblocks, over_of]
    cases dist n <;> rfl
  rw [hsaid] at hrest
  exact ⟨r, hr, hrest.1, hrest.2.1, hrest.2.2.1, hrest.2.2.2⟩

/-- C127, for files and directories with any names, of any content, JSON or not, read in any way, by a release build: when the baselines and the target can be listed and the
files of the baselines can be opened, the comparison is made.  For each name, the files with their anomalies and contexts, counts and errors are those which
`LJ.Report.Spec.said` gives with the distances to the tokens learned from the baselines of this name. -/
theorem C127_trees {M : Machine} (hrel : M.checks = false) (hfp : M.fp.Standard) (hblocks : ∀ p d, LJ.Iterator.Spec.Blocks (M.cut p d))
    {o1 o2 : List (Str × List Source) → List (Str × List Source)} (h1 : ∀ g, (o1 g).Perm g) (h2 : ∀ g, (o2 g).Perm g) {baselines : List Local} {target : Local}
    (hl : ∀ c ∈ baselines, Spec.CanList M c) (hf : ∀ c ∈ baselines, ∀ s ∈ Spec.sourcesOf M c, Spec.reads M s ≠ none) (ht : Spec.CanList M target) :
    ∃ m r dist, train M.world o1 baselines = .ok m ∧ report M.world m o2 target = some (.ok r) ∧ Spec.Distances M baselines dist ∧
      Spec.Describes M (Spec.sourcesOf M target) dist r := by
  obtain ⟨m, hm⟩ := train_contents hrel hblocks h1 hl hf
  obtain ⟨dist, hd, hpt⟩ := trained_distances hrel hfp hblocks h1 hm
  obtain ⟨r, hr, hrest⟩ := report_describes hrel hfp hblocks h2 ht hpt
  exact ⟨m, r, dist, hm, hr, hd, hrest⟩

/-- a directory with a log which is not UTF-8 after its first line and a JSON file, and another with a log and a file which can't be opened -/
noncomputable def rawTree : Machine :=
  { toyMachine fun p =>
      if p = "old/app.log".toList then some (Spec.utf8 "disk vanished".toList ++ [10, 255, 10, 97])
      else if p = "old/db.json".toList then some [123, 44, 125]
      else if p = "new/app.log".toList then some ([255, 10] ++ Spec.utf8 "disk vanished".toList) else none with
    checks := false
    walk := fun d =>
      if d = "old".toList then [.ok ⟨false, true, .loc 3 (some "old/app.log".toList)⟩, .ok ⟨false, true, .loc 3 (some "old/db.json".toList)⟩]
      else [.ok ⟨false, true, .loc 3 (some "new/app.log".toList)⟩, .ok ⟨false, true, .loc 3 (some "new/gone.log".toList)⟩] }

theorem rawTree_old : Spec.sourcesOf rawTree (.directory "old".toList) = [.loc 3 (some "old/app.log".toList), .loc 3 (some "old/db.json".toList)] := by
  decide +kernel

theorem rawTree_new : Spec.sourcesOf rawTree (.directory "new".toList) = [.loc 3 (some "new/app.log".toList), .loc 3 (some "new/gone.log".toList)] := by
  decide +kernel

theorem rawTree_meets : rawTree.checks = false ∧ rawTree.fp.Standard ∧ (∀ p d, LJ.Iterator.Spec.Blocks (rawTree.cut p d)) ∧
    (∀ c ∈ [Local.directory "old".toList], Spec.CanList rawTree c) ∧
    (∀ c ∈ [Local.directory "old".toList], ∀ s ∈ Spec.sourcesOf rawTree c, Spec.reads rawTree s ≠ none) ∧ Spec.CanList rawTree (.directory "new".toList) := by
  refine ⟨rfl, (toyMachine_ordinary rawTree.files).fp, (toyMachine_ordinary rawTree.files).blocks, ?_, ?_, ?_⟩
  · intro c hc
    rw [List.mem_singleton] at hc
    subst hc
    refine ⟨?_, by decide +kernel⟩
    intro e h
    have : ∀ x ∈ rawTree.list (.directory "old".toList), x.isOk = true := by decide +kernel
    exact absurd (this _ h) (by simp [Except.isOk, Except.toBool])
  · intro c hc
    rw [List.mem_singleton] at hc
    subst hc
    rw [rawTree_old]
    intro s hs
    simp only [List.mem_cons, List.not_mem_nil, or_false] at hs
    rcases hs with rfl | rfl <;> exact nofun
  · refine ⟨?_, by decide +kernel⟩
    intro e h
    have : ∀ x ∈ rawTree.list (.directory "new".toList), x.isOk = true := by decide +kernel
    exact absurd (this _ h) (by simp [Except.isOk, Except.toBool])

/-- What is learned for the names: the line before the one which is not UTF-8, the piece of the JSON, and nothing for another name. -/
example : Spec.known rawTree [.directory "old".toList] (LJ.Paths.indexName "app.log".toList) = some ["disk vanished".toList] ∧
    Spec.known rawTree [.directory "old".toList] (LJ.Paths.indexName "gone.log".toList) = none := by
  decide +kernel

end LJ.Whole

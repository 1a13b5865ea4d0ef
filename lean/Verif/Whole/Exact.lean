/-
C127: exactly what the comparison of two files reports, whatever their bytes are and however they are read.
-/
import Verif.Whole.Toy
import Verif.Report.ExactProps
import Verif.Iterator.ExactProps
namespace LJ.Whole
open LJ.Process (Str Bytes Ev)
open LJ.Paths (Source)
open LJ.Report (train report lookupOrSingle)
open Spec (Near)

namespace Spec

/-- The lines of some data cut in reads: those of the content seen (`LJ.Iterator.Spec.seen`, C125), the data itself when no line is too long. -/
def read (json : Bool) (reads : List Bytes) : List (Ev Unit) :=
  (LJ.Iterator.Spec.lines json 6000 (LJ.Iterator.Spec.seen json [] reads)).map Except.ok

/-- A file is read as JSON when its path ends with .json. -/
def isJson (path : Str) : Bool := decide (".json".toList <:+ path)

/-- The tokens learned from a file: those of its lines before the first one which is not UTF-8. -/
def learned (tok : Str → Str) (path : Str) (reads : List Bytes) : List Str :=
  (LJ.Process.Spec.readable decode (read (isJson path) reads)).map fun y => tok y.2

end Spec

theorem openSource_read {M : Machine} (hrel : M.checks = false) (hb : ∀ p d, LJ.Iterator.Spec.Blocks (M.cut p d)) {n : Nat} {path : Str}
    {data : Bytes} (hf : M.files path = some data) :
    ∃ reader, M.world.openSource (.loc n (some path)) = .ok reader ∧ ∀ json, reader json = Spec.read json (M.cut path data) := by
  refine ⟨_, by rw [world_open, openSource_eq, hf], fun json => ?_⟩
  rw [hrel, LJ.Iterator.C125_exact Unit json _ (hb path data)]
  simp [events, Spec.read]

theorem file_isJson (M : Machine) (path : Str) : M.world.isJson (.loc 0 (some path)) = Spec.isJson path := by
  show (Source.isJson (.loc 0 (some path))).getD false = _
  unfold Source.isJson
  have : Source.getRelative (.loc 0 (some path)) = some path := by
    show LJ.Paths.sliceFrom path 0 = some path
    cases path <;> rfl
  rw [this, Option.map_some, Option.getD_some]
  unfold LJ.Paths.endsWith Spec.isJson
  rw [Bool.eq_iff_iff, List.isSuffixOf_iff_suffix, decide_eq_true_eq]

/-- C127, for two files of any content, read in any way, by a release build: the comparison is made, and the anomalies with their contexts, the error and the number of
lines are those which `LJ.Process.Spec.shown` gives for the lines of the target, with the distances to the tokens learned from the baseline. -/
theorem C127_files {M : Machine} (hrel : M.checks = false) (hfp : M.fp.Standard) (hblocks : ∀ p d, LJ.Iterator.Spec.Blocks (M.cut p d))
    {o1 o2 : List (Str × List Source) → List (Str × List Source)} (h1 : ∀ g, (o1 g).Perm g) (h2 : ∀ g, (o2 g).Perm g) {a b : Str} {da db : Bytes}
    (ha : M.files a = some da) (hb : M.files b = some db) (hva : LJ.Paths.isValid a = true) (hvb : LJ.Paths.isValid b = true) :
    ∃ m r dist, train M.world o1 [.file a] = .ok m ∧ report M.world m o2 (.file b) = some (.ok r) ∧
      Near M.hash (Spec.learned M.tok a (M.cut a da)) dist ∧
      let spec := LJ.Process.Spec.shown M.tok dist (fun d => decide (d > LJ.Process.THRESHOLD)) decode (.start [])
        (Spec.read (Spec.isJson b) (M.cut b db))
      (r.logReports.flatMap (·.anomalies)) = spec.1 ∧
      r.readErrors = (match spec.2.1 with | .failed e => [(.loc 0 (some b), .reading e)] | _ => []) ∧
      r.indexErrors = [] ∧ r.totalLineCount = spec.2.2.read := by
  have hs : LJ.Report.SearchOk M.world := LJ.Report.searchOk_indexWorld hfp
  have hlist : ∀ p, LJ.Paths.isValid p = true → LJ.Report.Spec.validSources M.world.valid (M.world.list (.file p)) = [.loc 0 (some p)] := by
    intro p hp
    show LJ.Report.Spec.validSources (fun s : Source => LJ.Paths.isValid s.asStr) [Except.ok (ε := Unit) (Source.loc 0 (some p))] = _
    have : LJ.Paths.isValid (Source.asStr (.loc 0 (some p))) = true := hp
    simp [LJ.Report.Spec.validSources, this]
  have husable : ∀ p, LJ.Paths.isValid p = true → LJ.Report.Spec.Usable M.world.valid (M.world.list (.file p)) := by
    intro p hp
    refine ⟨?_, by rw [hlist p hp]; simp⟩
    intro e h
    have : (Except.error e : Except Unit Source) ∈ [Except.ok (Source.loc 0 (some p))] := h
    simp at this
  obtain ⟨ra, hra, hra'⟩ := openSource_read hrel hblocks (n := 0) ha
  obtain ⟨rb, hrb, hrb'⟩ := openSource_read hrel hblocks (n := 0) hb
  -- training
  obtain ⟨a1, a2⟩ := LJ.Report.C75_train (w := M.world) h1 [.file a]
  obtain ⟨m, hm⟩ := a1.2 ⟨by simpa using husable a hva, by
    intro c hc s hsm
    rw [List.mem_singleton] at hc
    rw [hc, hlist a hva, List.mem_singleton] at hsm
    exact ⟨ra, by rw [hsm]; exact hra⟩⟩
  obtain ⟨_, hnd, hidx⟩ := a2 m hm
  simp only [List.flatMap_cons, List.flatMap_nil, List.append_nil, hlist a hva] at hidx
  obtain ⟨i, hi⟩ : ∃ i, LJ.Report.trainIndex M.world [.loc 0 (some a)] = .ok i :=
    ⟨_, LJ.Report.trainIndex_ok _ (fun s h => ⟨ra, by rw [List.mem_singleton] at h; rw [h]; exact hra⟩)⟩
  obtain ⟨t1, _, t3⟩ := LJ.Report.C75_tokens _ hi
  have hone : m.indexes = [(M.world.nameOf (.loc 0 (some a)), i)] := by
    have key : ∀ n j, (n, j) ∈ m.indexes ↔ n = M.world.nameOf (.loc 0 (some a)) ∧ j = i := by
      intro n j
      rw [hidx]
      by_cases hn : M.world.nameOf (.loc 0 (some a)) = n
      · simp only [List.filter_cons, hn, decide_true, if_true, List.filter_nil, true_and]
        constructor
        · rintro ⟨_, e2, e3⟩
          rw [e2, hi] at e3
          cases e3; rfl
        · rintro rfl
          exact ⟨by rw [t1]; simp, t1, by rw [t1]; exact hi⟩
      · simp only [List.filter_cons, hn, decide_false, Bool.false_eq_true, if_false, List.filter_nil]
        constructor
        · rintro ⟨e1, e2, _⟩; exact absurd e2 e1
        · rintro ⟨rfl, _⟩; exact absurd rfl hn
    have hnd' : m.indexes.Nodup := List.Nodup.of_map _ hnd
    have hmem := (key _ i).2 ⟨rfl, rfl⟩
    cases hmi : m.indexes with
    | nil => rw [hmi] at hmem; cases hmem
    | cons x xs =>
      have hx := (key x.1 x.2).1 (by rw [hmi]; simp)
      cases xs with
      | nil => rw [← hx.1, ← hx.2]
      | cons y ys =>
        have hy := (key y.1 y.2).1 (by rw [hmi]; simp)
        have : x = y := Prod.ext (hx.1.trans hy.1.symm) (hx.2.trans hy.2.symm)
        rw [hmi, this] at hnd'
        simp at hnd'
  have hlook : ∀ n, lookupOrSingle m.indexes n = some i := by
    intro n
    rw [hone]
    exact LJ.Report.lookup_single _ _ _
  -- the distances
  obtain ⟨dist, hd, hnear⟩ : ∃ dist, LJ.Process.Spec.Pointwise (M.world.search i.chunks) dist ∧ Near M.hash i.chunks.flatten dist :=
    index_near hfp i.chunks
  have htok : ∀ x, x ∈ i.chunks.flatten ↔ x ∈ Spec.learned M.tok a (M.cut a da) := by
    intro x
    rw [t3]
    unfold Spec.learned
    rw [List.mem_map]
    have hj : LJ.Report.groupJson M.world [.loc 0 (some a)] = Spec.isJson a := file_isJson M a
    rw [hj]
    constructor
    · rintro ⟨s, hs, reader, ho, y, hy, rfl⟩
      rw [List.mem_singleton] at hs
      rw [hs, hra] at ho
      cases ho
      rw [hra'] at hy
      exact ⟨y, hy, rfl⟩
    · rintro ⟨y, hy, rfl⟩
      exact ⟨_, by simp, ra, hra, y, by rw [hra']; exact hy, rfl⟩
  -- the report
  obtain ⟨r, hr, r1, r2, r3, r4⟩ := LJ.Report.C127_report (w := M.world) m h2 (.file b) hs (husable b hvb) (dist := fun _ => some dist)
    (by intro n; rw [hlook n]; exact ⟨dist, rfl, hd⟩)
  refine ⟨m, r, dist, hm, hr, near_congr htok hnear, ?_⟩
  rw [hlist b hvb] at r1 r2 r3 r4
  have hother : ∀ n, M.world.nameOf (.loc 0 (some b)) ≠ n → LJ.Report.Spec.saidOf M.world [.loc 0 (some b)] (fun _ => some dist) n = [] := by
    intro n hn
    simp [LJ.Report.Spec.saidOf, hn, LJ.Report.Spec.said]
  intro spec
  have hsaid : LJ.Report.Spec.saidOf M.world [.loc 0 (some b)] (fun _ => some dist) (M.world.nameOf (.loc 0 (some b))) =
      [⟨.loc 0 (some b), spec.1, spec.2.2.read, spec.2.2.bytes, match spec.2.1 with | .failed e => some (.reading e) | _ => none⟩] := by
    simp only [LJ.Report.Spec.saidOf, List.filter_cons, decide_true, if_true, List.filter_nil, LJ.Report.Spec.said, LJ.Report.content, hrb]
    have e1 : M.world.tokenize = M.tok := rfl
    have e2 : M.world.decode = decode := rfl
    have e3 : M.world.over = fun d => decide (d > LJ.Process.THRESHOLD) := by
      funext d
      show decide _ = decide _
      rw [decide_eq_decide]
    rw [hrb', file_isJson, e1, e2, e3]
    have hq : LJ.Process.Spec.shown M.tok dist (fun d => decide (d > LJ.Process.THRESHOLD)) decode (.start [])
        (Spec.read (Spec.isJson b) (M.cut b db)) = spec := rfl
    rw [hq]
    cases spec.2.1 <;> rfl
  clear_value spec
  have hlogs : r.logReports.filter (fun l => decide (l.indexName = M.world.nameOf (.loc 0 (some b)))) = r.logReports := by
    rw [List.filter_eq_self]
    intro l hl
    rw [decide_eq_true_eq]
    by_contra hn
    have := r1 l.indexName
    rw [hother _ (fun e => hn e.symm)] at this
    simp only [List.filter_nil, List.map_nil, List.map_eq_nil_iff] at this
    have hm : l ∈ r.logReports.filter (fun l' => decide (l'.indexName = l.indexName)) := List.mem_filter.2 ⟨hl, by simp⟩
    rw [this] at hm
    cases hm
  have herrs : r.readErrors.filter (fun x => decide (M.world.nameOf x.1 = M.world.nameOf (.loc 0 (some b)))) = r.readErrors := by
    rw [List.filter_eq_self]
    intro l hl
    rw [decide_eq_true_eq]
    by_contra hn
    have := r2 (M.world.nameOf l.1)
    rw [hother _ (fun e => hn e.symm)] at this
    have hm : l ∈ r.readErrors.filter (fun l' => decide (M.world.nameOf l'.1 = M.world.nameOf l.1)) := List.mem_filter.2 ⟨hl, by simp⟩
    rw [this] at hm
    cases hm
  have r1 := r1 (M.world.nameOf (.loc 0 (some b)))
  have r2 := r2 (M.world.nameOf (.loc 0 (some b)))
  rw [hlogs, hsaid] at r1
  rw [herrs, hsaid] at r2
  have r3 := r3 [M.world.nameOf (.loc 0 (some b))] (by simp) (by intro n; simp [eq_comm])
  rw [List.map_cons, hsaid] at r3
  refine ⟨?_, ?_, ?_, ?_⟩
  · have e : (r.logReports.flatMap (·.anomalies)) =
        (r.logReports.map fun l => (l.source, l.anomalies, l.lineCount, l.byteCount)).flatMap fun x => x.2.1 := by
      rw [List.flatMap_map]
    rw [e, r1]
    cases spec.1 <;> simp
  · rw [r2]
    cases spec.2.1 <;> rfl
  · rw [List.eq_nil_iff_forall_not_mem]
    intro ss hss
    obtain ⟨n, hn, _⟩ := (r4 ss).1 hss
    cases hn
  · rw [r3]
    simp

/-- a release build, and two files with bytes which are not UTF-8 and a line without a newline -/
noncomputable def rawDisk : Machine :=
  { toyMachine fun p => if p.take 1 = ['o'] then some [104, 105, 10, 255, 10, 97] else some [255, 10, 104, 105] with checks := false }

example : rawDisk.checks = false ∧ rawDisk.fp.Standard ∧ (∀ p d, LJ.Iterator.Spec.Blocks (rawDisk.cut p d)) ∧
    rawDisk.files "old.log".toList = some [104, 105, 10, 255, 10, 97] ∧ rawDisk.files "new.log".toList = some [255, 10, 104, 105] ∧
    LJ.Paths.isValid "old.log".toList = true ∧ LJ.Paths.isValid "new.log".toList = true :=
  ⟨rfl, (toyMachine_ordinary rawDisk.files).fp, (toyMachine_ordinary rawDisk.files).blocks, rfl, rfl, by decide +kernel, by decide +kernel⟩

end LJ.Whole

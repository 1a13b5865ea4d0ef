/-
The worlds of the two kinds of index, and concrete worlds for the examples and the counterexamples.
-/
import Verif.Report.Props
import Verif.Process.Toy
namespace LJ.Report
open LJ.Process (Str Bytes Ev Env Err AnomalyContext Trainer Stop ChunkIndex toyL)

/-! ### The indexes of the program -/

open Classical in
/-- The contents with the indexes of `Verif/Process/Indexes.lean`: `newIndex hashing` and the chunks
added to it. -/
noncomputable def indexWorld {C S N E ε : Type} (cfg : LJ.Process.Cfg) (hashing : Bool) (list : C → List (Except E S)) (valid : S → Bool)
    (nameOf : S → N) (isJson : S → Bool) (openSource : S → Except E (Bool → List (Ev ε))) : World C S N ℝ E ε where
  list := list
  valid := valid
  nameOf := nameOf
  isJson := isJson
  openSource := openSource
  decode := cfg.decode
  tokenize := LJ.Process.tokens cfg hashing
  search chunks targets :=
    ((chunks.foldlM (ChunkIndex.add cfg) (LJ.Process.newIndex hashing)).bind fun i => i.search cfg targets).getD []
  over d := decide (d > LJ.Process.THRESHOLD)

variable {C S N E ε : Type} {cfg : LJ.Process.Cfg} {hashing : Bool} {list : C → List (Except E S)} {valid : S → Bool}
  {nameOf : S → N} {isJson : S → Bool} {openSource : S → Except E (Bool → List (Ev ε))}

/-- for the two kinds of index: the search handles each target on its own, and the distance of a known
target is at most 0.07 -/
theorem index_world (hfp : cfg.fp.Standard) (chunks : List (List Str)) :
    ∃ dist, LJ.Process.Spec.Pointwise ((indexWorld cfg hashing list valid nameOf isJson openSource).search chunks) dist ∧
      ∀ t ∈ chunks.flatten, dist t ≤ 0.07 := by
  cases hashing with
  | false =>
    refine ⟨fun _ => 0, ?_, fun _ _ => by norm_num⟩
    intro ts
    show ((List.foldlM (ChunkIndex.add cfg) .noop chunks).bind fun i => i.search cfg ts).getD [] = _
    rw [LJ.Process.foldl_noop]
    show List.replicate ts.length (0 : ℝ) = _
    rw [List.map_const']
  | true =>
    have hb := fun ts => LJ.Index.viaChunks_eq (hash := cfg.hash) cfg.fp chunks ts
    have hfold : ∀ ts, ((List.foldlM (ChunkIndex.add cfg) (LJ.Process.newIndex true) chunks).bind fun i => i.search cfg ts) =
        LJ.Index.viaChunks cfg.fp cfg.hash chunks ts := by
      intro ts
      show ((List.foldlM (ChunkIndex.add cfg) (.hashingTrick LJ.Index.HashingIndex.new) chunks).bind fun i => i.search cfg ts) = _
      rw [LJ.Process.foldl_hashing]
      unfold LJ.Index.viaChunks LJ.Index.HashingIndex.build
      cases chunks.foldlM (LJ.Index.HashingIndex.add cfg.fp cfg.hash) LJ.Index.HashingIndex.new <;> rfl
    refine ⟨fun t => LJ.Index.rowDistance cfg.fp (chunks.flatten.map (LJ.Index.rowOf cfg.fp cfg.hash)) (LJ.Index.rowOf cfg.fp cfg.hash t), ?_, ?_⟩
    · intro ts
      show ((List.foldlM (ChunkIndex.add cfg) (LJ.Process.newIndex true) chunks).bind fun i => i.search cfg ts).getD [] = _
      rw [hfold, hb]
      rfl
    · intro t ht
      obtain ⟨ds, e, h⟩ := LJ.Index.C18_rounding (hash := cfg.hash) cfg.fp hfp chunks [t]
      rw [hb] at e
      cases e
      cases h with
      | cons h _ => exact (le_abs_self _).trans (h ht).1

theorem searchOk_indexWorld (hfp : cfg.fp.Standard) : SearchOk (indexWorld cfg hashing list valid nameOf isJson openSource) := by
  intro chunks
  obtain ⟨dist, h, _⟩ := index_world (list := list) (valid := valid) (nameOf := nameOf) (isJson := isJson) (openSource := openSource)
    (hashing := hashing) hfp chunks
  exact ⟨dist, h⟩

theorem knows_indexWorld (hfp : cfg.fp.Standard) : Knows (indexWorld cfg hashing list valid nameOf isJson openSource) := by
  intro chunks dist hd t ht
  obtain ⟨dist', h, hk⟩ := index_world (list := list) (valid := valid) (nameOf := nameOf) (isJson := isJson) (openSource := openSource)
    (hashing := hashing) hfp chunks
  have : dist t = dist' t := by
    have h1 := hd [t]
    have h2 := h [t]
    rw [h1] at h2
    simpa using h2
  apply decide_eq_false
  rw [this]
  have h7 := hk t ht
  unfold LJ.Process.THRESHOLD
  have : (0.07 : ℝ) < 10066330 / 2 ^ 25 := by norm_num
  linarith

/-- C74 with the indexes of the program, for any standard arithmetic. -/
theorem C74_index_partial [DecidableEq N] (hfp : cfg.fp.Standard) {o1 o2 : List (N × List S) → List (N × List S)} (h1 : ∀ g, (o1 g).Perm g)
    (h2 : ∀ g, (o2 g).Perm g) {cs : List C} {target : C} (ht : target ∈ cs) 
    (hj : ∀ s ∈ cs.flatMap (fun c => Spec.validSources valid (list c)),
      ∀ t ∈ cs.flatMap (fun c => Spec.validSources valid (list c)), nameOf s = nameOf t → isJson s = isJson t)
    {m : Model C S N} (hm : train (indexWorld cfg hashing list valid nameOf isJson openSource) o1 cs = .ok m) :
    ∃ r, report (indexWorld cfg hashing list valid nameOf isJson openSource) m o2 target = some (.ok r) ∧ r.logReports = [] ∧
      r.indexErrors = [] ∧ r.totalAnomalyCount = 0 := by
  obtain ⟨r, a1, a2, a3, a4, _⟩ := C74_partial (searchOk_indexWorld hfp) (knows_indexWorld hfp) h1 h2 ht hj hm
  exact ⟨r, a1, a2, a3, a4⟩

/-! ### A concrete world -/

/-- Sources are strings: their name is their first letter, they are valid unless they end with `-`,
the content is in the table.  A known line has distance 0, an other line 1. -/
def small (list : Nat → List (Except Unit String)) (table : List (String × (Bool → List (Ev Unit)))) : World Nat String String Nat Unit Unit where
  list := list
  valid s := s.toList.getLast? != some '-'
  nameOf s := String.ofList (s.toList.take 1)
  isJson s := s.toList.getLast? == some 'j'
  openSource s := match table.lookup s with | some r => .ok r | none => .error ()
  decode := LJ.Process.toy.decode
  tokenize := id
  search chunks ts := ts.map fun t => if t ∈ chunks.flatten then 0 else 1
  over d := d == 1

theorem small_search (list : Nat → List (Except Unit String)) (table : List (String × (Bool → List (Ev Unit)))) : SearchOk (small list table) :=
  fun chunks => ⟨fun t => if t ∈ chunks.flatten then 0 else 1, fun _ => rfl⟩

theorem small_knows (list : Nat → List (Except Unit String)) (table : List (String × (Bool → List (Ev Unit)))) : Knows (small list table) := by
  intro chunks dist hd t ht
  have h := hd [t]
  simp only [small, List.map_cons, List.map_nil, if_pos ht, List.cons.injEq, and_true] at h
  rw [← h]
  rfl

/-- content 0: the baseline `a1 b1 c-`; content 1: the target `a2 b2 a3`; content 2: `z1` -/
def list1 : Nat → List (Except Unit String)
  | 0 => [.ok "a1", .ok "b1", .ok "c-"]
  | 1 => [.ok "a2", .ok "b2", .ok "a3"]
  | 2 => [.ok "a1", .error ()]
  | _ => [.ok "c-"]

def table1 : List (String × (Bool → List (Ev Unit))) :=
  [("a1", fun _ => [.ok (toyL "p" 1)]), ("b1", fun _ => [.ok (toyL "p" 1), .ok (toyL "q" 2)]),
   ("a2", fun _ => [.ok (toyL "p" 1), .ok (toyL "q" 2)]), ("b2", fun _ => [.ok (toyL "p" 1), .ok (toyL "q" 2)]),
   ("a3", fun _ => [.ok (toyL "r" 1), .ok (toyL "q" 2)])]

def world1 : World Nat String String Nat Unit Unit := small list1 table1

/-- the model of the baseline -/
def model1 : Model Nat String String :=
  ⟨[0], [("a", ⟨["a1"], [["p".toList]], 1, 1⟩), ("b", ⟨["b1"], [["p".toList, "q".toList]], 2, 2⟩)]⟩

example : groupSources world1 [0, 1] = .ok [("a", ["a1", "a2", "a3"]), ("b", ["b1", "b2"])] := by decide +kernel
example : groupSources world1 [0, 2, 1] = .error (.failed ()) ∧ groupSources world1 [0, 3] = .error (.empty 3) := by decide +kernel

theorem train1 : train world1 id [0] = .ok model1 := by rfl

/-- the report of the target: the two lines of `a2` and `a3` unknown to the index of `a` -/
theorem report1 : (match report world1 model1 List.reverse 1 with
    | some (.ok r) => (r.logReports.map fun l => (l.source, l.anomalies.map (·.anomaly.line))) == [("a2", ["q".toList]), ("a3", ["r".toList])] &&
      r.indexReports == [("a", ["a1"])] && r.indexErrors.isEmpty && r.readErrors.isEmpty && r.totalAnomalyCount == 2 && r.totalLineCount == 6
    | _ => false) = true := by decide +kernel

/-- C38 does not hold in full: the first source of a group can't be opened, and the second one, which
has an anomaly, appears nowhere in the report. -/
theorem C38_false :
    let w := small (fun _ => [.ok "a1", .ok "a2"]) [("a2", fun _ => [.ok (toyL "x" 1)])]
    report w ⟨[], [("a", ⟨[], [], 0, 0⟩)]⟩ id 0 = some (.ok ⟨0, [], [], [], [], [("a1", .opening ())], 0, 0⟩) ∧
    (match report (small (fun _ => [.ok "a2"]) [("a2", fun _ => [.ok (toyL "x" 1)])]) ⟨[], [("a", ⟨[], [], 0, 0⟩)]⟩ id 0 with
      | some (.ok r) => r.totalAnomalyCount == 1
      | _ => false) = true := by
  constructor
  · rfl
  · decide +kernel

/-- C74 does not hold in full: when a JSON source is in the same group as a source which is not, the
training reads both as the first one, and the report of the content against itself finds an anomaly. -/
theorem C74_false :
    let w := small (fun _ => [.ok "a", .ok "a.j"])
      [("a", fun _ => []), ("a.j", fun json => if json then [.ok (toyL "p" 1), .ok (toyL "q" 1)] else [.ok (toyL "p, q" 1)])]
    (match train w id [0] with
      | .ok m => (match report w m id 0 with | some (.ok r) => r.totalAnomalyCount == 2 | _ => false)
      | .error _ => false) = true := by decide +kernel

/-- C74 on the content 0 -/
example : ∃ r, report world1 model1 id 0 = some (.ok r) ∧ r.logReports = [] ∧ r.indexErrors = [] ∧ r.totalAnomalyCount = 0 ∧
    ∀ s e, (s, e) ∈ r.readErrors → ∃ err, e = .reading err :=
  C74_partial (small_search _ _) (small_knows _ _) (fun g => List.Perm.refl g) (fun g => List.Perm.refl g) (cs := [0]) (by simp)
    (by decide +kernel) train1

/-- C38 on the source `a3` of the target, with `a2` before it -/
example : (Spec.validSources world1.valid (world1.list 1)).filter (fun t => world1.nameOf t = world1.nameOf "a3") = ["a2"] ++ "a3" :: [] := by
  decide +kernel

end LJ.Report

/-
Lemmas: the report in memory has what the report of the model has.
-/
import Verif.Render.Model
import Verif.Render.PathProps
namespace LJ.Render
open LJ.Process (Str)
open LJ.Codec (Texts Source Content Duration bytesString)
open LJ.Output (Labels Node f32Scale document)
open LJ.Python (f32Value bitsOf)
open LJ.Index (IsF32)

variable {t : Texts} {E ε : Type}

/-! ### Lists of results -/

theorem mapM_iff {α β : Type} {f : α → Option β} {xs : List α} {ys : List β} : xs.mapM f = some ys ↔ List.Forall₂ (fun x y => f x = some y) xs ys := by
  induction xs generalizing ys with
  | nil =>
    constructor
    · intro h; simp at h; subst h; exact .nil
    · intro h; cases h; simp
  | cons x xs ih =>
    rw [List.mapM_cons]
    constructor
    · intro h
      cases hx : f x with
      | none => rw [hx] at h; cases h
      | some y =>
        rw [hx] at h
        cases hs : xs.mapM f with
        | none => rw [hs] at h; cases h
        | some zs =>
          rw [hs] at h
          cases h
          exact .cons hx (ih.1 hs)
    · intro h
      cases h with
      | cons h1 h2 => rw [h1, ih.2 h2]; rfl

theorem mapM_back {α β γ : Type} {f : α → Option β} {g : β → Option γ} {h : α → γ} (hg : ∀ x y, f x = some y → g y = some (h x)) {xs : List α} {ys : List β}
    (e : xs.mapM f = some ys) : ys.mapM g = some (xs.map h) := by
  rw [mapM_iff] at e ⊢
  induction e with
  | nil => exact .nil
  | cons h1 _ ih => exact .cons (hg _ _ h1) ih

theorem mapM_total {α β : Type} {f : α → Option β} {xs : List α} (h : ∀ x ∈ xs, ∃ y, f x = some y) : ∃ ys, xs.mapM f = some ys := by
  induction xs with
  | nil => exact ⟨[], by simp⟩
  | cons x xs ih =>
    obtain ⟨y, hy⟩ := h x (by simp)
    obtain ⟨ys, hys⟩ := ih fun z hz => h z (List.mem_cons_of_mem _ hz)
    exact ⟨y :: ys, by rw [List.mapM_cons, hy, hys]; rfl⟩

/-! ### Numbers -/

theorem u64_iff {n : Nat} {x : UInt64} : u64? n = some x ↔ n < 2 ^ 64 ∧ x = UInt64.ofNat n := by
  unfold u64?
  split
  · rename_i h; exact ⟨fun e => ⟨h, (Option.some.inj e).symm⟩, fun e => congrArg some e.2.symm⟩
  · rename_i h; exact ⟨(fun e => nomatch e), fun e => absurd e.1 h⟩

theorem u64_back {n : Nat} {x : UInt64} (h : u64? n = some x) : x.toNat = n := by
  obtain ⟨h1, rfl⟩ := u64_iff.1 h
  exact UInt64.toNat_ofNat_of_lt' h1

theorem u64_total {n : Nat} (h : n < 2 ^ 64) : ∃ x, u64? n = some x := ⟨_, u64_iff.2 ⟨h, rfl⟩⟩

theorem f32_back {x : ℝ} {b : UInt32} (h : f32? x = some b) : f32Value b = some x := by
  unfold f32? at h
  split at h
  · rename_i hx; cases h; exact LJ.Python.value_bits hx
  · cases h

theorem f32_total {x : ℝ} (h : IsF32 x) : ∃ b, f32? x = some b := ⟨bitsOf x, by unfold f32?; rw [if_pos h]⟩

/-! ### Reports -/

theorem strings_back (xs : List Str) : (xs.map String.ofList).map String.toList = xs := by
  rw [List.map_map]
  conv => rhs; rw [← List.map_id xs]
  apply List.map_congr_left
  intro s _
  exact String.toList_ofList

theorem anomaly_back (a : LJ.Process.AnomalyContext ℝ) (b : LJ.Codec.AnomalyContext) (h : keepAnomaly a = some b) : anomalyOf b = some a := by
  unfold keepAnomaly at h
  split at h
  · rename_i d p h1 h2
    cases h
    simp only [anomalyOf, f32_back h1, Option.map_some, strings_back, u64_back h2, String.toList_ofList]
  · cases h

theorem log_back {cl : Clocks t} (l : LJ.Report.LogReport (Source t) String ℝ) (k : LJ.Codec.LogReport t) (h : keepLog cl l = some k) : logReportOf k = some l := by
  unfold keepLog at h
  split at h
  · rename_i as n b h1 h2 h3
    cases h
    have := mapM_back (g := anomalyOf) (h := id) (fun x y => anomaly_back x y) h1
    simp only [logReportOf, this, Option.map_some, u64_back h2, u64_back h3, List.map_id]
  · cases h

theorem insertPair_new {κ ν : Type} [DecidableEq κ] {m : List (κ × ν)} {p : κ × ν} (h : p.1 ∉ m.map Prod.fst) : LJ.Codec.insertPair m p = m ++ [p] := by
  unfold LJ.Codec.insertPair
  rw [if_neg h]

theorem ofPairs_pairs {κ ν : Type} [DecidableEq κ] {ps : List (κ × ν)} (h : (ps.map Prod.fst).Nodup) : (LJ.Codec.Map.ofPairs ps).pairs = ps := by
  have key : ∀ (ps : List (κ × ν)) (m : LJ.Codec.Map κ ν), ((m.pairs ++ ps).map Prod.fst).Nodup →
      (ps.foldl (fun m p => (⟨LJ.Codec.insertPair m.pairs p, LJ.Codec.insertPair_nodup m.nodup p⟩ : LJ.Codec.Map κ ν)) m).pairs = m.pairs ++ ps := by
    intro ps
    induction ps with
    | nil => intro m _; simp
    | cons p ps ih =>
      intro m hm
      have hp : p.1 ∉ m.pairs.map Prod.fst := by
        rw [List.map_append, List.map_cons, List.nodup_append] at hm
        intro hmem
        exact hm.2.2 _ hmem _ (by simp) rfl
      rw [List.foldl_cons, ih]
      · show LJ.Codec.insertPair m.pairs p ++ ps = _
        rw [insertPair_new hp]
        simp
      · show ((LJ.Codec.insertPair m.pairs p ++ ps).map Prod.fst).Nodup
        rw [insertPair_new hp]
        simpa using hm
  exact (key ps ⟨[], by simp⟩ (by simpa using h)).trans (by simp)

/-- A report without the errors of the files. -/
def pageReport {C S N D : Type} (r : LJ.Report.Report C S N D E ε) : LJ.Report.Report C S N D Empty Empty :=
  ⟨r.target, r.baselines, r.logReports, r.indexReports, r.indexErrors, [], r.totalLineCount, r.totalAnomalyCount⟩

theorem report_back {cl : Clocks t} {text : LJ.Report.ReadErr E ε → String} {r : LJ.Saved.Rep t E ε} {x : LJ.Codec.Report t}
    (hn : (r.indexReports.map Prod.fst).Nodup) (h : keepReport cl text r = some x) : reportOf x = some (pageReport r) := by
  unfold keepReport at h
  split at h
  · rename_i ls n a h1 h2 h3
    cases h
    have hl := mapM_back (g := logReportOf) (h := id) (fun x y => log_back x y) h1
    have hp : (LJ.Codec.Map.ofPairs (r.indexReports.map fun p => (p.1, (⟨cl.train p.1, p.2⟩ : LJ.Codec.IndexReport t)))).pairs =
        r.indexReports.map fun p => (p.1, ⟨cl.train p.1, p.2⟩) := by
      apply ofPairs_pairs
      rw [List.map_map]
      exact hn
    simp only [reportOf, hl, Option.map_some, u64_back h2, u64_back h3, List.map_id, hp, List.map_map, pageReport]
    congr
    conv => rhs; rw [← List.map_id r.indexReports]
    rfl
  · cases h

/-- The page does not show the errors of the files. -/
theorem document_pageReport {C S N D : Type} [DecidableEq N] (checks : Bool) (sc : LJ.Output.Scale D) (css version : Str) (lb : Labels C S N)
    (r : LJ.Report.Report C S N D E ε) : document checks sc css version lb (pageReport r) = document checks sc css version lb r := rfl

theorem keep_total {cl : Clocks t} {text : LJ.Report.ReadErr E ε → String} {r : LJ.Saved.Rep t E ε}
    (hd : ∀ l ∈ r.logReports, ∀ a ∈ l.anomalies, IsF32 a.anomaly.distance)
    (hl : ∀ l ∈ r.logReports, l.lineCount < 2 ^ 64 ∧ l.byteCount < 2 ^ 64 ∧ ∀ a ∈ l.anomalies, a.anomaly.pos < 2 ^ 64)
    (h1 : r.totalLineCount < 2 ^ 64) (h2 : r.totalAnomalyCount < 2 ^ 64) : ∃ x, keepReport cl text r = some x := by
  obtain ⟨n, hn⟩ := u64_total h1
  obtain ⟨a, ha⟩ := u64_total h2
  obtain ⟨ls, hls⟩ : ∃ ls, r.logReports.mapM (keepLog cl) = some ls := by
    apply mapM_total
    intro l hm
    obtain ⟨c1, c2, c3⟩ := hl l hm
    obtain ⟨n, hn⟩ := u64_total c1
    obtain ⟨b, hb⟩ := u64_total c2
    obtain ⟨as, has⟩ : ∃ as, l.anomalies.mapM keepAnomaly = some as := by
      apply mapM_total
      intro a ha
      obtain ⟨d, hd⟩ := f32_total (hd l hm a ha)
      obtain ⟨p, hp⟩ := u64_total (c3 a ha)
      exact ⟨_, by unfold keepAnomaly; rw [hd, hp]⟩
    exact ⟨_, by unfold keepLog; rw [has, hn, hb]⟩
  exact ⟨_, by unfold keepReport; rw [hls, hn, ha]⟩

end LJ.Render

/-
What training leaves in memory searches as the trained index does.
-/
import Verif.Saved.Model
import Verif.Python.Props
namespace LJ.Saved
open LJ.Process (Str Bytes Ev Env Err AnomalyContext Cfg)
open LJ.Report (World Report LogReport groupSources lookupOrSingle recordErr)
open LJ.Codec (Texts Source Content Duration Matrix)
open LJ.Python (toMatrix matOf rawOf)
open LJ.Index (Mat SIZE rowOf)

variable {t : Texts} {E ε : Type} {cfg : Cfg} {hashing : Bool}

/-- the rows of a chunk -/
noncomputable def rows (cfg : Cfg) (chunk : List Str) : Mat := chunk.map (rowOf cfg.fp cfg.hash)

theorem add_eq (i : LJ.Index.HashingIndex) (c : List Str) : i.add cfg.fp cfg.hash c = some (i ++ [rows cfg c]) := by
  unfold LJ.Index.HashingIndex.add
  rw [LJ.Python.indexMat_rows]
  rfl

theorem build_eq (i : LJ.Index.HashingIndex) (chunks : List (List Str)) :
    chunks.foldlM (LJ.Index.HashingIndex.add cfg.fp cfg.hash) i = some (i ++ chunks.map (rows cfg)) := by
  induction chunks generalizing i with
  | nil => simp
  | cons c chunks ih =>
    rw [List.foldlM_cons, add_eq]
    show List.foldlM _ (i ++ [rows cfg c]) chunks = _
    rw [ih]
    simp

theorem fold_true (chunks : List (List Str)) :
    chunks.foldlM (LJ.Process.ChunkIndex.add cfg) (LJ.Process.newIndex true) = some (.hashingTrick (chunks.map (rows cfg))) := by
  show chunks.foldlM (LJ.Process.ChunkIndex.add cfg) (.hashingTrick LJ.Index.HashingIndex.new) = _
  rw [LJ.Process.foldl_hashing, build_eq]
  rfl

theorem fold_false (chunks : List (List Str)) : chunks.foldlM (LJ.Process.ChunkIndex.add cfg) (LJ.Process.newIndex false) = some .noop :=
  LJ.Process.foldl_noop cfg chunks

/-- a matrix of rows in memory -/
theorem toMatrix_rows (hf : cfg.fp.IsF32) {c : List Str} {m : Matrix} (h : toMatrix (rows cfg c) = some m) :
    matOf m = some (rows cfg c) ∧ m.val.cols.toNat = SIZE ∧ ∀ n ∈ m.sizes, n < 2 ^ 64 := by
  unfold toMatrix at h
  split at h
  · rename_i hv
    cases h
    obtain ⟨hv, h60, h60'⟩ := hv
    refine ⟨LJ.Python.matOf_rawOf (LJ.Python.rows_proper _ _ _) (LJ.Python.fits_of_valid hv) (LJ.Python.rows_f32 hf _ _) hv,
      LJ.Python.toNat_small (by decide), ?_⟩
    intro n hn
    simp only [LJ.Codec.Matrix.sizes, List.mem_cons, List.not_mem_nil, or_false] at hn
    rcases hn with rfl | rfl | rfl
    · omega
    · omega
    · unfold rawOf at h60' ⊢
      simp only [List.length_map] at h60' ⊢
      omega
  · cases h

theorem matrices (hf : cfg.fp.IsF32) {chunks : List (List Str)} {ms : List Matrix} (h : (chunks.map (rows cfg)).mapM toMatrix = some ms) :
    ms.mapM matOf = some (chunks.map (rows cfg)) ∧ ∀ m ∈ ms, m.val.cols.toNat = SIZE ∧ ∀ n ∈ m.sizes, n < 2 ^ 64 := by
  induction chunks generalizing ms with
  | nil => cases h; exact ⟨rfl, by simp⟩
  | cons c chunks ih =>
    rw [List.map_cons, List.mapM_cons] at h
    cases h1 : toMatrix (rows cfg c) with
    | none => rw [h1] at h; cases h
    | some m =>
      cases h2 : (chunks.map (rows cfg)).mapM toMatrix with
      | none => rw [h1, h2] at h; cases h
      | some l =>
        rw [h1, h2] at h
        cases h
        obtain ⟨a1, a2⟩ := ih h2
        obtain ⟨b1, b2, b3⟩ := toMatrix_rows hf h1
        constructor
        · rw [List.mapM_cons, b1, a1]; rfl
        · intro x hx
          rcases List.mem_cons.1 hx with rfl | hx
          · exact ⟨b2, b3⟩
          · exact a2 x hx

/-- The index in memory is used as the chunks added to it. -/
theorem keepIndex_env (hf : cfg.fp.IsF32) (o : Sources t E ε) {chunks : List (List Str)} {i : LJ.Codec.ChunkIndex} (h : keepIndex cfg hashing chunks = some i) :
    envOf cfg i = some (LJ.Report.envOf (o.world cfg hashing) chunks) := by
  cases hashing with
  | false =>
    unfold keepIndex at h
    rw [fold_false] at h
    cases h
    unfold envOf search LJ.Report.envOf Sources.world LJ.Report.indexWorld
    rw [Option.map_some]
    congr 2
    funext ts
    simp only [fold_false]
    rfl
  | true =>
    unfold keepIndex at h
    rw [fold_true] at h
    simp only at h
    cases hm : (chunks.map (rows cfg)).mapM toMatrix with
    | none => rw [hm] at h; cases h
    | some ms =>
      rw [hm] at h
      cases h
      obtain ⟨a1, a2⟩ := matrices hf hm
      unfold envOf search LJ.Report.envOf Sources.world LJ.Report.indexWorld
      simp only
      rw [if_pos (by rw [List.all_eq_true]; intro m hm; simpa using (a2 m hm).1), a1, Option.map_some, Option.map_some]
      congr 2
      funext ts
      simp only [fold_true]
      rfl

/-- The sizes of the matrices are such that they can be saved. -/
theorem keepIndex_sizes (hf : cfg.fp.IsF32) {chunks : List (List Str)} {i : LJ.Codec.ChunkIndex} (h : keepIndex cfg hashing chunks = some i)
    (hc : chunks.length < 2 ^ 64) : ∀ n ∈ i.sizes, n < 2 ^ 64 := by
  cases hashing with
  | false =>
    unfold keepIndex at h
    rw [fold_false] at h
    cases h
    intro n hn
    cases hn
  | true =>
    unfold keepIndex at h
    rw [fold_true] at h
    simp only at h
    cases hm : (chunks.map (rows cfg)).mapM toMatrix with
    | none => rw [hm] at h; cases h
    | some ms =>
      rw [hm] at h
      cases h
      obtain ⟨a1, a2⟩ := matrices hf hm
      have hl : ms.length = chunks.length := by
        have := congrArg (Option.map List.length) a1
        have h2 : ∀ (l : List Matrix) (r : List Mat), l.mapM matOf = some r → l.length = r.length := by
          intro l
          induction l with
          | nil => intro r h; cases h; rfl
          | cons x l ih =>
            intro r h
            rw [List.mapM_cons] at h
            cases h1 : matOf x with
            | none => rw [h1] at h; cases h
            | some y =>
              cases h2 : l.mapM matOf with
              | none => rw [h1, h2] at h; cases h
              | some z =>
                rw [h1, h2] at h
                cases h
                simp [ih z h2]
        have := h2 _ _ a1
        simpa using this
      intro n hn
      simp only [LJ.Codec.ChunkIndex.sizes] at hn
      rcases List.mem_cons.1 hn with rfl | hn
      · omega
      · obtain ⟨m, hm, hn⟩ := List.mem_flatMap.1 hn
        exact (a2 m hm).2 n hn

end LJ.Saved

/-
The searches as a minimum over the baseline rows, for every arithmetic.
-/
import Verif.Index.Lemmas
namespace LJ.Index
variable (fp : FP) (hash : Str → Nat)

theorem mapM_vectorize (ls : List Str) : ls.mapM (vectorize hash) = some (ls.map (vecOf hash)) := by
  induction ls with
  | nil => rfl
  | cons l ls ih => simp [List.mapM_cons, vectorize_eq, ih]

theorem indexMat_eq (ls : List Str) : indexMat fp hash ls = some (ls.map (rowOf fp hash)) := by
  unfold indexMat
  rw [mapM_vectorize]
  simp only [createMat, List.map_map, Option.pure_def, Option.bind_eq_bind, Option.bind_some]
  rfl

/-- a cell of the product is stored -/
def stored (b t : Row) : Bool := b.any (fun e => (t.lookup e.1).isSome)

/-- the effect of one row of the baseline on the distance of one target -/
noncomputable def rowStep (t : Row) (acc : ℝ) (b : Row) : ℝ :=
  if stored b t then min (fp.fl (1 - dot fp b t)) acc else acc

/-- the distance of a target row to the baseline rows -/
noncomputable def rowDistance (bs : List Row) (t : Row) : ℝ := bs.foldl (rowStep fp t) 1

theorem modify_append (pre : List ℝ) (x : ℝ) (r : List ℝ) (f : ℝ → ℝ) :
    (pre ++ x :: r).modify pre.length f = pre ++ f x :: r := by
  induction pre with
  | nil => rfl
  | cons y pre ih => simp only [List.cons_append, List.length_cons, List.modify_succ_cons, ih]

theorem update_row (b : Row) (row : Nat) (ts : Mat) (pre r : List ℝ) (h : r.length = ts.length) :
    update fp (pre ++ r) ((ts.zipIdx pre.length).filterMap fun (t, col) =>
      if b.any (fun e => (t.lookup e.1).isSome) then some (dot fp b t, row, col) else none) =
    pre ++ List.zipWith (fun old t => rowStep fp t old b) r ts := by
  induction ts generalizing pre r with
  | nil =>
    cases r with
    | nil => simp [update]
    | cons x r => simp at h
  | cons t ts ih =>
    cases r with
    | nil => simp at h
    | cons x r =>
      have ih' := ih (pre ++ [rowStep fp t x b]) r (by simpa using h)
      rw [List.zipIdx_cons]
      simp only [List.length_append, List.length_cons, List.length_nil, zero_add] at ih'
      rw [List.zipWith_cons_cons]
      have hs : (b.any (fun e => (t.lookup e.1).isSome)) = stored b t := rfl
      cases hst : stored b t with
      | false =>
        rw [List.filterMap_cons_none (by simp [hs, hst])]
        have e : rowStep fp t x b = x := by simp [rowStep, hst]
        rw [e] at ih' ⊢
        simpa using ih'
      | true =>
        rw [List.filterMap_cons_some (b := (dot fp b t, row, pre.length)) (by simp [hs, hst])]
        have e : rowStep fp t x b = min (fp.fl (1 - dot fp b t)) x := by simp [rowStep, hst]
        rw [e] at ih' ⊢
        unfold update at ih' ⊢
        rw [List.foldl_cons]
        simp only
        rw [modify_append]
        simpa using ih'

theorem update_append (r : List ℝ) (a b : List (ℝ × Nat × Nat)) : update fp r (a ++ b) = update fp (update fp r a) b :=
  List.foldl_append

theorem zipWith_length {α : Type} (f : ℝ → α → ℝ) (r : List ℝ) (ts : List α) (h : r.length = ts.length) :
    (List.zipWith f r ts).length = ts.length := by simp [h]

theorem zipWith_zipWith {α : Type} (f g : ℝ → α → ℝ) (r : List ℝ) (ts : List α) :
    List.zipWith g (List.zipWith f r ts) ts = List.zipWith (fun x t => g (f x t) t) r ts := by
  induction ts generalizing r with
  | nil => simp
  | cons t ts ih => cases r with
    | nil => rfl
    | cons x r => simp [ih]

theorem update_product_from (bs ts : Mat) (n : Nat) (r : List ℝ) (h : r.length = ts.length) :
    update fp r ((bs.zipIdx n).flatMap fun (b, row) => ts.zipIdx.filterMap fun (t, col) =>
      if b.any (fun e => (t.lookup e.1).isSome) then some (dot fp b t, row, col) else none) =
    List.zipWith (fun old t => bs.foldl (rowStep fp t) old) r ts := by
  induction bs generalizing n r with
  | nil =>
    simp only [List.zipIdx_nil, List.flatMap_nil, List.foldl_nil]
    have : ∀ (r : List ℝ) (ts : Mat), r.length = ts.length → List.zipWith (fun old (_ : Row) => old) r ts = r := by
      intro r
      induction r with
      | nil => simp
      | cons x r ih => intro ts h; cases ts with
        | nil => simp at h
        | cons t ts => simp [ih ts (by simpa using h)]
    rw [this r ts h]; rfl
  | cons b bs ih =>
    rw [List.zipIdx_cons, List.flatMap_cons, update_append]
    have := update_row fp b n ts [] r h
    simp only [List.nil_append, List.length_nil] at this
    simp only
    rw [this, ih (n + 1) _ (zipWith_length _ r ts h), zipWith_zipWith]
    rfl

theorem update_product (bs ts : Mat) (r : List ℝ) (h : r.length = ts.length) :
    update fp r (product fp bs ts) = List.zipWith (fun old t => bs.foldl (rowStep fp t) old) r ts :=
  update_product_from fp bs ts 0 r h

theorem zipWith_replicate {α : Type} (f : ℝ → α → ℝ) (x : ℝ) (ts : List α) :
    List.zipWith f (List.replicate ts.length x) ts = ts.map (f x) := by
  induction ts with
  | nil => rfl
  | cons t ts ih => simp [List.replicate_succ, ih]

theorem cosineDistance_eq (bs ts : Mat) : cosineDistance fp bs ts = ts.map (rowDistance fp bs) := by
  unfold cosineDistance
  rw [update_product fp bs ts _ (by simp), zipWith_replicate]
  rfl

theorem chunks_fold (cs : List Mat) (ts : Mat) (r : List ℝ) (h : r.length = ts.length) :
    cs.foldl (fun r b => update fp r (product fp b ts)) r =
      List.zipWith (fun old t => cs.flatten.foldl (rowStep fp t) old) r ts := by
  induction cs generalizing r with
  | nil =>
    have := update_product fp [] ts r h
    simpa [product, update] using this
  | cons c cs ih =>
    rw [List.foldl_cons, update_product fp c ts r h, ih _ (zipWith_length _ r ts h), zipWith_zipWith]
    simp only [List.flatten_cons, List.foldl_append]

theorem cosineDistanceChunk_eq (cs : List Mat) (ts : Mat) :
    cosineDistanceChunk fp cs ts = ts.map (rowDistance fp cs.flatten) := by
  unfold cosineDistanceChunk
  rw [chunks_fold fp cs ts _ (by simp), zipWith_replicate]
  rfl

theorem rowDistance_least (bs : List Row) (t : Row) :
    IsLeast ({1} ∪ {x | ∃ b ∈ bs, stored b t = true ∧ x = fp.fl (1 - dot fp b t)}) (rowDistance fp bs t) := by
  have key : ∀ (bs : List Row) (S : Set ℝ) (acc : ℝ), IsLeast S acc →
      IsLeast (S ∪ {x | ∃ b ∈ bs, stored b t = true ∧ x = fp.fl (1 - dot fp b t)}) (bs.foldl (rowStep fp t) acc) := by
    intro bs
    induction bs with
    | nil => intro S acc h; simpa using h
    | cons b bs ih =>
      intro S acc h
      rw [List.foldl_cons]
      cases hs : stored b t with
      | false =>
        have e : rowStep fp t acc b = acc := by simp [rowStep, hs]
        rw [e]
        have := ih S acc h
        convert this using 2
        ext x
        constructor
        · rintro ⟨c, hc, h1, h2⟩
          rcases List.mem_cons.1 hc with rfl | hc
          · rw [hs] at h1; cases h1
          · exact ⟨c, hc, h1, h2⟩
        · rintro ⟨c, hc, h'⟩; exact ⟨c, List.mem_cons_of_mem _ hc, h'⟩
      | true =>
        have e : rowStep fp t acc b = min (fp.fl (1 - dot fp b t)) acc := by simp [rowStep, hs]
        rw [e]
        have h' : IsLeast (S ∪ {fp.fl (1 - dot fp b t)}) (min (fp.fl (1 - dot fp b t)) acc) := by
          rw [min_comm]; exact h.union isLeast_singleton
        have := ih _ _ h'
        convert this using 1
        ext x
        simp only [Set.mem_union, Set.mem_ofPred_eq, List.mem_cons, Set.mem_singleton_iff]
        constructor
        · rintro (h | ⟨c, rfl | hc, h1, h2⟩)
          · exact .inl (.inl h)
          · exact .inl (.inr h2)
          · exact .inr ⟨c, hc, h1, h2⟩
        · rintro ((h | h) | ⟨c, hc, h1⟩)
          · exact .inl h
          · exact .inr ⟨b, .inl rfl, hs, h⟩
          · exact .inr ⟨c, .inr hc, h1⟩
  exact key bs {1} 1 isLeast_singleton

theorem searchMat_eq (bs ts : List Str) :
    searchMat fp hash (bs.map (rowOf fp hash)) ts =
      some (ts.map fun t => rowDistance fp (bs.map (rowOf fp hash)) (rowOf fp hash t)) := by
  unfold searchMat
  rw [mapM_vectorize]
  simp only [Option.pure_def, Option.bind_eq_bind, Option.bind_some, cosineDistance_eq, createMat, List.map_map]
  rfl

theorem searchMatChunk_eq (cs : List (List Str)) (ts : List Str) :
    searchMatChunk fp hash (cs.map fun c => c.map (rowOf fp hash)) ts =
      some (ts.map fun t => rowDistance fp (cs.flatten.map (rowOf fp hash)) (rowOf fp hash t)) := by
  unfold searchMatChunk
  rw [mapM_vectorize]
  simp only [Option.pure_def, Option.bind_eq_bind, Option.bind_some, cosineDistanceChunk_eq, createMat, List.map_map]
  rw [List.map_flatten]
  rfl

theorem build_eq (cs : List (List Str)) :
    HashingIndex.build fp hash cs = some (cs.map fun c => c.map (rowOf fp hash)) := by
  have key : ∀ (cs : List (List Str)) (acc : HashingIndex),
      cs.foldlM (HashingIndex.add fp hash) acc = some (acc ++ cs.map fun c => c.map (rowOf fp hash)) := by
    intro cs
    induction cs with
    | nil => intro acc; simp
    | cons c cs ih =>
      intro acc
      rw [List.foldlM_cons]
      unfold HashingIndex.add
      rw [indexMat_eq]
      simp only [Option.pure_def, Option.bind_eq_bind, Option.bind_some]
      rw [show (fun (self : HashingIndex) (baselines : List Str) => (indexMat fp hash baselines).bind fun m => some (self ++ [m])) = HashingIndex.add fp hash from rfl, ih]
      simp
  exact key cs []

/-- For exact arithmetic the cells that are not stored do not matter. -/
theorem dot_not_stored {b t : Row} (h : stored b t = false) : dot fp b t = 0 := by
  unfold dot
  have : ∀ (a : Row) (acc : ℝ), stored a t = false → a.foldl (accStep fp t) acc = acc := by
    intro a
    induction a with
    | nil => intro acc _; rfl
    | cons e a ih =>
      intro acc h
      unfold stored at h
      rw [List.any_cons, Bool.or_eq_false_iff] at h
      rw [List.foldl_cons]
      have : accStep fp t acc e = acc := by
        unfold accStep
        cases hl : t.lookup e.1 with
        | none => rfl
        | some y => rw [hl] at h; simp at h
      rw [this]; exact ih acc h.2
  exact this b 0 h

theorem rowDistance_exact (bs : List Str) (t : Str) :
    Spec.IsDistance hash bs t (rowDistance FP.exact (bs.map (rowOf FP.exact hash)) (rowOf FP.exact hash t)) := by
  have h := rowDistance_least FP.exact (bs.map (rowOf FP.exact hash)) (rowOf FP.exact hash t)
  unfold Spec.IsDistance
  constructor
  · rcases h.1 with h1 | ⟨b, hb, _, h1⟩
    · exact .inl h1
    · obtain ⟨l, hl, rfl⟩ := List.mem_map.1 hb
      right
      refine ⟨l, hl, ?_⟩
      rw [h1, dot_rows]; rfl
  · rintro x (hx | ⟨l, hl, rfl⟩)
    · exact h.2 (.inl hx)
    · cases hs : stored (rowOf FP.exact hash l) (rowOf FP.exact hash t) with
      | true =>
        refine h.2 (.inr ⟨rowOf FP.exact hash l, List.mem_map.2 ⟨l, hl, rfl⟩, hs, ?_⟩)
        rw [dot_rows]; rfl
      | false =>
        rw [← dot_rows, dot_not_stored _ hs, sub_zero]
        exact h.2 (.inl rfl)

/-! ### Row by row search -/

theorem intoFeature_eq (l : Str) : intoFeature fp hash l =
    some ⟨dot fp (toRow (vecOf hash l)) (toRow (vecOf hash l)), toRow (vecOf hash l)⟩ := by
  unfold intoFeature; rw [vectorize_eq]; rfl

theorem index_eq (ls : List Str) : index fp hash ls =
    some (ls.map fun l => ⟨dot fp (toRow (vecOf hash l)) (toRow (vecOf hash l)), toRow (vecOf hash l)⟩) := by
  unfold index
  induction ls with
  | nil => rfl
  | cons l ls ih => simp [List.mapM_cons, intoFeature_eq, ih]

theorem similarity_exact (a b : Str) : similarity FP.exact
      ⟨dot FP.exact (toRow (vecOf hash a)) (toRow (vecOf hash a)), toRow (vecOf hash a)⟩
      ⟨dot FP.exact (toRow (vecOf hash b)) (toRow (vecOf hash b)), toRow (vecOf hash b)⟩ =
    Spec.cosine (Spec.vec hash a) (Spec.vec hash b) := by
  unfold similarity Spec.cosine
  simp only [FP.exact, id]
  rw [show (⟨id, fun s x y => s + x * y⟩ : FP) = FP.exact from rfl, dot_toRow, dot_toRow, dot_toRow, Real.sqrt_mul (dot_self _)]

theorem foldl_max (f : Features → ℝ) (bs : List Features) :
    IsGreatest ({0} ∪ {x | ∃ b ∈ bs, x = f b}) (bs.foldl (fun acc b => max (f b) acc) 0) := by
  have key : ∀ (bs : List Features) (S : Set ℝ) (acc : ℝ), IsGreatest S acc →
      IsGreatest (S ∪ {x | ∃ b ∈ bs, x = f b}) (bs.foldl (fun acc b => max (f b) acc) acc) := by
    intro bs
    induction bs with
    | nil => intro S acc h; simpa using h
    | cons b bs ih =>
      intro S acc h
      rw [List.foldl_cons]
      have h' : IsGreatest (S ∪ {f b}) (max (f b) acc) := by
        rw [max_comm]; exact h.union isGreatest_singleton
      have := ih _ _ h'
      convert this using 1
      ext x
      simp only [Set.mem_union, Set.mem_ofPred_eq, List.mem_cons, Set.mem_singleton_iff]
      constructor
      · rintro (h | ⟨c, rfl | hc, h1⟩)
        · exact .inl (.inl h)
        · exact .inl (.inr h1)
        · exact .inr ⟨c, hc, h1⟩
      · rintro ((h | h) | ⟨c, hc, h1⟩)
        · exact .inl h
        · exact .inr ⟨b, .inl rfl, h⟩
        · exact .inr ⟨c, .inr hc, h1⟩
  exact key bs {0} 0 isGreatest_singleton

theorem search_exact (bs : List Str) (t : Str) (fs : List Features) (h : index FP.exact hash bs = some fs) :
    ∃ d, search FP.exact hash fs t = some d ∧ Spec.IsDistance hash bs t d := by
  rw [index_eq] at h
  simp only [Option.some.injEq] at h
  unfold search
  rw [intoFeature_eq]
  refine ⟨_, rfl, ?_⟩
  have hg := foldl_max (similarity FP.exact ⟨dot FP.exact (toRow (vecOf hash t)) (toRow (vecOf hash t)), toRow (vecOf hash t)⟩) fs
  have hmem : ∀ x, (∃ b ∈ fs, x = similarity FP.exact ⟨dot FP.exact (toRow (vecOf hash t)) (toRow (vecOf hash t)), toRow (vecOf hash t)⟩ b) ↔
      ∃ b ∈ bs, x = Spec.cosine (Spec.vec hash b) (Spec.vec hash t) := by
    intro x
    rw [← h]
    constructor
    · rintro ⟨b, hb, rfl⟩
      obtain ⟨l, hl, rfl⟩ := List.mem_map.1 hb
      exact ⟨l, hl, by rw [similarity_exact, cosine_comm]⟩
    · rintro ⟨l, hl, rfl⟩
      exact ⟨_, List.mem_map.2 ⟨l, hl, rfl⟩, by rw [similarity_exact, cosine_comm]⟩
  simp only [FP.exact, id]
  rw [show (⟨id, fun s x y => s + x * y⟩ : FP) = FP.exact from rfl]
  constructor
  · rcases hg.1 with h0 | h1
    · left; rw [Set.mem_singleton_iff] at h0; rw [h0]; simp
    · obtain ⟨l, hl, e⟩ := (hmem _).1 h1
      right; exact ⟨l, hl, by rw [← e]⟩
  · rintro x (hx | ⟨l, hl, rfl⟩)
    · rw [Set.mem_singleton_iff] at hx; rw [hx]
      have := hg.2 (.inl (Set.mem_singleton 0)); linarith
    · have := hg.2 (.inr ((hmem _).2 ⟨l, hl, rfl⟩)); linarith

theorem isDistance_unique {bs : List Str} {t : Str} {d d' : ℝ} (h : Spec.IsDistance hash bs t d)
    (h' : Spec.IsDistance hash bs t d') : d = d' := h.unique h'

end LJ.Index

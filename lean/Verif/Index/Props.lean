/-
C17 to C23: the index.  `hash` is the hash function of words, an arbitrary parameter.
`FP.exact` is exact arithmetic; the theorems over any `fp` hold whatever the rounding is; the
theorems with `fp.Standard` only need the usual error bounds of `f32`.
-/
import Verif.Index.Float
namespace LJ.Index
variable {hash : Str → Nat}

/-- what a user of `index` and `search` gets -/
noncomputable def viaRows (fp : FP) (hash : Str → Nat) (baseline targets : List Str) : Option (List ℝ) := do
  let fs ← index fp hash baseline
  targets.mapM (search fp hash fs)

/-- what a user of `index_mat` and `search_mat` gets -/
noncomputable def viaMat (fp : FP) (hash : Str → Nat) (baseline targets : List Str) : Option (List ℝ) := do
  let m ← indexMat fp hash baseline
  searchMat fp hash m targets

/-- what a user of the hashing index gets, after adding the baseline chunk by chunk -/
noncomputable def viaChunks (fp : FP) (hash : Str → Nat) (chunks : List (List Str)) (targets : List Str) :
    Option (List ℝ) := do
  let i ← HashingIndex.build fp hash chunks
  HashingIndex.search fp hash i targets

/-- Two lines share a hashed word. -/
def Share (hash : Str → Nat) (a b : Str) : Prop :=
  ∃ w ∈ a.splitOn ' ', ∃ w' ∈ b.splitOn ' ', hash w % Spec.size = hash w' % Spec.size

theorem viaMat_eq (fp : FP) (bs ts : List Str) : viaMat fp hash bs ts =
    some (ts.map fun t => rowDistance fp (bs.map (rowOf fp hash)) (rowOf fp hash t)) := by
  unfold viaMat
  rw [indexMat_eq]
  exact searchMat_eq fp _ bs ts

theorem viaChunks_eq (fp : FP) (cs : List (List Str)) (ts : List Str) : viaChunks fp hash cs ts =
    some (ts.map fun t => rowDistance fp (cs.flatten.map (rowOf fp hash)) (rowOf fp hash t)) := by
  unfold viaChunks
  rw [build_eq]
  exact searchMatChunk_eq fp _ cs ts

theorem forall₂_map_right {α β : Type} {R : α → β → Prop} {f : α → β} (ts : List α) (h : ∀ t ∈ ts, R t (f t)) :
    List.Forall₂ R ts (ts.map f) := by
  induction ts with
  | nil => exact .nil
  | cons t ts ih => exact .cons (h t (by simp)) (ih fun t ht => h t (by simp [ht]))

/-! ### C19: the three implementations agree -/

/-- In exact arithmetic, `index`/`search` returns for each target its distance to the baseline. -/
theorem C19_rows (bs ts : List Str) :
    ∃ ds, viaRows FP.exact hash bs ts = some ds ∧ List.Forall₂ (Spec.IsDistance hash bs) ts ds := by
  unfold viaRows
  obtain ⟨fs, hfs⟩ : ∃ fs, index FP.exact hash bs = some fs := ⟨_, index_eq FP.exact _ bs⟩
  rw [hfs]
  simp only [Option.bind_eq_bind, Option.bind_some]
  induction ts with
  | nil => exact ⟨[], rfl, .nil⟩
  | cons t ts ih =>
    obtain ⟨ds, h1, h2⟩ := ih
    obtain ⟨d, h3, h4⟩ := search_exact _ bs t fs hfs
    exact ⟨d :: ds, by simp [List.mapM_cons, h3, h1], .cons h4 h2⟩

theorem C19_mat (bs ts : List Str) :
    ∃ ds, viaMat FP.exact hash bs ts = some ds ∧ List.Forall₂ (Spec.IsDistance hash bs) ts ds :=
  ⟨_, viaMat_eq _ bs ts, forall₂_map_right ts fun t _ => rowDistance_exact _ bs t⟩

theorem C19_chunks (cs : List (List Str)) (ts : List Str) :
    ∃ ds, viaChunks FP.exact hash cs ts = some ds ∧ List.Forall₂ (Spec.IsDistance hash cs.flatten) ts ds :=
  ⟨_, viaChunks_eq _ cs ts, forall₂_map_right ts fun t _ => rowDistance_exact _ cs.flatten t⟩

theorem forall₂_unique {α β : Type} {R : α → β → Prop} (hR : ∀ t d d', R t d → R t d' → d = d') {ts : List α} {ds ds' : List β}
    (h : List.Forall₂ R ts ds) (h' : List.Forall₂ R ts ds') : ds = ds' := by
  induction h generalizing ds' with
  | nil => cases h'; rfl
  | cons hd _ ih => cases h' with
    | cons hd' h' => rw [hR _ _ _ hd hd', ih h']

theorem C19_agree (bs : List Str) (cs : List (List Str)) (h : cs.flatten = bs) (ts : List Str) :
    viaRows FP.exact hash bs ts = viaMat FP.exact hash bs ts ∧
    viaMat FP.exact hash bs ts = viaChunks FP.exact hash cs ts := by
  obtain ⟨d1, e1, h1⟩ := C19_rows (hash := hash) bs ts
  obtain ⟨d2, e2, h2⟩ := C19_mat (hash := hash) bs ts
  obtain ⟨d3, e3, h3⟩ := C19_chunks (hash := hash) cs ts
  rw [h] at h3
  have hu : ∀ t d d', Spec.IsDistance hash bs t d → Spec.IsDistance hash bs t d' → d = d' :=
    fun _ _ _ h h' => isDistance_unique hash h h'
  rw [e1, e2, e3, forall₂_unique hu h1 h2, forall₂_unique hu h2 h3]
  exact ⟨rfl, rfl⟩

/-- The matrix and the chunked implementations agree exactly whatever the rounding. -/
theorem C19_chunks_any_rounding (fp : FP) (bs : List Str) (cs : List (List Str)) (h : cs.flatten = bs) (ts : List Str) :
    viaMat fp hash bs ts = viaChunks fp hash cs ts := by
  rw [viaMat_eq, viaChunks_eq, h]

example : ([["a".toList], ["b".toList, "c".toList]] : List (List Str)).flatten = ["a".toList, "b".toList, "c".toList] := rfl

/-- With the rounding errors of `f32`, each computed distance is within `(12 + 4 N) / 2^24` of the
exact distance, where `N` bounds the number of words of the target or is 260000. -/
theorem C19_rounding (fp : FP) (hst : fp.Standard) (cs : List (List Str)) (ts : List Str) :
    ∃ ds, viaChunks fp hash cs ts = some ds ∧ List.Forall₂ (fun t d => ∀ e, Spec.IsDistance hash cs.flatten t e →
      ∀ N : ℕ, (t.splitOn ' ').length ≤ N ∨ 260000 ≤ N → |d - e| ≤ (12 + 4 * N) / 2 ^ 24) ts ds := by
  refine ⟨_, viaChunks_eq fp cs ts, forall₂_map_right ts fun t _ e he N hN => ?_⟩
  have h1 := vecOf_length_words (hash := hash) t
  have h2 := vecOf_length_le (hash := hash) t
  rw [size_val] at h2
  have := rowDistance_err hst cs.flatten t e he (min N 260000) (by omega) (by omega)
  refine this.trans ?_
  have hm : ((min N 260000 : ℕ) : ℝ) ≤ N := by exact_mod_cast min_le_left _ _
  unfold u
  have : (12 + 4 * ((min N 260000 : ℕ) : ℝ)) ≤ 12 + 4 * N := by linarith
  have h3 := mul_le_mul_of_nonneg_right this (by norm_num : (0:ℝ) ≤ 1 / 16777216)
  refine h3.trans (le_of_eq ?_)
  norm_num; ring

/-- the hypothesis is met by exact arithmetic and by any rounding with the usual bounds, fused or not -/
example : FP.exact.Standard := by
  have := twoRoundings_standard rounding_id
  exact ⟨this.err, this.nat, this.acc⟩
example (fl : ℝ → ℝ) (h : Rounding fl) : (FP.fused fl).Standard ∧ (FP.twoRoundings fl).Standard :=
  ⟨fused_standard h, twoRoundings_standard h⟩

/-- so the distances of `f32` are everywhere within 0.07 of the exact ones -/
theorem C19_rounding_uniform (fp : FP) (hst : fp.Standard) (cs : List (List Str)) (ts : List Str) :
    ∃ ds es, viaChunks fp hash cs ts = some ds ∧ viaChunks FP.exact hash cs ts = some es ∧
      List.Forall₂ (fun d e => |d - e| ≤ 0.07) ds es := by
  obtain ⟨ds, e1, h1⟩ := C19_rounding (hash := hash) fp hst cs ts
  obtain ⟨es, e2, h2⟩ := C19_chunks (hash := hash) cs ts
  refine ⟨ds, es, e1, e2, ?_⟩
  clear e1 e2
  induction h1 generalizing es with
  | nil => cases h2; exact .nil
  | cons hd _ ih => cases h2 with
    | cons he h2 => exact .cons ((hd _ he 260000 (.inr (le_refl _))).trans (by norm_num)) (ih _ h2)

/-! ### C17: distances are between 0 and 1 -/

theorem isDistance_range {bs : List Str} {t : Str} {d : ℝ} (h : Spec.IsDistance hash bs t d) : 0 ≤ d ∧ d ≤ 1 := by
  refine ⟨?_, h.2 (.inl (Set.mem_singleton 1))⟩
  rcases h.1 with h1 | ⟨b, _, h1⟩
  · rw [Set.mem_singleton_iff] at h1; linarith
  · have := cosine_le_one hash b t; linarith

theorem forall₂_right {α β : Type} {R : α → β → Prop} {P : β → Prop} (hP : ∀ a b, R a b → P b) {ts : List α} {ds : List β}
    (h : List.Forall₂ R ts ds) : ∀ d ∈ ds, P d := by
  induction h with
  | nil => simp
  | cons hd _ ih =>
    intro d hd'
    rcases List.mem_cons.1 hd' with rfl | hd'
    · exact hP _ _ hd
    · exact ih d hd'

/-- in exact arithmetic, for the three implementations -/
theorem C17_range (bs ts : List Str) (cs : List (List Str)) (ds : List ℝ)
    (h : viaRows FP.exact hash bs ts = some ds ∨ viaMat FP.exact hash bs ts = some ds ∨
      viaChunks FP.exact hash cs ts = some ds) :
    ds.length = ts.length ∧ ∀ d ∈ ds, 0 ≤ d ∧ d ≤ 1 := by
  obtain ⟨d1, e1, h1⟩ := C19_rows (hash := hash) bs ts
  obtain ⟨d2, e2, h2⟩ := C19_mat (hash := hash) bs ts
  obtain ⟨d3, e3, h3⟩ := C19_chunks (hash := hash) cs ts
  have key : ∀ (bs' : List Str) (es : List ℝ), List.Forall₂ (Spec.IsDistance hash bs') ts es →
      es.length = ts.length ∧ ∀ d ∈ es, 0 ≤ d ∧ d ≤ 1 := fun bs' es h =>
    ⟨h.length_eq.symm, forall₂_right (fun _ _ h => isDistance_range h) h⟩
  rcases h with h | h | h
  · rw [e1] at h; cases h; exact key _ _ h1
  · rw [e2] at h; cases h; exact key _ _ h2
  · rw [e3] at h; cases h; exact key _ _ h3

/-- every search succeeds, so that the hypothesis of `C17_range` is met -/
example : ∃ ds, viaRows FP.exact hash ["a b".toList] ["a".toList, "c".toList] = some ds :=
  let ⟨ds, h, _⟩ := C19_rows ["a b".toList] ["a".toList, "c".toList]; ⟨ds, h⟩

/-- whatever the rounding, a distance never exceeds 1 -/
theorem C17_at_most_one (fp : FP) (cs : List (List Str)) (ts : List Str) :
    ∃ ds, viaChunks fp hash cs ts = some ds ∧ ds.length = ts.length ∧ ∀ d ∈ ds, d ≤ 1 := by
  refine ⟨_, viaChunks_eq fp cs ts, by simp, ?_⟩
  intro d hd
  obtain ⟨t, _, rfl⟩ := List.mem_map.1 hd
  exact (rowDistance_least fp _ _).2 (.inl (Set.mem_singleton 1))

/-- with the rounding of `f32`, a distance is at least `-(12 + 4 N) / 2^24` -/
theorem C17_rounding (fp : FP) (hst : fp.Standard) (cs : List (List Str)) (ts : List Str) :
    ∃ ds, viaChunks fp hash cs ts = some ds ∧ List.Forall₂ (fun t (d : ℝ) => d ≤ 1 ∧
      ∀ N : ℕ, (t.splitOn ' ').length ≤ N ∨ 260000 ≤ N → -((12 + 4 * N) / 2 ^ 24) ≤ d) ts ds := by
  refine ⟨_, viaChunks_eq fp cs ts, forall₂_map_right ts fun t _ => ⟨?_, fun N hN => ?_⟩⟩
  · exact (rowDistance_least fp _ _).2 (.inl (Set.mem_singleton 1))
  · obtain ⟨ds, e, h⟩ := C19_rounding (hash := hash) fp hst cs [t]
    rw [viaChunks_eq] at e
    cases e
    cases h with
    | cons h _ =>
      have hd := rowDistance_exact hash cs.flatten t
      have h1 := (abs_le.1 (h _ hd N hN)).1
      have h2 := (isDistance_range hd).1
      simp only at h1
      linarith

/-! ### C18: a line of the baseline has distance 0 -/

theorem isDistance_mem {bs : List Str} {t : Str} {d : ℝ} (h : Spec.IsDistance hash bs t d) (ht : t ∈ bs) : d = 0 := by
  have h1 : d ≤ 0 := h.2 (.inr ⟨t, ht, by rw [cosine_self]; ring⟩)
  exact le_antisymm h1 (isDistance_range h).1

theorem C18_zero (bs ts : List Str) (cs : List (List Str)) (hc : cs.flatten = bs) (ds : List ℝ)
    (h : viaRows FP.exact hash bs ts = some ds ∨ viaMat FP.exact hash bs ts = some ds ∨
      viaChunks FP.exact hash cs ts = some ds) :
    List.Forall₂ (fun t d => t ∈ bs → d = 0) ts ds := by
  have hrow : viaRows FP.exact hash bs ts = some ds := by
    have := C19_agree (hash := hash) bs cs hc ts
    rcases h with h | h | h
    · exact h
    · rw [this.1, h]
    · rw [this.1, this.2, h]
  obtain ⟨d1, e1, h1⟩ := C19_rows (hash := hash) bs ts
  rw [e1] at hrow; cases hrow
  exact h1.imp fun _ _ h ht => isDistance_mem h ht

example : ∃ ds, viaMat FP.exact hash ["a b".toList, "c".toList] ["c".toList] = some ds ∧ "c".toList ∈ ["a b".toList, "c".toList] :=
  let ⟨ds, h, _⟩ := C19_mat ["a b".toList, "c".toList] ["c".toList]; ⟨ds, h, by simp⟩

/-- with the rounding of `f32`, the distance of a baseline line is at most `(12 + 4 N) / 2^24`, in
particular below 0.07 (the threshold of an anomaly is 0.3) -/
theorem C18_rounding (fp : FP) (hst : fp.Standard) (cs : List (List Str)) (ts : List Str) :
    ∃ ds, viaChunks fp hash cs ts = some ds ∧ List.Forall₂ (fun t (d : ℝ) => t ∈ cs.flatten → |d| ≤ 0.07 ∧
      ∀ N : ℕ, (t.splitOn ' ').length ≤ N ∨ 260000 ≤ N → |d| ≤ (12 + 4 * N) / 2 ^ 24) ts ds := by
  obtain ⟨ds, e, h⟩ := C19_rounding (hash := hash) fp hst cs ts
  refine ⟨ds, e, h.imp fun t d h ht => ?_⟩
  have hd := rowDistance_exact hash cs.flatten t
  have h0 := isDistance_mem hd ht
  have key : ∀ N : ℕ, (t.splitOn ' ').length ≤ N ∨ 260000 ≤ N → |d| ≤ (12 + 4 * N) / 2 ^ 24 := by
    intro N hN
    have := h _ hd N hN
    rwa [h0, sub_zero] at this
  exact ⟨(key 260000 (.inr (le_refl _))).trans (by norm_num), key⟩

/-! ### C20: chunks, order and repetitions are irrelevant -/

theorem rowDistance_mono (fp : FP) {bs bs' : List Row} (h : ∀ b ∈ bs, b ∈ bs') (t : Row) :
    rowDistance fp bs' t ≤ rowDistance fp bs t := by
  rcases (rowDistance_least fp bs t).1 with h1 | ⟨b, hb, hs, h1⟩
  · rw [Set.mem_singleton_iff] at h1
    rw [h1]; exact (rowDistance_least fp bs' t).2 (.inl (Set.mem_singleton 1))
  · exact (rowDistance_least fp bs' t).2 (.inr ⟨b, h b hb, hs, h1⟩)

/-- Only the set of the lines of the baseline matters, whatever the rounding. -/
theorem C20_arrangement (fp : FP) (cs cs' : List (List Str)) (h : ∀ l, l ∈ cs.flatten ↔ l ∈ cs'.flatten) (ts : List Str) :
    viaChunks fp hash cs ts = viaChunks fp hash cs' ts := by
  rw [viaChunks_eq, viaChunks_eq]
  congr 1
  apply List.map_congr_left
  intro t _
  apply le_antisymm <;> apply rowDistance_mono <;>
    · intro b hb
      obtain ⟨l, hl, rfl⟩ := List.mem_map.1 hb
      exact List.mem_map.2 ⟨l, by first | exact (h l).1 hl | exact (h l).2 hl, rfl⟩

example : ∀ l, l ∈ ([["a".toList], ["b".toList, "a".toList]] : List (List Str)).flatten ↔
    l ∈ ([["b".toList, "b".toList], [], ["a".toList]] : List (List Str)).flatten := by
  intro l; simp; tauto

/-- Splitting the targets between several searches gives the same distances, whatever the rounding. -/
theorem C20_targets (fp : FP) (cs : List (List Str)) (ts ts' : List Str) :
    viaChunks fp hash cs (ts ++ ts') = (do
      let a ← viaChunks fp hash cs ts
      let b ← viaChunks fp hash cs ts'
      pure (a ++ b)) := by
  simp [viaChunks_eq]

/-! ### C21: more baselines never increase a distance -/

theorem C21_monotone (fp : FP) (cs cs' : List (List Str)) (h : ∀ l ∈ cs.flatten, l ∈ cs'.flatten) (ts : List Str) :
    ∃ ds ds', viaChunks fp hash cs ts = some ds ∧ viaChunks fp hash cs' ts = some ds' ∧
      List.Forall₂ (fun d d' => d' ≤ d) ds ds' := by
  refine ⟨_, _, viaChunks_eq fp cs ts, viaChunks_eq fp cs' ts, ?_⟩
  induction ts with
  | nil => exact .nil
  | cons t ts ih =>
    refine .cons (rowDistance_mono fp ?_ _) ih
    intro b hb
    obtain ⟨l, hl, rfl⟩ := List.mem_map.1 hb
    exact List.mem_map.2 ⟨l, h l hl, rfl⟩

/-- adding a chunk -/
theorem C21_add (fp : FP) (cs more : List (List Str)) (ts : List Str) :
    ∃ ds ds', viaChunks fp hash cs ts = some ds ∧ viaChunks fp hash (cs ++ more) ts = some ds' ∧
      List.Forall₂ (fun d d' => d' ≤ d) ds ds' :=
  C21_monotone fp cs (cs ++ more) (by intro l hl; rw [List.flatten_append]; exact List.mem_append_left _ hl) ts

/-! ### C22: vectors -/

theorem coef_zero {ws : List Str} {k : Nat} : Spec.coef hash ws k = 0 ↔ ∀ w ∈ ws, hash w % Spec.size ≠ k := by
  induction ws with
  | nil => simp [Spec.coef]
  | cons w ws ih =>
    unfold Spec.coef
    by_cases h : hash w % Spec.size = k
    · simp only [h, if_true]
      constructor
      · intro h'; split at h' <;> simp at h'
      · intro h'; exact absurd h (h' w (by simp))
    · simp only [h, if_false, ih, List.forall_mem_cons]
      exact ⟨fun h' => ⟨h, h'⟩, fun h' => h'.2⟩

theorem coef_sign {ws : List Str} {k : Nat} (h : Spec.coef hash ws k ≠ 0) :
    ∃ w ∈ ws, hash w % Spec.size = k ∧ Spec.coef hash ws k = if 2 ^ 31 ≤ hash w then 1 else -1 := by
  induction ws with
  | nil => exact absurd rfl h
  | cons w ws ih =>
    unfold Spec.coef at h ⊢
    by_cases hk : hash w % Spec.size = k
    · exact ⟨w, by simp, hk, by rw [if_pos hk]⟩
    · rw [if_neg hk] at h ⊢
      obtain ⟨w', h1, h2⟩ := ih h
      exact ⟨w', by simp [h1], h2⟩

/-- Every line has a vector (building it does not panic); it is not empty, its indices are strictly
increasing and below 260000, its values are 1 or -1, and its entries are those of the
specification: the sign of the first word of each column. -/
theorem C22_well_formed (hash : Str → Nat) (line : Str) :
    ∃ v, vectorize hash line = some v ∧ v ≠ [] ∧ v.Pairwise (fun a b => a.1 < b.1) ∧
      (∀ e ∈ v, e.1 < 260000 ∧ (e.2 = 1 ∨ e.2 = -1)) ∧
      ∀ k x, (k, x) ∈ v ↔ x ≠ 0 ∧ Spec.vec hash line k = x :=
  ⟨vecOf hash line, vectorize_eq hash line, vecOf_ne_nil hash line, vecOf_strict hash line,
    fun _ he => vecOf_keys he, fun _ _ => vec_mem⟩

/-- A column is filled exactly when a word of the line hashes to it. -/
theorem C22_columns (hash : Str → Nat) (line : Str) (v : List (Nat × Int)) (h : vectorize hash line = some v) (k : Nat) :
    (∃ x, (k, x) ∈ v) ↔ ∃ w ∈ line.splitOn ' ', hash w % Spec.size = k := by
  rw [vectorize_eq] at h
  cases h
  constructor
  · rintro ⟨x, hx⟩
    obtain ⟨h1, h2⟩ := vec_mem.1 hx
    obtain ⟨w, hw, hk, _⟩ := coef_sign (ws := line.splitOn ' ') (k := k) (hash := hash) (by
      intro h0; apply h1; rw [← h2]; exact h0)
    exact ⟨w, hw, hk⟩
  · rintro ⟨w, hw, hk⟩
    refine ⟨Spec.vec hash line k, vec_mem.2 ⟨?_, rfl⟩⟩
    intro h0
    exact coef_zero.1 h0 w hw hk

/-- Reordering or repeating words does not change the vector when no two words fall in the same
column with opposite signs. -/
theorem C22_order_insensitive (a b : Str) (hw : ∀ w, w ∈ a.splitOn ' ' ↔ w ∈ b.splitOn ' ')
    (hc : ∀ w ∈ a.splitOn ' ', ∀ w' ∈ a.splitOn ' ', hash w % Spec.size = hash w' % Spec.size →
      (2 ^ 31 ≤ hash w ↔ 2 ^ 31 ≤ hash w')) :
    vectorize hash a = vectorize hash b := by
  rw [vectorize_eq, vectorize_eq]
  congr 1
  apply vecOf_ext
  intro k
  by_cases h0 : Spec.coef hash (a.splitOn ' ') k = 0
  · have h1 : Spec.coef hash (b.splitOn ' ') k = 0 := coef_zero.2 fun w hwb => coef_zero.1 h0 w ((hw w).2 hwb)
    exact h0.trans h1.symm
  · have h1 : Spec.coef hash (b.splitOn ' ') k ≠ 0 := fun h => h0 (coef_zero.2 fun w hwa => coef_zero.1 h w ((hw w).1 hwa))
    obtain ⟨w, m1, k1, e1⟩ := coef_sign h0
    obtain ⟨w', m2, k2, e2⟩ := coef_sign h1
    show Spec.coef hash (a.splitOn ' ') k = Spec.coef hash (b.splitOn ' ') k
    rw [e1, e2]
    have := hc w m1 w' ((hw w').2 m2) (k1.trans k2.symm)
    by_cases h : 2 ^ 31 ≤ hash w
    · rw [if_pos h, if_pos (this.1 h)]
    · rw [if_neg h, if_neg (fun h' => h (this.2 h'))]

/-- with `String.length` as a hash, "a bb a" and "bb a" -/
example : vectorize List.length "a bb a".toList = vectorize List.length "bb a".toList ∧
    vectorize List.length "a bb a".toList = some [(1, -1), (2, -1)] := by decide +kernel
example : (∀ w, w ∈ "a bb a".toList.splitOn ' ' ↔ w ∈ "bb a".toList.splitOn ' ') := by
  have h1 : "a bb a".toList.splitOn ' ' = [['a'], ['b', 'b'], ['a']] := by decide +kernel
  have h2 : "bb a".toList.splitOn ' ' = [['b', 'b'], ['a']] := by decide +kernel
  intro w; rw [h1, h2]; simp; tauto

/-- When two words collide with opposite signs, the order matters. -/
theorem C22_order_matters_on_collision :
    ∃ (hash : Str → Nat) (a b : Str), (∀ w, hash w < 2 ^ 32) ∧ (∀ w, w ∈ a.splitOn ' ' ↔ w ∈ b.splitOn ' ') ∧
      vectorize hash a ≠ vectorize hash b := by
  refine ⟨fun w => if w = ['a'] then 0 else 2147600000, ['a', ' ', 'b'], ['b', ' ', 'a'], ?_, ?_, ?_⟩
  · intro w; simp only; split <;> norm_num
  · have h1 : ['a', ' ', 'b'].splitOn ' ' = [['a'], ['b']] := by decide +kernel
    have h2 : ['b', ' ', 'a'].splitOn ' ' = [['b'], ['a']] := by decide +kernel
    intro w; rw [h1, h2]; simp; tauto
  · decide +kernel

/-! ### C23: distances 0 and 1 -/

/-- The distance is 0 exactly when a baseline line has the same vector. -/
theorem C23_zero_iff (bs ts : List Str) (cs : List (List Str)) (hc : cs.flatten = bs) :
    ∃ ds, viaRows FP.exact hash bs ts = some ds ∧ viaMat FP.exact hash bs ts = some ds ∧
      viaChunks FP.exact hash cs ts = some ds ∧
      List.Forall₂ (fun t d => d = 0 ↔ ∃ b ∈ bs, vectorize hash b = vectorize hash t) ts ds := by
  obtain ⟨ds, e1, h1⟩ := C19_rows (hash := hash) bs ts
  have ha := C19_agree (hash := hash) bs cs hc ts
  refine ⟨ds, e1, ha.1 ▸ e1, ha.2 ▸ ha.1 ▸ e1, h1.imp fun t d h => ?_⟩
  constructor
  · intro h0
    rcases h.1 with h2 | ⟨b, hb, h2⟩
    · rw [Set.mem_singleton_iff] at h2; rw [h0] at h2; norm_num at h2
    · refine ⟨b, hb, ?_⟩
      rw [vectorize_eq, vectorize_eq]
      congr 1
      apply vecOf_ext
      apply (cosine_one_iff hash b t).1
      linarith
  · rintro ⟨b, hb, hv⟩
    rw [vectorize_eq, vectorize_eq] at hv
    have hv' : vecOf hash b = vecOf hash t := Option.some.inj hv
    have hall : ∀ k, Spec.vec hash b k = Spec.vec hash t k := by
      intro k
      by_cases h0 : Spec.vec hash b k = 0
      · by_contra hne
        have : (k, Spec.vec hash t k) ∈ vecOf hash t := vec_mem.2 ⟨fun h => hne (h0.trans h.symm), rfl⟩
        rw [← hv'] at this
        obtain ⟨h1, h2⟩ := vec_mem.1 this
        exact hne h2
      · have : (k, Spec.vec hash b k) ∈ vecOf hash b := vec_mem.2 ⟨h0, rfl⟩
        rw [hv'] at this
        exact (vec_mem.1 this).2.symm
    have hc1 := (cosine_one_iff hash b t).2 hall
    have : d ≤ 0 := h.2 (.inr ⟨b, hb, by rw [hc1]; ring⟩)
    exact le_antisymm this (isDistance_range h).1

theorem not_share_stored (fp : FP) {b t : Str} (h : ¬ Share hash b t) : stored (rowOf fp hash b) (rowOf fp hash t) = false := by
  rw [Bool.eq_false_iff]
  intro hs
  apply h
  unfold stored at hs
  rw [List.any_eq_true] at hs
  obtain ⟨e, he, hl⟩ := hs
  have hmem : ∀ (l : Str) (e : Nat × ℝ), e ∈ rowOf fp hash l → ∃ x, (e.1, x) ∈ vecOf hash l := by
    intro l e he
    unfold rowOf at he
    obtain ⟨e', he', rfl⟩ := List.mem_map.1 he
    unfold toRow at he'
    obtain ⟨e'', he'', rfl⟩ := List.mem_map.1 he'
    exact ⟨e''.2, he''⟩
  obtain ⟨x, hx⟩ := hmem b e he
  obtain ⟨y, hy⟩ := Option.isSome_iff_exists.1 hl
  obtain ⟨z, hz⟩ := hmem t (e.1, y) (by
    have : ∀ (r : Row), r.lookup e.1 = some y → (e.1, y) ∈ r := by
      intro r
      induction r with
      | nil => simp
      | cons a r ih =>
        obtain ⟨k, v⟩ := a
        rw [List.lookup_cons]
        by_cases hk : e.1 == k
        · simp only [hk]
          intro h; cases h
          rw [beq_iff_eq] at hk
          rw [hk]; simp
        · simp only [hk]
          intro h; simp [ih h]
    exact this _ hy)
  obtain ⟨w, hw, hk⟩ := (C22_columns hash b _ (vectorize_eq hash b) e.1).1 ⟨x, hx⟩
  obtain ⟨w', hw', hk'⟩ := (C22_columns hash t _ (vectorize_eq hash t) e.1).1 ⟨z, hz⟩
  exact ⟨w, hw, w', hw', hk.trans hk'.symm⟩

/-- The distance is 1 when the target shares no hashed word with the baseline, in particular when
there is no baseline; whatever the rounding. -/
theorem C23_disjoint (fp : FP) (cs : List (List Str)) (ts : List Str) :
    ∃ ds, viaChunks fp hash cs ts = some ds ∧
      List.Forall₂ (fun t d => (∀ b ∈ cs.flatten, ¬ Share hash b t) → d = 1) ts ds := by
  refine ⟨_, viaChunks_eq fp cs ts, forall₂_map_right ts fun t _ hno => ?_⟩
  rcases (rowDistance_least fp (cs.flatten.map (rowOf fp hash)) (rowOf fp hash t)).1 with h | ⟨r, hr, hs, _⟩
  · exact h
  · obtain ⟨b, hb, rfl⟩ := List.mem_map.1 hr
    rw [not_share_stored fp (hno b hb)] at hs
    cases hs

example : ∀ b ∈ ([["aa".toList], ["bb".toList]] : List (List Str)).flatten, ¬ Share List.length b "x".toList := by
  have h1 : "aa".toList.splitOn ' ' = ["aa".toList] := by decide +kernel
  have h2 : "bb".toList.splitOn ' ' = ["bb".toList] := by decide +kernel
  have h3 : "x".toList.splitOn ' ' = ["x".toList] := by decide +kernel
  intro b hb
  simp only [List.flatten_cons, List.flatten_nil, List.append_nil, List.cons_append, List.nil_append, List.mem_cons, List.not_mem_nil, or_false] at hb
  rintro ⟨w, hw, w', hw', e⟩
  rw [h3] at hw'
  rcases hb with rfl | rfl
  · rw [h1] at hw; simp at hw hw'; subst hw hw'; revert e; decide +kernel
  · rw [h2] at hw; simp at hw hw'; subst hw hw'; revert e; decide +kernel

/-- Conversely a target sharing all its columns with opposite signs also has distance 1, and one
sharing a word with the same sign and no collision elsewhere has a smaller one: the distance is below
1 exactly when some baseline has a positive dot product with the target. -/
theorem C23_below_one (cs : List (List Str)) (ts : List Str) :
    ∃ ds, viaChunks FP.exact hash cs ts = some ds ∧
      List.Forall₂ (fun t d => d < 1 ↔ ∃ b ∈ cs.flatten, 0 < Spec.dot (Spec.vec hash b) (Spec.vec hash t)) ts ds := by
  obtain ⟨ds, e1, h1⟩ := C19_chunks (hash := hash) cs ts
  refine ⟨ds, e1, h1.imp fun t d h => ?_⟩
  have hpos : ∀ b, 0 < √(Spec.dot (Spec.vec hash b) (Spec.vec hash b)) * √(Spec.dot (Spec.vec hash t) (Spec.vec hash t)) :=
    fun b => mul_pos (Real.sqrt_pos.2 (dot_pos hash b)) (Real.sqrt_pos.2 (dot_pos hash t))
  constructor
  · intro hlt
    rcases h.1 with h2 | ⟨b, hb, h2⟩
    · rw [Set.mem_singleton_iff] at h2; linarith
    · refine ⟨b, hb, ?_⟩
      have : 0 < Spec.cosine (Spec.vec hash b) (Spec.vec hash t) := by linarith
      unfold Spec.cosine at this
      exact (div_pos_iff_of_pos_right (hpos b)).1 this
  · rintro ⟨b, hb, hd⟩
    have h2 := h.2 (.inr ⟨b, hb, rfl⟩)
    have : 0 < Spec.cosine (Spec.vec hash b) (Spec.vec hash t) := div_pos hd (hpos b)
    linarith

end LJ.Index

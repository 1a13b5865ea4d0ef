/-
Lemmas on the vectors, the dot products and the updates of the results.
-/
import Verif.Index.Model
import Verif.Index.Spec
import Mathlib.Algebra.BigOperators.Field
import Mathlib.Tactic.Linarith
import Mathlib.Algebra.Order.BigOperators.Ring.Finset
namespace LJ.Index

/-! ### Words -/

theorem splitSp_eq (l : Str) : splitSp l = l.splitOn ' ' := by
  induction l with
  | nil => rfl
  | cons c cs ih =>
    unfold List.splitOn at ih ⊢
    rw [List.splitOnP_cons_eq_if_modifyHead, splitSp, ih]
    by_cases h : c = ' '
    · simp [h]
    · have : (c == ' ') = false := by simpa using h
      rw [if_neg h, this]
      simp only [Bool.false_eq_true, if_false]
      have hne := List.splitOnP_ne_nil (fun x => x == ' ') cs
      cases hx : List.splitOnP (fun x => x == ' ') cs with
      | nil => exact absurd hx hne
      | cons w ws => rfl

theorem splitSp_ne_nil (l : Str) : splitSp l ≠ [] := by
  rw [splitSp_eq]; exact List.splitOnP_ne_nil _ _

/-! ### Sorting and removing duplicates -/

abbrev Entries := List (Nat × Int)

theorem insertKey_mem {x y : Nat × Int} {l : Entries} : y ∈ insertKey x l ↔ y = x ∨ y ∈ l := by
  induction l with
  | nil => simp [insertKey]
  | cons z l ih =>
    unfold insertKey
    split
    · simp
    · simp only [List.mem_cons, ih]; tauto

theorem sortKeys_mem {y : Nat × Int} {l : Entries} : y ∈ sortKeys l ↔ y ∈ l := by
  induction l with
  | nil => simp [sortKeys]
  | cons z l ih => simp [sortKeys, insertKey_mem, ih]

def Sorted (l : Entries) : Prop := l.Pairwise (fun a b => a.1 ≤ b.1)

theorem insertKey_sorted {x : Nat × Int} {l : Entries} (h : Sorted l) : Sorted (insertKey x l) := by
  induction l with
  | nil => simp [insertKey, Sorted]
  | cons z l ih =>
    unfold Sorted at h ih ⊢
    rw [List.pairwise_cons] at h
    unfold insertKey
    split
    · rename_i hx
      refine List.pairwise_cons.2 ⟨?_, List.pairwise_cons.2 h⟩
      intro b hb
      rcases List.mem_cons.1 hb with rfl | hb
      · exact hx
      · exact le_trans hx (h.1 b hb)
    · rename_i hx
      refine List.pairwise_cons.2 ⟨?_, ih h.2⟩
      intro b hb
      rcases insertKey_mem.1 hb with rfl | hb
      · omega
      · exact h.1 b hb

theorem sortKeys_sorted (l : Entries) : Sorted (sortKeys l) := by
  induction l with
  | nil => simp [sortKeys, Sorted]
  | cons z l ih => exact insertKey_sorted ih

theorem lookup_cons' (k : Nat) (x : Nat × Int) (l : Entries) :
    List.lookup k (x :: l) = if x.1 = k then some x.2 else List.lookup k l := by
  obtain ⟨a, b⟩ := x
  rw [List.lookup_cons]
  by_cases h : a = k
  · simp [h]
  · have : (k == a) = false := by simpa using fun e => h e.symm
    simp [h, this]

theorem lookup_insertKey (k : Nat) (x : Nat × Int) (l : Entries) :
    List.lookup k (insertKey x l) = List.lookup k (x :: l) := by
  induction l with
  | nil => rfl
  | cons y l ih =>
    unfold insertKey
    split
    · rfl
    · rw [lookup_cons', ih, lookup_cons', lookup_cons' k x (y :: l), lookup_cons']
      split
      · rw [if_neg (by omega)]
      · rfl

theorem lookup_sortKeys (k : Nat) (l : Entries) : List.lookup k (sortKeys l) = List.lookup k l := by
  induction l with
  | nil => rfl
  | cons x l ih => rw [sortKeys, lookup_insertKey, lookup_cons', lookup_cons', ih]

theorem dedupKeys_mem {y : Nat × Int} {l : Entries} (h : y ∈ dedupKeys l) : y ∈ l := by
  induction l generalizing y with
  | nil => simp [dedupKeys] at h
  | cons x l ih =>
    unfold dedupKeys at h
    split at h
    · simp at h; simp [h]
    · rename_i z zs hz
      rw [hz] at ih
      split at h
      · rcases List.mem_cons.1 h with rfl | h
        · simp
        · exact List.mem_cons_of_mem _ (ih (List.mem_cons_of_mem _ h))
      · rcases List.mem_cons.1 h with rfl | h
        · simp
        · exact List.mem_cons_of_mem _ (ih h)

theorem dedupKeys_ne_nil {l : Entries} (h : l ≠ []) : dedupKeys l ≠ [] := by
  cases l with
  | nil => exact absurd rfl h
  | cons x l =>
    unfold dedupKeys
    split
    · simp
    · split <;> simp

theorem lookup_dedupKeys (k : Nat) (l : Entries) : List.lookup k (dedupKeys l) = List.lookup k l := by
  induction l with
  | nil => rfl
  | cons x l ih =>
    unfold dedupKeys
    split
    · rename_i hz
      rw [hz] at ih
      rw [lookup_cons', lookup_cons', ← ih]
    · rename_i z zs hz
      rw [hz] at ih
      split
      · rename_i he
        rw [lookup_cons', lookup_cons', ← ih, lookup_cons']
        split
        · rfl
        · rw [if_neg (by omega)]
      · rw [lookup_cons', lookup_cons' k x l, ← ih]

theorem dedupKeys_strict {l : Entries} (h : Sorted l) : (dedupKeys l).Pairwise (fun a b => a.1 < b.1) := by
  induction l with
  | nil => simp [dedupKeys]
  | cons x l ih =>
    unfold Sorted at h
    rw [List.pairwise_cons] at h
    have ih := ih h.2
    unfold dedupKeys
    split
    · simp
    · rename_i z zs hz
      rw [hz] at ih
      have hm : z ∈ l := dedupKeys_mem (by rw [hz]; simp)
      rw [List.pairwise_cons] at ih
      split
      · rename_i he
        exact List.pairwise_cons.2 ⟨fun b hb => by have := ih.1 b hb; omega, ih.2⟩
      · rename_i hne
        have hx := h.1 z hm
        refine List.pairwise_cons.2 ⟨?_, List.pairwise_cons.2 ih⟩
        intro b hb
        rcases List.mem_cons.1 hb with rfl | hb
        · omega
        · have := ih.1 b hb; omega

/-! ### The vector of a line -/

/-- the result of `vectorize` (when it does not panic, which is always) -/
def vecOf (hash : Str → Nat) (line : Str) : Entries := dedupKeys (sortKeys ((splitSp line).map (wordKey hash)))

theorem size_eq : SIZE = Spec.size := rfl

theorem size_pos : 0 < SIZE := by decide
attribute [local irreducible] SIZE Spec.size

theorem vecOf_keys {hash : Str → Nat} {line : Str} {e : Nat × Int} (h : e ∈ vecOf hash line) :
    e.1 < SIZE ∧ (e.2 = 1 ∨ e.2 = -1) := by
  have := sortKeys_mem.1 (dedupKeys_mem h)
  obtain ⟨w, _, rfl⟩ := List.mem_map.1 this
  refine ⟨Nat.mod_lt _ size_pos, ?_⟩
  unfold wordKey
  simp only
  split <;> simp

theorem vecOf_strict (hash : Str → Nat) (line : Str) : (vecOf hash line).Pairwise (fun a b => a.1 < b.1) :=
  dedupKeys_strict (sortKeys_sorted _)

theorem vectorize_eq (hash : Str → Nat) (line : Str) : vectorize hash line = some (vecOf hash line) := by
  unfold vectorize csVecNew
  rw [if_pos]
  · rfl
  · refine ⟨?_, ?_⟩
    · rw [List.pairwise_map]; exact vecOf_strict hash line
    · intro k hk
      obtain ⟨e, he, rfl⟩ := List.mem_map.1 hk
      exact (vecOf_keys he).1

theorem vecOf_ne_nil (hash : Str → Nat) (line : Str) : vecOf hash line ≠ [] := by
  apply dedupKeys_ne_nil
  intro h
  have hne := splitSp_ne_nil line
  cases hs : splitSp line with
  | nil => exact hne hs
  | cons w ws =>
    have : wordKey hash w ∈ sortKeys ((splitSp line).map (wordKey hash)) := sortKeys_mem.2 (by rw [hs]; simp)
    rw [h] at this; cases this

theorem coef_lookup (hash : Str → Nat) (ws : List Str) (k : Nat) :
    Spec.coef hash ws k = (List.lookup k (ws.map (wordKey hash))).getD 0 := by
  induction ws with
  | nil => rfl
  | cons w ws ih =>
    rw [List.map_cons, lookup_cons', Spec.coef]
    have e1 : (wordKey hash w).1 = hash w % Spec.size := by rw [← size_eq]; rfl
    by_cases h : hash w % Spec.size = k
    · rw [if_pos h, if_pos (e1.trans h)]; rfl
    · rw [if_neg h, if_neg (fun h' => h (e1.symm.trans h'))]; exact ih

theorem vec_lookup (hash : Str → Nat) (line : Str) (k : Nat) :
    Spec.vec hash line k = (List.lookup k (vecOf hash line)).getD 0 := by
  unfold vecOf Spec.vec
  rw [lookup_dedupKeys, lookup_sortKeys, ← splitSp_eq, coef_lookup]

theorem mem_lookup {l : Entries} (h : l.Pairwise (fun a b => a.1 < b.1)) {k : Nat} {x : Int} :
    (k, x) ∈ l ↔ List.lookup k l = some x := by
  induction l with
  | nil => simp
  | cons e l ih =>
    rw [List.pairwise_cons] at h
    rw [lookup_cons', List.mem_cons, ih h.2]
    obtain ⟨a, b⟩ := e
    simp only [Prod.mk.injEq]
    split
    · rename_i he
      constructor
      · rintro (⟨_, rfl⟩ | h')
        · rfl
        · have := h.1 (k, x) ((ih h.2).2 h')
          simp at this; omega
      · intro e; left; simp at e; exact ⟨he.symm, e.symm⟩
    · rename_i he
      constructor
      · rintro (⟨rfl, _⟩ | h')
        · exact absurd rfl he
        · exact h'
      · exact .inr

theorem vec_mem {hash : Str → Nat} {line : Str} {k : Nat} {x : Int} :
    (k, x) ∈ vecOf hash line ↔ x ≠ 0 ∧ Spec.vec hash line k = x := by
  rw [vec_lookup, mem_lookup (vecOf_strict hash line)]
  constructor
  · intro h
    have := (vecOf_keys ((mem_lookup (vecOf_strict hash line)).2 h)).2
    rw [h]
    exact ⟨by rcases this with h | h <;> simp only at h <;> omega, rfl⟩
  · rintro ⟨h0, h⟩
    cases hl : List.lookup k (vecOf hash line) with
    | none => rw [hl] at h; exact absurd h.symm h0
    | some y => rw [hl] at h; simp at h; rw [h]

theorem vec_zero {hash : Str → Nat} {line : Str} {k : Nat} (h : SIZE ≤ k) : Spec.vec hash line k = 0 := by
  by_contra h0
  have := vecOf_keys (vec_mem.2 ⟨h0, rfl⟩)
  simp at this; omega

theorem vec_unit (hash : Str → Nat) (line : Str) (k : Nat) :
    Spec.vec hash line k = 0 ∨ Spec.vec hash line k = 1 ∨ Spec.vec hash line k = -1 := by
  by_cases h0 : Spec.vec hash line k = 0
  · exact .inl h0
  · exact .inr (vecOf_keys (vec_mem.2 ⟨h0, rfl⟩)).2

theorem sorted_ext {a b : Entries} (ha : a.Pairwise (fun a b => a.1 < b.1)) (hb : b.Pairwise (fun a b => a.1 < b.1))
    (h : ∀ e, e ∈ a ↔ e ∈ b) : a = b := by
  induction a generalizing b with
  | nil =>
    cases b with
    | nil => rfl
    | cons e b => exact absurd ((h e).2 (by simp)) (by simp)
  | cons x a ih =>
    cases b with
    | nil => exact absurd ((h x).1 (by simp)) (by simp)
    | cons y b =>
      rw [List.pairwise_cons] at ha hb
      have hxy : x = y := by
        rcases List.mem_cons.1 ((h x).1 (by simp)) with e | hx
        · exact e
        · rcases List.mem_cons.1 ((h y).2 (by simp)) with e | hy
          · exact e.symm
          · have := ha.1 y hy; have := hb.1 x hx; omega
      subst hxy
      rw [ih ha.2 hb.2]
      intro e
      constructor
      · intro he
        rcases List.mem_cons.1 ((h e).1 (by simp [he])) with rfl | h'
        · have := ha.1 e he; omega
        · exact h'
      · intro he
        rcases List.mem_cons.1 ((h e).2 (by simp [he])) with rfl | h'
        · have := hb.1 e he; omega
        · exact h'

/-- Two lines with the same coefficients have the same stored vector. -/
theorem vecOf_ext {hash : Str → Nat} {l l' : Str} (h : ∀ k, Spec.vec hash l k = Spec.vec hash l' k) :
    vecOf hash l = vecOf hash l' :=
  sorted_ext (vecOf_strict _ _) (vecOf_strict _ _) fun e => by
    obtain ⟨k, x⟩ := e
    rw [vec_mem, vec_mem, h]

/-! ### Dot products in exact arithmetic -/

/-- the dense value of a row -/
noncomputable def val (r : Row) (k : Nat) : ℝ := (List.lookup k r).getD 0

theorem rlookup_cons (k : Nat) (x : Nat × ℝ) (l : Row) :
    List.lookup k (x :: l) = if x.1 = k then some x.2 else List.lookup k l := by
  obtain ⟨a, b⟩ := x
  rw [List.lookup_cons]
  by_cases h : a = k
  · simp [h]
  · have : (k == a) = false := by simpa using fun e => h e.symm
    simp [h, this]

theorem lookup_map (f : Int → ℝ) (v : Entries) (k : Nat) :
    List.lookup k (v.map fun e => (e.1, f e.2)) = (List.lookup k v).map f := by
  induction v with
  | nil => rfl
  | cons e v ih =>
    rw [List.map_cons, rlookup_cons, lookup_cons', ih]
    split <;> rfl

theorem foldl_sum (b : Row) (a : Row) (s : ℝ) :
    a.foldl (accStep FP.exact b) s =
      s + (a.map fun e => e.2 * val b e.1).sum := by
  induction a generalizing s with
  | nil => simp
  | cons e a ih =>
    rw [List.foldl_cons, ih, List.map_cons, List.sum_cons]
    unfold val accStep
    cases b.lookup e.1 with
    | none => simp
    | some y => simp only [FP.exact, Option.getD_some]; ring

theorem dot_exact (a b : Row) : dot FP.exact a b = (a.map fun e => e.2 * val b e.1).sum := by
  unfold dot; rw [foldl_sum]; simp

theorem sum_dense (v : Entries) (f : Int → ℝ) (g : Nat → ℝ) (hs : v.Pairwise (fun a b => a.1 < b.1))
    (hk : ∀ e ∈ v, e.1 < SIZE) :
    (v.map fun e => f e.2 * g e.1).sum =
      ∑ k ∈ Finset.range SIZE, ((List.lookup k v).elim 0 f) * g k := by
  induction v with
  | nil => simp
  | cons e v ih =>
    rw [List.pairwise_cons] at hs
    rw [List.map_cons, List.sum_cons, ih hs.2 fun x hx => hk x (by simp [hx])]
    have hmem : e.1 ∈ Finset.range SIZE := Finset.mem_range.2 (hk e (by simp))
    rw [← Finset.add_sum_erase _ _ hmem, ← Finset.add_sum_erase (a := e.1) _ (fun k => ((List.lookup k (e :: v)).elim 0 f) * g k) hmem]
    have hnone : List.lookup e.1 v = none := by
      cases h : List.lookup e.1 v with
      | none => rfl
      | some x => have := hs.1 _ ((mem_lookup hs.2).2 h); simp at this
    rw [lookup_cons', if_pos rfl, hnone]
    simp only [Option.elim, zero_mul, zero_add]
    congr 1
    apply Finset.sum_congr rfl
    intro k hk'
    rw [lookup_cons', if_neg (by have := (Finset.mem_erase.1 hk').1; exact fun e => this e.symm)]

theorem val_map (f : Int → ℝ) (v : Entries) (k : Nat) :
    val (v.map fun e => (e.1, f e.2)) k = ((List.lookup k v).elim 0 f) := by
  unfold val
  rw [lookup_map]
  cases List.lookup k v <;> rfl

/-- The dot product of two scaled vectors is the scaled dot product of the coefficients. -/
theorem dot_scaled (hash : Str → Nat) (a b : Str) (x y : ℝ) :
    dot FP.exact ((vecOf hash a).map fun e => (e.1, (e.2 : ℝ) / x)) ((vecOf hash b).map fun e => (e.1, (e.2 : ℝ) / y)) =
      Spec.dot (Spec.vec hash a) (Spec.vec hash b) / (x * y) := by
  have hval : ∀ (l : Str) (z : ℝ) (k : Nat), ((List.lookup k (vecOf hash l)).elim 0 fun w => (w : ℝ) / z) =
      (Spec.vec hash l k : ℝ) / z := by
    intro l z k
    rw [vec_lookup]
    cases List.lookup k (vecOf hash l) <;> simp
  rw [dot_exact, List.map_map]
  have := sum_dense (vecOf hash a) (fun w => (w : ℝ) / x)
    (fun k => val ((vecOf hash b).map fun e => (e.1, (e.2 : ℝ) / y)) k) (vecOf_strict hash a) (fun e he => (vecOf_keys he).1)
  simp only [Function.comp_def]
  rw [this, Spec.dot, size_eq, Finset.sum_div]
  apply Finset.sum_congr rfl
  intro k _
  have h2 := val_map (fun w => (w : ℝ) / y) (vecOf hash b) k
  rw [h2, hval a x k, hval b y k, div_mul_div_comm]

theorem toRow_eq (v : Entries) : toRow v = v.map fun e => (e.1, (e.2 : ℝ) / 1) := by
  unfold toRow; simp

theorem dot_toRow (hash : Str → Nat) (a b : Str) :
    dot FP.exact (toRow (vecOf hash a)) (toRow (vecOf hash b)) = Spec.dot (Spec.vec hash a) (Spec.vec hash b) := by
  rw [toRow_eq, toRow_eq, dot_scaled]; simp

theorem foldl_sq (v : Row) (s : ℝ) : v.foldl (fun acc e => FP.exact.fl (acc + FP.exact.fl (e.2 * e.2))) s =
    s + (v.map fun e => e.2 * e.2).sum := by
  induction v generalizing s with
  | nil => simp
  | cons e v ih => rw [List.foldl_cons, ih, List.map_cons, List.sum_cons]; simp only [FP.exact, id]; ring

theorem val_self {v : Entries} (hs : v.Pairwise (fun a b => a.1 < b.1)) {e : Nat × Int} (h : e ∈ v) :
    val (toRow v) e.1 = e.2 := by
  rw [toRow, val_map, (mem_lookup hs).1 (show (e.1, e.2) ∈ v from h)]; rfl

theorem l2norm_exact (hash : Str → Nat) (l : Str) :
    l2norm FP.exact (toRow (vecOf hash l)) = √(Spec.dot (Spec.vec hash l) (Spec.vec hash l)) := by
  unfold l2norm
  rw [foldl_sq, ← dot_toRow, dot_exact]
  simp only [FP.exact, id, zero_add]
  congr 2
  apply List.map_congr_left
  intro e he
  unfold toRow at he
  obtain ⟨e', he', rfl⟩ := List.mem_map.1 he
  simp only
  rw [val_self (vecOf_strict hash l) he']

/-- a row of the matrix of a list of lines -/
noncomputable def rowOf (fp : FP) (hash : Str → Nat) (l : Str) : Row :=
  (toRow (vecOf hash l)).map fun e => (e.1, fp.fl (e.2 / l2norm fp (toRow (vecOf hash l))))

theorem rowOf_exact (hash : Str → Nat) (l : Str) :
    rowOf FP.exact hash l = (vecOf hash l).map fun e => (e.1, (e.2 : ℝ) / √(Spec.dot (Spec.vec hash l) (Spec.vec hash l))) := by
  unfold rowOf
  rw [l2norm_exact]
  unfold toRow
  rw [List.map_map]
  rfl

theorem dot_rows (hash : Str → Nat) (a b : Str) :
    dot FP.exact (rowOf FP.exact hash a) (rowOf FP.exact hash b) = Spec.cosine (Spec.vec hash a) (Spec.vec hash b) := by
  rw [rowOf_exact, rowOf_exact, dot_scaled]; rfl

/-! ### Cosines -/

theorem dot_self (a : Nat → Int) : 0 ≤ Spec.dot a a := Finset.sum_nonneg fun _ _ => mul_self_nonneg _

theorem dot_pos (hash : Str → Nat) (l : Str) : 0 < Spec.dot (Spec.vec hash l) (Spec.vec hash l) := by
  obtain ⟨e, he⟩ := List.exists_mem_of_ne_nil _ (vecOf_ne_nil hash l)
  refine Finset.sum_pos' (fun _ _ => mul_self_nonneg _) ⟨e.1, Finset.mem_range.2 (size_eq ▸ (vecOf_keys he).1), ?_⟩
  have := (vec_mem (k := e.1) (x := e.2)).1 he
  rw [this.2]
  have h0 : (e.2 : ℝ) ≠ 0 := by exact_mod_cast this.1
  exact mul_self_pos.2 h0

theorem dot_comm (a b : Nat → Int) : Spec.dot a b = Spec.dot b a :=
  Finset.sum_congr rfl fun _ _ => mul_comm _ _

theorem cosine_comm (a b : Nat → Int) : Spec.cosine a b = Spec.cosine b a := by
  unfold Spec.cosine; rw [dot_comm, mul_comm (√(Spec.dot a a))]

theorem cauchy (a b : Nat → Int) : Spec.dot a b ≤ √(Spec.dot a a) * √(Spec.dot b b) := by
  rw [← Real.sqrt_mul (dot_self a)]
  apply Real.le_sqrt_of_sq_le
  have := Finset.sum_mul_sq_le_sq_mul_sq (Finset.range Spec.size) (fun k => (a k : ℝ)) (fun k => (b k : ℝ))
  unfold Spec.dot
  simpa [pow_two] using this

theorem cosine_le_one (hash : Str → Nat) (a b : Str) : Spec.cosine (Spec.vec hash a) (Spec.vec hash b) ≤ 1 := by
  unfold Spec.cosine
  have h1 := Real.sqrt_pos.2 (dot_pos hash a)
  have h2 := Real.sqrt_pos.2 (dot_pos hash b)
  rw [div_le_one (mul_pos h1 h2)]
  exact cauchy _ _

theorem cosine_self (hash : Str → Nat) (a : Str) : Spec.cosine (Spec.vec hash a) (Spec.vec hash a) = 1 := by
  unfold Spec.cosine
  rw [Real.mul_self_sqrt (dot_self _)]
  exact div_self (ne_of_gt (dot_pos hash a))

/-- with coefficients 0, 1 and -1, the dot product is at most the number of words -/
theorem dot_le_self (hash : Str → Nat) (a b : Str) :
    Spec.dot (Spec.vec hash a) (Spec.vec hash b) ≤ Spec.dot (Spec.vec hash a) (Spec.vec hash a) := by
  apply Finset.sum_le_sum
  intro k _
  rcases vec_unit hash a k with h | h | h <;> rcases vec_unit hash b k with h' | h' | h' <;> rw [h, h'] <;> norm_num

theorem cosine_one_iff (hash : Str → Nat) (a b : Str) :
    Spec.cosine (Spec.vec hash a) (Spec.vec hash b) = 1 ↔ ∀ k, Spec.vec hash a k = Spec.vec hash b k := by
  constructor
  · intro h
    have pa := dot_pos hash a
    have pb := dot_pos hash b
    have h1 := Real.sqrt_pos.2 pa
    have h2 := Real.sqrt_pos.2 pb
    have hab : Spec.dot (Spec.vec hash a) (Spec.vec hash b) = √(Spec.dot (Spec.vec hash a) (Spec.vec hash a)) * √(Spec.dot (Spec.vec hash b) (Spec.vec hash b)) := by
      unfold Spec.cosine at h
      rwa [div_eq_one_iff_eq (ne_of_gt (mul_pos h1 h2))] at h
    have la := dot_le_self hash a b
    have lb := dot_le_self hash b a
    rw [dot_comm] at lb
    have sq : Spec.dot (Spec.vec hash a) (Spec.vec hash b) ^ 2 = Spec.dot (Spec.vec hash a) (Spec.vec hash a) * Spec.dot (Spec.vec hash b) (Spec.vec hash b) := by
      rw [hab, mul_pow, Real.sq_sqrt pa.le, Real.sq_sqrt pb.le]
    have pab : 0 < Spec.dot (Spec.vec hash a) (Spec.vec hash b) := by rw [hab]; exact mul_pos h1 h2
    have ea : Spec.dot (Spec.vec hash a) (Spec.vec hash b) = Spec.dot (Spec.vec hash a) (Spec.vec hash a) := by nlinarith
    have eb : Spec.dot (Spec.vec hash a) (Spec.vec hash b) = Spec.dot (Spec.vec hash b) (Spec.vec hash b) := by nlinarith
    have hz : ∑ k ∈ Finset.range Spec.size, ((Spec.vec hash a k : ℝ) - Spec.vec hash b k) ^ 2 = 0 := by
      have : ∑ k ∈ Finset.range Spec.size, ((Spec.vec hash a k : ℝ) - Spec.vec hash b k) ^ 2 =
          Spec.dot (Spec.vec hash a) (Spec.vec hash a) + Spec.dot (Spec.vec hash b) (Spec.vec hash b) -
            2 * Spec.dot (Spec.vec hash a) (Spec.vec hash b) := by
        unfold Spec.dot
        rw [← Finset.sum_add_distrib, Finset.mul_sum, ← Finset.sum_sub_distrib]
        apply Finset.sum_congr rfl
        intro k _; ring
      rw [this]; linarith
    rw [Finset.sum_eq_zero_iff_of_nonneg fun _ _ => sq_nonneg _] at hz
    intro k
    by_cases hk : k < SIZE
    · have := hz k (Finset.mem_range.2 (size_eq ▸ hk))
      rw [pow_eq_zero_iff (by decide), sub_eq_zero] at this
      exact_mod_cast this
    · rw [vec_zero (by omega), vec_zero (by omega)]
  · intro h
    have : Spec.vec hash a = Spec.vec hash b := funext h
    rw [this]; exact cosine_self hash b

end LJ.Index

/-
Rounding errors: with the usual bounds on the operations of `f32`, the computed distances are close
to the exact ones, for every line.
-/
import Verif.Index.Search
import Mathlib.Tactic.FieldSimp
import Mathlib.Tactic.Positivity
import Mathlib.Data.List.Nodup
namespace LJ.Index

/-- the unit roundoff of `f32`: 2^-24 -/
noncomputable def u : ℝ := 1 / 16777216
/-- the smallest positive `f32`: 2^-149 -/
noncomputable def eta : ℝ := 1 / 2 ^ 149

/-- What is known of rounding to nearest in `f32` (for numbers up to 2^101, far from the largest
`f32`): a relative error of `u` up to the underflow `eta`, and the integers up to 2^24 are exact. -/
structure Rounding (fl : ℝ → ℝ) : Prop where
  err : ∀ x, |x| ≤ 2 ^ 101 → |fl x - x| ≤ u * |x| + eta
  nat : ∀ n : ℕ, n ≤ 2 ^ 24 → fl n = n

/-- `s += x * y` computed with two roundings -/
def FP.twoRoundings (fl : ℝ → ℝ) : FP := ⟨fl, fun s x y => fl (s + fl (x * y))⟩
/-- `s += x * y` computed with one rounding (fused multiply-add) -/
def FP.fused (fl : ℝ → ℝ) : FP := ⟨fl, fun s x y => fl (s + x * y)⟩

/-- The consequences used below, common to both. -/
structure FP.Standard (fp : FP) : Prop where
  err : ∀ x, |x| ≤ 2 ^ 100 → |fp.fl x - x| ≤ u * |x| + eta
  nat : ∀ n : ℕ, n ≤ 2 ^ 24 → fp.fl n = n
  acc : ∀ s x y, |s| ≤ 2 ^ 99 → |x * y| ≤ 2 ^ 99 →
    |fp.mulAcc s x y - (s + x * y)| ≤ 3 * u * (|s| + |x * y|) + 3 * eta

theorem u_pos : 0 < u := by unfold u; norm_num
theorem eta_pos : 0 < eta := by unfold eta; positivity
theorem eta_le : eta ≤ u / 1000 := by unfold eta u; norm_num

theorem twoRoundings_standard {fl : ℝ → ℝ} (h : Rounding fl) : (FP.twoRoundings fl).Standard where
  err x hx := h.err x (hx.trans (by norm_num))
  nat := h.nat
  acc s x y hs hxy := by
    show |fl (s + fl (x * y)) - (s + x * y)| ≤ _
    have h1 := h.err (x * y) (hxy.trans (by norm_num))
    have hb : |s + fl (x * y)| ≤ |s| + |x * y| + (u * |x * y| + eta) := by
      have : s + fl (x * y) = s + x * y + (fl (x * y) - x * y) := by ring
      rw [this]
      exact (abs_add_le _ _).trans (add_le_add (abs_add_le _ _) h1)
    have hu : u ≤ 1 / 1000 := by unfold u; norm_num
    have he := eta_le
    have h2 := h.err (s + fl (x * y)) (by
      refine hb.trans ?_
      have : u * |x * y| ≤ 1 / 1000 * 2 ^ 99 := mul_le_mul hu hxy (abs_nonneg _) (by norm_num)
      have h99 : (0:ℝ) < 2 ^ 99 := by positivity
      have : (2:ℝ) ^ 101 = 4 * 2 ^ 99 := by norm_num
      have h1 : (1:ℝ) ≤ 2 ^ 99 := by norm_num
      linarith)
    have h3 : fl (s + fl (x * y)) - (s + x * y) = (fl (s + fl (x * y)) - (s + fl (x * y))) + (fl (x * y) - x * y) := by ring
    rw [h3]
    refine (abs_add_le _ _).trans ?_
    have h4 : u * |s + fl (x * y)| ≤ u * (|s| + |x * y| + (u * |x * y| + eta)) := mul_le_mul_of_nonneg_left hb u_pos.le
    have h5 : u * (u * |x * y|) ≤ u * |x * y| * (1 / 1000) := by
      have := mul_le_mul_of_nonneg_left hu (mul_nonneg u_pos.le (abs_nonneg (x * y)))
      linarith
    have h6 : u * eta ≤ eta := by have := mul_le_mul_of_nonneg_right hu eta_pos.le; have := eta_pos; linarith
    have h7 : 0 ≤ u * |s| := mul_nonneg u_pos.le (abs_nonneg _)
    have h8 : 0 ≤ u * |x * y| := mul_nonneg u_pos.le (abs_nonneg _)
    nlinarith

theorem fused_standard {fl : ℝ → ℝ} (h : Rounding fl) : (FP.fused fl).Standard where
  err x hx := h.err x (hx.trans (by norm_num))
  nat := h.nat
  acc s x y hs hxy := by
    show |fl (s + x * y) - (s + x * y)| ≤ _
    have hb := abs_add_le s (x * y)
    have h2 := h.err (s + x * y) (by
      refine hb.trans ?_
      have : (2:ℝ) ^ 101 = 4 * 2 ^ 99 := by norm_num
      have h1 : (0:ℝ) < 2 ^ 99 := by positivity
      linarith)
    have h4 : u * |s + x * y| ≤ u * (|s| + |x * y|) := mul_le_mul_of_nonneg_left hb u_pos.le
    have h7 : 0 ≤ u * (|s| + |x * y|) := mul_nonneg u_pos.le (by positivity)
    have := eta_pos
    linarith

theorem rounding_id : Rounding id where
  err x _ := by simp only [id, sub_self, abs_zero]; have := eta_pos; have := mul_nonneg u_pos.le (abs_nonneg x); linarith
  nat _ _ := rfl

/-! ### Number of entries -/
variable {fp : FP} {hash : Str → Nat}

theorem keys_nodup {v : Entries} (h : v.Pairwise (fun a b => a.1 < b.1)) : (v.map Prod.fst).Nodup := by
  unfold List.Nodup
  rw [List.pairwise_map]
  exact h.imp fun h => Nat.ne_of_lt h

theorem vecOf_length_le (l : Str) : (vecOf hash l).length ≤ SIZE := by
  have h := (keys_nodup (vecOf_strict hash l)).subperm (l₂ := List.range SIZE) (by
    intro k hk
    obtain ⟨e, he, rfl⟩ := List.mem_map.1 hk
    exact List.mem_range.2 (vecOf_keys he).1)
  simpa using h.length_le

theorem dedupKeys_length (l : Entries) : (dedupKeys l).length ≤ l.length := by
  induction l with
  | nil => simp [dedupKeys]
  | cons x l ih =>
    unfold dedupKeys
    split
    · simp
    · rename_i z zs hz
      rw [hz] at ih
      split <;> simp at ih ⊢ <;> omega

theorem insertKey_length (x : Nat × Int) (l : Entries) : (insertKey x l).length = l.length + 1 := by
  induction l with
  | nil => rfl
  | cons y l ih => unfold insertKey; split <;> simp [ih]

theorem sortKeys_length (l : Entries) : (sortKeys l).length = l.length := by
  induction l with
  | nil => rfl
  | cons x l ih => simp [sortKeys, insertKey_length, ih]

theorem vecOf_length_words (l : Str) : (vecOf hash l).length ≤ (l.splitOn ' ').length := by
  unfold vecOf
  refine (dedupKeys_length _).trans ?_
  rw [sortKeys_length, List.length_map, splitSp_eq]

theorem vecOf_length_pos (l : Str) : 0 < (vecOf hash l).length :=
  List.length_pos_iff.2 (vecOf_ne_nil hash l)

theorem dot_self_length (l : Str) : Spec.dot (Spec.vec hash l) (Spec.vec hash l) = (vecOf hash l).length := by
  rw [← dot_toRow, dot_exact]
  have : ∀ e ∈ toRow (vecOf hash l), e.2 * val (toRow (vecOf hash l)) e.1 = 1 := by
    intro e he
    unfold toRow at he
    obtain ⟨e', he', rfl⟩ := List.mem_map.1 he
    simp only
    rw [val_self (vecOf_strict hash l) he']
    rcases (vecOf_keys he').2 with h | h <;> rw [h] <;> norm_num
  rw [List.map_congr_left this, List.map_const', List.sum_replicate]
  simp [toRow]

/-! ### The entries of a row -/

theorem sq_fold (hst : fp.Standard) (v : Row) (h1 : ∀ e ∈ v, e.2 = 1 ∨ e.2 = -1) (k : ℕ) (hk : k + v.length ≤ 2 ^ 24) :
    v.foldl (fun acc e => fp.fl (acc + fp.fl (e.2 * e.2))) (k : ℝ) = ((k + v.length : ℕ) : ℝ) := by
  induction v generalizing k with
  | nil => simp
  | cons e v ih =>
    rw [List.foldl_cons]
    have e1 : e.2 * e.2 = 1 := by rcases h1 e (by simp) with h | h <;> rw [h] <;> norm_num
    simp only [List.length_cons] at hk
    have f1 : fp.fl 1 = 1 := by have := hst.nat 1 (by norm_num); simpa using this
    have f2 : fp.fl ((k : ℝ) + 1) = ((k + 1 : ℕ) : ℝ) := by
      have := hst.nat (k + 1) (by omega); simpa using this
    rw [e1, f1, f2, ih (fun e he => h1 e (by simp [he])) (k + 1) (by omega)]
    congr 1; simp only [List.length_cons]; omega

theorem toRow_unit (l : Str) : ∀ e ∈ toRow (vecOf hash l), e.2 = 1 ∨ e.2 = -1 := by
  intro e he
  unfold toRow at he
  obtain ⟨e', he', rfl⟩ := List.mem_map.1 he
  rcases (vecOf_keys he').2 with h | h <;> simp [h]

theorem size_val : SIZE = 260000 := rfl
attribute [local irreducible] SIZE Spec.size

theorem l2norm_std (hst : fp.Standard) (l : Str) :
    l2norm fp (toRow (vecOf hash l)) = fp.fl √((vecOf hash l).length : ℝ) := by
  unfold l2norm
  have hl := vecOf_length_le (hash := hash) l
  rw [size_val] at hl
  have := sq_fold hst (toRow (vecOf hash l)) (toRow_unit l) 0 (by simp [toRow]; omega)
  simp only [Nat.cast_zero, zero_add] at this
  rw [this]
  simp [toRow]

/-- an entry of a row is close to `±1/√n` -/
theorem entry_err (hst : fp.Standard) (n : ℕ) (h1 : 1 ≤ n) (h2 : n ≤ 260000) (z : ℝ) (hz : z = 1 ∨ z = -1) :
    |fp.fl (z / fp.fl √(n : ℝ)) - z / √(n : ℝ)| ≤ 4 * u / √(n : ℝ) := by
  have hn1 : (1 : ℝ) ≤ √(n : ℝ) := by rw [Real.one_le_sqrt]; exact_mod_cast h1
  have hn2 : √(n : ℝ) ≤ 510 := by
    rw [Real.sqrt_le_left (by norm_num)]
    have : (n : ℝ) ≤ 260000 := by exact_mod_cast h2
    norm_num; linarith
  set r := √(n : ℝ) with hr
  have hr0 : 0 < r := by linarith
  have hu := u_pos
  have hu2 : u ≤ 1 / 1000000 := by unfold u; norm_num
  have he := eta_le
  have he0 := eta_pos
  have he' : eta ≤ u / 100000000 := by unfold eta u; norm_num
  have hz1 : |z| = 1 := by rcases hz with h | h <;> rw [h] <;> norm_num
  have e1 := hst.err r (by rw [abs_of_pos hr0]; exact hn2.trans (by norm_num))
  rw [abs_of_pos hr0] at e1
  set L := fp.fl r with hL
  have e2 : |L - r| ≤ 1.001 * u * r := by
    refine e1.trans ?_
    have : eta ≤ 0.001 * u * r := by
      have : 0.001 * u * 1 ≤ 0.001 * u * r := mul_le_mul_of_nonneg_left hn1 (by positivity)
      linarith
    linarith
  have hL1 : (1 - 1.001 * u) * r ≤ L := by
    have := (abs_le.1 e2).1; linarith
  have hL0 : 0 < L := by
    refine lt_of_lt_of_le ?_ hL1
    apply mul_pos _ hr0
    linarith
  have hinv : 1 / L ≤ (1 + 1.01 * u) / r := by
    rw [div_le_div_iff₀ hL0 hr0]
    have hq : (1 + 1.01 * u) * ((1 - 1.001 * u) * r) ≤ (1 + 1.01 * u) * L := mul_le_mul_of_nonneg_left hL1 (by linarith)
    have : r ≤ (1 + 1.01 * u) * ((1 - 1.001 * u) * r) := by
      have hpoly : 1 ≤ (1 + 1.01 * u) * (1 - 1.001 * u) := by nlinarith
      calc r = 1 * r := (one_mul r).symm
        _ ≤ ((1 + 1.01 * u) * (1 - 1.001 * u)) * r := mul_le_mul_of_nonneg_right hpoly hr0.le
        _ = _ := by ring
    linarith
  have hzL : |z / L| = 1 / L := by rw [abs_div, hz1, abs_of_pos hL0]
  have hr1 : 1 / r ≤ 1 := by rw [div_le_one hr0]; exact hn1
  have hLle : 1 / L ≤ 2 := by
    refine hinv.trans ?_
    rw [div_eq_mul_one_div]
    nlinarith [one_div_pos.2 hr0]
  have e3 := hst.err (z / L) (by rw [hzL]; exact hLle.trans (by norm_num))
  rw [hzL] at e3
  have e4 : |z / L - z / r| ≤ 1.001 * u * (1 / L) := by
    have : z / L - z / r = z * ((r - L) / (L * r)) := by field_simp
    rw [this, abs_mul, hz1, one_mul, abs_div, abs_of_pos (mul_pos hL0 hr0), abs_sub_comm]
    rw [div_le_iff₀ (mul_pos hL0 hr0)]
    calc |L - r| ≤ 1.001 * u * r := e2
      _ = 1.001 * u * (1 / L) * (L * r) := by field_simp
  have e5 : fp.fl (z / L) - z / r = (fp.fl (z / L) - z / L) + (z / L - z / r) := by ring
  rw [e5]
  refine (abs_add_le _ _).trans ?_
  have h6 : |fp.fl (z / L) - z / L| + |z / L - z / r| ≤ 2.001 * u * (1 / L) + eta := by linarith
  refine h6.trans ?_
  have h7 : 2.001 * u * (1 / L) ≤ 2.001 * u * ((1 + 1.01 * u) / r) := mul_le_mul_of_nonneg_left hinv (by positivity)
  have h8 : eta ≤ u * (1 / r) := by
    have h510 : 1 / 510 ≤ 1 / r := one_div_le_one_div_of_le hr0 hn2
    have : u * (1 / 510) ≤ u * (1 / r) := mul_le_mul_of_nonneg_left h510 hu.le
    linarith
  have h9 : 2.001 * u * ((1 + 1.01 * u) / r) ≤ 3 * u * (1 / r) := by
    have : (1 + 1.01 * u) / r = (1 + 1.01 * u) * (1 / r) := by ring
    rw [this]
    have h10 : 2.001 * (1 + 1.01 * u) ≤ 3 := by nlinarith
    have h11 : 0 ≤ u * (1 / r) := by positivity
    calc 2.001 * u * ((1 + 1.01 * u) * (1 / r)) = (2.001 * (1 + 1.01 * u)) * (u * (1 / r)) := by ring
      _ ≤ 3 * (u * (1 / r)) := mul_le_mul_of_nonneg_right h10 h11
      _ = _ := by ring
  have : 4 * u / r = 3 * u * (1 / r) + u * (1 / r) := by ring
  rw [this]
  linarith

/-! ### The accumulation -/

/-- how many entries of `v` have their index in `t` -/
def common (v t : Entries) : ℕ := (v.filter fun e => (t.lookup e.1).isSome).length

theorem common_cons_none {e : Nat × Int} {v t : Entries} (h : t.lookup e.1 = none) : common (e :: v) t = common v t := by
  unfold common; rw [List.filter_cons_of_neg (by simp [h])]
theorem common_cons_some {e : Nat × Int} {v t : Entries} {y : Int} (h : t.lookup e.1 = some y) :
    common (e :: v) t = common v t + 1 := by
  unfold common; rw [List.filter_cons_of_pos (by simp [h])]; rfl

theorem common_le_left (v t : Entries) : common v t ≤ v.length := List.length_filter_le _ _

theorem common_le_right {v t : Entries} (hv : v.Pairwise (fun a b => a.1 < b.1))
    (ht : t.Pairwise (fun a b => a.1 < b.1)) : common v t ≤ t.length := by
  have hn : ((v.filter fun e => (t.lookup e.1).isSome).map Prod.fst).Nodup := keys_nodup (hv.filter _)
  have := hn.subperm (l₂ := t.map Prod.fst) (by
    intro k hk
    obtain ⟨e, he, rfl⟩ := List.mem_map.1 hk
    rw [List.mem_filter] at he
    obtain ⟨y, hy⟩ := Option.isSome_iff_exists.1 he.2
    exact List.mem_map.2 ⟨(e.1, y), (mem_lookup ht).2 hy, rfl⟩)
  simpa [common] using this.length_le

/-- the exact partial sum -/
noncomputable def exactSum (v t : Entries) : ℝ := (v.map fun e => (e.2 : ℝ) * (((t.lookup e.1).getD 0 : Int) : ℝ)).sum

theorem acc_err (hst : fp.Standard) (X Y : Int → ℝ) (r s : ℝ) (hr : 1 ≤ r) (hs : 1 ≤ s)
    (hX : ∀ z : Int, z = 1 ∨ z = -1 → |X z - z / r| ≤ 4 * u / r)
    (hY : ∀ z : Int, z = 1 ∨ z = -1 → |Y z - z / s| ≤ 4 * u / s)
    (t : Entries) (ht : ∀ k y, t.lookup k = some y → y = 1 ∨ y = -1) :
    ∀ (v : Entries), (∀ e ∈ v, e.2 = 1 ∨ e.2 = -1) → ∀ (acc S : ℝ) (c : ℕ),
      |S| ≤ c / (r * s) → ((c + common v t : ℕ) : ℝ) / (r * s) ≤ 1 → c + common v t ≤ 260000 →
      |acc - S| ≤ 9 * u * (c / (r * s)) + 4 * u * c →
      |(v.map fun e => (e.1, X e.2)).foldl (accStep fp (t.map fun e => (e.1, Y e.2))) acc -
        (S + exactSum v t / (r * s))| ≤
        9 * u * (((c + common v t : ℕ) : ℝ) / (r * s)) + 4 * u * ((c + common v t : ℕ) : ℝ) := by
  intro v
  have hrs : 0 < r * s := by positivity
  induction v with
  | nil =>
    intro _ acc S c _ _ _ h4
    simpa [exactSum, common] using h4
  | cons e v ih =>
    intro hv acc S c h1 h2 h3 h4
    rw [List.map_cons, List.foldl_cons]
    have hstep : accStep fp (t.map fun e => (e.1, Y e.2)) acc (e.1, X e.2) =
        match t.lookup e.1 with | some y => fp.mulAcc acc (X e.2) (Y y) | none => acc := by
      unfold accStep
      simp only
      rw [lookup_map]
      cases t.lookup e.1 <;> rfl
    rw [hstep]
    have hsum : exactSum (e :: v) t = (e.2 : ℝ) * (((t.lookup e.1).getD 0 : Int) : ℝ) + exactSum v t := by
      simp [exactSum]
    cases hl : t.lookup e.1 with
    | none =>
      simp only
      rw [common_cons_none hl] at h2 h3 ⊢
      have := ih (fun e he => hv e (by simp [he])) acc S c h1 h2 h3 h4
      rw [hsum, hl]
      simpa using this
    | some y =>
      simp only
      rw [common_cons_some hl] at h2 h3 ⊢
      have hy := ht _ _ hl
      have hx := hv e (by simp)
      have hu := u_pos
      have hu2 : u ≤ 1 / 1000000 := by unfold u; norm_num
      have he' : eta ≤ u / 1000 := eta_le
      have he0 := eta_pos
      set q := 1 / (r * s) with hq
      have hq0 : 0 < q := by positivity
      have hcq : ∀ c : ℕ, (c : ℝ) / (r * s) = c * q := by intro c; rw [hq]; ring
      -- the product
      have hyx : |(e.2 : ℝ)| = 1 := by rcases hx with h | h <;> rw [h] <;> norm_num
      have hyy : |(y : ℝ)| = 1 := by rcases hy with h | h <;> rw [h] <;> norm_num
      have a1 := hX e.2 hx
      have a2 := hY y hy
      have a1' : 4 * u / r = 4 * u * (1 / r) := by ring
      have a2' : 4 * u / s = 4 * u * (1 / s) := by ring
      have hr0 : 0 < 1 / r := by positivity
      have hs0 : 0 < 1 / s := by positivity
      have hqrs : q = (1 / r) * (1 / s) := by rw [hq]; field_simp
      have hprod : |X e.2 * Y y - (e.2 : ℝ) * y * q| ≤ 9 * u * q := by
        have id1 : X e.2 * Y y - (e.2 : ℝ) * y * q =
            (X e.2 - e.2 / r) * (Y y - y / s) + (X e.2 - e.2 / r) * (y / s) + (e.2 / r) * (Y y - y / s) := by
          rw [hq]; field_simp; ring
        rw [id1]
        refine (abs_add_le _ _).trans ?_
        have b1 : |(X e.2 - e.2 / r) * (Y y - y / s) + (X e.2 - e.2 / r) * (y / s)| ≤
            (4 * u * (1 / r)) * (4 * u * (1 / s)) + (4 * u * (1 / r)) * (1 / s) := by
          refine (abs_add_le _ _).trans (add_le_add ?_ ?_)
          · rw [abs_mul]; exact mul_le_mul (a1' ▸ a1) (a2' ▸ a2) (abs_nonneg _) (by positivity)
          · rw [abs_mul]
            refine mul_le_mul (a1' ▸ a1) ?_ (abs_nonneg _) (by positivity)
            rw [abs_div, hyy, abs_of_pos (by linarith : (0:ℝ) < s)]
        have b2 : |(e.2 / r : ℝ) * (Y y - y / s)| ≤ (1 / r) * (4 * u * (1 / s)) := by
          rw [abs_mul]
          refine mul_le_mul ?_ (a2' ▸ a2) (abs_nonneg _) (by positivity)
          rw [abs_div, hyx, abs_of_pos (by linarith : (0:ℝ) < r)]
        refine (add_le_add b1 b2).trans ?_
        have : (4 * u * (1 / r)) * (4 * u * (1 / s)) + (4 * u * (1 / r)) * (1 / s) + (1 / r) * (4 * u * (1 / s)) =
            (16 * u * u + 8 * u) * q := by rw [hqrs]; ring
        rw [this]
        apply mul_le_mul_of_nonneg_right _ hq0.le
        nlinarith
      have habs1 : |(e.2 : ℝ) * y * q| = q := by rw [abs_mul, abs_mul, hyx, hyy, abs_of_pos hq0]; ring
      have hpabs : |X e.2 * Y y| ≤ 1.001 * q := by
        have : X e.2 * Y y = (X e.2 * Y y - (e.2 : ℝ) * y * q) + (e.2 : ℝ) * y * q := by ring
        rw [this]
        refine (abs_add_le _ _).trans ?_
        rw [habs1]
        have : 9 * u * q ≤ 0.001 * q := mul_le_mul_of_nonneg_right (by linarith) hq0.le
        linarith
      have hpush : (c : ℝ) + 1 + common v t = ((c + (common v t + 1) : ℕ) : ℝ) := by push_cast; ring
      have hc1 : ((c : ℝ) + 1) * q ≤ 1 := by
        rw [hcq] at h2
        have : ((c : ℝ) + 1) * q ≤ ((c + (common v t + 1) : ℕ) : ℝ) * q := by
          apply mul_le_mul_of_nonneg_right _ hq0.le
          rw [← hpush]
          have : (0 : ℝ) ≤ (common v t : ℝ) := Nat.cast_nonneg _
          linarith
        linarith
      have hc260 : (c : ℝ) ≤ 260000 := by
        have : c ≤ 260000 := by omega
        exact_mod_cast this
      have hc0 : (0 : ℝ) ≤ c := Nat.cast_nonneg _
      rw [hcq] at h1 h4
      have hcq1 : (c : ℝ) * q + q ≤ 1 := by have e : ((c : ℝ) + 1) * q = c * q + q := by ring
                                            rw [← e]; exact hc1
      have hcqn : 0 ≤ (c : ℝ) * q := mul_nonneg hc0 hq0.le
      have hcq0 : (c : ℝ) * q ≤ 1 := by linarith
      have hE : |acc - S| ≤ 0.07 := by
        refine h4.trans ?_
        have : 9 * u * (c * q) ≤ 9 * u * 1 := mul_le_mul_of_nonneg_left hcq0 (by positivity)
        have : 4 * u * c ≤ 4 * u * 260000 := mul_le_mul_of_nonneg_left hc260 (by positivity)
        have : u = 1 / 16777216 := rfl
        linarith
      have haccabs : |acc| ≤ c * q + 0.07 := by
        have : acc = (acc - S) + S := by ring
        rw [this]
        refine (abs_add_le _ _).trans ?_
        linarith
      have hq1 : q ≤ 1 := by linarith
      have hacc := hst.acc acc (X e.2) (Y y) (haccabs.trans (by
          have : (1.07:ℝ) ≤ 2 ^ 99 := by norm_num
          linarith)) (hpabs.trans (by
          have : (2:ℝ) ≤ 2 ^ 99 := by norm_num
          linarith))
      have hsmall : 3 * u * (|acc| + |X e.2 * Y y|) + 3 * eta ≤ 4 * u := by
        have : |acc| + |X e.2 * Y y| ≤ 1.08 := by linarith
        have := mul_le_mul_of_nonneg_left this (by positivity : (0:ℝ) ≤ 3 * u)
        linarith
      have := ih (fun e he => hv e (by simp [he])) (fp.mulAcc acc (X e.2) (Y y)) (S + (e.2 : ℝ) * y * q) (c + 1) (by
          rw [hcq]
          refine (abs_add_le _ _).trans ?_
          rw [habs1]; push_cast; linarith) (by
          have e0 : c + 1 + common v t = c + (common v t + 1) := by ring
          rw [e0]; exact h2) (by omega) (by
          rw [hcq]
          have : fp.mulAcc acc (X e.2) (Y y) - (S + (e.2 : ℝ) * y * q) =
              (fp.mulAcc acc (X e.2) (Y y) - (acc + X e.2 * Y y)) + (acc - S) + (X e.2 * Y y - (e.2 : ℝ) * y * q) := by ring
          rw [this]
          refine (abs_add_le _ _).trans ?_
          have b := abs_add_le (fp.mulAcc acc (X e.2) (Y y) - (acc + X e.2 * Y y)) (acc - S)
          push_cast
          linarith)
      have e0 : c + 1 + common v t = c + (common v t + 1) := by ring
      rw [e0] at this
      rw [hsum, hl]
      have e2 : S + ((e.2 : ℝ) * (((some y).getD 0 : Int) : ℝ) + exactSum v t) / (r * s) =
          S + (e.2 : ℝ) * y * q + exactSum v t / (r * s) := by
        rw [hq]; simp only [Option.getD_some]; ring
      rw [e2]
      exact this

/-- The computed dot product of two rows is close to the exact cosine. -/
theorem dot_err (hst : fp.Standard) (a b : Str) (N : ℕ) (hN : (vecOf hash b).length ≤ N) :
    |dot fp (rowOf fp hash a) (rowOf fp hash b) - Spec.cosine (Spec.vec hash a) (Spec.vec hash b)| ≤ (9 + 4 * N) * u := by
  set n := (vecOf hash a).length with hn
  set m := (vecOf hash b).length with hm
  have hn1 : 1 ≤ n := vecOf_length_pos a
  have hm1 : 1 ≤ m := vecOf_length_pos b
  have hn2 : n ≤ 260000 := size_val ▸ vecOf_length_le a
  have hm2 : m ≤ 260000 := size_val ▸ vecOf_length_le b
  have hr : 1 ≤ √(n : ℝ) := by rw [Real.one_le_sqrt]; exact_mod_cast hn1
  have hs : 1 ≤ √(m : ℝ) := by rw [Real.one_le_sqrt]; exact_mod_cast hm1
  have rowform : ∀ l, rowOf fp hash l = (vecOf hash l).map fun e => (e.1, fp.fl ((e.2 : ℝ) / fp.fl √((vecOf hash l).length : ℝ))) := by
    intro l
    unfold rowOf
    rw [l2norm_std hst]
    unfold toRow
    rw [List.map_map]
    rfl
  have hcl := common_le_left (vecOf hash a) (vecOf hash b)
  have hcr := common_le_right (vecOf_strict hash a) (vecOf_strict hash b)
  set c := common (vecOf hash a) (vecOf hash b) with hc
  have hrs : (c : ℝ) ≤ √(n : ℝ) * √(m : ℝ) := by
    rw [← Real.sqrt_mul (Nat.cast_nonneg n)]
    apply Real.le_sqrt_of_sq_le
    have h1 : (c : ℝ) ≤ n := by exact_mod_cast hcl
    have h2 : (c : ℝ) ≤ m := by exact_mod_cast hcr
    rw [pow_two]
    exact mul_le_mul h1 h2 (Nat.cast_nonneg _) (Nat.cast_nonneg _)
  have hpos : 0 < √(n : ℝ) * √(m : ℝ) := by positivity
  have key := acc_err hst (fun z : Int => fp.fl ((z : ℝ) / fp.fl √(n : ℝ))) (fun z : Int => fp.fl ((z : ℝ) / fp.fl √(m : ℝ)))
    (√(n : ℝ)) (√(m : ℝ)) hr hs
    (fun z hz => entry_err hst n hn1 hn2 z (by rcases hz with h | h <;> simp [h]))
    (fun z hz => entry_err hst m hm1 hm2 z (by rcases hz with h | h <;> simp [h]))
    (vecOf hash b) (fun k y hy => (vecOf_keys ((mem_lookup (vecOf_strict hash b)).2 hy)).2)
    (vecOf hash a) (fun e he => (vecOf_keys he).2) 0 0 0 (by simp) (by
      rw [zero_add, div_le_one hpos]; exact hrs) (by rw [← hc]; omega) (by simp)
  have hcos : Spec.cosine (Spec.vec hash a) (Spec.vec hash b) = 0 + exactSum (vecOf hash a) (vecOf hash b) / (√(n : ℝ) * √(m : ℝ)) := by
    unfold Spec.cosine
    rw [dot_self_length, dot_self_length, ← dot_toRow, dot_exact, zero_add]
    congr 1
    unfold exactSum toRow
    rw [List.map_map]
    congr 1
    apply List.map_congr_left
    intro e _
    simp only [Function.comp]
    rw [val_map]
    cases (vecOf hash b).lookup e.1 <;> simp
  rw [hcos, rowform a, rowform b]
  refine key.trans ?_
  have h1 : (((0 + c : ℕ) : ℝ)) / (√(n : ℝ) * √(m : ℝ)) ≤ 1 := by rw [zero_add, div_le_one hpos]; exact hrs
  have h2 : ((0 + c : ℕ) : ℝ) ≤ N := by rw [zero_add]; exact_mod_cast hcr.trans hN
  have hu := u_pos
  have := mul_le_mul_of_nonneg_left h1 (by positivity : (0:ℝ) ≤ 9 * u)
  have := mul_le_mul_of_nonneg_left h2 (by positivity : (0:ℝ) ≤ 4 * u)
  rw [← hc]
  linarith

/-- The computed distance is close to the exact one. -/
theorem rowDistance_err (hst : fp.Standard) (bs : List Str) (t : Str) (d : ℝ) (hd : Spec.IsDistance hash bs t d)
    (N : ℕ) (hN : (vecOf hash t).length ≤ N) (hN2 : N ≤ 260000) :
    |rowDistance fp (bs.map (rowOf fp hash)) (rowOf fp hash t) - d| ≤ (12 + 4 * N) * u := by
  have h := rowDistance_least fp (bs.map (rowOf fp hash)) (rowOf fp hash t)
  set rd := rowDistance fp (bs.map (rowOf fp hash)) (rowOf fp hash t)
  have hu := u_pos
  have hNr : (N : ℝ) ≤ 260000 := by exact_mod_cast hN2
  have hN0 : (0 : ℝ) ≤ N := Nat.cast_nonneg _
  have hδ : 0 ≤ (12 + 4 * (N : ℝ)) * u := by positivity
  have cell : ∀ b ∈ bs, |fp.fl (1 - dot fp (rowOf fp hash b) (rowOf fp hash t)) - (1 - Spec.cosine (Spec.vec hash b) (Spec.vec hash t))| ≤ (12 + 4 * N) * u := by
    intro b _
    have h1 := dot_err (hash := hash) hst b t N hN
    set D := dot fp (rowOf fp hash b) (rowOf fp hash t)
    set C := Spec.cosine (Spec.vec hash b) (Spec.vec hash t) with hC
    have hC1 : C ≤ 1 := cosine_le_one hash b t
    have hC2 : -1 ≤ C := by
      have hneg : -(√(Spec.dot (Spec.vec hash b) (Spec.vec hash b)) * √(Spec.dot (Spec.vec hash t) (Spec.vec hash t))) ≤ Spec.dot (Spec.vec hash b) (Spec.vec hash t) := by
        have := cauchy (fun k => -(Spec.vec hash b k)) (Spec.vec hash t)
        have e1 : Spec.dot (fun k => -(Spec.vec hash b k)) (Spec.vec hash t) = -Spec.dot (Spec.vec hash b) (Spec.vec hash t) := by
          unfold Spec.dot
          rw [← Finset.sum_neg_distrib]
          apply Finset.sum_congr rfl
          intro k _; push_cast; ring
        have e2 : Spec.dot (fun k => -(Spec.vec hash b k)) (fun k => -(Spec.vec hash b k)) = Spec.dot (Spec.vec hash b) (Spec.vec hash b) := by
          unfold Spec.dot
          apply Finset.sum_congr rfl
          intro k _; push_cast; ring
        rw [e1, e2] at this
        linarith
      rw [hC]; unfold Spec.cosine
      rw [le_div_iff₀ (mul_pos (Real.sqrt_pos.2 (dot_pos hash b)) (Real.sqrt_pos.2 (dot_pos hash t)))]
      linarith
    have hu' : u = 1 / 16777216 := rfl
    have hb : (9 + 4 * (N : ℝ)) * u ≤ 0.1 := by
      have := mul_le_mul_of_nonneg_right (by linarith : 9 + 4 * (N : ℝ) ≤ 9 + 4 * 260000) hu.le
      rw [hu'] at this ⊢
      linarith
    have h1' := abs_le.1 h1
    have hD : |1 - D| ≤ 2.1 := by rw [abs_le]; constructor <;> linarith
    have h2 := hst.err (1 - D) (hD.trans (by norm_num))
    have : fp.fl (1 - D) - (1 - C) = (fp.fl (1 - D) - (1 - D)) + -(D - C) := by ring
    rw [this]
    refine (abs_add_le _ _).trans ?_
    rw [abs_neg]
    have h3 := mul_le_mul_of_nonneg_left hD hu.le
    have := eta_le
    linarith
  rw [abs_le]
  constructor
  · -- the computed distance is not too small
    rcases h.1 with h1 | ⟨r, hr, _, h1⟩
    · rw [Set.mem_singleton_iff] at h1
      have := hd.2 (.inl (Set.mem_singleton 1))
      linarith
    · obtain ⟨b, hb, rfl⟩ := List.mem_map.1 hr
      have h2 := (abs_le.1 (cell b hb)).1
      have h3 := hd.2 (.inr ⟨b, hb, rfl⟩)
      linarith
  · rcases hd.1 with h1 | ⟨b, hb, h1⟩
    · rw [Set.mem_singleton_iff] at h1
      have := h.2 (.inl (Set.mem_singleton 1))
      linarith
    · cases hs : stored (rowOf fp hash b) (rowOf fp hash t) with
      | true =>
        have h2 := (abs_le.1 (cell b hb)).2
        have h3 := h.2 (.inr ⟨_, List.mem_map.2 ⟨b, hb, rfl⟩, hs, rfl⟩)
        linarith
      | false =>
        have hc0 : Spec.cosine (Spec.vec hash b) (Spec.vec hash t) = 0 := by
          rw [← dot_rows]
          apply dot_not_stored
          have hk : ∀ (fp' : FP) (l : Str) (k : Nat), ((rowOf fp' hash l).lookup k).isSome = ((vecOf hash l).lookup k).isSome := by
            intro fp' l k
            have : rowOf fp' hash l = (vecOf hash l).map fun e => (e.1, fp'.fl ((e.2 : ℝ) / l2norm fp' (toRow (vecOf hash l)))) := by
              unfold rowOf
              conv => lhs; arg 2; unfold toRow
              rw [List.map_map]; rfl
            rw [this, lookup_map (fun z => fp'.fl ((z : ℝ) / l2norm fp' (toRow (vecOf hash l))))]
            cases (vecOf hash l).lookup k <;> rfl
          have hany : ∀ (fp' : FP), stored (rowOf fp' hash b) (rowOf fp' hash t) = (vecOf hash b).any (fun e => ((vecOf hash t).lookup e.1).isSome) := by
            intro fp'
            unfold stored
            simp only [hk]
            unfold rowOf toRow
            rw [List.map_map, List.any_map]
            rfl
          rw [hany, ← hany fp]; exact hs
        rw [hc0] at h1
        have := h.2 (.inl (Set.mem_singleton 1))
        linarith

end LJ.Index

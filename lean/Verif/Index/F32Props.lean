/-
C17, C18, C19 with the arithmetic of `f32`: the row by row search is within 6 / 2^24 of the exact distance, never
outside of 0 and 1, and exactly 0 for a known line.  The search with matrices can return a negative distance.
-/
import Verif.Index.F32
import Verif.Index.Props
namespace LJ.Index
variable {fp : FP} {hash : Str → Nat}

/-- the integers of at most 2^24 are numbers of `f32` -/
theorem isF32_int {z : ℤ} (h : |z| ≤ 2 ^ 24) : IsF32 z := by
  have := isF32_of_le (m := z) (e := 0) h (by norm_num) (by norm_num)
  simpa using this

theorem int_bound {z : ℤ} (h : |z| ≤ 2 ^ 24) : |(z : ℝ)| ≤ 2 ^ 101 := by
  have : |(z : ℝ)| ≤ 2 ^ 24 := by exact_mod_cast h
  exact this.trans (by norm_num)

theorem fl_int {fl : ℝ → ℝ} (hn : Nearest fl) {z : ℤ} (h : |z| ≤ 2 ^ 24) : fl z = z := hn.exact (int_bound h) (isF32_int h)

theorem mulAcc_int (hf : fp.IsF32) {s x y : ℤ} (h1 : |x * y| ≤ 2 ^ 24) (h2 : |s + x * y| ≤ 2 ^ 24) :
    fp.mulAcc s x y = (s + x * y : ℤ) := by
  obtain ⟨fl, hn, rfl | rfl⟩ := hf
  · show fl (s + fl (x * y)) = _
    have e1 := fl_int hn h1
    have e2 := fl_int hn h2
    push_cast at e1 e2 ⊢
    rw [e1, e2]
  · show fl (s + x * y) = _
    have e2 := fl_int hn h2
    push_cast at e2 ⊢
    exact e2

/-- the sum of the products, with integers -/
def intSum (v t : Entries) : ℤ := (v.map fun e => e.2 * ((t.lookup e.1).getD 0)).sum

theorem unit_prod {x y : ℤ} (hx : x = 1 ∨ x = -1) (hy : y = 1 ∨ y = -1) : x * y = 1 ∨ x * y = -1 := by
  rcases hx with rfl | rfl <;> rcases hy with rfl | rfl <;> simp

theorem dot_int (hf : fp.IsF32) {v t : Entries} (hv : ∀ e ∈ v, e.2 = 1 ∨ e.2 = -1) (ht : ∀ k y, t.lookup k = some y → y = 1 ∨ y = -1)
    (hl : v.length ≤ 2 ^ 24) : dot fp (toRow v) (toRow t) = intSum v t ∧ |intSum v t| ≤ v.length := by
  have key : ∀ (v : Entries) (k : ℤ), (∀ e ∈ v, e.2 = 1 ∨ e.2 = -1) → |k| + v.length ≤ 2 ^ 24 →
      (toRow v).foldl (accStep fp (toRow t)) k = (k + intSum v t : ℤ) ∧ |intSum v t| ≤ v.length := by
    intro v
    induction v with
    | nil => intro k _ _; simp [toRow, intSum]
    | cons e v ih =>
      intro k hv hk
      have hk' : |k| + v.length + 1 ≤ 2 ^ 24 := by simpa [add_assoc] using hk
      have hl : (toRow t).lookup e.1 = (t.lookup e.1).map fun y : ℤ => (y : ℝ) := by
        unfold toRow; exact lookup_map (fun y : ℤ => (y : ℝ)) t e.1
      cases hlk : t.lookup e.1 with
      | none =>
        have := ih k (fun x hx => hv x (List.mem_cons_of_mem _ hx)) (by omega)
        have e1 : intSum (e :: v) t = intSum v t := by simp [intSum, hlk]
        rw [e1]
        refine ⟨?_, ?_⟩
        · rw [← this.1]
          show ((e.1, (e.2 : ℝ)) :: toRow v).foldl _ _ = _
          rw [List.foldl_cons]
          unfold accStep
          simp only [hl, hlk, Option.map_none]
        · rw [List.length_cons]; push_cast; linarith [this.2]
      | some y =>
        have hp := unit_prod (hv e (List.mem_cons_self)) (ht _ _ hlk)
        have hp1 : |e.2 * y| = 1 := by rcases hp with h | h <;> rw [h] <;> rfl
        have hs : |k + e.2 * y| ≤ |k| + 1 := by rw [← hp1]; exact abs_add_le _ _
        have := ih (k + e.2 * y) (fun x hx => hv x (List.mem_cons_of_mem _ hx)) (by omega)
        have e1 : intSum (e :: v) t = e.2 * y + intSum v t := by simp [intSum, hlk]
        rw [e1]
        refine ⟨?_, ?_⟩
        · rw [← add_assoc, ← this.1]
          show ((e.1, (e.2 : ℝ)) :: toRow v).foldl _ _ = _
          rw [List.foldl_cons]
          congr 1
          unfold accStep
          simp only [hl, hlk, Option.map_some]
          exact mulAcc_int hf (by omega) (by omega)
        · rw [List.length_cons]; push_cast
          have := abs_add_le (e.2 * y) (intSum v t)
          omega
  have := key v 0 hv (by simpa using hl)
  unfold dot
  simpa using this

theorem vecOf_unit (l : Str) : ∀ e ∈ vecOf hash l, e.2 = 1 ∨ e.2 = -1 := fun _ he => (vecOf_keys he).2

theorem intSum_spec (a b : Str) : (intSum (vecOf hash a) (vecOf hash b) : ℝ) = Spec.dot (Spec.vec hash a) (Spec.vec hash b) := by
  rw [← dot_toRow, dot_exact]
  unfold intSum toRow
  rw [List.map_map]
  have : ∀ v : Entries, (((v.map fun e => e.2 * ((vecOf hash b).lookup e.1).getD 0).sum : ℤ) : ℝ) =
      (v.map ((fun e : Nat × ℝ => e.2 * val ((vecOf hash b).map fun e => (e.1, (e.2 : ℝ))) e.1) ∘ fun e => (e.1, (e.2 : ℝ)))).sum := by
    intro v
    induction v with
    | nil => simp
    | cons e v ih =>
      rw [List.map_cons, List.map_cons, List.sum_cons, List.sum_cons, ← ih]
      push_cast
      congr 1
      simp only [Function.comp]
      rw [val_map (fun y : ℤ => (y : ℝ))]
      cases (vecOf hash b).lookup e.1 <;> simp
  exact this _

/-- With the arithmetic of `f32`, the products of lines are exact. -/
theorem dot_lines (hf : fp.IsF32) (a b : Str) :
    dot fp (toRow (vecOf hash a)) (toRow (vecOf hash b)) = Spec.dot (Spec.vec hash a) (Spec.vec hash b) := by
  have hl := vecOf_length_le (hash := hash) a
  rw [size_val] at hl
  rw [← intSum_spec]
  exact (dot_int hf (vecOf_unit a) (fun k y hy => vecOf_unit b _ ((mem_lookup (vecOf_strict hash b)).2 hy)) (by omega)).1

/-- the square root of a rounded square -/
theorem sqrt_square {fl : ℝ → ℝ} (hn : Nearest fl) {n : ℕ} (h0 : 1 ≤ n) (h1 : n ≤ 2 ^ 18) : fl √(fl ((n : ℝ) * n)) = n := by
  have hsq : √((n : ℝ) * n) = n := Real.sqrt_mul_self (by positivity)
  have hnn : fl n = n := hn.rounding.nat n (h1.trans (by norm_num))
  have hb : |(n : ℝ) * n| ≤ 2 ^ 101 := by
    rw [abs_of_nonneg (by positivity)]
    have : (n : ℝ) ≤ 2 ^ 18 := by exact_mod_cast h1
    nlinarith
  by_cases hex : IsF32 ((n : ℝ) * n)
  · rw [hn.exact hb hex, hsq, hnn]
  -- `n` is not a power of 2
  obtain ⟨k, hk⟩ : ∃ k, k = Nat.log 2 n := ⟨_, rfl⟩
  have k1 : 2 ^ k ≤ n := by rw [hk]; exact Nat.pow_log_le_self 2 (by omega)
  have k2 : n < 2 ^ (k + 1) := by rw [hk]; exact Nat.lt_pow_succ_log_self (by norm_num) n
  have k3 : k ≤ 18 := by
    by_contra hc
    have : 2 ^ 19 ≤ 2 ^ k := Nat.pow_le_pow_right (by norm_num) (by omega)
    omega
  have k4 : 2 ^ k ≠ n := by
    rintro rfl
    apply hex
    refine ⟨1, 2 * k, by norm_num, by omega, by omega, ?_⟩
    push_cast
    rw [show (2 * (k : ℤ)) = k + k by ring, zpow_add₀ (by norm_num), zpow_natCast]; ring
  have hm : (n : ℝ) = ((n * 2 ^ (23 - k) : ℕ) : ℤ) * 2 ^ ((k : ℤ) - 23) := by
    obtain ⟨j, hj⟩ : ∃ j, 23 = k + j := ⟨23 - k, by omega⟩
    rw [show 23 - k = j by omega, show (k : ℤ) - 23 = -(j : ℤ) by omega, zpow_neg, zpow_natCast]
    push_cast
    rw [mul_assoc, mul_inv_cancel₀ (by positivity), mul_one]
  have hp23 : 2 ^ k * 2 ^ (23 - k) = 2 ^ 23 := by rw [← pow_add]; congr 1; omega
  have hp24 : 2 ^ (k + 1) * 2 ^ (23 - k) = 2 ^ 24 := by rw [← pow_add]; congr 1; omega
  have hpos : 0 < 2 ^ (23 - k) := by positivity
  have m1 : 2 ^ 23 < n * 2 ^ (23 - k) := by
    rw [← hp23]; exact Nat.mul_lt_mul_of_pos_right (by omega) hpos
  have m2 : n * 2 ^ (23 - k) < 2 ^ 24 := by
    rw [← hp24]; exact Nat.mul_lt_mul_of_pos_right k2 hpos
  have herr := hn.rounding.err _ hb
  rw [abs_of_nonneg (by positivity : (0:ℝ) ≤ (n : ℝ) * n)] at herr
  generalize hA : fl ((n : ℝ) * n) = a at herr ⊢
  have hn1 : (1 : ℝ) ≤ n := by exact_mod_cast h0
  have hn2 : (n : ℝ) ≤ 2 ^ 18 := by exact_mod_cast h1
  have hup : u ≤ 1 / 1000 := by unfold u; norm_num
  have he := eta_le
  have hu0 := u_pos
  have hnsq : (1 : ℝ) ≤ (n : ℝ) * n := by nlinarith
  have ha0 : 0 ≤ a := by
    have := (abs_le.1 herr).1
    nlinarith
  have hs0 := Real.sqrt_nonneg a
  have hss := Real.mul_self_sqrt ha0
  generalize √a = s at hs0 hss ⊢
  -- the distance between `n` and the root
  have hkr : (2 : ℝ) ^ k ≤ n := by exact_mod_cast k1
  have hkr2 : (n : ℝ) ≤ 2 * 2 ^ k - 1 := by
    have : n + 1 ≤ 2 * 2 ^ k := by rw [pow_succ] at k2; omega
    have : ((n + 1 : ℕ) : ℝ) ≤ ((2 * 2 ^ k : ℕ) : ℝ) := by exact_mod_cast this
    push_cast at this
    linarith
  have hkk : (2 : ℝ) ^ k ≤ 2 ^ 18 := pow_le_pow_right₀ (by norm_num) k3
  have hdiff : |(n : ℝ) - s| < u * 2 ^ k := by
    have hfac : (s - n) * (s + n) = a - n * n := by rw [← hss]; ring
    have hlow : n * (1 - 2 * u) ≤ s := by
      by_contra hc
      rw [not_le] at hc
      have h2 := (abs_le.1 herr).1
      have : s * s < (n * (1 - 2 * u)) * (n * (1 - 2 * u)) := by nlinarith
      rw [hss] at this
      have e : (n * (1 - 2 * u)) * (n * (1 - 2 * u)) = (n : ℝ) * n * (1 - 4 * u + 4 * u * u) := by ring
      rw [e] at this
      have a1 : u * 1 ≤ u * ((n : ℝ) * n) := mul_le_mul_of_nonneg_left hnsq hu0.le
      have a2 : u * (u * ((n : ℝ) * n)) ≤ 1 / 1000 * (u * ((n : ℝ) * n)) := mul_le_mul_of_nonneg_right hup (by positivity)
      linarith
    have hsum : 2 * n * (1 - u) ≤ s + n := by nlinarith
    have hpos : 0 < s + n := by linarith
    rw [abs_sub_comm]
    have hab : |s - n| * (s + n) ≤ u * (n * n) + eta := by
      rw [← abs_of_pos hpos, ← abs_mul, hfac]; exact herr
    by_contra hc
    rw [not_lt] at hc
    have h3 : u * 2 ^ k * (2 * n * (1 - u)) ≤ u * (n * n) + eta :=
      le_trans (mul_le_mul hc hsum (by nlinarith) (abs_nonneg _)) hab
    -- 2^k · 2 (1 - u) ≥ n + 1 - small
    have h4 : (n : ℝ) + 1 / 2 ≤ 2 * 2 ^ k * (1 - u) := by
      have : 2 * 2 ^ k * u ≤ 1 / 2 := by
        unfold u
        nlinarith
      nlinarith
    have h5 : u * n * ((n : ℝ) + 1 / 2) ≤ u * n * (2 * 2 ^ k * (1 - u)) := mul_le_mul_of_nonneg_left h4 (by positivity)
    nlinarith
  rw [hm]
  refine hn.eq_of_close ?_ (by exact_mod_cast m1) (by exact_mod_cast m2) (by omega) (by omega) ?_
  · rw [abs_of_nonneg hs0]
    have := (abs_lt.1 hdiff).1
    have h6 : u * 2 ^ k ≤ 2 ^ 18 := by nlinarith
    have : s ≤ 2 ^ 18 + 2 ^ 18 := by linarith
    exact this.trans (by norm_num)
  · rw [← hm]
    refine hdiff.trans_eq ?_
    unfold u
    rw [zpow_sub₀ (by norm_num), zpow_natCast]
    norm_num
    ring

/-- the denominator of the similarity -/
theorem denominator {fl : ℝ → ℝ} (hn : Nearest fl) {n m : ℕ} (pa : 1 ≤ n) (pb : 1 ≤ m) (la : n ≤ 2 ^ 18) (lb : m ≤ 2 ^ 18) :
    |fl √(fl ((n : ℝ) * m)) - √((n : ℝ) * m)| ≤ 2.1 * u * √((n : ℝ) * m) ∧
    (∀ k : ℕ, 1 ≤ k → (k * k : ℝ) ≤ n * m → (k : ℝ) ≤ fl √(fl ((n : ℝ) * m))) := by
  have n1 : (1 : ℝ) ≤ n := by exact_mod_cast pa
  have m1 : (1 : ℝ) ≤ m := by exact_mod_cast pb
  have n2 : (n : ℝ) ≤ 2 ^ 18 := by exact_mod_cast la
  have m2 : (m : ℝ) ≤ 2 ^ 18 := by exact_mod_cast lb
  have hP1 : (1 : ℝ) ≤ n * m := by nlinarith
  have hP2 : (n * m : ℝ) ≤ 2 ^ 36 := by nlinarith
  have hPb : |(n * m : ℝ)| ≤ 2 ^ 101 := by rw [abs_of_nonneg (by linarith)]; exact hP2.trans (by norm_num)
  generalize (n * m : ℝ) = P at hP1 hP2 hPb ⊢
  clear n1 m1 n2 m2
  have errP := hn.rounding.err _ hPb
  rw [abs_of_nonneg (by linarith : (0:ℝ) ≤ P)] at errP
  have hu1 : u ≤ 1 / 1000 := by unfold u; norm_num
  have hu0 := u_pos
  have he0 := eta_pos
  have he := eta_le
  have hmonoP : ∀ k : ℕ, (k * k : ℝ) ≤ P → fl (k * k) ≤ fl P := by
    intro k hkk
    refine hn.mono ?_ hPb hkk
    rw [abs_of_nonneg (by positivity)]
    exact (hkk.trans hP2).trans (by norm_num)
  generalize fl P = p at errP hmonoP ⊢
  have p0 : 0 < p := by have := (abs_le.1 errP).1; nlinarith
  have p1 : p ≤ 2 ^ 37 := by have := (abs_le.1 errP).2; nlinarith
  have hr1 : (1 : ℝ) ≤ √P := Real.one_le_sqrt.2 hP1
  have hrr := Real.mul_self_sqrt (by linarith : (0:ℝ) ≤ P)
  have hs0 := Real.sqrt_nonneg p
  have hss := Real.mul_self_sqrt p0.le
  have hsqb : √p ≤ 2 ^ 37 := by
    rw [Real.sqrt_le_left (by norm_num)]
    exact p1.trans (by norm_num)
  have hsqbb : |√p| ≤ 2 ^ 101 := by rw [abs_of_nonneg hs0]; exact hsqb.trans (by norm_num)
  have errS := hn.rounding.err _ hsqbb
  rw [abs_of_nonneg hs0] at errS
  refine ⟨?_, ?_⟩
  · have hroot : |√p - √P| ≤ (u + eta) * √P := by
      have hfac : (√p - √P) * (√p + √P) = p - P := by
        have e : (√p - √P) * (√p + √P) = √p * √p - √P * √P := by ring
        rw [e, hss, hrr]
      have hpos : 0 < √p + √P := by linarith
      have h1 : |√p - √P| * (√p + √P) ≤ u * P + eta := by
        rw [← abs_of_pos hpos, ← abs_mul, hfac]; exact errP
      by_contra hc
      rw [not_le] at hc
      have h2 : (u + eta) * √P * √P < |√p - √P| * (√p + √P) :=
        lt_of_lt_of_le (mul_lt_mul_of_pos_right hc (by linarith)) (mul_le_mul_of_nonneg_left (by linarith) (abs_nonneg _))
      rw [mul_assoc, hrr] at h2
      nlinarith
    generalize fl √p = q at errS ⊢
    generalize √p = sp at *
    generalize √P = r at *
    have t1 := abs_le.1 hroot
    have t2 := abs_le.1 errS
    have b2 : eta * r ≤ u / 1000 * r := mul_le_mul_of_nonneg_right he (by linarith)
    have b4 : u * r ≤ 1 / 1000 * r := mul_le_mul_of_nonneg_right hu1 (by linarith)
    have : sp ≤ 1.002 * r := by linarith
    have b1 : u * sp ≤ u * (1.002 * r) := mul_le_mul_of_nonneg_left this hu0.le
    have b3 : u * 1 ≤ u * r := mul_le_mul_of_nonneg_left hr1 hu0.le
    rw [abs_le]; constructor <;> linarith
  · intro k hk1 hkk
    have hk2 : k ≤ 2 ^ 18 := by
      have : (k : ℝ) * k ≤ ((2 ^ 18 : ℕ) : ℝ) * ((2 ^ 18 : ℕ) : ℝ) := by push_cast; linarith
      have : k * k ≤ 2 ^ 18 * 2 ^ 18 := by exact_mod_cast this
      exact Nat.mul_self_le_mul_self_iff.1 this
    have e := sqrt_square hn hk1 hk2
    rw [← e]
    refine hn.mono ?_ hsqbb (Real.sqrt_le_sqrt (hmonoP k hkk))
    rw [abs_of_nonneg (Real.sqrt_nonneg _)]
    exact (Real.sqrt_le_sqrt (hmonoP k hkk)).trans (hsqb.trans (by norm_num))

/-- the quotient -/
theorem quotient {fl : ℝ → ℝ} (hn : Nearest fl) {q r D : ℝ} (hr1 : 1 ≤ r) (hqr : |q - r| ≤ 2.1 * u * r) (hDr : |D| ≤ r) :
    0 < q ∧ |D / q| ≤ 2 ^ 101 ∧ |fl (D / q) - D / r| ≤ 4 * u := by
  have hu1 : u ≤ 1 / 1000 := by unfold u; norm_num
  have hu0 := u_pos
  have he0 := eta_pos
  have he := eta_le
  have b4 : u * r ≤ 1 / 1000 * r := mul_le_mul_of_nonneg_right hu1 (by linarith)
  have hq1 : 0.99 * r ≤ q := by have := (abs_le.1 hqr).1; linarith
  have hq0 : 0 < q := by linarith
  have hDq : |D / q| ≤ 1.02 := by
    rw [abs_div, abs_of_pos hq0, div_le_iff₀ hq0]; linarith
  have hDqb : |D / q| ≤ 2 ^ 101 := hDq.trans (by norm_num)
  have errD := hn.rounding.err _ hDqb
  have hDD : |D / q - D / r| ≤ 2.2 * u := by
    have hr0 : 0 < r := by linarith
    have : D / q - D / r = D / r * ((r - q) / q) := by field_simp
    rw [this, abs_mul, abs_div, abs_div, abs_of_pos hr0, abs_of_pos hq0, abs_sub_comm r q]
    have c1 : |D| / r ≤ 1 := by rw [div_le_one hr0]; exact hDr
    have c2 : |q - r| / q ≤ 2.2 * u := by
      rw [div_le_iff₀ hq0]
      have : 2.2 * u * (0.99 * r) ≤ 2.2 * u * q := mul_le_mul_of_nonneg_left hq1 (by positivity)
      have := mul_pos hu0 hr0
      linarith
    calc |D| / r * (|q - r| / q) ≤ 1 * (2.2 * u) := mul_le_mul c1 c2 (by positivity) (by norm_num)
      _ = _ := by ring
  refine ⟨hq0, hDqb, ?_⟩
  have : fl (D / q) - D / r = (fl (D / q) - D / q) + (D / q - D / r) := by ring
  rw [this]
  refine (abs_add_le _ _).trans ?_
  have : u * |D / q| ≤ u * 1.02 := mul_le_mul_of_nonneg_left hDq hu0.le
  linarith

/-- The similarity of two lines, with the arithmetic of `f32`: at most 1, exactly 1 for the same line, and close to
the cosine. -/
theorem similarity_f32 (hf : fp.IsF32) (a b : Str) (s : ℝ)
    (hs : s = similarity fp ⟨dot fp (toRow (vecOf hash a)) (toRow (vecOf hash a)), toRow (vecOf hash a)⟩
      ⟨dot fp (toRow (vecOf hash b)) (toRow (vecOf hash b)), toRow (vecOf hash b)⟩) :
    s ≤ 1 ∧ (a = b → s = 1) ∧ |s - Spec.cosine (Spec.vec hash a) (Spec.vec hash b)| ≤ 4 * u := by
  have hn := hf.nearest
  have f1 : fp.fl 1 = 1 := by have := hn.rounding.nat 1 (by norm_num); simpa using this
  have la := vecOf_length_le (hash := hash) a
  have lb := vecOf_length_le (hash := hash) b
  have pa := vecOf_length_pos (hash := hash) a
  have pb := vecOf_length_pos (hash := hash) b
  rw [size_val] at la lb
  have hcauchy := cauchy (Spec.vec hash a) (Spec.vec hash b)
  have hcauchy' : -(√(Spec.dot (Spec.vec hash a) (Spec.vec hash a)) * √(Spec.dot (Spec.vec hash b) (Spec.vec hash b))) ≤
      Spec.dot (Spec.vec hash a) (Spec.vec hash b) := by
    have := cauchy (fun k => -Spec.vec hash a k) (Spec.vec hash b)
    have e1 : Spec.dot (fun k => -Spec.vec hash a k) (Spec.vec hash b) = -Spec.dot (Spec.vec hash a) (Spec.vec hash b) := by
      unfold Spec.dot; rw [← Finset.sum_neg_distrib]; refine Finset.sum_congr rfl fun k _ => by push_cast; ring
    have e2 : Spec.dot (fun k => -Spec.vec hash a k) (fun k => -Spec.vec hash a k) = Spec.dot (Spec.vec hash a) (Spec.vec hash a) := by
      unfold Spec.dot; refine Finset.sum_congr rfl fun k _ => by push_cast; ring
    rw [e1, e2] at this
    linarith
  have hself : a = b → Spec.dot (Spec.vec hash a) (Spec.vec hash b) = (vecOf hash a).length := by rintro rfl; exact dot_self_length a
  have hab : a = b → (vecOf hash b).length = (vecOf hash a).length := by rintro rfl; rfl
  unfold similarity at hs
  unfold Spec.cosine
  simp only [dot_lines hf, dot_self_length] at hs hcauchy hcauchy' ⊢
  have hint := intSum_spec (hash := hash) a b
  generalize Spec.dot (Spec.vec hash a) (Spec.vec hash b) = D at hs hcauchy hcauchy' hself hint ⊢
  generalize (vecOf hash a).length = n at hs hcauchy hcauchy' hself hab la pa ⊢
  generalize (vecOf hash b).length = m at hs hcauchy hcauchy' hab lb pb ⊢
  rw [← Real.sqrt_mul (by positivity)] at hcauchy hcauchy' ⊢
  obtain ⟨hd1, hd2⟩ := denominator hn pa pb (la.trans (by norm_num)) (lb.trans (by norm_num))
  have hP1 : (1 : ℝ) ≤ n * m := by
    have n1 : (1 : ℝ) ≤ n := by exact_mod_cast pa
    have m1 : (1 : ℝ) ≤ m := by exact_mod_cast pb
    nlinarith
  have hr1 : (1 : ℝ) ≤ √((n : ℝ) * m) := Real.one_le_sqrt.2 hP1
  have hrr := Real.mul_self_sqrt (by linarith : (0:ℝ) ≤ (n : ℝ) * m)
  obtain ⟨hq0, hDqb, hclose⟩ := quotient hn hr1 hd1 (abs_le.2 ⟨hcauchy', hcauchy⟩)
  refine ⟨?_, ?_, ?_⟩
  · rw [hs, ← f1]
    refine hn.mono hDqb (by norm_num) ?_
    rw [div_le_one hq0]
    by_cases hD : D ≤ 0
    · linarith
    · rw [not_le] at hD
      obtain ⟨z, hz⟩ : ∃ z : ℤ, (z : ℝ) = D := ⟨_, hint⟩
      have hz0 : 0 < z := by rw [← hz] at hD; exact_mod_cast hD
      obtain ⟨k, rfl⟩ : ∃ k : ℕ, z = k := ⟨z.toNat, by omega⟩
      rw [← hz]
      push_cast at hz ⊢
      refine hd2 k (by omega) ?_
      rw [hz, ← hrr]
      exact mul_le_mul hcauchy hcauchy hD.le (by linarith)
  · intro e
    have hD := hself e
    have hmn := hab e
    subst hmn
    rw [hs, hD, sqrt_square hn pb (lb.trans (by norm_num)), div_self (by have : (1:ℝ) ≤ m := by exact_mod_cast pb
                                                                         linarith), f1]
  · rw [hs]; exact hclose

/-- The search of one line. -/
theorem search_f32 (hf : fp.IsF32) (bs : List Str) (t : Str) (fs : List Features) (h : index fp hash bs = some fs) :
    ∃ d, search fp hash fs t = some d ∧ 0 ≤ d ∧ d ≤ 1 ∧ (t ∈ bs → d = 0) ∧ ∀ e, Spec.IsDistance hash bs t e → |d - e| ≤ 6 / 2 ^ 24 := by
  have hn := hf.nearest
  have f0 : fp.fl 0 = 0 := by have := hn.rounding.nat 0 (by norm_num); simpa using this
  have f1 : fp.fl 1 = 1 := by have := hn.rounding.nat 1 (by norm_num); simpa using this
  rw [index_eq] at h
  simp only [Option.some.injEq] at h
  unfold search
  rw [intoFeature_eq]
  refine ⟨_, rfl, ?_⟩
  have hg := foldl_max (similarity fp ⟨dot fp (toRow (vecOf hash t)) (toRow (vecOf hash t)), toRow (vecOf hash t)⟩) fs
  have hmem : ∀ x, (∃ b ∈ fs, x = similarity fp ⟨dot fp (toRow (vecOf hash t)) (toRow (vecOf hash t)), toRow (vecOf hash t)⟩ b) ↔
      ∃ b ∈ bs, x = similarity fp ⟨dot fp (toRow (vecOf hash t)) (toRow (vecOf hash t)), toRow (vecOf hash t)⟩
        ⟨dot fp (toRow (vecOf hash b)) (toRow (vecOf hash b)), toRow (vecOf hash b)⟩ := by
    intro x
    rw [← h]
    constructor
    · rintro ⟨b, hb, rfl⟩
      obtain ⟨l, hl, rfl⟩ := List.mem_map.1 hb
      exact ⟨l, hl, rfl⟩
    · rintro ⟨l, hl, rfl⟩
      exact ⟨_, List.mem_map.2 ⟨l, hl, rfl⟩, rfl⟩
  generalize fs.foldl _ (0 : ℝ) = M at hg ⊢
  have M0 : 0 ≤ M := hg.2 (.inl rfl)
  have M1 : M ≤ 1 := by
    rcases hg.1 with h0 | h1
    · rw [Set.mem_singleton_iff] at h0; rw [h0]; norm_num
    · obtain ⟨b, _, e⟩ := (hmem _).1 h1
      exact (similarity_f32 hf t b _ e).1
  have hb : |1 - M| ≤ 2 ^ 101 := by rw [abs_of_nonneg (by linarith)]; have : (1:ℝ) ≤ 2 ^ 101 := by norm_num
                                    linarith
  refine ⟨?_, ?_, ?_, ?_⟩
  · rw [← f0]; exact hn.mono (by norm_num) hb (by linarith)
  · refine le_trans (hn.mono hb (by norm_num) (by linarith : 1 - M ≤ 1)) f1.le
  · intro ht
    have := hg.2 (.inr ((hmem _).2 ⟨t, ht, rfl⟩))
    rw [(similarity_f32 hf t t _ rfl).2.1 rfl] at this
    have : M = 1 := le_antisymm M1 this
    rw [this, sub_self, f0]
  · intro e he
    have hu0 := u_pos
    have hup : u = 1 / 2 ^ 24 := by unfold u; norm_num
    have hM : |M - (1 - e)| ≤ 4 * u := by
      rw [abs_le]
      constructor
      · rcases he.1 with h0 | ⟨b, hb, e1⟩
        · rw [Set.mem_singleton_iff] at h0; rw [h0]; linarith
        · have h1 := hg.2 (.inr ((hmem _).2 ⟨b, hb, rfl⟩))
          have h2 := (abs_le.1 (similarity_f32 (hash := hash) hf t b _ rfl).2.2).1
          rw [cosine_comm] at h2
          rw [e1]
          linarith
      · rcases hg.1 with h0 | h1
        · rw [Set.mem_singleton_iff] at h0
          have := he.2 (Set.mem_union_left _ (Set.mem_singleton (1:ℝ)))
          rw [h0]; linarith
        · obtain ⟨b, hb, e1⟩ := (hmem _).1 h1
          have h2 := (abs_le.1 (similarity_f32 hf t b _ e1).2.2).2
          have h3 := he.2 (.inr ⟨b, hb, rfl⟩)
          rw [cosine_comm] at h2
          linarith
    have herr := hn.rounding.err _ hb
    rw [abs_of_nonneg (by linarith : (0:ℝ) ≤ 1 - M)] at herr
    have he' := eta_le
    have e2 : fp.fl (1 - M) - e = (fp.fl (1 - M) - (1 - M)) - (M - (1 - e)) := by ring
    rw [e2]
    refine (abs_sub _ _).trans ?_
    have : u * (1 - M) ≤ u * 1 := mul_le_mul_of_nonneg_left (by linarith) hu0.le
    have : (6 : ℝ) / 2 ^ 24 = 6 * u := by rw [hup]; ring
    linarith

/-- With the arithmetic of `f32`, `index` and `search` return for each line a number between 0 and 1, which is 0 for a
line of the baseline, and within 6 / 2^24 of the exact distance, for lines of any length. -/
theorem C19_rows_f32 (hf : fp.IsF32) (bs ts : List Str) : ∃ ds, viaRows fp hash bs ts = some ds ∧
    List.Forall₂ (fun t (d : ℝ) => 0 ≤ d ∧ d ≤ 1 ∧ (t ∈ bs → d = 0) ∧ ∀ e, Spec.IsDistance hash bs t e → |d - e| ≤ 6 / 2 ^ 24) ts ds := by
  unfold viaRows
  obtain ⟨fs, hfs⟩ : ∃ fs, index fp hash bs = some fs := ⟨_, index_eq fp _ bs⟩
  rw [hfs]
  simp only [Option.bind_eq_bind, Option.bind_some]
  induction ts with
  | nil => exact ⟨[], rfl, .nil⟩
  | cons t ts ih =>
    obtain ⟨ds, h1, h2⟩ := ih
    obtain ⟨d, h3, h4⟩ := search_f32 hf bs t fs hfs
    exact ⟨d :: ds, by simp [List.mapM_cons, h1, h3], .cons h4 h2⟩


/-! ### A negative distance -/

/-- a step of a computation: the exact result `x` is close to the `f32` `m 2^e` -/
theorem Nearest.step {fl : ℝ → ℝ} (h : Nearest fl) {x y : ℝ} (m e : ℤ) (hy : y = m * 2 ^ e) (h1 : 2 ^ 23 ≤ m) (h2 : m < 2 ^ 24) (h3 : -149 ≤ e) (h4 : e ≤ 104)
    (hx : |x| ≤ 2 ^ 101) (hc : |m * 2 ^ e - x| < 2 ^ e / 4 ∨ 2 ^ 23 < m ∧ |m * 2 ^ e - x| < 2 ^ e / 2) : fl x = y := by
  rw [hy]
  rcases hc with hc | ⟨h5, hc⟩
  · exact h.eq_of_close' hx h1 h2 h3 h4 hc
  · exact h.eq_of_close hx h5 h2 h3 h4 hc

/-- the norm of ten words -/
theorem ten_norm {fl : ℝ → ℝ} (h : Nearest fl) : fl √10 = 13263554 / 2 ^ 22 := by
  have hs0 := Real.sqrt_nonneg 10
  have hss := Real.mul_self_sqrt (by norm_num : (0:ℝ) ≤ 10)
  have b1 : ((26527107 : ℝ) / 2 ^ 23) < √10 := by rw [Real.lt_sqrt (by norm_num)]; norm_num
  have b2 : √10 < ((26527109 : ℝ) / 2 ^ 23) := by rw [Real.sqrt_lt' (by norm_num)]; norm_num
  refine h.step 13263554 (-22) (by norm_num) (by norm_num) (by norm_num) (by norm_num) (by norm_num) ?_ (.inr ⟨by norm_num, ?_⟩)
  · rw [abs_of_nonneg hs0]; norm_num at b2 ⊢; linarith
  · rw [abs_lt]; norm_num at b1 b2 ⊢; constructor <;> linarith

/-- an entry of the row -/
theorem ten_entry {fl : ℝ → ℝ} (h : Nearest fl) : fl (1 / (13263554 / 2 ^ 22)) = 10610843 / 2 ^ 25 :=
  h.step 10610843 (-25) (by norm_num) (by norm_num) (by norm_num) (by norm_num) (by norm_num) (by rw [abs_le]; norm_num)
    (.inr ⟨by norm_num, by rw [abs_lt]; norm_num⟩)

/-- the product of the row with itself is more than 1, with two roundings -/
theorem ten_twoRoundings {fl : ℝ → ℝ} (h : Nearest fl) :
    (List.replicate 10 (10610843 / 2 ^ 25 : ℝ)).foldl (fun s x => (FP.twoRoundings fl).mulAcc s x x) 0 = 1 + 1 / 2 ^ 23 := by
  have p : fl ((10610843 / 2 ^ 25) * (10610843 / 2 ^ 25)) = 13421773 / 2 ^ 27 :=
    h.step 13421773 (-27) (by norm_num) (by norm_num) (by norm_num) (by norm_num) (by norm_num) (by rw [abs_le]; norm_num)
      (.inr ⟨by norm_num, by rw [abs_lt]; norm_num⟩)
  have s0 : fl (0 + 13421773 / 2 ^ 27) = 13421773 / 2 ^ 27 :=
    h.step 13421773 (-27) (by norm_num) (by norm_num) (by norm_num) (by norm_num) (by norm_num) (by rw [abs_le]; norm_num)
      (.inr ⟨by norm_num, by rw [abs_lt]; norm_num⟩)
  have s1 : fl (13421773 / 2 ^ 27 + 13421773 / 2 ^ 27) = 13421773 / 2 ^ 26 :=
    h.step 13421773 (-26) (by norm_num) (by norm_num) (by norm_num) (by norm_num) (by norm_num) (by rw [abs_le]; norm_num)
      (.inr ⟨by norm_num, by rw [abs_lt]; norm_num⟩)
  have s2 : fl (13421773 / 2 ^ 26 + 13421773 / 2 ^ 27) = 10066330 / 2 ^ 25 :=
    h.step 10066330 (-25) (by norm_num) (by norm_num) (by norm_num) (by norm_num) (by norm_num) (by rw [abs_le]; norm_num)
      (.inr ⟨by norm_num, by rw [abs_lt]; norm_num⟩)
  have s3 : fl (10066330 / 2 ^ 25 + 13421773 / 2 ^ 27) = 13421773 / 2 ^ 25 :=
    h.step 13421773 (-25) (by norm_num) (by norm_num) (by norm_num) (by norm_num) (by norm_num) (by rw [abs_le]; norm_num)
      (.inr ⟨by norm_num, by rw [abs_lt]; norm_num⟩)
  have s4 : fl (13421773 / 2 ^ 25 + 13421773 / 2 ^ 27) = 8388608 / 2 ^ 24 :=
    h.step 8388608 (-24) (by norm_num) (by norm_num) (by norm_num) (by norm_num) (by norm_num) (by rw [abs_le]; norm_num)
      (.inl (by rw [abs_lt]; norm_num))
  have s5 : fl (8388608 / 2 ^ 24 + 13421773 / 2 ^ 27) = 10066330 / 2 ^ 24 :=
    h.step 10066330 (-24) (by norm_num) (by norm_num) (by norm_num) (by norm_num) (by norm_num) (by rw [abs_le]; norm_num)
      (.inr ⟨by norm_num, by rw [abs_lt]; norm_num⟩)
  have s6 : fl (10066330 / 2 ^ 24 + 13421773 / 2 ^ 27) = 11744052 / 2 ^ 24 :=
    h.step 11744052 (-24) (by norm_num) (by norm_num) (by norm_num) (by norm_num) (by norm_num) (by rw [abs_le]; norm_num)
      (.inr ⟨by norm_num, by rw [abs_lt]; norm_num⟩)
  have s7 : fl (11744052 / 2 ^ 24 + 13421773 / 2 ^ 27) = 13421774 / 2 ^ 24 :=
    h.step 13421774 (-24) (by norm_num) (by norm_num) (by norm_num) (by norm_num) (by norm_num) (by rw [abs_le]; norm_num)
      (.inr ⟨by norm_num, by rw [abs_lt]; norm_num⟩)
  have s8 : fl (13421774 / 2 ^ 24 + 13421773 / 2 ^ 27) = 15099496 / 2 ^ 24 :=
    h.step 15099496 (-24) (by norm_num) (by norm_num) (by norm_num) (by norm_num) (by norm_num) (by rw [abs_le]; norm_num)
      (.inr ⟨by norm_num, by rw [abs_lt]; norm_num⟩)
  have s9 : fl (15099496 / 2 ^ 24 + 13421773 / 2 ^ 27) = 8388609 / 2 ^ 23 :=
    h.step 8388609 (-23) (by norm_num) (by norm_num) (by norm_num) (by norm_num) (by norm_num) (by rw [abs_le]; norm_num)
      (.inr ⟨by norm_num, by rw [abs_lt]; norm_num⟩)
  simp only [List.replicate, List.foldl_cons, List.foldl_nil, FP.twoRoundings, p, s0, s1, s2, s3, s4, s5, s6, s7, s8, s9]
  norm_num

/-- and with one -/
theorem ten_fused {fl : ℝ → ℝ} (h : Nearest fl) :
    (List.replicate 10 (10610843 / 2 ^ 25 : ℝ)).foldl (fun s x => (FP.fused fl).mulAcc s x x) 0 = 1 + 1 / 2 ^ 23 := by
  have s0 : fl (0 + (10610843 / 2 ^ 25) * (10610843 / 2 ^ 25)) = 13421773 / 2 ^ 27 :=
    h.step 13421773 (-27) (by norm_num) (by norm_num) (by norm_num) (by norm_num) (by norm_num) (by rw [abs_le]; norm_num)
      (.inr ⟨by norm_num, by rw [abs_lt]; norm_num⟩)
  have s1 : fl (13421773 / 2 ^ 27 + (10610843 / 2 ^ 25) * (10610843 / 2 ^ 25)) = 13421773 / 2 ^ 26 :=
    h.step 13421773 (-26) (by norm_num) (by norm_num) (by norm_num) (by norm_num) (by norm_num) (by rw [abs_le]; norm_num)
      (.inr ⟨by norm_num, by rw [abs_lt]; norm_num⟩)
  have s2 : fl (13421773 / 2 ^ 26 + (10610843 / 2 ^ 25) * (10610843 / 2 ^ 25)) = 10066330 / 2 ^ 25 :=
    h.step 10066330 (-25) (by norm_num) (by norm_num) (by norm_num) (by norm_num) (by norm_num) (by rw [abs_le]; norm_num)
      (.inr ⟨by norm_num, by rw [abs_lt]; norm_num⟩)
  have s3 : fl (10066330 / 2 ^ 25 + (10610843 / 2 ^ 25) * (10610843 / 2 ^ 25)) = 13421773 / 2 ^ 25 :=
    h.step 13421773 (-25) (by norm_num) (by norm_num) (by norm_num) (by norm_num) (by norm_num) (by rw [abs_le]; norm_num)
      (.inr ⟨by norm_num, by rw [abs_lt]; norm_num⟩)
  have s4 : fl (13421773 / 2 ^ 25 + (10610843 / 2 ^ 25) * (10610843 / 2 ^ 25)) = 8388608 / 2 ^ 24 :=
    h.step 8388608 (-24) (by norm_num) (by norm_num) (by norm_num) (by norm_num) (by norm_num) (by rw [abs_le]; norm_num)
      (.inl (by rw [abs_lt]; norm_num))
  have s5 : fl (8388608 / 2 ^ 24 + (10610843 / 2 ^ 25) * (10610843 / 2 ^ 25)) = 10066330 / 2 ^ 24 :=
    h.step 10066330 (-24) (by norm_num) (by norm_num) (by norm_num) (by norm_num) (by norm_num) (by rw [abs_le]; norm_num)
      (.inr ⟨by norm_num, by rw [abs_lt]; norm_num⟩)
  have s6 : fl (10066330 / 2 ^ 24 + (10610843 / 2 ^ 25) * (10610843 / 2 ^ 25)) = 11744052 / 2 ^ 24 :=
    h.step 11744052 (-24) (by norm_num) (by norm_num) (by norm_num) (by norm_num) (by norm_num) (by rw [abs_le]; norm_num)
      (.inr ⟨by norm_num, by rw [abs_lt]; norm_num⟩)
  have s7 : fl (11744052 / 2 ^ 24 + (10610843 / 2 ^ 25) * (10610843 / 2 ^ 25)) = 13421774 / 2 ^ 24 :=
    h.step 13421774 (-24) (by norm_num) (by norm_num) (by norm_num) (by norm_num) (by norm_num) (by rw [abs_le]; norm_num)
      (.inr ⟨by norm_num, by rw [abs_lt]; norm_num⟩)
  have s8 : fl (13421774 / 2 ^ 24 + (10610843 / 2 ^ 25) * (10610843 / 2 ^ 25)) = 15099496 / 2 ^ 24 :=
    h.step 15099496 (-24) (by norm_num) (by norm_num) (by norm_num) (by norm_num) (by norm_num) (by rw [abs_le]; norm_num)
      (.inr ⟨by norm_num, by rw [abs_lt]; norm_num⟩)
  have s9 : fl (15099496 / 2 ^ 24 + (10610843 / 2 ^ 25) * (10610843 / 2 ^ 25)) = 8388609 / 2 ^ 23 :=
    h.step 8388609 (-23) (by norm_num) (by norm_num) (by norm_num) (by norm_num) (by norm_num) (by rw [abs_le]; norm_num)
      (.inr ⟨by norm_num, by rw [abs_lt]; norm_num⟩)
  simp only [List.replicate, List.foldl_cons, List.foldl_nil, FP.fused, s0, s1, s2, s3, s4, s5, s6, s7, s8, s9]
  norm_num

/-- words of one letter, hashed to their code -/
def letterHash (w : Str) : Nat := 2147483648 + (w.headD ' ').toNat

/-- With the arithmetic of `f32`, a known line can have a negative distance: `search_mat` returns -2^-23 for a line
of ten words which is the baseline.  (Row by row search returns 0, by `C19_rows_f32`.) -/
theorem C17_f32_false (hf : fp.IsF32) :
    ∃ d, viaMat fp letterHash ["a b c d e f g h i j".toList] ["a b c d e f g h i j".toList] = some [d] ∧ d < 0 := by
  have hn := hf.nearest
  have hlen : ∀ l, l = "a b c d e f g h i j".toList → vecOf letterHash l =
      [(143745, 1), (143746, 1), (143747, 1), (143748, 1), (143749, 1), (143750, 1), (143751, 1), (143752, 1), (143753, 1), (143754, 1)] := by
    rintro l rfl; decide +kernel
  generalize "a b c d e f g h i j".toList = line at hlen ⊢
  have hv := hlen line rfl
  have hrow : rowOf fp letterHash line = (vecOf letterHash line).map fun e => (e.1, (10610843 / 2 ^ 25 : ℝ)) := by
    unfold rowOf
    rw [l2norm_std hf.standard, hv]
    have h10 : (([(143745, 1), (143746, 1), (143747, 1), (143748, 1), (143749, 1), (143750, 1), (143751, 1), (143752, 1), (143753, 1), (143754, 1)] : Entries).length : ℝ) = 10 := by
      norm_num
    rw [h10, ten_norm hn]
    simp only [toRow, List.map_cons, List.map_nil, Int.cast_one, ten_entry hn]
  rw [viaMat_eq]
  refine ⟨_, rfl, ?_⟩
  have hdot : dot fp (rowOf fp letterHash line) (rowOf fp letterHash line) = 1 + 1 / 2 ^ 23 := by
    have : dot fp (rowOf fp letterHash line) (rowOf fp letterHash line) =
        (List.replicate 10 (10610843 / 2 ^ 25 : ℝ)).foldl (fun s x => fp.mulAcc s x x) 0 := by
      rw [hrow, hv]
      unfold dot accStep
      simp [List.lookup, List.replicate]
    rw [this]
    obtain ⟨fl, hn, rfl | rfl⟩ := hf
    · exact ten_twoRoundings hn
    · exact ten_fused hn
  have hst : stored (rowOf fp letterHash line) (rowOf fp letterHash line) = true := by
    rw [hrow, hv]; simp [stored, List.lookup]
  have hle := (rowDistance_least fp [rowOf fp letterHash line] (rowOf fp letterHash line)).2 (.inr ⟨_, List.mem_singleton.2 rfl, hst, rfl⟩)
  rw [hdot] at hle
  have hfl : fp.fl (1 - (1 + 1 / 2 ^ 23)) = -(1 / 2 ^ 23) := by
    have : (1 - (1 + 1 / 2 ^ 23) : ℝ) = -(1 / 2 ^ 23) := by norm_num
    rw [this]
    exact hn.exact (by norm_num) ⟨-1, -23, by norm_num, by norm_num, by norm_num, by norm_num⟩
  rw [hfl] at hle
  refine lt_of_le_of_lt hle (by norm_num)

/-- such an arithmetic exists -/
example : ∃ fp : FP, fp.IsF32 := exists_nearest.elim fun fl h => ⟨FP.fused fl, fl, h, .inr rfl⟩

end LJ.Index

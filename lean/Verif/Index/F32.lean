/-
The numbers of `f32` and rounding to the nearest one: the bounds assumed in `Float.lean` hold of it.
-/
import Verif.Index.Float
import Mathlib.Data.Set.Finite.Lattice
import Mathlib.Data.Set.Finite.Range
import Mathlib.Order.Interval.Set.Infinite
import Mathlib.Algebra.Order.Round
import Mathlib.Data.Int.Log
import Mathlib.Data.Int.Interval
import Mathlib.Tactic.Linarith
import Mathlib.Tactic.NormNum
namespace LJ.Index

/-- The finite numbers of `f32` (IEEE 754 binary32): a significand of 24 bits and an exponent. -/
def IsF32 (x : ℝ) : Prop := ∃ m e : ℤ, |m| < 2 ^ 24 ∧ -149 ≤ e ∧ e ≤ 104 ∧ x = m * 2 ^ e

/-- Rounding to nearest, with any rule for ties, for numbers far from the largest `f32`. -/
def Nearest (fl : ℝ → ℝ) : Prop := ∀ x, |x| ≤ 2 ^ 101 → IsF32 (fl x) ∧ ∀ y, IsF32 y → |fl x - x| ≤ |y - x|

theorem isF32_finite : {x | IsF32 x}.Finite := by
  have : {x | IsF32 x} ⊆ (fun p : ℤ × ℤ => (p.1 : ℝ) * 2 ^ p.2) '' (Set.Icc (-2 ^ 24) (2 ^ 24) ×ˢ Set.Icc (-149) 104) := by
    rintro x ⟨m, e, hm, h1, h2, rfl⟩
    rw [abs_lt] at hm
    exact ⟨(m, e), ⟨⟨hm.1.le, hm.2.le⟩, h1, h2⟩, rfl⟩
  exact ((Set.finite_Icc _ _).prod (Set.finite_Icc _ _)).image _ |>.subset this

theorem isF32_zero : IsF32 0 := ⟨0, 0, by norm_num, by norm_num, by norm_num, by norm_num⟩

/-- There is such a rounding. -/
theorem exists_nearest : ∃ fl, Nearest fl := by
  have h : ∀ x : ℝ, ∃ y, IsF32 y ∧ ∀ z, IsF32 z → |y - x| ≤ |z - x| := by
    intro x
    obtain ⟨y, hy, hm⟩ := Set.exists_min_image {x | IsF32 x} (fun y => |y - x|) isF32_finite ⟨0, isF32_zero⟩
    exact ⟨y, hy, hm⟩
  choose fl hfl using h
  exact ⟨fl, fun x _ => hfl x⟩

theorem isF32_neg {x : ℝ} (h : IsF32 x) : IsF32 (-x) := by
  obtain ⟨m, e, h1, h2, h3, rfl⟩ := h
  exact ⟨-m, e, by rwa [abs_neg], h2, h3, by push_cast; ring⟩

theorem isF32_nat {n : ℕ} (h : n ≤ 2 ^ 24) : IsF32 n := by
  rcases h.lt_or_eq with h | rfl
  · refine ⟨n, 0, ?_, by norm_num, by norm_num, by simp⟩
    rw [abs_of_nonneg (by positivity)]; exact_mod_cast h
  · exact ⟨1, 24, by norm_num, by norm_num, by norm_num, by norm_num⟩

/-- a significand of exactly 2^24 is also possible -/
theorem isF32_of_le {m e : ℤ} (hm : |m| ≤ 2 ^ 24) (h1 : -149 ≤ e) (h2 : e ≤ 103) : IsF32 (m * 2 ^ e) := by
  rcases hm.lt_or_eq with h | h
  · exact ⟨m, e, h, h1, by omega, rfl⟩
  · have key : (2:ℝ) ^ (e + 1) = 2 ^ e * 2 := zpow_add_one₀ (by norm_num) e
    rcases abs_choice m with hc | hc
    · refine ⟨2 ^ 23, e + 1, by norm_num, by omega, by omega, ?_⟩
      rw [hc] at h; subst h; rw [key]; push_cast; ring
    · refine ⟨-2 ^ 23, e + 1, by norm_num, by omega, by omega, ?_⟩
      have : m = -2 ^ 24 := by omega
      subst this; rw [key]; push_cast; ring

/-- Some `f32` is close to each number. -/
theorem close_pos {x : ℝ} (h0 : 0 < x) (hx : x ≤ 2 ^ 101) : ∃ y, IsF32 y ∧ |y - x| ≤ u * x + eta := by
  by_cases hsmall : x < 2 ^ (-126 : ℤ)
  · refine ⟨round (x / 2 ^ (-149 : ℤ)) * 2 ^ (-149 : ℤ), ?_, ?_⟩
    · have hp : (0:ℝ) < 2 ^ (-149 : ℤ) := by positivity
      refine isF32_of_le ?_ le_rfl (by norm_num)
      have hq : x / 2 ^ (-149 : ℤ) < 2 ^ 23 := by
        rw [div_lt_iff₀ hp]; refine hsmall.trans_le ?_; norm_num
      have hq0 : 0 < x / 2 ^ (-149 : ℤ) := div_pos h0 hp
      have hr := abs_sub_round (x / 2 ^ (-149 : ℤ))
      rw [abs_le] at hr
      have a1 : ((-1 : ℤ) : ℝ) < (round (x / 2 ^ (-149 : ℤ)) : ℝ) := by push_cast; linarith
      have a2 : ((round (x / 2 ^ (-149 : ℤ)) : ℤ) : ℝ) < ((2 ^ 24 : ℤ) : ℝ) := by push_cast; linarith
      have a1 := Int.cast_lt.1 a1
      have a2 := Int.cast_lt.1 a2
      rw [abs_le]; omega
    · have hp : (0:ℝ) < 2 ^ (-149 : ℤ) := by positivity
      have hr := abs_sub_round (x / 2 ^ (-149 : ℤ))
      have : round (x / 2 ^ (-149 : ℤ)) * (2:ℝ) ^ (-149 : ℤ) - x = -((x / 2 ^ (-149 : ℤ) - round (x / 2 ^ (-149 : ℤ))) * 2 ^ (-149 : ℤ)) := by
        rw [sub_mul, div_mul_cancel₀ _ hp.ne']; ring
      rw [this, abs_neg, abs_mul, abs_of_pos hp]
      have he : (2:ℝ) ^ (-149 : ℤ) = eta := by unfold eta; norm_num
      have := mul_nonneg u_pos.le h0.le
      have hb := mul_le_mul_of_nonneg_right hr hp.le
      rw [he] at hb ⊢
      linarith [eta_pos]
  · rw [not_lt] at hsmall
    obtain ⟨k, hk⟩ : ∃ k, k = Int.log 2 x := ⟨_, rfl⟩
    have l1 : (2:ℝ) ^ k ≤ x := by rw [hk]; exact_mod_cast Int.zpow_log_le_self (b := 2) (by norm_num) h0
    have l2 : x < (2:ℝ) ^ (k + 1) := by rw [hk]; exact_mod_cast Int.lt_zpow_succ_log_self (b := 2) (by norm_num) x
    have k1 : -126 ≤ k := by
      by_contra hc
      have : (2:ℝ) ^ (k + 1) ≤ 2 ^ (-126 : ℤ) := zpow_le_zpow_right₀ (by norm_num) (by omega)
      linarith
    have k2 : k ≤ 101 := by
      by_contra hc
      have : (2:ℝ) ^ (102 : ℤ) ≤ 2 ^ k := zpow_le_zpow_right₀ (by norm_num) (by omega)
      have h2 : (2:ℝ) ^ (102 : ℤ) = 2 * 2 ^ 101 := by norm_num
      have h3 : (0:ℝ) < 2 ^ 101 := by positivity
      linarith
    have hp : (0:ℝ) < 2 ^ (k - 23) := zpow_pos (by norm_num) _
    have e1 : (2:ℝ) ^ k = 2 ^ 23 * 2 ^ (k - 23) := by rw [← zpow_natCast, ← zpow_add₀ (by norm_num)]; congr 1; push_cast; ring
    have e2 : (2:ℝ) ^ (k + 1) = 2 ^ 24 * 2 ^ (k - 23) := by rw [← zpow_natCast, ← zpow_add₀ (by norm_num)]; congr 1; push_cast; ring
    have hr := abs_sub_round (x / 2 ^ (k - 23))
    refine ⟨round (x / 2 ^ (k - 23)) * 2 ^ (k - 23), isF32_of_le ?_ (by omega) (by omega), ?_⟩
    · have hq0 : 0 < x / 2 ^ (k - 23) := div_pos h0 hp
      have hq : x / 2 ^ (k - 23) < 2 ^ 24 := by rw [div_lt_iff₀ hp]; linarith
      rw [abs_le] at hr
      have a1 : ((-1 : ℤ) : ℝ) < (round (x / 2 ^ (k - 23)) : ℝ) := by push_cast; linarith
      have a2 : ((round (x / 2 ^ (k - 23)) : ℤ) : ℝ) < ((2 ^ 24 + 1 : ℤ) : ℝ) := by push_cast; linarith
      have a1 := Int.cast_lt.1 a1
      have a2 := Int.cast_lt.1 a2
      rw [abs_le]; omega
    · have : round (x / 2 ^ (k - 23)) * (2:ℝ) ^ (k - 23) - x = -((x / 2 ^ (k - 23) - round (x / 2 ^ (k - 23))) * 2 ^ (k - 23)) := by
        rw [sub_mul, div_mul_cancel₀ _ hp.ne']; ring
      rw [this, abs_neg, abs_mul, abs_of_pos hp]
      have hu : u * x ≥ 1 / 2 * 2 ^ (k - 23) := by unfold u; rw [e1] at l1; linarith
      nlinarith [eta_pos]

/-- Rounding to nearest has the error bounds used in `Float.lean`. -/
theorem Nearest.rounding {fl : ℝ → ℝ} (h : Nearest fl) : Rounding fl where
  err x hx := by
    obtain ⟨_, h2⟩ := h x hx
    rcases lt_trichotomy x 0 with h0 | h0 | h0
    · rw [abs_of_neg h0] at hx ⊢
      obtain ⟨y, hy, hc⟩ := close_pos (x := -x) (by linarith) hx
      refine (h2 _ (isF32_neg hy)).trans (le_trans (le_of_eq ?_) hc)
      rw [← abs_neg]; congr 1; ring
    · subst h0
      refine (h2 _ isF32_zero).trans ?_
      simp [eta_pos.le]
    · rw [abs_of_pos h0] at hx ⊢
      obtain ⟨y, hy, hc⟩ := close_pos h0 hx
      exact (h2 _ hy).trans hc
  nat n hn := by
    have hb : |(n : ℝ)| ≤ 2 ^ 101 := by
      rw [abs_of_nonneg (by positivity)]
      have : (n : ℝ) ≤ 2 ^ 24 := by exact_mod_cast hn
      exact this.trans (by norm_num)
    have := (h n hb).2 _ (isF32_nat hn)
    rw [sub_self, abs_zero] at this
    have := abs_nonpos_iff.1 this
    linarith

/-- A number at less than half a unit in the last place of an `f32` which is not a power of 2 is rounded to it. -/
theorem Nearest.eq_of_close {fl : ℝ → ℝ} (h : Nearest fl) {x : ℝ} (hx : |x| ≤ 2 ^ 101) {m e : ℤ} (h1 : 2 ^ 23 < m) (h2 : m < 2 ^ 24)
    (h3 : -149 ≤ e) (h4 : e ≤ 104) (hc : |m * 2 ^ e - x| < 2 ^ e / 2) : fl x = m * 2 ^ e := by
  have hp : (0:ℝ) < 2 ^ e := zpow_pos (by norm_num) _
  obtain ⟨⟨m', e', g1, g2, g3, g4⟩, g5⟩ := h x hx
  have g5 := g5 _ ⟨m, e, by rw [abs_of_pos (by linarith)]; exact h2, h3, h4, rfl⟩
  rw [g4] at g5 ⊢
  have hd : |(m' : ℝ) * 2 ^ e' - m * 2 ^ e| < 2 ^ e := by
    have : (m' : ℝ) * 2 ^ e' - m * 2 ^ e = (m' * 2 ^ e' - x) - (m * 2 ^ e - x) := by ring
    rw [this]
    refine (abs_sub _ _).trans_lt ?_
    linarith
  rcases le_or_gt e e' with he | he
  · obtain ⟨k, rfl⟩ : ∃ k : ℕ, e' = e + k := ⟨(e' - e).toNat, by omega⟩
    have hz : (2:ℝ) ^ (e + k) = 2 ^ k * 2 ^ e := by rw [zpow_add₀ (by norm_num), zpow_natCast]; ring
    rw [hz, ← mul_assoc, ← sub_mul, abs_mul, abs_of_pos hp] at hd
    have hd := lt_of_mul_lt_mul_right (hd.trans_eq (one_mul _).symm) hp.le
    have : |m' * 2 ^ k - m| < 1 := by exact_mod_cast hd
    have : m' * 2 ^ k = m := by have := Int.abs_lt_one_iff.1 this; omega
    rw [hz, ← mul_assoc]
    congr 1
    exact_mod_cast this
  · exfalso
    have a1 : (m' : ℝ) * 2 ^ e' ≤ (2 ^ 24) * 2 ^ (e - 1) := by
      have b1 : (m' : ℝ) ≤ 2 ^ 24 := by rw [abs_lt] at g1; exact_mod_cast g1.2.le
      have b2 : (2:ℝ) ^ e' ≤ 2 ^ (e - 1) := zpow_le_zpow_right₀ (by norm_num) (by omega)
      have b3 : (0:ℝ) < 2 ^ e' := zpow_pos (by norm_num) _
      exact (mul_le_mul_of_nonneg_right b1 b3.le).trans (mul_le_mul_of_nonneg_left b2 (by norm_num))
    have a2 : (2:ℝ) ^ (e - 1) = 2 ^ e / 2 := by rw [zpow_sub_one₀ (by norm_num)]; ring
    have a3 : ((2:ℝ) ^ 23 + 1) * 2 ^ e ≤ m * 2 ^ e := by
      refine mul_le_mul_of_nonneg_right ?_ hp.le
      have : (2 ^ 23 + 1 : ℤ) ≤ m := h1
      exact_mod_cast this
    rw [abs_lt] at hd
    rw [a2] at a1
    linarith [hd.1]

/-- The same for a power of 2, at less than a quarter of a unit. -/
theorem Nearest.eq_of_close' {fl : ℝ → ℝ} (h : Nearest fl) {x : ℝ} (hx : |x| ≤ 2 ^ 101) {m e : ℤ} (h1 : 2 ^ 23 ≤ m) (h2 : m < 2 ^ 24)
    (h3 : -149 ≤ e) (h4 : e ≤ 104) (hc : |m * 2 ^ e - x| < 2 ^ e / 4) : fl x = m * 2 ^ e := by
  have hp : (0:ℝ) < 2 ^ e := zpow_pos (by norm_num) _
  obtain ⟨⟨m', e', g1, g2, g3, g4⟩, g5⟩ := h x hx
  have g5 := g5 _ ⟨m, e, by rw [abs_of_pos (by linarith)]; exact h2, h3, h4, rfl⟩
  rw [g4] at g5 ⊢
  have hd : |(m' : ℝ) * 2 ^ e' - m * 2 ^ e| < 2 ^ e / 2 := by
    have : (m' : ℝ) * 2 ^ e' - m * 2 ^ e = (m' * 2 ^ e' - x) - (m * 2 ^ e - x) := by ring
    rw [this]
    refine (abs_sub _ _).trans_lt ?_
    linarith
  rcases le_or_gt e e' with he | he
  · obtain ⟨k, rfl⟩ : ∃ k : ℕ, e' = e + k := ⟨(e' - e).toNat, by omega⟩
    have hz : (2:ℝ) ^ (e + k) = 2 ^ k * 2 ^ e := by rw [zpow_add₀ (by norm_num), zpow_natCast]; ring
    rw [hz, ← mul_assoc, ← sub_mul, abs_mul, abs_of_pos hp] at hd
    have hd := lt_of_mul_lt_mul_right (hd.trans (by linarith : (2:ℝ) ^ e / 2 < 1 * 2 ^ e)) hp.le
    have : |m' * 2 ^ k - m| < 1 := by exact_mod_cast hd
    have : m' * 2 ^ k = m := by have := Int.abs_lt_one_iff.1 this; omega
    rw [hz, ← mul_assoc]
    congr 1
    exact_mod_cast this
  · exfalso
    have a1 : (m' : ℝ) * 2 ^ e' ≤ (2 ^ 24 - 1) * 2 ^ (e - 1) := by
      have b1 : (m' : ℝ) ≤ 2 ^ 24 - 1 := by
        rw [abs_lt] at g1
        have : m' ≤ 2 ^ 24 - 1 := by omega
        exact_mod_cast this
      have b2 : (2:ℝ) ^ e' ≤ 2 ^ (e - 1) := zpow_le_zpow_right₀ (by norm_num) (by omega)
      have b3 : (0:ℝ) < 2 ^ e' := zpow_pos (by norm_num) _
      exact (mul_le_mul_of_nonneg_right b1 b3.le).trans (mul_le_mul_of_nonneg_left b2 (by norm_num))
    have a2 : (2:ℝ) ^ (e - 1) = 2 ^ e / 2 := by rw [zpow_sub_one₀ (by norm_num)]; ring
    have a3 : ((2:ℝ) ^ 23) * 2 ^ e ≤ m * 2 ^ e := by
      refine mul_le_mul_of_nonneg_right ?_ hp.le
      exact_mod_cast h1
    rw [abs_lt] at hd
    rw [a2] at a1
    linarith [hd.1]

/-- An `f32` is rounded to itself. -/
theorem Nearest.exact {fl : ℝ → ℝ} (h : Nearest fl) {x : ℝ} (hx : |x| ≤ 2 ^ 101) (hf : IsF32 x) : fl x = x := by
  have := (h x hx).2 _ hf
  rw [sub_self, abs_zero] at this
  linarith [abs_nonpos_iff.1 this]

/-- Rounding to nearest is monotone. -/
theorem Nearest.mono {fl : ℝ → ℝ} (h : Nearest fl) {x y : ℝ} (hx : |x| ≤ 2 ^ 101) (hy : |y| ≤ 2 ^ 101) (hxy : x ≤ y) : fl x ≤ fl y := by
  rcases hxy.eq_or_lt with rfl | hxy
  · exact le_rfl
  by_contra hc
  rw [not_le] at hc
  have h1 := (h x hx).2 _ (h y hy).1
  have h2 := (h y hy).2 _ (h x hx).1
  have h1 := sq_le_sq.2 h1
  have h2 := sq_le_sq.2 h2
  nlinarith

/-- The arithmetic of `f32`, with or without fused multiplications. -/
def FP.IsF32 (fp : FP) : Prop := ∃ fl, Nearest fl ∧ (fp = FP.twoRoundings fl ∨ fp = FP.fused fl)

theorem FP.IsF32.nearest {fp : FP} (h : fp.IsF32) : Nearest fp.fl := by
  obtain ⟨fl, hn, rfl | rfl⟩ := h <;> exact hn

theorem FP.IsF32.standard {fp : FP} (h : fp.IsF32) : fp.Standard := by
  obtain ⟨fl, hn, rfl | rfl⟩ := h
  · exact twoRoundings_standard hn.rounding
  · exact fused_standard hn.rounding

/-- there is such an arithmetic -/
example : ∃ fp : FP, fp.IsF32 := exists_nearest.elim fun fl h => ⟨FP.fused fl, fl, h, .inr rfl⟩

end LJ.Index

/-
The numbers of `f32` and their 32 bits, and the matrices of the index in memory.
-/
import Verif.Index.F32
import Verif.Codec.Model
namespace LJ.Python
open LJ.Index (IsF32 Mat Row)
open LJ.Codec (RawMatrix Matrix)

/-- The number of 32 bits (IEEE 754 binary32): a sign, 8 bits of exponent and 23 bits of fraction; infinities and NaN have none. -/
noncomputable def f32Value (b : UInt32) : Option ℝ :=
  let sign : ℝ := if b.toNat < 2 ^ 31 then 1 else -1
  let ex : ℕ := b.toNat / 2 ^ 23 % 256
  let fr : ℕ := b.toNat % 2 ^ 23
  if ex = 255 then none
  else if ex = 0 then some (sign * fr * 2 ^ (-149 : ℤ))
  else some (sign * (2 ^ 23 + fr) * 2 ^ ((ex : ℤ) - 150))

/-- a number has a significand of 24 bits, or the least exponent -/
theorem normal {x : ℝ} (h : IsF32 x) : ∃ m e : ℤ, |m| < 2 ^ 24 ∧ -149 ≤ e ∧ e ≤ 104 ∧ (2 ^ 23 ≤ |m| ∨ e = -149) ∧ x = m * 2 ^ e := by
  obtain ⟨m, e, h1, h2, h3, h4⟩ := h
  obtain ⟨n, hn⟩ : ∃ n : ℕ, e = -149 + n := ⟨(e + 149).toNat, by omega⟩
  induction n generalizing m e with
  | zero => exact ⟨m, e, h1, h2, h3, .inr (by omega), h4⟩
  | succ n ih =>
    by_cases hm : 2 ^ 23 ≤ |m|
    · exact ⟨m, e, h1, h2, h3, .inl hm, h4⟩
    · refine ih (2 * m) (e - 1) ?_ (by omega) (by omega) ?_ (by omega)
      · rw [abs_mul, abs_two]; omega
      · rw [h4, zpow_sub_one₀ (by norm_num)]; push_cast; ring

theorem value_of {s ex fr : ℕ} (hs : s < 2) (he : ex < 255) (hf : fr < 2 ^ 23) :
    f32Value (UInt32.ofNat (s * 2 ^ 31 + ex * 2 ^ 23 + fr)) =
      some ((if s = 0 then 1 else -1) * (if ex = 0 then (fr : ℝ) * 2 ^ (-149 : ℤ) else (2 ^ 23 + fr) * 2 ^ ((ex : ℤ) - 150))) := by
  have hn : s * 2 ^ 31 + ex * 2 ^ 23 + fr < 2 ^ 32 := by omega
  unfold f32Value
  rw [UInt32.toNat_ofNat_of_lt' (by simpa [UInt32.size] using hn)]
  have e1 : (s * 2 ^ 31 + ex * 2 ^ 23 + fr) / 2 ^ 23 % 256 = ex := by omega
  have e2 : (s * 2 ^ 31 + ex * 2 ^ 23 + fr) % 2 ^ 23 = fr := by omega
  have e3 : (s * 2 ^ 31 + ex * 2 ^ 23 + fr < 2 ^ 31) ↔ s = 0 := by omega
  simp only [e1, e2, e3]
  rw [if_neg (by omega)]
  split <;> · congr 1; ring

/-- The numbers with 32 bits are those of `f32`. -/
theorem isF32_iff (x : ℝ) : IsF32 x ↔ ∃ b, f32Value b = some x := by
  constructor
  · intro h
    obtain ⟨m, e, h1, h2, h3, h4, rfl⟩ := normal h
    have hm : (m : ℝ) = (if (if m < 0 then 1 else 0) = 0 then 1 else -1) * (m.natAbs : ℝ) := by
      have : (m.natAbs : ℝ) = |(m : ℝ)| := by rw [← Int.cast_abs, Int.abs_eq_natAbs]; simp
      rw [this]
      by_cases hc : m < 0
      · rw [abs_of_neg (by exact_mod_cast hc)]; simp [hc]
      · rw [abs_of_nonneg (by exact_mod_cast not_lt.1 hc)]; simp [hc]
    have hs : (if m < 0 then 1 else 0) < 2 := by split <;> omega
    have ha : |m| = m.natAbs := Int.abs_eq_natAbs m
    by_cases hn : 2 ^ 23 ≤ |m|
    · refine ⟨_, (value_of (ex := (e + 150).toNat) (fr := m.natAbs - 2 ^ 23) hs (by omega) (by omega)).trans ?_⟩
      rw [if_neg (show ¬ (e + 150).toNat = 0 by omega), Nat.cast_sub (by omega)]
      have : (((e + 150).toNat : ℕ) : ℤ) - 150 = e := by omega
      rw [this, hm]
      congr 1
      push_cast
      ring
    · obtain rfl := h4.resolve_left hn
      refine ⟨_, (value_of (ex := 0) (fr := m.natAbs) hs (by omega) (by omega)).trans ?_⟩
      rw [if_pos (show (0 : ℕ) = 0 from rfl), hm]
      congr 1
      ring
  · rintro ⟨b, h⟩
    unfold f32Value at h
    simp only at h
    have hfr : b.toNat % 2 ^ 23 < 2 ^ 23 := Nat.mod_lt _ (by norm_num)
    have hex : b.toNat / 2 ^ 23 % 256 < 256 := Nat.mod_lt _ (by norm_num)
    generalize b.toNat % 2 ^ 23 = fr at h hfr
    generalize b.toNat / 2 ^ 23 % 256 = ex at h hex
    have key : ∀ (n : ℕ) (e : ℤ), n < 2 ^ 24 → -149 ≤ e → e ≤ 104 → IsF32 ((if b.toNat < 2 ^ 31 then 1 else -1) * (n : ℝ) * 2 ^ e) := by
      intro n e h1 h2 h3
      have h0 : IsF32 ((n : ℝ) * 2 ^ e) := ⟨n, e, by rw [Nat.abs_cast]; exact_mod_cast h1, h2, h3, by push_cast; rfl⟩
      split
      · rwa [one_mul]
      · rw [neg_one_mul, neg_mul]; exact LJ.Index.isF32_neg h0
    split at h
    · cases h
    · split at h
      · cases h
        exact key fr _ (by omega) le_rfl (by norm_num)
      · cases h
        have := key (2 ^ 23 + fr) ((ex : ℤ) - 150) (by omega) (by omega) (by omega)
        rwa [Nat.cast_add, Nat.cast_pow, Nat.cast_ofNat] at this

/-- The bits of a number (one of the two, for 0). -/
noncomputable def bitsOf (x : ℝ) : UInt32 := open Classical in if h : ∃ b, f32Value b = some x then h.choose else 0

theorem value_bits {x : ℝ} (h : IsF32 x) : f32Value (bitsOf x) = some x := by
  unfold bitsOf
  rw [dif_pos ((isF32_iff x).1 h)]
  exact ((isF32_iff x).1 h).choose_spec

/-- one, minus one half -/
example : f32Value 0x3f800000 = some 1 ∧ f32Value 0xbf000000 = some (-1 / 2) ∧ f32Value 0x7fc00000 = none := by
  have h := fun s ex fr => @value_of s ex fr
  refine ⟨(h 0 127 0 (by omega) (by omega) (by omega)).trans ?_, (h 1 126 0 (by omega) (by omega) (by omega)).trans ?_, ?_⟩
  · norm_num
  · norm_num
  · unfold f32Value
    rw [if_pos (by decide)]

end LJ.Python

/-
C138: the distance in numbers of words.

`Spec.cosine` is about the columns of the vectors.  For two lines whose words have different columns (the hash of a word is taken modulo 260000), it is
about the words which the lines share.
-/
import Verif.Index.Lemmas
namespace LJ.Index

namespace Spec

/-- The words of a line. -/
def words (line : Str) : Finset Str := (line.splitOn ' ').toFinset

/-- The number of words which two lines share. -/
def common (a b : Str) : Nat := (words a ∩ words b).card

/-- Different words of two lines have different columns. -/
def Apart (hash : Str → Nat) (a b : Str) : Prop := ∀ v ∈ words a ∪ words b, ∀ w ∈ words a ∪ words b, hash v % size = hash w % size → v = w

end Spec

variable {hash : Str → Nat}

/-- the sign of a word -/
def signOf (hash : Str → Nat) (w : Str) : Int := if 2 ^ 31 ≤ hash w then 1 else -1

theorem signOf_sq (w : Str) : ((signOf hash w : Int) : ℝ) * (signOf hash w : Int) = 1 := by
  unfold signOf
  split <;> norm_num

theorem coef_word {ws : List Str} {w : Str} (hw : w ∈ ws) (h : ∀ v ∈ ws, hash v % Spec.size = hash w % Spec.size → v = w) :
    Spec.coef hash ws (hash w % Spec.size) = signOf hash w := by
  induction ws with
  | nil => cases hw
  | cons v ws ih =>
    unfold Spec.coef
    by_cases e : hash v % Spec.size = hash w % Spec.size
    · rw [if_pos e, h v (.head _) e]; rfl
    · rw [if_neg e]
      refine ih ?_ fun x hx => h x (.tail _ hx)
      rcases List.mem_cons.1 hw with rfl | hw
      · exact absurd rfl e
      · exact hw

theorem coef_none {ws : List Str} {k : Nat} (h : ∀ v ∈ ws, hash v % Spec.size ≠ k) : Spec.coef hash ws k = 0 := by
  induction ws with
  | nil => rfl
  | cons v ws ih =>
    unfold Spec.coef
    rw [if_neg (h v (.head _))]
    exact ih fun x hx => h x (.tail _ hx)

theorem mem_words {w l : Str} : w ∈ Spec.words l ↔ w ∈ l.splitOn ' ' := by
  unfold Spec.words
  rw [List.mem_toFinset]

/-- The product of the vectors of two lines is the number of the words they share. -/
theorem dot_words {a b : Str} (h : Spec.Apart hash a b) : Spec.dot (Spec.vec hash a) (Spec.vec hash b) = Spec.common a b := by
  have inj : ∀ v ∈ Spec.words a ∩ Spec.words b, ∀ w ∈ Spec.words a ∩ Spec.words b, hash v % Spec.size = hash w % Spec.size → v = w := by
    intro v hv w hw
    rw [Finset.mem_inter] at hv hw
    exact h v (Finset.mem_union_left _ hv.1) w (Finset.mem_union_left _ hw.1)
  have hsub : (Spec.words a ∩ Spec.words b).image (fun w => hash w % Spec.size) ⊆ Finset.range Spec.size := by
    intro k hk
    obtain ⟨w, _, rfl⟩ := Finset.mem_image.1 hk
    exact Finset.mem_range.2 (Nat.mod_lt _ (by decide))
  unfold Spec.dot
  rw [← Finset.sum_subset hsub, Finset.sum_image inj]
  · rw [Finset.sum_congr rfl (g := fun _ => (1 : ℝ))]
    · rw [Finset.sum_const, nsmul_eq_mul, mul_one]; rfl
    · intro w hw
      rw [Finset.mem_inter] at hw
      have e : ∀ l, (l = a ∨ l = b) → w ∈ Spec.words l → Spec.vec hash l (hash w % Spec.size) = signOf hash w := by
        rintro l hl hwl
        refine coef_word (mem_words.1 hwl) fun v hv hvw => ?_
        have hv' : v ∈ Spec.words a ∪ Spec.words b := by
          rcases hl with rfl | rfl
          · exact Finset.mem_union_left _ (mem_words.2 hv)
          · exact Finset.mem_union_right _ (mem_words.2 hv)
        exact h v hv' w (Finset.mem_union_left _ hw.1) hvw
      rw [e a (.inl rfl) hw.1, e b (.inr rfl) hw.2]
      exact signOf_sq w
  · intro k _ hk
    by_cases ha : ∃ v ∈ a.splitOn ' ', hash v % Spec.size = k
    · by_cases hb : ∃ v ∈ b.splitOn ' ', hash v % Spec.size = k
      · obtain ⟨v, hv, rfl⟩ := ha
        obtain ⟨w, hw, e⟩ := hb
        have : w = v := h w (Finset.mem_union_right _ (mem_words.2 hw)) v (Finset.mem_union_left _ (mem_words.2 hv)) e
        subst this
        exact absurd (Finset.mem_image.2 ⟨w, Finset.mem_inter.2 ⟨mem_words.2 hv, mem_words.2 hw⟩, rfl⟩) hk
      · have : Spec.vec hash b k = 0 := coef_none fun v hv e => hb ⟨v, hv, e⟩
        rw [this]; simp
    · have : Spec.vec hash a k = 0 := coef_none fun v hv e => ha ⟨v, hv, e⟩
      rw [this]; simp

theorem common_self (a : Str) : Spec.common a a = (Spec.words a).card := by
  unfold Spec.common
  rw [Finset.inter_self]

theorem apart_left {a b : Str} (h : Spec.Apart hash a b) : Spec.Apart hash a a := by
  intro v hv w hw
  rw [Finset.union_idempotent] at hv hw
  exact h v (Finset.mem_union_left _ hv) w (Finset.mem_union_left _ hw)

theorem apart_right {a b : Str} (h : Spec.Apart hash a b) : Spec.Apart hash b b := by
  intro v hv w hw
  rw [Finset.union_idempotent] at hv hw
  exact h v (Finset.mem_union_right _ hv) w (Finset.mem_union_right _ hw)

/-- C138.  The cosine of two lines whose words have different columns: the number of the words they share, divided by the geometric mean of their numbers of
words. -/
theorem C138_cosine {a b : Str} (h : Spec.Apart hash a b) :
    Spec.cosine (Spec.vec hash a) (Spec.vec hash b) = Spec.common a b / √((Spec.words a).card * (Spec.words b).card) := by
  unfold Spec.cosine
  rw [dot_words h, dot_words (apart_left h), dot_words (apart_right h), common_self, common_self, Real.sqrt_mul (Nat.cast_nonneg _)]

theorem words_pos (a : Str) : 0 < (Spec.words a).card := by
  rw [Finset.card_pos]
  cases h : a.splitOn ' ' with
  | nil => exact absurd h (List.splitOnP_ne_nil _ _)
  | cons w ws => exact ⟨w, mem_words.2 (by rw [h]; exact .head _)⟩

/-- many words in common -/
theorem cosine_similar {a b : Str} (h : Spec.Apart hash a b) (hc : 13 * ((Spec.words a).card * (Spec.words b).card) ≤ 25 * Spec.common a b ^ 2) :
    0.7211 ≤ Spec.cosine (Spec.vec hash a) (Spec.vec hash b) := by
  rw [C138_cosine h]
  have pa : (0 : ℝ) < (Spec.words a).card := by exact_mod_cast words_pos a
  have pb : (0 : ℝ) < (Spec.words b).card := by exact_mod_cast words_pos b
  have hc' : 13 * (((Spec.words a).card : ℝ) * (Spec.words b).card) ≤ 25 * (Spec.common a b : ℝ) ^ 2 := by exact_mod_cast hc
  have h0 : (0 : ℝ) ≤ Spec.common a b := Nat.cast_nonneg _
  generalize ((Spec.words a).card : ℝ) = x at *
  generalize ((Spec.words b).card : ℝ) = y at *
  generalize (Spec.common a b : ℝ) = c at *
  rw [le_div_iff₀ (Real.sqrt_pos.2 (mul_pos pa pb))]
  have h2 : √(x * y) ≤ c / 0.7211 := by
    rw [Real.sqrt_le_left (by positivity), div_pow, le_div_iff₀ (by norm_num)]
    nlinarith [mul_pos pa pb]
  rw [le_div_iff₀ (by norm_num)] at h2
  linarith

/-- few words in common -/
theorem cosine_far {a b : Str} (h : Spec.Apart hash a b) (hc : 50 * Spec.common a b ^ 2 ≤ 23 * ((Spec.words a).card * (Spec.words b).card)) :
    Spec.cosine (Spec.vec hash a) (Spec.vec hash b) ≤ 0.6783 := by
  rw [C138_cosine h]
  have pa : (0 : ℝ) < (Spec.words a).card := by exact_mod_cast words_pos a
  have pb : (0 : ℝ) < (Spec.words b).card := by exact_mod_cast words_pos b
  have hc' : 50 * (Spec.common a b : ℝ) ^ 2 ≤ 23 * (((Spec.words a).card : ℝ) * (Spec.words b).card) := by exact_mod_cast hc
  have h0 : (0 : ℝ) ≤ Spec.common a b := Nat.cast_nonneg _
  generalize ((Spec.words a).card : ℝ) = x at *
  generalize ((Spec.words b).card : ℝ) = y at *
  generalize (Spec.common a b : ℝ) = c at *
  rw [div_le_iff₀ (Real.sqrt_pos.2 (mul_pos pa pb))]
  have h2 : c / 0.6783 ≤ √(x * y) := by
    apply Real.le_sqrt_of_sq_le
    rw [div_pow, div_le_iff₀ (by norm_num)]
    nlinarith [mul_pos pa pb]
  rw [div_le_iff₀ (by norm_num)] at h2
  linarith

end LJ.Index

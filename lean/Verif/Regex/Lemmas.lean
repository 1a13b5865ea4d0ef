/- Correctness of the executable matcher and lemmas about patterns. -/
import Verif.Regex.Basic
namespace LJ.Regex

theorem Iter.mono {R : Nat → Nat → Prop} (hR : ∀ i j, R i j → i ≤ j) {i j : Nat}
    (h : Iter R i j) : i ≤ j := by
  induction h with
  | refl => exact Nat.le_refl _
  | step h1 _ ih => exact Nat.le_trans (hR _ _ h1) ih

theorem Matches.le {wd : Char → Bool} {w : List Char} {r : RE} {i j : Nat}
    (h : Matches wd w r i j) : i ≤ j := by
  induction r generalizing i j with
  | fail => exact h.elim
  | eps => exact Nat.le_of_eq h
  | cls p => simp only [Matches] at h; omega
  | seq a b iha ihb =>
    obtain ⟨k, h1, h2⟩ := h
    exact Nat.le_trans (iha h1) (ihb h2)
  | alt a b iha ihb => exact h.elim (fun h => iha h) (fun h => ihb h)
  | star a ih => exact Iter.mono (fun i j h => ih h) h
  | bol => exact Nat.le_of_eq h.1
  | eol => exact Nat.le_of_eq h.1
  | word => simp only [Matches] at h; omega
  | wordb => exact Nat.le_of_eq h.1

theorem Iter.bound {R : Nat → Nat → Prop} {n : Nat} (hR : ∀ i j, R i j → i ≤ n → j ≤ n) {i j : Nat}
    (h : Iter R i j) : i ≤ n → j ≤ n := by
  induction h with
  | refl => exact id
  | step h1 _ ih => exact fun hi => ih (hR _ _ h1 hi)

theorem Matches.bound {wd : Char → Bool} {w : List Char} {r : RE} {i j : Nat}
    (h : Matches wd w r i j) (hi : i ≤ w.length) : j ≤ w.length := by
  induction r generalizing i j with
  | fail => exact h.elim
  | eps => have : i = j := h; omega
  | cls p =>
    obtain ⟨h1, c, h2, _⟩ := h
    have := (List.getElem?_eq_some_iff.1 h2).1
    omega
  | seq a b iha ihb =>
    obtain ⟨k, h1, h2⟩ := h
    exact ihb h2 (iha h1 hi)
  | alt a b iha ihb => exact h.elim (fun h => iha h hi) (fun h => ihb h hi)
  | star a ih => exact Iter.bound (fun i j h hi => ih h hi) h hi
  | bol => have := h.1; omega
  | eol => have := h.1; omega
  | word =>
    obtain ⟨h1, c, h2, _⟩ := h
    have := (List.getElem?_eq_some_iff.1 h2).1
    omega
  | wordb => have := h.1; omega

theorem mem_union {a b : List Nat} {x : Nat} : x ∈ union a b ↔ x ∈ a ∨ x ∈ b := by
  simp [union, List.mem_eraseDups]

theorem closure_mono {f : List Nat → List Nat} {n : Nat} {s : List Nat} {x : Nat} (h : x ∈ s) :
    x ∈ closure f n s := by
  induction n generalizing s with
  | zero => exact h
  | succ n ih => exact ih (mem_union.2 (.inl h))

theorem closure_sound {R : Nat → Nat → Prop} {f : List Nat → List Nat}
    (hf : ∀ s j, j ∈ f s → ∃ i ∈ s, R i j) {n : Nat} {s : List Nat} {j : Nat}
    (h : j ∈ closure f n s) : ∃ i ∈ s, Iter R i j := by
  induction n generalizing s with
  | zero => exact ⟨j, h, .refl _⟩
  | succ n ih =>
    obtain ⟨k, hk, hI⟩ := ih h
    rcases mem_union.1 hk with hk | hk
    · exact ⟨k, hk, hI⟩
    · obtain ⟨i, hi, hR⟩ := hf s k hk
      exact ⟨i, hi, .step hR hI⟩

/-- Loops without progress are useless. -/
theorem closure_complete {R : Nat → Nat → Prop} {f : List Nat → List Nat} (hR : ∀ i j, R i j → i ≤ j)
    {m : Nat} (hb : ∀ i j, R i j → i ≤ m → j ≤ m)
    (hf : ∀ s i j, i ∈ s → i ≤ m → R i j → j ∈ f s) {i j : Nat} (h : Iter R i j) :
    ∀ {n : Nat} {s : List Nat}, i ∈ s → i ≤ m → m - i ≤ n → j ∈ closure f n s := by
  induction h with
  | refl i => intro n s hi _ _; exact closure_mono hi
  | @step i k j h1 h2 ih =>
    intro n s hi him hn
    have hik := hR _ _ h1
    rcases Nat.lt_or_eq_of_le hik with hlt | heq
    · have hkm := hb _ _ h1 him
      obtain ⟨n, rfl⟩ : ∃ n', n = n' + 1 := ⟨n - 1, by omega⟩
      have hk : k ∈ union s (f s) := mem_union.2 (.inr (hf s i k hi him h1))
      exact ih (n := n) (s := union s (f s)) hk hkm (by omega)
    · subst heq
      exact ih hi him hn

theorem ends_sound {wd : Char → Bool} {w : List Char} {r : RE} {s : List Nat} {j : Nat}
    (h : j ∈ ends wd w r s) : ∃ i ∈ s, Matches wd w r i j := by
  induction r generalizing s j with
  | fail => simp [ends] at h
  | eps => exact ⟨j, h, rfl⟩
  | cls p =>
    simp only [ends, List.mem_filterMap] at h
    obtain ⟨i, hi, h⟩ := h
    refine ⟨i, hi, ?_⟩
    split at h
    · rename_i c hc
      split at h
      · rename_i hp
        simp at h
        exact ⟨h.symm, c, hc, hp⟩
      · cases h
    · cases h
  | seq a b iha ihb =>
    obtain ⟨k, hk, hb⟩ := ihb h
    obtain ⟨i, hi, ha⟩ := iha hk
    exact ⟨i, hi, k, ha, hb⟩
  | alt a b iha ihb =>
    rcases mem_union.1 h with h | h
    · obtain ⟨i, hi, h⟩ := iha h; exact ⟨i, hi, .inl h⟩
    · obtain ⟨i, hi, h⟩ := ihb h; exact ⟨i, hi, .inr h⟩
  | star a ih => exact closure_sound (fun s j h => ih h) h
  | bol =>
    simp only [ends, List.mem_filter, beq_iff_eq] at h
    exact ⟨j, h.1, rfl, h.2⟩
  | eol =>
    simp only [ends, List.mem_filter, beq_iff_eq] at h
    exact ⟨j, h.1, rfl, h.2⟩
  | word =>
    simp only [ends, List.mem_filterMap] at h
    obtain ⟨i, hi, h⟩ := h
    refine ⟨i, hi, ?_⟩
    split at h
    · rename_i c hc
      split at h
      · rename_i hp
        simp at h
        exact ⟨h.symm, c, hc, hp⟩
      · cases h
    · cases h
  | wordb =>
    simp only [ends, List.mem_filter, bne_iff_ne] at h
    exact ⟨j, h.1, rfl, h.2⟩

theorem ends_complete {wd : Char → Bool} {w : List Char} {r : RE} {s : List Nat} {i j : Nat}
    (hi : i ∈ s) (hw : i ≤ w.length) (h : Matches wd w r i j) : j ∈ ends wd w r s := by
  induction r generalizing s i j with
  | fail => exact h.elim
  | eps => have : i = j := h; exact this ▸ hi
  | cls p =>
    obtain ⟨rfl, c, hc, hp⟩ := h
    simp only [ends, List.mem_filterMap]
    exact ⟨i, hi, by simp [hc, hp]⟩
  | seq a b iha ihb =>
    obtain ⟨k, h1, h2⟩ := h
    exact ihb (iha hi hw h1) (h1.bound hw) h2
  | alt a b iha ihb =>
    rcases h with h | h
    · exact mem_union.2 (.inl (iha hi hw h))
    · exact mem_union.2 (.inr (ihb hi hw h))
  | star a ih =>
    exact closure_complete (m := w.length) (fun i j h => h.le) (fun i j h hi => h.bound hi)
      (fun s i j hi hw h => ih hi hw h) h hi hw (by omega)
  | bol => obtain ⟨rfl, h⟩ := h; simp [ends, h]; simpa [h] using hi
  | eol => obtain ⟨rfl, h⟩ := h; simp [ends, h]; simpa [h] using hi
  | word =>
    obtain ⟨rfl, c, hc, hp⟩ := h
    simp only [ends, List.mem_filterMap]
    exact ⟨i, hi, by simp [hc, hp]⟩
  | wordb => obtain ⟨rfl, h⟩ := h; simp [ends, hi]; exact h

/-- The executable search is exactly "the pattern matches somewhere". -/
theorem isMatch_iff {wd : Char → Bool} {r : RE} {w : List Char} :
    isMatch wd r w = true ↔ Found wd r w := by
  unfold isMatch Found
  simp only [Bool.not_eq_true', List.isEmpty_eq_false_iff_exists_mem]
  constructor
  · rintro ⟨j, hj⟩
    obtain ⟨i, hi, h⟩ := ends_sound hj
    exact ⟨i, j, by simp at hi; omega, h⟩
  · rintro ⟨i, j, hi, h⟩
    exact ⟨j, ends_complete (i := i) (by simp; omega) hi h⟩

/-! ### Literals -/

/-- A chain of character classes matches exactly the texts of that length, class by class. -/
theorem matches_chain {wd : Char → Bool} {w : List Char} {ps : List (Char → Bool)} {i j : Nat}
    (hi : i ≤ w.length) :
    Matches wd w (ps.foldr (fun p r => .seq (.cls p) r) .eps) i j ↔
      ∃ t, t.length = ps.length ∧ j = i + t.length ∧ (w.drop i).take t.length = t ∧
        (List.zip ps t).all (fun pc => pc.1 pc.2) = true := by
  induction ps generalizing i with
  | nil =>
    simp only [List.foldr_nil, Matches, List.length_nil, List.length_eq_zero_iff]
    constructor
    · rintro rfl; exact ⟨[], by simp⟩
    · rintro ⟨t, rfl, h, _⟩; simpa using h.symm
  | cons p ps ih =>
    simp only [List.foldr_cons, Matches]
    constructor
    · rintro ⟨k, ⟨rfl, c, hc, hp⟩, h⟩
      have hlt := (List.getElem?_eq_some_iff.1 hc).1
      obtain ⟨t, h1, h2, h3, h4⟩ := (ih (by omega)).1 h
      refine ⟨c :: t, by simp [h1], by simp; omega, ?_, by simp [hp, h4]⟩
      have hd : w.drop i = c :: w.drop (i + 1) := by
        rw [List.drop_eq_getElem_cons hlt]
        congr 1
        exact (List.getElem?_eq_some_iff.1 hc).2
      rw [hd]; simp [h3]
    · rintro ⟨t, h1, h2, h3, h4⟩
      cases t with
      | nil => simp at h1
      | cons c t =>
        have hlt : i < w.length := by
          rcases Nat.lt_or_ge i w.length with h | h
          · exact h
          · rw [List.drop_eq_nil_of_le h] at h3; simp at h3
        have hd : w.drop i = w[i] :: w.drop (i + 1) := List.drop_eq_getElem_cons hlt
        rw [hd] at h3
        simp only [List.length_cons, List.take_succ_cons, List.cons.injEq] at h3
        simp only [List.zip_cons_cons, List.all_cons, Bool.and_eq_true] at h4
        refine ⟨i + 1, ⟨rfl, c, by simp [List.getElem?_eq_getElem hlt, h3.1], h4.1⟩, ?_⟩
        exact (ih (by omega)).2 ⟨t, by simpa using h1, by simp at h2; omega, h3.2, h4.2⟩

theorem alts_matches {wd : Char → Bool} {w : List Char} {l : List RE} {i j : Nat} :
    Matches wd w (alts l) i j ↔ ∃ r ∈ l, Matches wd w r i j := by
  induction l with
  | nil => simp [alts, Matches]
  | cons r l ih =>
    have e : alts (r :: l) = .alt r (alts l) := rfl
    rw [e]
    simp only [Matches, ih, List.mem_cons, exists_eq_or_imp]

end LJ.Regex

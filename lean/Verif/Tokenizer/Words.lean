/-
Splitting a line into words: the model's `words` is the declarative split of `Spec.IsSplit`.
-/
import Verif.Tokenizer.Lemmas
namespace LJ.Tokenizer
open LJ.Regex

/-- one separator -/
def Unit' (u : Str) : Prop := u ∈ [[' '], ['\t'], ['\\', 'n'], ['\\', 'r']]

theorem wordsGo_unit {u : Str} (hu : Unit' u) (cur : Str) (b : Bool) (rest : Str) :
    wordsGo cur b (u ++ rest) = if b then wordsGo [] true rest else cur :: wordsGo [] true rest := by
  simp only [Unit', List.mem_cons, List.not_mem_nil, or_false] at hu
  rcases hu with rfl | rfl | rfl | rfl <;> simp [wordsGo]

theorem wordsGo_units {us : List Str} (hu : ∀ u ∈ us, Unit' u) (rest : Str) :
    wordsGo [] true (us.flatten ++ rest) = wordsGo [] true rest := by
  induction us with
  | nil => rfl
  | cons u us ih =>
    rw [List.flatten_cons, List.append_assoc, wordsGo_unit (hu u (by simp))]
    simp only [if_true]
    exact ih fun v hv => hu v (by simp [hv])

theorem wordsGo_char {c : Char} {cs : Str} (h1 : c ≠ ' ') (h2 : c ≠ '\t')
    (h3 : ∀ d r, cs = d :: r → c = '\\' → d ≠ 'n' ∧ d ≠ 'r') (cur : Str) (b : Bool) :
    wordsGo cur b (c :: cs) = wordsGo (cur ++ [c]) false cs := by
  rw [wordsGo.eq_def]
  split
  · rename_i h; cases h
  · rename_i h; cases h; exact absurd rfl h1
  · rename_i h; cases h; exact absurd rfl h2
  · rename_i h; cases h; exact absurd rfl (h3 _ _ rfl rfl).1
  · rename_i h; cases h; exact absurd rfl (h3 _ _ rfl rfl).2
  · rename_i h; cases h; rfl

/-- what may follow a word: nothing, or a separator -/
def Follow (rest : Str) : Prop := ∀ d r, rest = d :: r → d ≠ 'n' ∧ d ≠ 'r'

theorem wordsGo_word {w rest : Str} (h1 : ' ' ∉ w) (h2 : '\t' ∉ w) (h3 : ¬ ['\\', 'n'] <:+: w)
    (h4 : ¬ ['\\', 'r'] <:+: w) (hf : Follow rest) (hw : w ≠ []) (cur : Str) (b : Bool) :
    wordsGo cur b (w ++ rest) = wordsGo (cur ++ w) false rest := by
  induction w generalizing cur b with
  | nil => exact absurd rfl hw
  | cons c w ih =>
    have hc : ∀ d r, w ++ rest = d :: r → c = '\\' → d ≠ 'n' ∧ d ≠ 'r' := by
      intro d r h hc
      cases w with
      | nil => exact hf d r h
      | cons e w =>
        simp at h
        obtain ⟨rfl, _⟩ := h
        subst hc
        constructor
        · rintro rfl; exact h3 ⟨[], w, rfl⟩
        · rintro rfl; exact h4 ⟨[], w, rfl⟩
    rw [List.cons_append, wordsGo_char (fun h => h1 (by simp [h])) (fun h => h2 (by simp [h])) hc]
    cases w with
    | nil => simp
    | cons e w =>
      rw [ih (fun h => h1 (List.mem_cons_of_mem _ h)) (fun h => h2 (List.mem_cons_of_mem _ h))
        (fun h => h3 (List.infix_cons h)) (fun h => h4 (List.infix_cons h)) (by simp)]
      simp

theorem follow_unit {u rest : Str} (hu : Unit' u) : Follow (u ++ rest) := by
  intro d r h
  simp only [Unit', List.mem_cons, List.not_mem_nil, or_false] at hu
  rcases hu with rfl | rfl | rfl | rfl <;> (simp at h; obtain ⟨rfl, _⟩ := h; decide)

theorem follow_nil : Follow [] := by intro d r h; cases h

/-- the words followed by their blanks -/
theorem wordsGo_pairs (ps : List (Str × Str)) (h : ∀ p ∈ ps, Spec.IsWord p.1 ∧ Spec.Blank p.2)
    (hb : ∀ p ∈ ps.dropLast, p.2 ≠ []) :
    (wordsGo [] true (ps.flatMap fun p => p.1 ++ p.2)).filter (!·.isEmpty) = ps.map Prod.fst := by
  induction ps with
  | nil => rfl
  | cons p ps ih =>
    obtain ⟨⟨hw, h1, h2, h3, h4⟩, us, hus, hu⟩ := h p (by simp)
    have ih := ih (fun q hq => h q (by simp [hq])) (fun q hq => by
      refine hb q ?_
      cases ps with
      | nil => simp at hq
      | cons a l => rw [List.dropLast_cons_of_ne_nil (by simp)]; exact List.mem_cons_of_mem _ hq)
    have hne : (p.1.isEmpty) = false := by
      cases h : p.1 with
      | nil => exact absurd h hw
      | cons => rfl
    rw [List.flatMap_cons, List.append_assoc]
    cases us with
    | nil =>
      simp at hus
      have hps : ps = [] := by
        cases ps with
        | nil => rfl
        | cons a l => exact absurd hus (hb p (by simp))
      subst hps
      rw [hus, wordsGo_word h1 h2 h3 h4 (by simpa using follow_nil) hw]
      simp [wordsGo, hne]
    | cons u us =>
      rw [List.flatten_cons] at hus
      rw [hus, List.append_assoc, wordsGo_word h1 h2 h3 h4 (follow_unit (hu u (by simp))) hw,
        wordsGo_unit (hu u (by simp))]
      simp only [Bool.false_eq_true, if_false]
      rw [wordsGo_units fun v hv => hu v (by simp [hv])]
      simp only [List.nil_append, List.filter_cons, hne, Bool.not_false, if_true, List.map_cons, ih]

/-- the first (possibly empty) blank -/
theorem words_of_split {line : Str} {ws : List Str} (h : Spec.IsSplit line ws) :
    (words line).filter (!·.isEmpty) = ws := by
  obtain ⟨s0, ps, rfl, rfl, ⟨us, rfl, hu⟩, hp, hd⟩ := h
  rw [← wordsGo_pairs ps hp hd]
  unfold words
  cases us with
  | cons u us =>
    rw [List.flatten_cons, List.append_assoc, wordsGo_unit (hu u (by simp))]
    simp only [Bool.false_eq_true, if_false]
    rw [wordsGo_units fun v hv => hu v (by simp [hv])]
    simp
  | nil =>
    cases ps with
    | nil => rfl
    | cons p ps =>
      -- a word first: the flag does not matter
      obtain ⟨⟨hw, h1, h2, h3, h4⟩, us, hus, hu⟩ := hp p (by simp)
      have hf : Follow (p.2 ++ ps.flatMap fun p => p.1 ++ p.2) := by
        cases us with
        | cons u us =>
          rw [hus, List.flatten_cons, List.append_assoc]; exact follow_unit (hu u (by simp))
        | nil =>
          have hps : ps = [] := by
            cases ps with
            | nil => rfl
            | cons a l => exact absurd (by simpa using hus) (hd p (by simp))
          subst hps
          rw [hus]; exact follow_nil
      simp only [List.flatten_nil, List.nil_append, List.flatMap_cons, List.append_assoc]
      rw [wordsGo_word h1 h2 h3 h4 hf hw, wordsGo_word h1 h2 h3 h4 hf hw]

theorem blank_cons {u s : Str} (hu : Unit' u) (h : Spec.Blank s) : Spec.Blank (u ++ s) := by
  obtain ⟨us, rfl, h⟩ := h
  refine ⟨u :: us, rfl, fun v hv => ?_⟩
  rcases List.mem_cons.1 hv with rfl | hv
  · exact hu
  · exact h v hv

theorem split_unit {u line : Str} (hu : Unit' u) {ws : List Str} (h : Spec.IsSplit line ws) :
    Spec.IsSplit (u ++ line) ws := by
  obtain ⟨s0, ps, rfl, h1, h2, h3⟩ := h
  exact ⟨u ++ s0, ps, by simp, h1, blank_cons hu h2, h3⟩

theorem blank_nil : Spec.Blank [] := ⟨[], rfl, by simp⟩

theorem split_char {c : Char} {cs : Str} (h1 : c ≠ ' ') (h2 : c ≠ '\t')
    (h3 : ∀ d r, cs = d :: r → c = '\\' → d ≠ 'n' ∧ d ≠ 'r') {ws : List Str} (h : Spec.IsSplit cs ws) :
    ∃ ws', Spec.IsSplit (c :: cs) ws' := by
  obtain ⟨s0, ps, rfl, rfl, hb, hp, hd⟩ := h
  have h1' : ' ' ≠ c := fun h => h1 h.symm
  have h2' : '\t' ≠ c := fun h => h2 h.symm
  have hc : Spec.IsWord [c] := by
    refine ⟨by simp, by simpa using h1', by simpa using h2', ?_, ?_⟩
    · intro h; have := h.length_le; simp at this
    · intro h; have := h.length_le; simp at this
  cases s0 with
  | cons d s0 =>
    refine ⟨_, [], ([c], d :: s0) :: ps, by simp, rfl, blank_nil, ?_, ?_⟩
    · intro p hp'
      rcases List.mem_cons.1 hp' with rfl | hp'
      · exact ⟨hc, hb⟩
      · exact hp p hp'
    · intro p hp'
      cases ps with
      | nil => simp at hp'
      | cons q ps =>
        rw [List.dropLast_cons_of_ne_nil (by simp)] at hp'
        rcases List.mem_cons.1 hp' with rfl | hp'
        · simp
        · exact hd p hp'
  | nil =>
    cases ps with
    | nil =>
      refine ⟨_, [], [([c], [])], by simp, rfl, blank_nil, ?_, by simp⟩
      intro p hp'
      obtain rfl := List.mem_singleton.1 hp'
      exact ⟨hc, blank_nil⟩
    | cons q ps =>
      obtain ⟨⟨hw, g1, g2, g3, g4⟩, hq⟩ := hp q (by simp)
      have hword : Spec.IsWord (c :: q.1) := by
        have key : ∀ e, (e = 'n' ∨ e = 'r') → ¬ ['\\', e] <:+: q.1 → ¬ ['\\', e] <:+: c :: q.1 := by
          intro e he hn hi
          rcases List.infix_cons_iff.1 hi with hpre | hi
          · obtain ⟨t, ht⟩ := hpre
            simp at ht
            have := h3 e (t ++ q.2 ++ ps.flatMap fun p => p.1 ++ p.2) (by simp [← ht.2]) ht.1.symm
            rcases he with rfl | rfl
            · exact this.1 rfl
            · exact this.2 rfl
          · exact hn hi
        exact ⟨by simp, by simp [h1', g1], by simp [h2', g2], key _ (.inl rfl) g3, key _ (.inr rfl) g4⟩
      refine ⟨_, [], (c :: q.1, q.2) :: ps, by simp, rfl, blank_nil, ?_, ?_⟩
      · intro p hp'
        rcases List.mem_cons.1 hp' with rfl | hp'
        · exact ⟨hword, hq⟩
        · exact hp p (by simp [hp'])
      · intro p hp'
        cases ps with
        | nil => simp at hp'
        | cons r ps =>
          rw [List.dropLast_cons_of_ne_nil (by simp)] at hp' hd
          rcases List.mem_cons.1 hp' with rfl | hp'
          · exact hd q (by simp)
          · exact hd p (by simp [hp'])

/-- Every line can be split into words. -/
theorem split_exists (n : Nat) : ∀ line : Str, line.length ≤ n → ∃ ws, Spec.IsSplit line ws := by
  induction n with
  | zero =>
    intro line h
    obtain rfl := List.length_eq_zero_iff.1 (Nat.le_zero.1 h)
    exact ⟨[], [], [], rfl, rfl, blank_nil, by simp, by simp⟩
  | succ n ih =>
    intro line h
    cases line with
    | nil => exact ⟨[], [], [], rfl, rfl, blank_nil, by simp, by simp⟩
    | cons c cs =>
      have hl : cs.length ≤ n := by simpa using h
      by_cases h1 : c = ' '
      · obtain ⟨ws, hw⟩ := ih cs hl
        exact ⟨ws, h1 ▸ split_unit (u := [' ']) (by simp [Unit']) hw⟩
      by_cases h2 : c = '\t'
      · obtain ⟨ws, hw⟩ := ih cs hl
        exact ⟨ws, h2 ▸ split_unit (u := ['\t']) (by simp [Unit']) hw⟩
      by_cases h3 : ∀ d r, cs = d :: r → c = '\\' → d ≠ 'n' ∧ d ≠ 'r'
      · obtain ⟨ws, hw⟩ := ih cs hl
        exact split_char h1 h2 h3 hw
      · -- a literal separator
        match cs, hl, h3 with
        | [], _, h3 => exact absurd (fun d r h => by cases h) h3
        | d :: r, hl, h3 =>
          have hc : c = '\\' ∧ (d = 'n' ∨ d = 'r') := by
            apply Classical.byContradiction
            intro hn
            apply h3
            rintro d' r' hdr hc
            cases hdr
            exact ⟨fun h => hn ⟨hc, .inl h⟩, fun h => hn ⟨hc, .inr h⟩⟩
          obtain ⟨ws, hw⟩ := ih r (by simp at hl; omega)
          obtain ⟨rfl, rfl | rfl⟩ := hc
          · exact ⟨ws, split_unit (u := ['\\', 'n']) (by simp [Unit']) hw⟩
          · exact ⟨ws, split_unit (u := ['\\', 'r']) (by simp [Unit']) hw⟩

end LJ.Tokenizer

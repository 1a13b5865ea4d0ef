/-
C107: the tokenizer follows the rules of `Tokenizer/Rules.lean`.
-/
import Verif.Tokenizer.Rules
import Verif.Tokenizer.Props
namespace LJ.Tokenizer
open LJ.Regex
open Spec (Trimmed Noise IsSplit Strip InClass ErrorKeyword amplified bytes Cut Without Pid Assign ThreeDashes Unclosed Common Long Readable Simple
  joined Reading SecretKey Numbers)
variable {wd : Char → Bool}

/-! ### The tests of the program -/

theorem hasManyDash_iff {w : Str} : hasManyDash wd w = true ↔ ThreeDashes w := by
  rw [hasManyDash, isMatch_bol]
  simp only [at_seqs_cons, at_seqs_nil, at_lit, dot, at_cls, at_plus_cls]
  constructor
  · rintro ⟨t, post, rfl, a, _, rfl, ⟨ha, ha'⟩, _, _, rfl, rfl, b, _, rfl, ⟨hb, hb'⟩, _, _, rfl, rfl, c, _, rfl, ⟨hc, hc'⟩, _, _, rfl, rfl,
      _, _, rfl, ⟨d, rfl, hd⟩, rfl⟩
    refine ⟨a, b, c, d, post, by simp, ⟨ha, fun h => ?_⟩, ⟨hb, fun h => ?_⟩, ⟨hc, fun h => ?_⟩, by simpa using hd⟩
    · simpa using ha' _ h
    · simpa using hb' _ h
    · simpa using hc' _ h
  · rintro ⟨a, b, c, d, r, rfl, ⟨ha, ha'⟩, ⟨hb, hb'⟩, ⟨hc, hc'⟩, hd⟩
    refine ⟨a ++ '-' :: b ++ '-' :: c ++ '-' :: [d], r, by simp, a, '-' :: b ++ '-' :: c ++ '-' :: [d], by simp, ⟨ha, fun x hx => ?_⟩,
      ['-'], b ++ '-' :: c ++ '-' :: [d], by simp, rfl, b, '-' :: c ++ '-' :: [d], by simp, ⟨hb, fun x hx => ?_⟩,
      ['-'], c ++ '-' :: [d], by simp, rfl, c, '-' :: [d], by simp, ⟨hc, fun x hx => ?_⟩, ['-'], [d], by simp, rfl, [d], [], by simp, ⟨d, rfl, by simpa using hd⟩, rfl⟩
    · have : x ≠ '\n' := fun e => ha' (e ▸ hx)
      simpa using this
    · have : x ≠ '\n' := fun e => hb' (e ▸ hx)
      simpa using this
    · have : x ≠ '\n' := fun e => hc' (e ▸ hx)
      simpa using this

theorem splitOnce_some_iff {p : Char → Bool} {seps : List Char} (hp : ∀ c, p c = true ↔ c ∈ seps) {w a b : Str} :
    splitOnce p w = some (a, b) ↔ Cut seps w a b := by
  have hp' : ∀ c, p c = false ↔ c ∉ seps := fun c => by rw [← hp]; simp
  constructor
  · intro h
    obtain ⟨c, hc, e, ha⟩ := splitOnce_eq h
    exact ⟨c, (hp c).1 hc, e, fun d hd => (hp' d).1 (ha d hd)⟩
  · rintro ⟨c, hc, rfl, ha⟩
    exact splitOnce_of ((hp c).2 hc) fun d hd => (hp' d).2 (ha d hd)

theorem splitOnce_none_iff {p : Char → Bool} {seps : List Char} (hp : ∀ c, p c = true ↔ c ∈ seps) {w : Str} :
    splitOnce p w = none ↔ Without seps w := by
  constructor
  · intro h c hc hm
    obtain ⟨a, b, rfl, ha⟩ : ∃ a b, w = a ++ c :: b ∧ True := by
      obtain ⟨a, b, e⟩ := List.append_of_mem hc
      exact ⟨a, b, e, trivial⟩
    clear hc ha
    induction a with
    | nil => simp [splitOnce, (hp c).2 hm] at h
    | cons d a ih =>
      rw [List.cons_append, splitOnce] at h
      split at h
      · cases h
      · rw [Option.map_eq_none_iff] at h
        exact ih h
  · intro h
    refine splitOnce_none fun c hc => ?_
    have := h c hc
    rw [← hp] at this
    simpa using this

theorem trimPid_iff {w s : Str} : trimPid w = some s ↔ Pid w s := by
  constructor
  · exact trimPid_eq
  · rintro ⟨ds, rfl, hd⟩
    have e : trimEnd isDigit (s ++ '[' :: ds) = s ++ ['['] := by
      rw [List.append_cons, trimEnd_append_all fun c hc => (isDigit_eq c).trans (hd c hc)]
      exact trimEnd_id fun c hc => by simp at hc; subst hc; decide
    unfold trimPid
    simp [e]

theorem isKeyValue_some_iff {w k v : Str} : isKeyValue w = some (k, v) ↔ Assign w k v := by
  constructor
  · intro h
    obtain ⟨c, hc, e, hk, d⟩ := isKeyValue_eq h
    exact ⟨⟨c, by simpa using hc, e, fun d hd => by simpa using hk d hd⟩, d⟩
  · rintro ⟨⟨c, hc, rfl, hk⟩, d, k', rfl, hd⟩
    exact isKeyValue_of rfl hd (by simpa using hc) fun x hx => by simpa using hk x hx

theorem isKeyValue_none_iff {w : Str} : isKeyValue w = none ↔ ¬ ∃ k v, Assign w k v := by
  rw [Option.eq_none_iff_forall_ne_some]
  constructor
  · rintro h ⟨k, v, ha⟩
    exact h (k, v) (isKeyValue_some_iff.2 ha)
  · rintro h ⟨k, v⟩ e
    exact h ⟨k, v, isKeyValue_some_iff.1 e⟩

theorem unclosed_iff {b b' : Str} : trimEnd (fun c => c = ']' || c = ')') b = b' ↔ Unclosed b b' := by
  constructor
  · rintro rfl
    obtain ⟨q, h1, h2, h3⟩ := trimEnd_decomp (fun c => c = ']' || c = ')') b
    exact ⟨q, h1, fun c hc => by simpa using h2 c hc, fun c hc => by simpa using h3 c hc⟩
  · rintro ⟨q, rfl, h2, h3⟩
    rw [trimEnd_append_all fun c hc => by simpa using h2 c hc]
    exact trimEnd_id fun c hc => by simpa using h3 c hc

theorem isTwoWords_some_iff {w a b' : Str} : isTwoWords w = some (a, b') ↔ ∃ b, Cut ['[', '(', '\\', '@'] w a b ∧ Unclosed b b' := by
  have hp : ∀ c : Char, (decide (c = '[') || decide (c = '(') || decide (c = '\\') || decide (c = '@')) = true ↔ c ∈ ['[', '(', '\\', '@'] := by
    intro c; simp [or_assoc]
  unfold isTwoWords
  rw [Option.map_eq_some_iff]
  constructor
  · rintro ⟨⟨k, v⟩, h1, h2⟩
    cases h2
    exact ⟨v, (splitOnce_some_iff hp).1 h1, unclosed_iff.1 rfl⟩
  · rintro ⟨b, h1, h2⟩
    exact ⟨(a, b), (splitOnce_some_iff hp).2 h1, by rw [← unclosed_iff.2 h2]⟩

theorem isTwoWords_none_iff {w : Str} : isTwoWords w = none ↔ Without ['[', '(', '\\', '@'] w := by
  have hp : ∀ c : Char, (decide (c = '[') || decide (c = '(') || decide (c = '\\') || decide (c = '@')) = true ↔ c ∈ ['[', '(', '\\', '@'] := by
    intro c; simp [or_assoc]
  unfold isTwoWords
  rw [Option.map_eq_none_iff]
  exact splitOnce_none_iff hp

theorem one (d : Char) : ∀ c : Char, decide (c = d) = true ↔ c ∈ [d] := fun c => by simp

theorem Without.split {a : Char} {l : List Char} {w : Str} : Without (a :: l) w ↔ Without [a] w ∧ Without l w := by
  simp only [Without, List.mem_cons, not_or, List.not_mem_nil, not_false_eq_true, and_true]
  exact ⟨fun h => ⟨fun c hc => (h c hc).1, fun c hc => (h c hc).2⟩, fun h c hc => ⟨h.1 c hc, h.2 c hc⟩⟩

theorem bool_false {b : Bool} {p : Prop} (h : b = true ↔ p) (hp : ¬ p) : b = false := by
  cases b
  · rfl
  · exact absurd (h.1 rfl) hp

section
attribute [local irreducible] parseLiteral isError containsOddChar isKeyForId hasManyDash isKeyValue isTwoWords trimPid splitOnce

/-! ### Every word has one reading -/

theorem no_pid {w : Str} (h : ¬ ∃ s, Pid w s) : trimPid w = none := trimPid_none (by rintro ⟨s, ds, e⟩; exact h ⟨s, ds, e⟩)
theorem no_odd {w : Str} (h : ∀ c ∈ w, ¬ Spec.Odd c) : containsOddChar wd w = false :=
  bool_false containsOddChar_iff (by rintro ⟨c, hc, ho⟩; exact h c hc ho)

theorem reading_eq {x t : Str} {k : Bool} (h : Reading wd x t k) : doProcess wd x = (t, k) := by
  induction h with
  | value hs h => exact doProcess_literal hs h
  | keyword hs h => exact doProcess_error hs h
  | short hs h hb =>
    rw [doProcess_eq]; unfold doProcessBody
    simp only [strip_iff.1 hs, parseLiteral_none.2 h.1, bool_false isError_iff h.2, Bool.false_eq_true, if_false]
    rw [if_pos (by rw [len_eq]; exact hb)]
  | pid hs h hb hp _ ih =>
    rw [doProcess_eq]; unfold doProcessBody
    simp only [strip_iff.1 hs, parseLiteral_none.2 h.1, bool_false isError_iff h.2, Bool.false_eq_true, if_false, trimPid_iff.2 hp, ih]
    rw [if_neg (by rw [len_eq]; omega)]
  | odd hs h hc ho =>
    rw [doProcess_eq]; unfold doProcessBody
    simp only [strip_iff.1 hs, parseLiteral_none.2 h.1.1, bool_false isError_iff h.1.2, Bool.false_eq_true, if_false, trimPid_none (by rintro ⟨s, ds, e⟩; exact h.2.2 ⟨s, ds, e⟩),
      containsOddChar_iff.2 ⟨_, hc, ho⟩, if_true]
    rw [if_neg (by rw [len_eq]; have := h.2.1; omega)]
  | secret hs h ha hk _ ih =>
    rw [doProcess_eq]; unfold doProcessBody
    simp only [strip_iff.1 hs, parseLiteral_none.2 h.1.1.1, bool_false isError_iff h.1.1.2, Bool.false_eq_true, if_false, no_pid h.1.2.2, no_odd h.2, isKeyValue_some_iff.2 ha, isKeyForId_iff.2 hk, if_true, ih]
    rw [if_neg (by rw [len_eq]; have := h.1.2.1; omega)]
  | assign hs h ha hk _ _ ih ih' =>
    rw [doProcess_eq]; unfold doProcessBody
    simp only [strip_iff.1 hs, parseLiteral_none.2 h.1.1.1, bool_false isError_iff h.1.1.2, Bool.false_eq_true, if_false, no_pid h.1.2.2, no_odd h.2, isKeyValue_some_iff.2 ha, bool_false isKeyForId_iff hk, ih, ih']
    rw [if_neg (by rw [len_eq]; have := h.1.2.1; omega)]
  | slash hs h hc _ _ ih ih' =>
    rw [doProcess_eq]; unfold doProcessBody
    simp only [strip_iff.1 hs, parseLiteral_none.2 h.1.1.1.1, bool_false isError_iff h.1.1.1.2, Bool.false_eq_true, if_false, no_pid h.1.1.2.2, no_odd h.1.2, isKeyValue_none_iff.2 h.2, (splitOnce_some_iff (one _)).2 hc, ih, ih', joined]
    rw [if_neg (by rw [len_eq]; have := h.1.1.2.1; omega)]
  | dashes hs h h1 hc hd =>
    rw [doProcess_eq]; unfold doProcessBody
    simp only [strip_iff.1 hs, parseLiteral_none.2 h.1.1.1.1, bool_false isError_iff h.1.1.1.2, Bool.false_eq_true, if_false, no_pid h.1.1.2.2, no_odd h.1.2, isKeyValue_none_iff.2 h.2, (splitOnce_none_iff (one _)).2 h1, (splitOnce_some_iff (one _)).2 hc, hasManyDash_iff.2 hd, if_true]
    rw [if_neg (by rw [len_eq]; have := h.1.1.2.1; omega)]
  | dash hs h h1 hc hd _ _ ih ih' =>
    rw [doProcess_eq]; unfold doProcessBody
    simp only [strip_iff.1 hs, parseLiteral_none.2 h.1.1.1.1, bool_false isError_iff h.1.1.1.2, Bool.false_eq_true, if_false, no_pid h.1.1.2.2, no_odd h.1.2, isKeyValue_none_iff.2 h.2, (splitOnce_none_iff (one _)).2 h1, (splitOnce_some_iff (one _)).2 hc, bool_false hasManyDash_iff hd, ih, ih', joined]
    rw [if_neg (by rw [len_eq]; have := h.1.1.2.1; omega)]
  | bar hs h h1 hc _ _ ih ih' =>
    rw [doProcess_eq]; unfold doProcessBody
    simp only [strip_iff.1 hs, parseLiteral_none.2 h.1.1.1.1, bool_false isError_iff h.1.1.1.2, Bool.false_eq_true, if_false, no_pid h.1.1.2.2, no_odd h.1.2, isKeyValue_none_iff.2 h.2, (splitOnce_none_iff (one _)).2 (Without.split.1 h1).1, (splitOnce_none_iff (one _)).2 (Without.split.1 h1).2, (splitOnce_some_iff (one _)).2 hc, ih, ih', joined]
    rw [if_neg (by rw [len_eq]; have := h.1.1.2.1; omega)]
  | big hs h h1 hb =>
    rw [doProcess_eq]; unfold doProcessBody
    simp only [strip_iff.1 hs, parseLiteral_none.2 h.1.1.1.1, bool_false isError_iff h.1.1.1.2, Bool.false_eq_true, if_false, no_pid h.1.1.2.2, no_odd h.1.2, isKeyValue_none_iff.2 h.2, (splitOnce_none_iff (one _)).2 (Without.split.1 h1).1, (splitOnce_none_iff (one _)).2 (Without.split.1 (Without.split.1 h1).2).1, (splitOnce_none_iff (one _)).2 (Without.split.1 (Without.split.1 h1).2).2]
    rw [if_neg (by rw [len_eq]; have := h.1.1.2.1; omega)]
    rw [if_pos (by rw [len_eq]; exact hb)]
  | two hs h h1 hb hc hu _ _ ih ih' =>
    rw [doProcess_eq]; unfold doProcessBody
    simp only [strip_iff.1 hs, parseLiteral_none.2 h.1.1.1.1, bool_false isError_iff h.1.1.1.2, Bool.false_eq_true, if_false, no_pid h.1.1.2.2, no_odd h.1.2, isKeyValue_none_iff.2 h.2, (splitOnce_none_iff (one _)).2 (Without.split.1 h1).1, (splitOnce_none_iff (one _)).2 (Without.split.1 (Without.split.1 h1).2).1, (splitOnce_none_iff (one _)).2 (Without.split.1 (Without.split.1 h1).2).2, isTwoWords_some_iff.2 ⟨_, hc, hu⟩, ih, ih', joined]
    rw [if_neg (by rw [len_eq]; have := h.1.1.2.1; omega)]
    rw [if_neg (by rw [len_eq]; omega)]
  | plain hs h h1 hb hN h3 =>
    rw [doProcess_eq]; unfold doProcessBody
    simp only [strip_iff.1 hs, parseLiteral_none.2 h.1.1.1.1, bool_false isError_iff h.1.1.1.2, Bool.false_eq_true, if_false, no_pid h.1.1.2.2, no_odd h.1.2, isKeyValue_none_iff.2 h.2, (splitOnce_none_iff (one _)).2 (Without.split.1 h1).1, (splitOnce_none_iff (one _)).2 (Without.split.1 (Without.split.1 h1).2).1, (splitOnce_none_iff (one _)).2 (Without.split.1 (Without.split.1 (Without.split.1 h1).2).2).1, isTwoWords_none_iff.2 (Without.split.1 (Without.split.1 (Without.split.1 h1).2).2).2, removeNumbers_of hN]
    rw [if_neg (by rw [len_eq]; have := h.1.1.2.1; omega)]
    rw [if_neg (by rw [len_eq]; omega), if_pos (by rw [len_eq]; exact h3)]
  | little hs h h1 hb hN h3 =>
    rw [doProcess_eq]; unfold doProcessBody
    simp only [strip_iff.1 hs, parseLiteral_none.2 h.1.1.1.1, bool_false isError_iff h.1.1.1.2, Bool.false_eq_true, if_false, no_pid h.1.1.2.2, no_odd h.1.2, isKeyValue_none_iff.2 h.2, (splitOnce_none_iff (one _)).2 (Without.split.1 h1).1, (splitOnce_none_iff (one _)).2 (Without.split.1 (Without.split.1 h1).2).1, (splitOnce_none_iff (one _)).2 (Without.split.1 (Without.split.1 (Without.split.1 h1).2).2).1, isTwoWords_none_iff.2 (Without.split.1 (Without.split.1 (Without.split.1 h1).2).2).2, removeNumbers_of hN]
    rw [if_neg (by rw [len_eq]; have := h.1.1.2.1; omega)]
    rw [if_neg (by rw [len_eq]; omega), if_neg (by rw [len_eq]; omega)]

theorem cut_lt {seps : List Char} {w a b : Str} (h : Cut seps w a b) : a.length < w.length ∧ b.length < w.length := by
  obtain ⟨c, _, rfl, _⟩ := h
  simp; omega

theorem cut_or {seps : List Char} (w : Str) : (∃ a b, Cut seps w a b) ∨ Without seps w := by
  have hp : ∀ c : Char, decide (c ∈ seps) = true ↔ c ∈ seps := fun c => by simp
  cases h : splitOnce (fun c => decide (c ∈ seps)) w with
  | none => exact .inr ((splitOnce_none_iff hp).1 h)
  | some p => exact .inl ⟨p.1, p.2, (splitOnce_some_iff hp).1 h⟩

theorem reading_exists (n : Nat) : ∀ x : Str, x.length < n → ∃ t k, Reading wd x t k := by
  induction n with
  | zero => intro x h; omega
  | succ n ih =>
    intro x hx
    have hs : Strip x (trimQuote x) := strip_iff.2 rfl
    have hl := trimQuote_length x
    generalize trimQuote x = w at hs hl
    by_cases hv : ∃ c, InClass wd c w
    · exact ⟨_, _, .value hs hv.choose_spec⟩
    · have hv' : ∀ c, ¬ Spec.Looks wd w c := by
        refine parseLiteral_none.1 ?_
        rw [Option.eq_none_iff_forall_ne_some]
        intro t ht
        obtain ⟨c, hc, _⟩ := parseLiteral_some.1 ht
        exact hv ⟨c, hc⟩
      by_cases he : ErrorKeyword w
      · exact ⟨_, _, .keyword hs he⟩
      · by_cases h3 : bytes w ≤ 3
        · exact ⟨_, _, .short hs ⟨hv', he⟩ h3⟩
        · by_cases hp : ∃ s, Pid w s
          · obtain ⟨s, hp⟩ := hp
            have hlt : s.length < w.length := by
              obtain ⟨ds, rfl, _⟩ := hp
              simp
            obtain ⟨t, k, hr⟩ := ih s (by omega)
            exact ⟨_, _, .pid hs ⟨hv', he⟩ (by omega) hp hr⟩
          · have hL : Long wd w := ⟨⟨hv', he⟩, by omega, hp⟩
            by_cases ho : ∃ c ∈ w, Spec.Odd c
            · obtain ⟨c, hc, ho⟩ := ho
              exact ⟨_, _, .odd hs hL hc ho⟩
            · have hR : Readable wd w := ⟨hL, fun c hc h => ho ⟨c, hc, h⟩⟩
              by_cases ha : ∃ k v, Assign w k v
              · obtain ⟨key, v, ha⟩ := ha
                have := cut_lt ha.1
                obtain ⟨t, k, hr⟩ := ih key (by omega)
                by_cases hk : SecretKey key
                · exact ⟨_, _, .secret hs hR ha hk hr⟩
                · obtain ⟨t', k', hr'⟩ := ih v (by omega)
                  exact ⟨_, _, .assign hs hR ha hk hr hr'⟩
              · have hS : Simple wd w := ⟨hR, ha⟩
                rcases cut_or (seps := ['/']) w with ⟨a, b, hc⟩ | h1
                · have := cut_lt hc
                  obtain ⟨t, k, hr⟩ := ih a (by omega)
                  obtain ⟨t', k', hr'⟩ := ih b (by omega)
                  exact ⟨_, _, .slash hs hS hc hr hr'⟩
                · rcases cut_or (seps := ['-']) w with ⟨a, b, hc⟩ | h2
                  · by_cases hd : ThreeDashes b
                    · exact ⟨_, _, .dashes hs hS h1 hc hd⟩
                    · have := cut_lt hc
                      obtain ⟨t, k, hr⟩ := ih a (by omega)
                      obtain ⟨t', k', hr'⟩ := ih b (by omega)
                      exact ⟨_, _, .dash hs hS h1 hc hd hr hr'⟩
                  · rcases cut_or (seps := ['|']) w with ⟨a, b, hc⟩ | h4
                    · have := cut_lt hc
                      obtain ⟨t, k, hr⟩ := ih a (by omega)
                      obtain ⟨t', k', hr'⟩ := ih b (by omega)
                      exact ⟨_, _, .bar hs hS (Without.split.2 ⟨h1, h2⟩) hc hr hr'⟩
                    · by_cases hb : 32 ≤ bytes w
                      · exact ⟨_, _, .big hs hS (Without.split.2 ⟨h1, Without.split.2 ⟨h2, h4⟩⟩) hb⟩
                      · rcases cut_or (seps := ['[', '(', '\\', '@']) w with ⟨a, b, hc⟩ | h5
                        · have := cut_lt hc
                          have hu : Unclosed b _ := unclosed_iff.1 rfl
                          have hlt : (trimEnd (fun c => c = ']' || c = ')') b).length ≤ b.length := by
                            obtain ⟨q, e, _⟩ := trimEnd_decomp (fun c => c = ']' || c = ')') b
                            conv => rhs; rw [e]
                            simp
                          obtain ⟨t, k, hr⟩ := ih a (by omega)
                          obtain ⟨t', k', hr'⟩ := ih _ (Nat.lt_of_le_of_lt hlt (by omega))
                          exact ⟨_, _, .two hs hS (Without.split.2 ⟨h1, Without.split.2 ⟨h2, h4⟩⟩) (by omega) hc hu hr hr'⟩
                        · have h6 := Without.split.2 ⟨h1, Without.split.2 ⟨h2, Without.split.2 ⟨h4, h5⟩⟩⟩
                          obtain ⟨s, hN, _⟩ := C71_numbers_total w
                          by_cases h7 : 3 < bytes s
                          · exact ⟨_, _, .plain hs hS h6 (by omega) hN h7⟩
                          · exact ⟨_, _, .little hs hS h6 (by omega) hN (by omega)⟩

/-- C107: every word has exactly one reading by the rules, and the tokens of a line are the readings of its words in
order, each one followed by a space when there is something to keep. -/
theorem C107_rules : ∃ (read : Str → Str) (kept : Str → Bool), (∀ x t k, Reading wd x t k ↔ t = read x ∧ k = kept x) ∧
    ∀ line t ws, Trimmed line t → ¬ Noise wd t → IsSplit t ws →
      Trimmed (ws.flatMap fun x => read x ++ if kept x then " ".toList else []) (process wd line) := by
  refine ⟨fun x => (doProcess wd x).1, fun x => (doProcess wd x).2, fun x t k => ⟨fun h => ?_, ?_⟩, fun _ _ _ ht hn hs => trim_iff.2 (process_split ht hn hs).symm⟩
  · simp [reading_eq h]
  · rintro ⟨rfl, rfl⟩
    obtain ⟨t, k, h⟩ := reading_exists (wd := wd) _ x (Nat.lt_succ_self _)
    simp only [reading_eq h]
    exact h

end

/-- Non-vacuity: a word which goes through several rules. -/
example : ∀ t k, Reading asciiWord "(host=root@nodes-a1/disk[42]".toList t k ↔ t = "host%EQ root nodes- %ID/ disk%PID".toList ∧ k = true := by
  obtain ⟨r, k, h, _⟩ := C107_rules (wd := asciiWord)
  intro t k'
  have e : doProcess asciiWord "(host=root@nodes-a1/disk[42]".toList = ("host%EQ root nodes- %ID/ disk%PID".toList, true) := by decide +kernel
  constructor
  · intro hr
    have := reading_eq hr
    rw [e] at this
    cases this
    exact ⟨rfl, rfl⟩
  · rintro ⟨rfl, rfl⟩
    obtain ⟨t, k, hr⟩ := reading_exists (wd := asciiWord) _ "(host=root@nodes-a1/disk[42]".toList (Nat.lt_succ_self _)
    have := reading_eq hr
    rw [e] at this
    cases this
    exact hr

end LJ.Tokenizer

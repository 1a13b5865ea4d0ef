/-
Invariants of the output of `do_process`, by induction over its executions.
-/
import Verif.Tokenizer.Words
namespace LJ.Tokenizer
open LJ.Regex
variable {wd : Char → Bool}

section
attribute [local irreducible] parseLiteral isError containsOddChar isKeyForId hasManyDash

/-! ### Facts on the pieces -/

theorem not_class_nil : parseLiteral wd [] = none := by
  rw [parseLiteral_none]
  intro c h
  cases c <;> simp only [Spec.Looks] at h
  · obtain ⟨k, hk, h⟩ := h
    simp [Spec.dates] at hk
    rcases hk with rfl|rfl|rfl|rfl|rfl|rfl|rfl|rfl|rfl|rfl|rfl|rfl|rfl|rfl|rfl|rfl|rfl|rfl|rfl <;> simp at h
  · rcases h with ⟨_, _, a, ds, rest, h, _⟩ | ⟨a, run, b, h, h1, _⟩
    · simp at h
    · simp at h; rw [h.2.1] at h1; simp at h1
  · obtain ⟨n, c, rest, h, _⟩ := h; simp at h
  · rcases h with ⟨p, hp, h⟩ | ⟨c, rest, h, _⟩
    · simp only [List.prefix_nil, List.mem_cons, List.not_mem_nil, or_false] at h hp
      rcases hp with rfl | rfl | rfl | rfl | rfl <;> simp at h
    · simp at h
  · obtain ⟨_, _, _, _, _, h, _⟩ := h; simp at h
  · obtain ⟨_, _, _, _, h, _⟩ := h; simp at h
  · simp at h
  · rcases h with h | h | ⟨_, _, h, _⟩ <;> simp at h
  · simp [Spec.bytes] at h

theorem length_le_len (w : Str) : w.length ≤ len w := by
  induction w with
  | nil => simp
  | cons c w ih =>
    have h1 := Char.utf8Size_pos c
    rw [show c :: w = [c] ++ w from rfl, len_append]
    have : len [c] = c.utf8Size := by simp [len]
    simp only [List.length_append, List.length_singleton]
    omega

theorem len_nil : len [] = 0 := rfl

theorem len_pos {w : Str} (h : w ≠ []) : 0 < len w :=
  Nat.lt_of_lt_of_le (List.length_pos_iff.2 h) (length_le_len w)

theorem digit_lower {c : Char} (h : c.isDigit = true) : c.toLower = c := by
  rw [digit_iff] at h
  rw [← lower_eq, lower, if_neg]
  simp [isUpper, Char.le_def, UInt32.le_iff_toNat_le]
  have : c.val.toNat = c.toNat := rfl
  omega

/-- characters outside of the letters are not changed by the comparison -/
theorem lower_other {c : Char} (h : c = ' ' ∨ c = '%' ∨ c = '\n' ∨ c.isDigit = true ∨ Spec.Ws c) : c.toLower = c := by
  rcases h with rfl | rfl | rfl | h | h
  · decide
  · decide
  · decide
  · exact digit_lower h
  · rw [← isWs_iff] at h
    rw [← lower_eq, lower, if_neg]
    simp [isUpper, Char.le_def, UInt32.le_iff_toNat_le]
    simp [isWs] at h
    have : c.val.toNat = c.toNat := rfl
    omega

theorem keyword_chars : ∀ k ∈ Spec.errorKeywords, 3 ≤ k.toList.length ∧ ∀ c ∈ k.toList,
    c ≠ ' ' ∧ c ≠ '%' ∧ c.isDigit = false ∧ isWs c = false := by decide

theorem error_chars {w : Str} (h : isError wd w = true) : 3 ≤ w.length ∧ w.length ≤ 9 ∧ ∀ c ∈ w,
    c ≠ ' ' ∧ c ≠ '%' ∧ c.isDigit = false ∧ isWs c = false ∧ c.utf8Size = 1 := by
  obtain ⟨k, hk, h⟩ := isError_iff.1 h
  obtain ⟨h1, h2⟩ := keyword_chars k hk
  have hl : w.length = k.toList.length := by rw [← h]; simp
  have h9 : k.toList.length ≤ 9 := by
    have : ∀ k ∈ Spec.errorKeywords, k.toList.length ≤ 9 := by decide
    exact this k hk
  refine ⟨by omega, by omega, fun c hc => ?_⟩
  have hm : c.toLower ∈ k.toList := by rw [← h]; exact List.mem_map.2 ⟨c, hc, rfl⟩
  obtain ⟨g1, g2, g3, g4⟩ := h2 _ hm
  refine ⟨?_, ?_, ?_, ?_, ?_⟩
  · rintro rfl; exact g1 (by decide)
  · rintro rfl; exact g2 (by decide)
  · cases hd : c.isDigit with
    | false => rfl
    | true => rw [lower_other (.inr (.inr (.inr (.inl hd))))] at g3; rw [hd] at g3; cases g3
  · cases hd : isWs c with
    | false => rfl
    | true =>
      rw [lower_other (.inr (.inr (.inr (.inr ((isWs_iff c).1 hd)))))] at g4; rw [hd] at g4; cases g4
  · have hka : ∀ k ∈ Spec.errorKeywords, ∀ d ∈ k.toList, d.toNat ≤ 122 := by decide
    have h122 := hka k hk _ hm
    have : c.toNat ≤ 127 := by
      rw [← lower_eq] at h122
      unfold lower at h122
      split at h122
      · rename_i hu
        simp [isUpper, Char.le_def, UInt32.le_iff_toNat_le] at hu
        have : c.val.toNat = c.toNat := rfl
        omega
      · omega
    have e : c.val ≤ 127 := UInt32.le_iff_toNat_le.2 this
    exact if_pos e

theorem removeNumbersGo_mem (n : Nat) (w : Str) : ∀ c ∈ removeNumbersGo n w, c = 'N' ∨ (c ∈ w ∧ c.isDigit = false) := by
  fun_induction removeNumbersGo n w with
  | case1 => simp
  | case2 c cs h ih =>
    intro d hd
    rcases List.mem_cons.1 hd with rfl | hd
    · exact .inl rfl
    · rcases ih d hd with h' | h'
      · exact .inl h'
      · exact .inr ⟨by simp [h'.1], h'.2⟩
  | case3 c cs h ih =>
    intro d hd
    rcases List.mem_cons.1 hd with rfl | hd
    · exact .inr ⟨by simp, by rw [← isDigit_eq]; simpa using h⟩
    · rcases ih d hd with h' | h'
      · exact .inl h'
      · exact .inr ⟨by simp [h'.1], h'.2⟩
  | case4 c cs h ih =>
    intro d hd
    rcases ih d hd with h' | h'
    · exact .inl h'
    · exact .inr ⟨by simp [h'.1], h'.2⟩
  | case5 c cs h h2 ih =>
    intro d hd
    rcases ih d hd with h' | h'
    · exact .inl h'
    · exact .inr ⟨by simp [h'.1], h'.2⟩
  | case6 c cs h h2 ih =>
    intro d hd
    rcases List.mem_cons.1 hd with rfl | hd
    · exact .inr ⟨by simp, by rw [← isDigit_eq]; simpa using h⟩
    · rcases ih d hd with h' | h'
      · exact .inl h'
      · exact .inr ⟨by simp [h'.1], h'.2⟩
  | case7 n c cs _ _ h ih =>
    intro d hd
    rcases ih d hd with h' | h'
    · exact .inl h'
    · exact .inr ⟨by simp [h'.1], h'.2⟩
  | case8 n c cs _ _ h ih =>
    intro d hd
    rcases List.mem_cons.1 hd with rfl | hd
    · exact .inr ⟨by simp, by rw [← isDigit_eq]; simpa using h⟩
    · rcases ih d hd with h' | h'
      · exact .inl h'
      · exact .inr ⟨by simp [h'.1], h'.2⟩

theorem len_cons (c : Char) (w : Str) : len (c :: w) = c.utf8Size + len w := by simp [len]

theorem removeNumbersGo_len (n : Nat) (w : Str) : len (removeNumbersGo n w) ≤ len w := by
  fun_induction removeNumbersGo n w with
  | case1 => simp [len]
  | case2 c cs h ih =>
    have := Char.utf8Size_pos c
    have : ('N').utf8Size = 1 := by decide
    rw [len_cons, len_cons]; omega
  | case3 c cs h ih => rw [len_cons, len_cons]; omega
  | case4 c cs h ih => rw [len_cons]; omega
  | case5 c cs h h2 ih => rw [len_cons]; omega
  | case6 c cs h h2 ih => rw [len_cons, len_cons]; omega
  | case7 n c cs _ _ h ih => rw [len_cons]; omega
  | case8 n c cs _ _ h ih => rw [len_cons, len_cons]; omega

theorem removeNumbers_mem {w : Str} {c : Char} (h : c ∈ removeNumbers w) : c = 'N' ∨ (c ∈ w ∧ c.isDigit = false) :=
  removeNumbersGo_mem 0 w c h
theorem removeNumbers_len (w : Str) : len (removeNumbers w) ≤ len w := removeNumbersGo_len 0 w

theorem token_facts : ∀ c : Spec.Class, len c.token.toList ≤ 7 ∧ c.token.toList ≠ [] ∧
    (∀ x ∈ c.token.toList, x ≠ ' ' ∧ isWs x = false) ∧ (c.token.toList = "%BASE64".toList ∨ ∀ x ∈ c.token.toList, x.isDigit = false) ∧
    c.token.toList.getLast? ≠ some '%' ∧ contains "%G".toList c.token.toList = false := by
  intro c; cases c <;> decide

/-! ### 1. Length -/

theorem run_len {x o : Str} {b : Bool} (h : Run wd x o b) : len o ≤ 13 * len x ∧ (b = true → 0 < len x) := by
  induction h with
  | @literal x t h =>
    obtain ⟨c, _, rfl⟩ := parseLiteral_some.1 h
    have hne : trimQuote x ≠ [] := by rintro e; rw [e, not_class_nil] at h; cases h
    have := (token_facts c).1
    have := trimQuote_len x
    have := len_pos hne
    constructor <;> omega
  | @err x h =>
    have h3 := (error_chars h).1
    have := length_le_len (trimQuote x)
    have := trimQuote_len x
    have e : len (pushError (trimQuote x)) = 5 * len (trimQuote x) + 12 := by
      unfold pushError
      simp only [len_append]
      have : len " ".toList = 1 ∧ len "%A ".toList = 3 ∧ len "%B ".toList = 3 ∧ len "%C ".toList = 3 ∧ len "%D".toList = 2 := by decide
      omega
    constructor <;> omega
  | skip => simp [len]
  | @pid x s o b h _ ih =>
    obtain ⟨ds, e, _⟩ := trimPid_eq h
    have h1 := trimQuote_len x
    rw [e, len_append, len_cons] at h1
    have := Char.utf8Size_pos '['
    have : len "%PID".toList = 4 := by decide
    rw [len_append]
    constructor <;> omega
  | @odd x h =>
    have := trimQuote_len x
    have : len "%ODD".toList = 4 := by decide
    constructor <;> omega
  | @secret x k v o b h _ ih =>
    obtain ⟨c, _, e, _⟩ := isKeyValue_eq h
    have h1 := trimQuote_len x
    rw [e, len_append, len_cons] at h1
    have := Char.utf8Size_pos c
    have : len "%EQ %VALUE_ID".toList = 13 := by decide
    rw [len_append]
    constructor <;> omega
  | @kv x k v o1 b1 o2 b2 h _ _ ih1 ih2 =>
    obtain ⟨c, _, e, _⟩ := isKeyValue_eq h
    have h1 := trimQuote_len x
    rw [e, len_append, len_cons] at h1
    have := Char.utf8Size_pos c
    have : len "%EQ ".toList = 4 := by decide
    rw [len_append, len_append]
    constructor
    · omega
    · intro hb; omega
  | @sep x a c b z o1 b1 o2 b2 s e hs _ _ ih1 ih2 =>
    have h1 := trimQuote_len x
    rw [e, len_append, len_append, len_cons] at h1
    have := Char.utf8Size_pos c
    have h2 : len (if b1 then s else []) ≤ 2 := by
      split
      · have : ∀ s ∈ ["/ ".toList, "- ".toList, "| ".toList, " ".toList], len s ≤ 2 := by decide
        exact this s hs
      · simp [len]
    rw [len_append, len_append]
    constructor
    · omega
    · intro hb; omega
  | @dash x h =>
    have := trimQuote_len x
    have : len "%DASH".toList = 5 := by decide
    constructor <;> omega
  | @big x h =>
    have := trimQuote_len x
    have : len "%BIG".toList = 4 := by decide
    constructor <;> omega
  | @raw x h1 h2 h3 =>
    have := trimQuote_len x
    have := removeNumbers_len (trimQuote x)
    constructor <;> omega

/-! ### 2. Spacing -/

theorem run_space {x o : Str} {b : Bool} (h : Run wd x o b) : b = false → o = [] ∨ o.getLast? = some ' ' := by
  induction h with
  | skip => intro _; exact .inl rfl
  | @kv x k v o1 b1 o2 b2 h _ _ ih1 ih2 =>
    intro hb
    right
    rcases ih2 hb with rfl | h
    · rw [List.append_nil, List.getLast?_append]; rfl
    · rw [List.getLast?_append, h]; rfl
  | @sep x a c b z o1 b1 o2 b2 s e hs _ _ ih1 ih2 =>
    intro hb
    rcases ih2 hb with rfl | h
    · cases b1 with
      | true =>
        right
        have : ∀ s ∈ ["/ ".toList, "- ".toList, "| ".toList, " ".toList], s.getLast? = some ' ' := by decide
        rw [List.append_nil, List.getLast?_append, if_pos rfl, this s hs]; rfl
      | false => simpa using ih1 rfl
    · right; rw [List.getLast?_append, h]; rfl
  | literal | err | pid | odd | secret | dash | big | raw => intro hb; cases hb

theorem tokensOf_space (x : Str) : tokensOf wd x = [] ∨ (tokensOf wd x).getLast? = some ' ' := by
  unfold tokensOf
  simp only
  split
  · right; rw [List.getLast?_append]; rfl
  · rename_i h
    rw [List.append_nil]
    exact run_space (run x) (by simpa using h)

theorem flatMap_space (ws : List Str) : ws.flatMap (tokensOf wd) = [] ∨ (ws.flatMap (tokensOf wd)).getLast? = some ' ' := by
  induction ws with
  | nil => exact .inl rfl
  | cons w ws ih =>
    rw [List.flatMap_cons]
    rcases ih with h | h
    · rw [h, List.append_nil]; exact tokensOf_space w
    · right; rw [List.getLast?_append, h]; rfl

/-! ### 3. Digits -/

/-- no digit, except those of `%BASE64` -/
inductive NoDigit : Str → Prop
  | nil : NoDigit []
  | cons {c o} : c.isDigit = false → NoDigit o → NoDigit (c :: o)
  | token {o} : NoDigit o → NoDigit ("%BASE64".toList ++ o)

theorem NoDigit.append {a b : Str} (ha : NoDigit a) (hb : NoDigit b) : NoDigit (a ++ b) := by
  induction ha with
  | nil => exact hb
  | cons h _ ih => exact .cons h ih
  | token _ ih => rw [List.append_assoc]; exact .token ih

theorem NoDigit.of_all {a : Str} (h : ∀ c ∈ a, c.isDigit = false) : NoDigit a := by
  induction a with
  | nil => exact .nil
  | cons c a ih => exact .cons (h c (by simp)) (ih fun d hd => h d (by simp [hd]))

theorem run_digits {x o : Str} {b : Bool} (h : Run wd x o b) : NoDigit o := by
  induction h with
  | @literal x t h =>
    obtain ⟨c, _, rfl⟩ := parseLiteral_some.1 h
    rcases (token_facts c).2.2.2.1 with h | h
    · rw [h]; have := NoDigit.token .nil; rwa [List.append_nil] at this
    · exact .of_all h
  | @err x h =>
    have h3 := (error_chars h).2.2
    have hw : NoDigit (trimQuote x) := .of_all fun c hc => (h3 c hc).2.2.1
    unfold pushError
    refine .append (.append (.append (.append (.append (.append (.append (.append (.append hw ?_) hw) ?_) hw) ?_) hw) ?_) hw) ?_
    all_goals exact .of_all (by decide)
  | skip => exact .nil
  | pid _ _ ih => exact ih.append (.of_all (by decide))
  | odd => exact .of_all (by decide)
  | secret _ _ ih => exact ih.append (.of_all (by decide))
  | kv _ _ _ ih1 ih2 => exact (ih1.append (.of_all (by decide))).append ih2
  | @sep x a c b z o1 b1 o2 b2 s e hs _ _ ih1 ih2 =>
    refine (ih1.append ?_).append ih2
    split
    · have : ∀ s ∈ ["/ ".toList, "- ".toList, "| ".toList, " ".toList], ∀ c ∈ s, c.isDigit = false := by decide
      exact .of_all (this s hs)
    · exact .nil
  | dash => exact .of_all (by decide)
  | big => exact .of_all (by decide)
  | @raw x h1 h2 h3 =>
    refine .of_all fun c hc => ?_
    rcases removeNumbers_mem hc with rfl | h
    · decide
    · exact h.2

theorem NoDigit.tail_ws {c : Char} {o : Str} (hc : isWs c = true) (h : NoDigit (c :: o)) : NoDigit o := by
  generalize e : c :: o = y at h
  cases h with
  | nil => cases e
  | cons _ h => cases e; exact h
  | token h => simp at e; obtain ⟨rfl, _⟩ := e; exact absurd hc (by decide)

theorem NoDigit.drop_ws {a o : Str} (ha : ∀ c ∈ a, isWs c = true) (h : NoDigit (a ++ o)) : NoDigit o := by
  induction a with
  | nil => exact h
  | cons c a ih => exact ih (fun d hd => ha d (by simp [hd])) (NoDigit.tail_ws (ha c (by simp)) h)

theorem NoDigit.dropLast_ws {o b : Str} (hb : ∀ c ∈ b, isWs c = true) (h : NoDigit (o ++ b)) : NoDigit o := by
  generalize e : o ++ b = y at h
  induction h generalizing o with
  | nil => simp at e; rw [e.1]; exact .nil
  | @cons c y hc _ ih =>
    cases o with
    | nil => exact .nil
    | cons d o => simp at e; obtain ⟨rfl, e⟩ := e; exact .cons hc (ih e)
  | @token y h ih =>
    rcases List.append_eq_append_iff.1 e with ⟨t, h1, h2⟩ | ⟨t, h1, h2⟩
    · -- the token ends in `b`
      rcases List.eq_nil_or_concat t with rfl | ⟨l, c, rfl⟩
      · simp at h1
        have ht : NoDigit ("%BASE64".toList ++ []) := .token .nil
        rw [← h1]; exact ht
      · have hl : (o ++ (l ++ [c])).getLast? = some c := by simp
        rw [List.concat_eq_append] at h1
        rw [← h1] at hl
        have hc : c = '4' := by
          have h4 : ("%BASE64".toList).getLast? = some '4' := by decide
          rw [h4] at hl; exact (Option.some.inj hl).symm
        have := hb c (by rw [h2]; simp)
        rw [hc] at this; exact absurd this (by decide)
    · rw [h1]; exact .token (ih h2.symm)

/-! ### 4. The filter token is never produced -/

def NoG (o : Str) : Prop := ¬ ['%', 'G'] <:+: o ∧ o.getLast? ≠ some '%'

theorem NoG.append {a b : Str} (ha : NoG a) (hb : NoG b) : NoG (a ++ b) := by
  constructor
  · intro h
    rcases List.infix_append_iff_ne_nil.1 h with h | h | ⟨l1, l2, h1, h2, h3, h4, h5⟩
    · exact ha.1 h
    · exact hb.1 h
    · match l1, h1, h2, h3 with
      | [c], _, _, h3 =>
        simp at h3
        obtain ⟨t, ht⟩ := h4
        refine ha.2 ?_
        rw [← ht, List.getLast?_append, h3.1]; rfl
      | c :: d :: l, _, h2, h3 => simp at h3; exact absurd h3.2.2.2 h2
  · rw [List.getLast?_append]
    cases h : b.getLast? with
    | none => simpa using ha.2
    | some c => rw [← h]; simpa [h] using hb.2

theorem NoG.of_all {a : Str} (h : ∀ c ∈ a, c ≠ '%') : NoG a :=
  ⟨fun hi => h '%' (hi.subset (by simp)) rfl, fun hl => h '%' (List.mem_of_getLast? hl) rfl⟩

theorem NoG.of_contains {a : Str} (h1 : contains "%G".toList a = false) (h2 : a.getLast? ≠ some '%') : NoG a :=
  ⟨fun h => (by
    have h' : contains "%G".toList a = true := contains_iff.2 h
    rw [h'] at h1; cases h1), h2⟩

theorem raw_no_percent {w : Str} (h : containsOddChar wd w = false) {c : Char} (hc : c ∈ removeNumbers w) : c ≠ '%' := by
  rintro rfl
  rcases removeNumbers_mem hc with h' | h'
  · cases h'
  · have := (containsOddChar_iff (wd := wd)).2 ⟨'%', h'.1, by simp [Spec.Odd]⟩
    rw [this] at h; cases h

theorem run_noG {x o : Str} {b : Bool} (h : Run wd x o b) : NoG o := by
  induction h with
  | @literal x t h =>
    obtain ⟨c, _, rfl⟩ := parseLiteral_some.1 h
    exact .of_contains (token_facts c).2.2.2.2.2 (token_facts c).2.2.2.2.1
  | @err x h =>
    have h3 := (error_chars h).2.2
    have hw : NoG (trimQuote x) := .of_all fun c hc => (h3 c hc).2.1
    unfold pushError
    refine .append (.append (.append (.append (.append (.append (.append (.append (.append hw ?_) hw) ?_) hw) ?_) hw) ?_) hw) ?_
    all_goals exact .of_contains (by decide) (by decide)
  | skip => exact .of_all (by simp)
  | pid _ _ ih => exact ih.append (.of_contains (by decide) (by decide))
  | odd => exact .of_contains (by decide) (by decide)
  | secret _ _ ih => exact ih.append (.of_contains (by decide) (by decide))
  | kv _ _ _ ih1 ih2 => exact (ih1.append (.of_contains (by decide) (by decide))).append ih2
  | @sep x a c b z o1 b1 o2 b2 s e hs _ _ ih1 ih2 =>
    refine (ih1.append ?_).append ih2
    split
    · have : ∀ s ∈ ["/ ".toList, "- ".toList, "| ".toList, " ".toList], ∀ c ∈ s, c ≠ '%' := by decide
      exact .of_all (this s hs)
    · exact .of_all (by simp)
  | dash => exact .of_contains (by decide) (by decide)
  | big => exact .of_contains (by decide) (by decide)
  | @raw x h1 h2 h3 => exact .of_all fun c hc => raw_no_percent h2 hc

theorem flatMap_noG (ws : List Str) : NoG (ws.flatMap (tokensOf wd)) := by
  induction ws with
  | nil => exact .of_all (by simp)
  | cons w ws ih =>
    rw [List.flatMap_cons]
    refine NoG.append ?_ ih
    unfold tokensOf
    refine (run_noG (run w)).append ?_
    split
    · exact .of_all (by decide)
    · exact .of_all (by simp)

/-! ### 5. Raw fragments -/

/-- a fragment without marker -/
def Plain (r : Str) : Prop := ∀ c ∈ r, c ≠ ' ' ∧ c ≠ '%'

/-- Fragments without marker have at most 32 bytes, and at most 31 at the end. -/
def Short (o : Str) : Prop :=
  (∀ a r b, o = a ++ r ++ b → Plain r → len r ≤ 32) ∧ ∀ a r, o = a ++ r → Plain r → len r ≤ 31

theorem Short.of_len {o : Str} (h : len o ≤ 31) : Short o := by
  constructor
  · rintro a r b rfl _; rw [len_append, len_append] at h; omega
  · rintro a r rfl _; rw [len_append] at h; omega

/-- A marker cuts the fragments. -/
theorem Short.append_cons {a b : Str} {c : Char} (hc : c = ' ' ∨ c = '%') (ha : ∀ x r y, a = x ++ r ++ y → Plain r → len r ≤ 32)
    (hb : Short b) : Short (a ++ c :: b) := by
  have cut : ∀ r, Plain r → c ∉ r := fun r hr hm => by
    rcases hc with rfl | rfl
    · exact (hr _ hm).1 rfl
    · exact (hr _ hm).2 rfl
  constructor
  · intro x r y h hr
    rw [List.append_assoc] at h
    rcases List.append_eq_append_iff.1 h with ⟨t, h1, h2⟩ | ⟨t, h1, h2⟩
    · cases t with
      | nil =>
        simp at h2
        -- r ++ y = c :: b
        cases r with
        | nil => simp [len]
        | cons d r => simp at h2; exact absurd (by simp [h2.1]) (cut _ hr)
      | cons d t =>
        simp at h2
        obtain ⟨rfl, h2⟩ := h2
        refine hb.1 t r y (by rw [List.append_assoc]; exact h2) hr
    · -- a = x ++ t, r ++ y = t ++ c :: b
      rcases List.append_eq_append_iff.1 h2 with ⟨u, h3, h4⟩ | ⟨u, h3, h4⟩
      · exact ha x r u (by rw [h1, h3, List.append_assoc]) hr
      · cases u with
        | nil => exact ha x r [] (by rw [h1, h3]; simp) hr
        | cons d u =>
          simp at h4
          exact absurd (by rw [h3]; simp [h4.1]) (cut _ hr)
  · intro x r h hr
    rcases List.append_eq_append_iff.1 h with ⟨t, h1, h2⟩ | ⟨t, h1, h2⟩
    · cases t with
      | nil =>
        simp at h2
        exact absurd (by rw [← h2]; simp) (cut _ hr)
      | cons d t =>
        simp at h2
        exact hb.2 t r h2.2 hr
    · exact absurd (by rw [h2]; simp) (cut _ hr)

theorem Short.append {a b : Str} (ha : Short a) (hb : Short b)
    (h : a = [] ∨ a.getLast? = some ' ' ∨ b.head? = some ' ' ∨ b.head? = some '%') : Short (a ++ b) := by
  rcases h with rfl | h | h | h
  · exact hb
  · obtain ⟨l, rfl⟩ := List.getLast?_eq_some_iff.1 h
    rw [List.append_assoc]
    refine Short.append_cons (.inl rfl) (fun x r y e hr => ha.1 x r (y ++ [' ']) (by rw [e]; simp) hr) hb
  · obtain ⟨t, rfl⟩ := List.head?_eq_some_iff.1 h
    refine Short.append_cons (.inl rfl) ha.1 ⟨fun x r y e hr => hb.1 (' ' :: x) r y (by rw [e]; rfl) hr,
      fun x r e hr => hb.2 (' ' :: x) r (by rw [e]; rfl) hr⟩
  · obtain ⟨t, rfl⟩ := List.head?_eq_some_iff.1 h
    refine Short.append_cons (.inr rfl) ha.1 ⟨fun x r y e hr => hb.1 ('%' :: x) r y (by rw [e]; rfl) hr,
      fun x r e hr => hb.2 ('%' :: x) r (by rw [e]; rfl) hr⟩

/-- adding a separator character and a space -/
theorem Short.append_sep {a : Str} {s : Str} (ha : Short a)
    (hs : s ∈ ["/ ".toList, "- ".toList, "| ".toList, " ".toList]) : Short (a ++ s) := by
  have one : ∀ c : Char, c.utf8Size = 1 → Short (a ++ [c, ' ']) := by
    intro c hc
    rw [List.append_cons]
    refine Short.append_cons (.inl rfl) ?_ (.of_len (by simp [len]))
    intro x r y e hr
    rcases List.eq_nil_or_concat y with rfl | ⟨y, d, rfl⟩
    · rw [List.append_nil] at e
      rcases List.eq_nil_or_concat r with rfl | ⟨r, d, rfl⟩
      · simp [len]
      · rw [List.concat_eq_append, ← List.append_assoc] at e
        obtain ⟨e1, e2⟩ := List.append_inj' e rfl
        have hr' : Plain r := fun z hz => hr z (by simp [hz])
        have := ha.2 x r e1 hr'
        rw [List.concat_eq_append, len_append, len_cons, len_nil]
        simp at e2
        rw [← e2, hc]; omega
    · rw [List.concat_eq_append, ← List.append_assoc] at e
      obtain ⟨e1, e2⟩ := List.append_inj' e rfl
      exact ha.1 x r y e1 hr
  simp only [List.mem_cons, List.not_mem_nil, or_false] at hs
  rcases hs with rfl | rfl | rfl | rfl
  · exact one '/' (by decide)
  · exact one '-' (by decide)
  · exact one '|' (by decide)
  · exact Short.append_cons (b := []) (.inl rfl) ha.1 (.of_len (by simp [len]))

theorem run_short {x o : Str} {b : Bool} (h : Run wd x o b) : Short o := by
  induction h with
  | @literal x t h =>
    obtain ⟨c, _, rfl⟩ := parseLiteral_some.1 h
    exact .of_len (by have := (token_facts c).1; omega)
  | @err x h =>
    obtain ⟨_, h9, h3⟩ := error_chars h
    have hl : len (trimQuote x) ≤ 9 := by
      have : ∀ w : Str, (∀ c ∈ w, c.utf8Size = 1) → len w = w.length := by
        intro w hw
        induction w with
        | nil => rfl
        | cons c w ih => rw [len_cons, ih fun d hd => hw d (by simp [hd]), hw c (by simp), List.length_cons]; omega
      rw [this _ fun c hc => (h3 c hc).2.2.2.2]; exact h9
    have hw : Short (trimQuote x) := .of_len (by omega)
    have sp : ∀ {a : Str}, Short a → ∀ {m : Str}, len m ≤ 31 → (m.head? = some ' ' ∨ m.head? = some '%') →
        m.getLast? = some ' ' → Short (a ++ m ++ trimQuote x) := by
      intro a ha m hm hh hl
      refine Short.append (Short.append ha (.of_len hm) (.inr (.inr hh))) hw (.inr (.inl ?_))
      rw [List.getLast?_append, hl]; rfl
    unfold pushError
    refine Short.append (sp (sp (sp (sp hw ?_ ?_ ?_) ?_ ?_ ?_) ?_ ?_ ?_) ?_ ?_ ?_) (.of_len (by decide)) (.inr (.inr (.inr rfl)))
    all_goals decide
  | skip => exact .of_len (by simp [len])
  | pid _ _ ih => exact ih.append (.of_len (by decide)) (.inr (.inr (.inr rfl)))
  | odd => exact .of_len (by decide)
  | secret _ _ ih => exact ih.append (.of_len (by decide)) (.inr (.inr (.inr rfl)))
  | kv _ _ _ ih1 ih2 =>
    refine Short.append (ih1.append (.of_len (by decide)) (.inr (.inr (.inr rfl)))) ih2 (.inr (.inl ?_))
    rw [List.getLast?_append]; rfl
  | @sep x a c b z o1 b1 o2 b2 s e hs r1 _ ih1 ih2 =>
    cases b1 with
    | true =>
      rw [if_pos rfl]
      refine Short.append (ih1.append_sep hs) ih2 (.inr (.inl ?_))
      have : ∀ s ∈ ["/ ".toList, "- ".toList, "| ".toList, " ".toList], s.getLast? = some ' ' := by decide
      rw [List.getLast?_append, this s hs]; rfl
    | false =>
      simp only [Bool.false_eq_true, if_false, List.append_nil]
      refine Short.append ih1 ih2 ?_
      rcases run_space r1 rfl with h | h
      · exact .inl h
      · exact .inr (.inl h)
  | dash => exact .of_len (by decide)
  | big => exact .of_len (by decide)
  | @raw x h1 h2 h3 =>
    have := removeNumbers_len (trimQuote x)
    exact .of_len (by omega)

theorem flatMap_short (ws : List Str) : Short (ws.flatMap (tokensOf wd)) := by
  induction ws with
  | nil => exact .of_len (by simp [len])
  | cons w ws ih =>
    rw [List.flatMap_cons]
    refine Short.append ?_ ih ?_
    · unfold tokensOf
      have := run_short (run (wd := wd) w)
      simp only
      split
      · exact this.append_sep (by simp)
      · rw [List.append_nil]; exact this
    · rcases tokensOf_space (wd := wd) w with h | h
      · exact .inl h
      · exact .inr (.inl h)

end
end LJ.Tokenizer

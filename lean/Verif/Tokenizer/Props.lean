/-
C09 to C16: the tokenizer.  `wd` is the set of Unicode word characters (`\w`), an arbitrary
parameter: every theorem holds whatever it is.
-/
import Verif.Tokenizer.Local
namespace LJ.Tokenizer
open LJ.Regex
open Spec (Trimmed AllWs Noise IsSplit Strip InClass ErrorKeyword SecretAssignment Ordinary amplified bytes)
variable {wd : Char → Bool}

/-- `\w` on ASCII, for the examples -/
def asciiWord (c : Char) : Bool := c.isAlphanum || c == '_'

section
attribute [local irreducible] parseLiteral isError containsOddChar isKeyForId hasManyDash doProcess process

/-! ### C09 -/

/-- The recursion of `do_process` needs no more steps than the word has characters: any larger
allowance gives the same result, so the recursive program terminates with this result. -/
theorem C09_recursion_shrinks (w : Str) (n : Nat) (h : w.length < n) : doProcessN wd n w = doProcess wd w := by
  unfold doProcess
  exact doProcessN_stable h (Nat.lt_succ_self _)

/-- The recursive equation of the program holds for the result. -/
theorem C09_recursive_equation (w : Str) : doProcess wd w = doProcessBody wd (doProcess wd) w := doProcess_eq w

theorem C09_trim_insensitive (a l b : Str) (ha : AllWs a) (hb : AllWs b) :
    process wd (a ++ l ++ b) = process wd l := by
  have h : trim (a ++ l ++ b) = trim l := by
    obtain ⟨p, q, e, h1, h2, h3⟩ := trim_iff.2 (rfl : trim l = trim l)
    refine trim_iff.1 ⟨a ++ p, q ++ b, ?_, ?_, ?_, h3⟩
    · conv => lhs; rw [e]
      simp only [List.append_assoc]
    · intro c hc; exact (List.mem_append.1 hc).elim (fun h => ha c h) (fun h => h1 c h)
    · intro c hc; exact (List.mem_append.1 hc).elim (fun h => h2 c h) (fun h => hb c h)
  unfold process
  simp only [h]

theorem C09_only_trimmed_matters (l l' t : Str) (h : Trimmed l t) (h' : Trimmed l' t) :
    process wd l = process wd l' := by
  have : trim l = trim l' := (trim_iff.1 h).trans (trim_iff.1 h').symm
  unfold process
  simp only [this]

theorem trim_trimmed (l : Str) : Trimmed (trim l) (trim l) := by
  obtain ⟨a, b, _, _, _, h3⟩ := trim_iff.2 (rfl : trim l = trim l)
  exact ⟨[], [], by simp, (fun c hc => nomatch hc), (fun c hc => nomatch hc), h3⟩

theorem trim_exists (l : Str) : ∃ t, Trimmed l t := ⟨trim l, trim_iff.2 rfl⟩

/-- Every line is noise, or it has words and its tokens are the trimmed tokens of the words. -/
theorem process_cases (l : Str) : (∃ t, Trimmed l t ∧ Noise wd t ∧ process wd l = "%GL_FILTER".toList) ∨
    ∃ t ws, Trimmed l t ∧ ¬ Noise wd t ∧ IsSplit t ws ∧ process wd l = trim (ws.flatMap (tokensOf wd)) := by
  obtain ⟨t, ht⟩ := trim_exists l
  by_cases hn : Noise wd t
  · exact .inl ⟨t, ht, hn, process_noise ht hn⟩
  · obtain ⟨ws, hs⟩ := split_exists t.length t (Nat.le_refl _)
    exact .inr ⟨t, ws, ht, hn, hs, process_split ht hn hs⟩

theorem C09_result_trimmed (l : Str) : Trimmed (process wd l) (process wd l) := by
  rcases process_cases (wd := wd) l with ⟨t, _, _, h⟩ | ⟨t, ws, _, _, _, h⟩
  · rw [h]
    refine ⟨[], [], by simp, (fun c hc => nomatch hc), (fun c hc => nomatch hc), ?_, ?_⟩
    · intro c hc; simp at hc; subst hc; unfold Spec.Ws; decide
    · intro c hc; simp at hc; subst hc; unfold Spec.Ws; decide
  · rw [h]; exact trim_trimmed _

end

example : process asciiWord "\t a  disk error\r\n".toList = "%ID disk error error%A error%B error%C error%D".toList := by
  decide +kernel

section
attribute [local irreducible] parseLiteral isError containsOddChar isKeyForId hasManyDash doProcess process

/-! ### C10 -/

theorem NoDigit.pieces {o : Str} (h : NoDigit o) : ∃ pieces : List Str, o = pieces.flatten ∧
    ∀ p ∈ pieces, p = "%BASE64".toList ∨ ∀ c ∈ p, c.isDigit = false := by
  induction h with
  | nil => exact ⟨[], rfl, by simp⟩
  | @cons c o hc _ ih =>
    obtain ⟨ps, e, h⟩ := ih
    exact ⟨[c] :: ps, by rw [e]; rfl, fun p hp => (List.mem_cons.1 hp).elim (fun e => .inr (by rw [e]; simpa using hc)) (fun hp => h p hp)⟩
  | token _ ih =>
    obtain ⟨ps, e, h⟩ := ih
    exact ⟨"%BASE64".toList :: ps, by rw [e]; rfl, fun p hp => (List.mem_cons.1 hp).elim (fun e => .inl e) (fun hp => h p hp)⟩

theorem flatMap_digits (ws : List Str) : NoDigit (ws.flatMap (tokensOf wd)) := by
  induction ws with
  | nil => exact .nil
  | cons w ws ih =>
    rw [List.flatMap_cons]
    refine NoDigit.append ?_ ih
    unfold tokensOf
    have h := run_digits (run (wd := wd) w)
    simp only
    split
    · exact h.append (.of_all (by simp))
    · exact h.append .nil

/-- The tokenized line is made of pieces without digits and of the token `%BASE64`. -/
theorem C10_no_digits (l : Str) : ∃ pieces : List Str, process wd l = pieces.flatten ∧
    ∀ p ∈ pieces, p = "%BASE64".toList ∨ ∀ c ∈ p, c.isDigit = false := by
  apply NoDigit.pieces
  rcases process_cases (wd := wd) l with ⟨t, _, _, h⟩ | ⟨t, ws, _, _, _, h⟩
  · rw [h]; exact .of_all (by decide)
  · rw [h]
    obtain ⟨a, b, e, ha, hb, _⟩ := trim_iff.2 (rfl : trim (ws.flatMap (tokensOf wd)) = _)
    have hd := flatMap_digits (wd := wd) ws
    rw [e] at hd
    exact .drop_ws (fun c hc => (isWs_iff c).2 (ha c hc)) (.dropLast_ws (fun c hc => (isWs_iff c).2 (hb c hc)) hd)

end

example : process asciiWord "took 12 test42x PobDt1cxalvf40uv9Om5VTNkw0".toList =
    "took %ID testNx %BASE64".toList := by decide +kernel

section
attribute [local irreducible] parseLiteral isError containsOddChar isKeyForId hasManyDash doProcess process

/-! ### C16 -/

/-- Each word is tokenized by a function `f` of the word alone. -/
theorem C16_word_local : ∃ f : Str → Str, ∀ line t ws, Trimmed line t → ¬ Noise wd t → IsSplit t ws →
    Trimmed (ws.flatMap f) (process wd line) :=
  ⟨tokensOf wd, fun _ _ _ ht hn hs => trim_iff.2 (process_split ht hn hs).symm⟩

/-- The blanks between the words do not matter. -/
theorem C16_separators_irrelevant (l l' t t' : Str) (ws : List Str) (ht : Trimmed l t) (ht' : Trimmed l' t')
    (hn : ¬ Noise wd t) (hn' : ¬ Noise wd t') (hs : IsSplit t ws) (hs' : IsSplit t' ws) :
    process wd l = process wd l' := (process_split ht hn hs).trans (process_split ht' hn' hs').symm

/-- Every line has words, and only one way to be split in words. -/
theorem C16_split_exists_unique (t : Str) : ∃ ws, IsSplit t ws ∧ ∀ ws', IsSplit t ws' → ws' = ws := by
  obtain ⟨ws, h⟩ := split_exists t.length t (Nat.le_refl _)
  exact ⟨ws, h, fun ws' h' => (words_of_split h').symm.trans (words_of_split h)⟩

end

example : IsSplit "a\t\\n disk  error".toList ["a".toList, "disk".toList, "error".toList] :=
  ⟨[], [("a".toList, "\t\\n ".toList), ("disk".toList, "  ".toList), ("error".toList, [])], rfl, rfl, ⟨[], rfl, by simp⟩,
    by
      intro p hp
      simp only [List.mem_cons, List.not_mem_nil, or_false] at hp
      rcases hp with rfl | rfl | rfl
      · exact ⟨⟨by decide, by decide, by decide, by decide, by decide⟩, [['\t'], ['\\', 'n'], [' ']], rfl, by simp⟩
      · exact ⟨⟨by decide, by decide, by decide, by decide, by decide⟩, [[' '], [' ']], rfl, by simp⟩
      · exact ⟨⟨by decide, by decide, by decide, by decide, by decide⟩, [], rfl, by simp⟩,
    by simp⟩
example : process asciiWord "a\t\\n disk  error".toList = process asciiWord "a disk error".toList := by decide +kernel

section
attribute [local irreducible] parseLiteral isError containsOddChar isKeyForId hasManyDash doProcess process

/-! ### C11 -/

/-- The word function of `C16_word_local` amplifies every error keyword, so that the five tokens
are present once for each occurrence. -/
theorem C11_error_word : ∃ f : Str → Str,
    (∀ line t ws, Trimmed line t → ¬ Noise wd t → IsSplit t ws → Trimmed (ws.flatMap f) (process wd line)) ∧
    ∀ x k, Strip x k → ErrorKeyword k → f x = amplified k ++ " ".toList :=
  ⟨tokensOf wd, fun _ _ _ ht hn hs => trim_iff.2 (process_split ht hn hs).symm,
    fun x k hs he => by unfold tokensOf; simp only [doProcess_error hs he, if_true]⟩

/-- The five tokens are in the tokenized line, delimited by blanks. -/
theorem C11_error_amplified (line t x k : Str) (A B : List Str) (ht : Trimmed line t) (hn : ¬ Noise wd t)
    (hs : IsSplit t (A ++ x :: B)) (hx : Strip x k) (hk : ErrorKeyword k) :
    ∃ p s, process wd line = p ++ amplified k ++ s ∧ (p = [] ∨ p.getLast? = some ' ') ∧
      (s = [] ∨ s.head? = some ' ') := by
  have hE : isError wd k = true := isError_iff.2 hk
  obtain ⟨hne, _, hch⟩ := error_chars hE
  have hm : amplified k ≠ [] := by
    unfold amplified; simp
  rw [process_split ht hn hs, List.flatMap_append, List.flatMap_cons]
  have hf : tokensOf wd x = amplified k ++ " ".toList := by
    unfold tokensOf; simp only [doProcess_error hx hk, if_true]
  rw [hf]
  have e : A.flatMap (tokensOf wd) ++ (amplified k ++ " ".toList ++ B.flatMap (tokensOf wd)) =
      A.flatMap (tokensOf wd) ++ amplified k ++ (' ' :: B.flatMap (tokensOf wd)) := by
    simp [List.append_assoc]
  rw [e, trim_mid hm]
  · refine ⟨_, _, rfl, ?_, ?_⟩
    · obtain ⟨a, e1, _, _⟩ := dropWhile_decomp isWs (A.flatMap (tokensOf wd))
      rcases flatMap_space (wd := wd) A with h | h
      · left; rw [h]; rfl
      · cases hp : (A.flatMap (tokensOf wd)).dropWhile isWs with
        | nil => exact .inl rfl
        | cons d r =>
          right
          rw [e1, hp, List.getLast?_append] at h
          cases hl : (d :: r).getLast? with
          | none => simp at hl
          | some z => rw [hl] at h; simpa using h
    · obtain ⟨b, e1, _, _⟩ := trimEnd_decomp isWs (' ' :: B.flatMap (tokensOf wd))
      cases hp : trimEnd isWs (' ' :: B.flatMap (tokensOf wd)) with
      | nil => exact .inl rfl
      | cons d r =>
        right; rw [hp] at e1; simp at e1; simp [← e1.1]
  · intro c hc
    cases k with
    | nil => exact absurd hne (by decide)
    | cons d k =>
      have : c = d := by simpa [amplified] using hc.symm
      subst this
      exact (hch c (by simp)).2.2.2.1
  · intro c hc
    have : c = 'D' := by
      unfold amplified at hc
      rw [List.getLast?_append] at hc
      simpa using hc.symm
    subst this; decide

end

/-- An upper case keyword, quoted, in the middle of the line. -/
example : ErrorKeyword "FaTaL".toList := ⟨"fatal", by decide, by decide⟩
example : Strip "'FaTaL',".toList "FaTaL".toList :=
  ⟨0, 0, "'".toList, "',".toList, by decide, by decide, by decide, by unfold Spec.Punct; decide, by unfold Spec.Punct; decide,
    by intro c hc; simp at hc; subst hc; unfold Spec.Punct; decide, by intro c hc; simp at hc; subst hc; unfold Spec.Punct; decide⟩
example : process asciiWord "the 'FaTaL', thing".toList = "FaTaL FaTaL%A FaTaL%B FaTaL%C FaTaL%D thing".toList := by decide +kernel

section
attribute [local irreducible] parseLiteral isError containsOddChar isKeyForId hasManyDash doProcess process

/-! ### C12 -/

theorem process_pairs {l l' t t' : Str} {ps : List (Str × Str)} (ht : Trimmed l t) (ht' : Trimmed l' t')
    (hn : ¬ Noise wd t) (hn' : ¬ Noise wd t') (hs : IsSplit t (ps.map Prod.fst)) (hs' : IsSplit t' (ps.map Prod.snd))
    (h : ∀ p ∈ ps, tokensOf wd p.1 = tokensOf wd p.2) : process wd l = process wd l' := by
  rw [process_split ht hn hs, process_split ht' hn' hs']
  congr 1
  clear hs hs'
  induction ps with
  | nil => rfl
  | cons p ps ih =>
    rw [List.map_cons, List.map_cons, List.flatMap_cons, List.flatMap_cons, h p (by simp), ih fun q hq => h q (by simp [hq])]

theorem C12_volatile_equal (l l' t t' : Str) (ps : List (Str × Str)) (ht : Trimmed l t) (ht' : Trimmed l' t')
    (hn : ¬ Noise wd t) (hn' : ¬ Noise wd t') (hs : IsSplit t (ps.map Prod.fst)) (hs' : IsSplit t' (ps.map Prod.snd))
    (h : ∀ p ∈ ps, p.1 = p.2 ∨ ∃ c k k', Strip p.1 k ∧ Strip p.2 k' ∧ InClass wd c k ∧ InClass wd c k') :
    process wd l = process wd l' := by
  refine process_pairs ht ht' hn hn' hs hs' fun p hp => ?_
  rcases h p hp with h | ⟨c, k, k', h1, h2, h3, h4⟩
  · rw [h]
  · unfold tokensOf; rw [doProcess_literal h1 h3, doProcess_literal h2 h4]

/-- The token of a volatile value only depends on its class. -/
theorem C12_class_token : ∃ f : Str → Str,
    (∀ line t ws, Trimmed line t → ¬ Noise wd t → IsSplit t ws → Trimmed (ws.flatMap f) (process wd line)) ∧
    ∀ x k c, Strip x k → InClass wd c k → f x = c.token.toList ++ " ".toList :=
  ⟨tokensOf wd, fun _ _ _ ht hn hs => trim_iff.2 (process_split ht hn hs).symm,
    fun x k c hs hc => by unfold tokensOf; simp only [doProcess_literal hs hc, if_true]⟩

/-- Every number, and more generally every run of less than 64 hexadecimal digits that is not a
word of the calendar, is an identifier. -/
theorem C12_hex_is_id (w : Str) (h1 : w ≠ []) (h2 : ∀ c ∈ w, c.isDigit ∨ c ∈ "abcdefABCDEF".toList)
    (h3 : w.length < 64) : InClass wd .id w := by
  have hx : ∀ c ∈ w, Spec.Hexish c := by
    intro c hc
    rcases h2 c hc with h | h
    · exact .inl h
    · have : ∀ c ∈ "abcdefABCDEF".toList, c ∈ "abcdefABCDEFxZ[]".toList := by decide
      exact .inr (this c h)
  have hcolon : ':' ∉ w := by
    intro hc
    rcases h2 _ hc with h | h
    · exact absurd h (by decide)
    · exact absurd h (by decide)
  cases w with
  | nil => exact absurd rfl h1
  | cons c w =>
    refine ⟨⟨0, c, w, rfl, hx c (by simp), fun d hd => .inl (hx d (by simp [hd]))⟩, ?_⟩
    intro c' hc'
    cases c' with
    | date =>
      rintro ⟨k, hk, e⟩
      have key : ∀ k ∈ Spec.dates, ¬ ∀ d ∈ k.toList, d ∈ "0123456789abcdefxz[]:.-".toList := by decide
      apply key k hk
      intro d hd
      rw [← e] at hd
      obtain ⟨d', hd', rfl⟩ := List.mem_map.1 hd
      exact hexish_lower (.inl (hx d' hd'))
    | hash =>
      rintro (⟨_, _, a, ds, rest, e, _⟩ | ⟨a, run, b, e, h, _⟩)
      · apply hcolon; rw [e]; simp
      · rw [e] at h3; simp at h3; omega
    | id | cookie | uuid | url | path | ref | base64 => simp [Spec.Class.rank] at hc'

end

example : process asciiWord "job 4d2f finished".toList = process asciiWord "job 77 finished".toList := by decide +kernel
/-- the hypotheses of `C12_volatile_equal` on two lines -/
example : InClass asciiWord .id "4d2f".toList ∧ InClass asciiWord .id "77".toList :=
  ⟨C12_hex_is_id _ (by decide) (by decide) (by decide), C12_hex_is_id _ (by decide) (by decide) (by decide)⟩

section
attribute [local irreducible] parseLiteral isError containsOddChar isKeyForId hasManyDash doProcess process

/-! ### C13 -/

/-- The value of a secret does not matter: changing the values of the secret looking assignments of
a line does not change its tokens (as long as the words stay ordinary words). -/
theorem C13_value_independent (l l' t t' : Str) (ps : List (Str × Str)) (ht : Trimmed l t) (ht' : Trimmed l' t')
    (hn : ¬ Noise wd t) (hn' : ¬ Noise wd t') (hs : IsSplit t (ps.map Prod.fst)) (hs' : IsSplit t' (ps.map Prod.snd))
    (h : ∀ p ∈ ps, p.1 = p.2 ∨ ∃ k w w', Strip p.1 w ∧ Strip p.2 w' ∧ SecretAssignment w k ∧
      SecretAssignment w' k ∧ Ordinary wd w ∧ Ordinary wd w') :
    process wd l = process wd l' := by
  refine process_pairs ht ht' hn hn' hs hs' fun p hp => ?_
  rcases h p hp with h | ⟨k, w, w', h1, h2, ⟨s, v, e, hsep, ⟨d, k', hk, hd⟩, hno, _, _, hsec⟩,
    ⟨s', v', e', hsep', _, _, _, _, _⟩, ⟨a1, a2, a3, a4⟩, ⟨b1, b2, b3, b4⟩⟩
  · rw [h]
  · unfold tokensOf
    rw [doProcess_reach h1 e hk hd hsep hno hsec a1 a2 a3 a4, doProcess_reach h2 e' hk hd hsep' hno hsec b1 b2 b3 b4]

/-- Whatever the value is (even a volatile one or one with odd characters), what the word produces
is one of a few fixed tokens, or a text that only depends on the key. -/
theorem C13_no_leak : ∃ (f key : Str → Str),
    (∀ line t ws, Trimmed line t → ¬ Noise wd t → IsSplit t ws → Trimmed (ws.flatMap f) (process wd line)) ∧
    ∀ x w k, Strip x w → SecretAssignment w k → ∃ t m e,
      f x = t ++ (List.replicate m "%PID".toList).flatten ++ e ∧ (e = [] ∨ e = " ".toList) ∧
      ((∃ c : Spec.Class, t = c.token.toList) ∨ t = [] ∨ t = "%ODD".toList ∨
        t = key k ++ "%EQ %VALUE_ID".toList) := by
  refine ⟨tokensOf wd, fun k => (doProcess wd k).1, fun _ _ _ ht hn hs => trim_iff.2 (process_split ht hn hs).symm, ?_⟩
  rintro x w k hst ⟨sep, v, rfl, hsep, ⟨d, k', hk, hd⟩, hno, hu1, hu2, hsec⟩
  have e1 := strip_iff.1 hst
  obtain ⟨_, _, q, q', _, _, _, _, _, _, hlast⟩ := hst
  -- the core is stripped already
  have e2 : trimQuote (k ++ sep :: v) = k ++ sep :: v := by
    rw [trimQuote_kv hk hd hsep ⟨hu1, hu2⟩]
    have : trimEnd isPunct v = v := by
      refine trimEnd_id fun c hc => ?_
      cases hp : isPunct c with
      | false => rfl
      | true =>
        refine absurd ((isPunct_iff c).1 hp) (hlast c ?_)
        rw [List.getLast?_append]
        cases v with
        | nil => simp at hc
        | cons y v => rw [List.getLast?_cons_cons]; simp [hc]
    rw [this]
  have e3 : doProcess wd x = doProcess wd (k ++ sep :: v) := by
    rw [doProcess_eq, doProcess_eq (wd := wd) (k ++ sep :: v)]
    unfold doProcessBody
    simp only [e1, e2]
  obtain ⟨t, m, h1, h2⟩ := doProcess_secret (wd := wd) (v.length + 1) hk hd hsep ⟨hu1, hu2⟩ hno hsec v (Nat.lt_succ_self _)
  unfold tokensOf
  simp only [e3]
  cases (doProcess wd (k ++ sep :: v)).2 with
  | true => exact ⟨t, m, " ".toList, by simp only [h1, if_true], .inr rfl, h2⟩
  | false => exact ⟨t, m, [], by simp [h1], .inl rfl, h2⟩

end

example : SecretAssignment "OS_PASSWORD=hunter".toList "OS_PASSWORD".toList :=
  ⟨'=', "hunter".toList, by decide, .inl rfl, ⟨'O', "S_PASSWORD".toList, by decide, by decide⟩, by decide, by decide, by decide,
    "password", by decide, "os_".toList, [], by decide⟩
example : process asciiWord "set OS_PASSWORD=hunter now".toList = process asciiWord "set OS_PASSWORD=correct-horse now".toList ∧
    process asciiWord "set OS_PASSWORD=hunter now".toList = "OS_PASSWORD%EQ %VALUE_ID".toList := by decide +kernel
/-- the volatile values of a secret have their own class -/
example : process asciiWord "set key=sha256:1234 token=/tmp/xx".toList = "%EQ %VALUE_ID %PATH".toList := by decide +kernel

section
attribute [local irreducible] parseLiteral isError containsOddChar isKeyForId hasManyDash doProcess process

/-! ### C14 -/

theorem len_infix {a r b : Str} : len r ≤ len (a ++ r ++ b) := by
  rw [len_append, len_append]; omega

theorem len_flatMap (ws : List Str) : len (ws.flatMap (tokensOf wd)) ≤ 14 * len ws.flatten := by
  induction ws with
  | nil => simp [len]
  | cons w ws ih =>
    rw [List.flatMap_cons, List.flatten_cons, len_append, len_append]
    have h := run_len (run (wd := wd) w)
    have : len (tokensOf wd w) ≤ 14 * len w := by
      unfold tokensOf
      simp only
      split
      · rename_i h2
        have := h.2 h2
        rw [len_append]
        have : len (" ".toList) = 1 := by decide
        omega
      · rw [List.append_nil]; omega
    omega

theorem split_len {t : Str} {ws : List Str} (h : IsSplit t ws) : len ws.flatten ≤ len t := by
  obtain ⟨s0, ps, rfl, rfl, -⟩ := h
  rw [len_append]
  suffices h : len (ps.map Prod.fst).flatten ≤ len (ps.flatMap fun p => p.1 ++ p.2) by omega
  induction ps with
  | nil => simp
  | cons p ps ih => 
    rw [List.map_cons, List.flatten_cons, List.flatMap_cons, len_append, len_append, len_append]; omega

/-- The size in bytes is at most 14 times the size of the input (or that of `%GL_FILTER`). -/
theorem C14_linear (l : Str) : bytes (process wd l) ≤ max (14 * bytes l) 10 := by
  rw [← len_eq, ← len_eq]
  rcases process_cases (wd := wd) l with ⟨t, _, _, h⟩ | ⟨t, ws, ht, _, hs, h⟩
  · rw [h]
    have : len "%GL_FILTER".toList = 10 := by decide
    omega
  · rw [h]
    obtain ⟨a, b, e, _⟩ := trim_iff.2 (rfl : trim (ws.flatMap (tokensOf wd)) = _)
    have h1 : len (trim (ws.flatMap (tokensOf wd))) ≤ len (ws.flatMap (tokensOf wd)) := by
      conv => rhs; rw [e]
      exact len_infix
    have h2 := len_flatMap (wd := wd) ws
    have h3 := split_len hs
    obtain ⟨a', b', e', _⟩ := ht
    have h4 : len t ≤ len l := by rw [e']; exact len_infix
    omega

/-- Every part of the tokenized line without blank and without `%` (so everything that is copied
from the line) is at most 32 bytes long. -/
theorem C14_no_long_fragment (l a r b : Str) (h : process wd l = a ++ r ++ b) (hr : ' ' ∉ r ∧ '%' ∉ r) :
    bytes r ≤ 32 := by
  rw [← len_eq]
  have hp : Plain r := fun c hc => ⟨fun e => hr.1 (e ▸ hc), fun e => hr.2 (e ▸ hc)⟩
  rcases process_cases (wd := wd) l with ⟨t, _, _, h'⟩ | ⟨t, ws, ht, _, hs, h'⟩
  · rw [h'] at h
    have : len "%GL_FILTER".toList = 10 := by decide
    rw [h] at this
    have := len_infix (a := a) (r := r) (b := b)
    omega
  · rw [h'] at h
    obtain ⟨x, y, e, _⟩ := trim_iff.2 (rfl : trim (ws.flatMap (tokensOf wd)) = _)
    refine (flatMap_short (wd := wd) ws).1 (x ++ a) r (b ++ y) ?_ hp
    rw [e, h]; simp only [List.append_assoc]

end

/-- both bounds are meaningful: an output longer than its input, and a long word that disappears -/
example : process asciiWord "an err".toList = "err err%A err%B err%C err%D".toList := by decide +kernel
example : process asciiWord "the abcdefghijklmnopqrstuvwxyz_abcde".toList = "%BIG".toList := by decide +kernel

section
attribute [local irreducible] parseLiteral isError containsOddChar isKeyForId hasManyDash doProcess process

/-! ### C15 -/

theorem C15_global_filter (l : Str) : process wd l = "%GL_FILTER".toList ↔ ∃ t, Trimmed l t ∧ Noise wd t := by
  constructor
  · intro h
    rcases process_cases (wd := wd) l with ⟨t, h1, h2, _⟩ | ⟨t, ws, _, _, _, h'⟩
    · exact ⟨t, h1, h2⟩
    · exfalso
      rw [h'] at h
      obtain ⟨x, y, e, _⟩ := trim_iff.2 h
      refine (flatMap_noG (wd := wd) ws).1 ?_
      rw [e]
      exact ⟨x, "L_FILTER".toList ++ y, by simp⟩
  · rintro ⟨t, h1, h2⟩; exact process_noise h1 h2

end

example : Noise asciiWord "iptables -t nat -L".toList :=
  .tables [] "ip" "-t nat".toList [] (by decide) (by unfold Spec.InLine; decide) (by unfold Spec.WordBoundary; decide)
example : process asciiWord " iptables -t nat -L\n".toList = "%GL_FILTER".toList := by decide +kernel
example : process asciiWord " iptables -t nat -List\n".toList = "iptables List".toList := by decide +kernel

section
attribute [local irreducible] parseLiteral isError containsOddChar isKeyForId hasManyDash doProcess process

/-! ### C71 -/

/-- An ordinary word of less than 32 bytes that is not cut is kept as it is, with its numbers
replaced by `N`, unless what remains has three bytes or less. -/
theorem C71_plain_word_kept : ∃ f : Str → Str,
    (∀ line t ws, Trimmed line t → ¬ Noise wd t → IsSplit t ws → Trimmed (ws.flatMap f) (process wd line)) ∧
    ∀ x w s, Strip x w → Ordinary wd w → Spec.Uncut w → ¬ ErrorKeyword w → bytes w < 32 → Spec.Numbers w s →
      f x = if 3 < bytes s then s ++ " ".toList else [] := by
  refine ⟨tokensOf wd, fun _ _ _ ht hn hs => trim_iff.2 (process_split ht hn hs).symm, ?_⟩
  intro x w s hs ho hu he hb hN
  unfold tokensOf
  rw [doProcess_plain hs ho hu he hb, removeNumbers_of hN, ← len_eq]
  split <;> rfl

/-- Changing the numbers of such words does not change the tokens of a line. -/
theorem C71_numbers_irrelevant (l l' t t' : Str) (ps : List (Str × Str)) (ht : Trimmed l t) (ht' : Trimmed l' t')
    (hn : ¬ Noise wd t) (hn' : ¬ Noise wd t') (hs : IsSplit t (ps.map Prod.fst)) (hs' : IsSplit t' (ps.map Prod.snd))
    (h : ∀ p ∈ ps, p.1 = p.2 ∨ ∃ w w' s, Strip p.1 w ∧ Strip p.2 w' ∧ Spec.Numbers w s ∧ Spec.Numbers w' s ∧
      Ordinary wd w ∧ Spec.Uncut w ∧ ¬ ErrorKeyword w ∧ bytes w < 32 ∧
      Ordinary wd w' ∧ Spec.Uncut w' ∧ ¬ ErrorKeyword w' ∧ bytes w' < 32) :
    process wd l = process wd l' := by
  refine process_pairs ht ht' hn hn' hs hs' fun p hp => ?_
  rcases h p hp with h | ⟨w, w', s, h1, h2, h3, h4, a1, a2, a3, a4, b1, b2, b3, b4⟩
  · rw [h]
  · unfold tokensOf
    rw [doProcess_plain h1 a1 a2 a3 a4, doProcess_plain h2 b1 b2 b3 b4, removeNumbers_of h3, removeNumbers_of h4]

/-- Every word has exactly one number free form. -/
theorem C71_numbers_total (w : Str) : ∃ s, Spec.Numbers w s ∧ ∀ s', Spec.Numbers w s' → s' = s :=
  ⟨removeNumbers w, numbers_iff.2 rfl, fun _ h => (removeNumbers_of h).symm⟩

end

example : Spec.Numbers "test4.2x7".toList "testNxN".toList := by
  refine .char _ _ _ (by decide) (.char _ _ _ (by decide) (.char _ _ _ (by decide) (.char _ _ _ (by decide) ?_)))
  refine .decimal ['4'] ['2'] ['x', '7'] _ (by decide) (by decide) (by decide) (by decide) (by simp) ?_
  exact .char _ _ _ (by decide) (.integer ['7'] [] [] (by decide) (by decide) (by simp) (by simp) .nil)
example : process asciiWord "run test4.2x7".toList = "testNxN".toList := by decide +kernel

end LJ.Tokenizer

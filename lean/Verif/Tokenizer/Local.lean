/-
From `do_process` to `process`: word locality, classes, error keywords, key/value words.
-/
import Verif.Tokenizer.Shape
namespace LJ.Tokenizer
open LJ.Regex
variable {wd : Char → Bool}

section
attribute [local irreducible] parseLiteral isError containsOddChar isKeyForId hasManyDash doProcess

theorem doProcess_literal {x k : Str} {c : Spec.Class} (hs : Spec.Strip x k) (h : Spec.InClass wd c k) :
    doProcess wd x = (c.token.toList, true) := by
  have h1 := strip_iff.1 hs
  have h2 : parseLiteral wd (trimQuote x) = some c.token.toList := by
    rw [h1]; exact parseLiteral_some.2 ⟨c, h, rfl⟩
  rw [doProcess_eq]; unfold doProcessBody
  simp only [h2]

theorem isError_nil : isError wd [] = false := by
  cases h : isError wd [] with
  | false => rfl
  | true => have := (error_chars h).1; simp at this

theorem doProcess_nil : doProcess wd [] = ([], false) := by
  rw [doProcess_eq]; unfold doProcessBody
  simp only [trimQuote_nil, not_class_nil, isError_nil]
  rfl

theorem tokensOf_nil : tokensOf wd [] = [] := by
  unfold tokensOf; rw [doProcess_nil]; rfl

theorem flatMap_filter (ws : List Str) :
    ws.flatMap (tokensOf wd) = (ws.filter (!·.isEmpty)).flatMap (tokensOf wd) := by
  induction ws with
  | nil => rfl
  | cons w ws ih =>
    cases w with
    | nil => rw [List.flatMap_cons, tokensOf_nil, List.nil_append, ih]; rfl
    | cons c w => rw [List.flatMap_cons, List.filter_cons_of_pos (by rfl), List.flatMap_cons, ih]

theorem process_noise {l t : Str} (ht : Spec.Trimmed l t) (h : Spec.Noise wd t) :
    process wd l = "%GL_FILTER".toList := by
  unfold process
  simp only
  rw [trim_iff.1 ht, if_pos (globalFilter_iff.2 h)]

theorem process_split {l t : Str} {ws : List Str} (ht : Spec.Trimmed l t) (h : ¬ Spec.Noise wd t)
    (hs : Spec.IsSplit t ws) : process wd l = trim (ws.flatMap (tokensOf wd)) := by
  unfold process
  simp only
  rw [trim_iff.1 ht, if_neg (fun h' => h (globalFilter_iff.1 h')), flatMap_filter, words_of_split hs]

theorem trim_mid {p m s : Str} (hm : m ≠ []) (h1 : ∀ c, m.head? = some c → isWs c = false)
    (h2 : ∀ c, m.getLast? = some c → isWs c = false) :
    trim (p ++ m ++ s) = p.dropWhile isWs ++ m ++ trimEnd isWs s := by
  obtain ⟨a, e1, ha, ha'⟩ := dropWhile_decomp isWs p
  obtain ⟨b, e2, hb, hb'⟩ := trimEnd_decomp isWs s
  have e : p ++ m ++ s = a ++ (p.dropWhile isWs ++ m ++ trimEnd isWs s) ++ b := by
    conv => lhs; rw [e1, e2]
    simp only [List.append_assoc]
  rw [e]
  refine trimBoth_unique ha hb ?_ ?_
  · intro c hc
    cases hp : p.dropWhile isWs with
    | nil =>
      rw [hp] at hc
      cases m with
      | nil => exact absurd rfl hm
      | cons d m => exact h1 c (by simpa using hc)
    | cons d q => rw [hp] at hc ha'; exact ha' c (by simpa using hc)
  · intro c hc
    cases hp : trimEnd isWs s with
    | nil => 
      rw [hp, List.append_nil, List.getLast?_append] at hc
      cases hl : m.getLast? with
      | none => simp at hl; exact absurd hl hm
      | some d => rw [hl] at hc; exact h2 c (by rw [hl]; simpa using hc)
    | cons d q =>
      rw [List.getLast?_append] at hc
      cases hl : (trimEnd isWs s).getLast? with
      | none => simp at hl; rw [hl] at hp; cases hp
      | some e =>
        rw [hl] at hc
        refine hb' c ?_
        rw [hl]; simpa using hc

/-! ### Error keywords -/

theorem kw_other : ∀ k ∈ Spec.errorKeywords, ∀ c ∈ k.toList, c ∉ [':', '/', '.', '='] := by decide

theorem lower_mem {w : Str} {k : String} (h : w.map Char.toLower = k.toList) {c : Char} (hc : c ∈ w) (hl : c.toLower = c) :
    c ∈ k.toList := by
  rw [← h]; exact List.mem_map.2 ⟨c, hc, hl⟩

theorem hexish_lower {c : Char} (h : Spec.Hexish c ∨ c ∈ [':', '.', '-']) :
    c.toLower ∈ "0123456789abcdefxz[]:.-".toList := by
  have key : ∀ c ∈ "0123456789abcdefABCDEFxZ[]:.-".toList, c.toLower ∈ "0123456789abcdefxz[]:.-".toList := by decide
  apply key
  rcases h with (h | h) | h
  · rw [digit_iff] at h
    have : c.toNat = 48 ∨ c.toNat = 49 ∨ c.toNat = 50 ∨ c.toNat = 51 ∨ c.toNat = 52 ∨ c.toNat = 53 ∨ c.toNat = 54 ∨
      c.toNat = 55 ∨ c.toNat = 56 ∨ c.toNat = 57 := by omega
    simp [char_eq_iff]; omega
  · have sub : ∀ c ∈ "abcdefABCDEFxZ[]".toList, c ∈ "0123456789abcdefABCDEFxZ[]:.-".toList := by decide
    exact sub c h
  · have sub : ∀ c ∈ [':', '.', '-'], c ∈ "0123456789abcdefABCDEFxZ[]:.-".toList := by decide
    exact sub c h

theorem prefix_map {p w : Str} (f : Char → Char) (h : p <+: w) : p.map f <+: w.map f := h.map f

/-- An error keyword is never a volatile value. -/
theorem keyword_no_class {w : Str} (h : Spec.ErrorKeyword w) (c : Spec.Class) : ¬ Spec.Looks wd w c := by
  obtain ⟨k, hk, e⟩ := h
  have hE : isError wd w = true := isError_iff.2 ⟨k, hk, e⟩
  obtain ⟨_, h9, hch⟩ := error_chars hE
  have hno : ∀ c, c ∈ w → c.toLower = c → c ∉ [':', '/', '.', '='] := fun c hc hl => kw_other k hk c (lower_mem e hc hl)
  cases c <;> intro h <;> simp only [Spec.Looks] at h
  · obtain ⟨d, hd, e'⟩ := h
    have : ∀ k ∈ Spec.errorKeywords, ∀ d ∈ Spec.dates, k.toList ≠ d.toList := by decide
    exact this k hk d hd (e.symm.trans e')
  · rcases h with ⟨_, _, a, ds, rest, rfl, _⟩ | ⟨a, run, b, rfl, h1, _⟩
    · exact hno ':' (by simp) (by decide) (by simp)
    · simp at h9; omega
  · obtain ⟨n, c, rest, rfl, hc, hr⟩ := h
    have hall : ∀ d ∈ List.replicate n ':' ++ c :: rest, d.toLower ∈ "0123456789abcdefxz[]:.-".toList := by
      intro d hd
      apply hexish_lower
      rcases List.mem_append.1 hd with hd | hd
      · right; rw [(List.mem_replicate.1 hd).2]; simp
      · rcases List.mem_cons.1 hd with rfl | hd
        · exact .inl hc
        · exact hr d hd
    have key : ∀ k ∈ Spec.errorKeywords, ¬ ∀ d ∈ k.toList, d ∈ "0123456789abcdefxz[]:.-".toList := by decide
    apply key k hk
    intro d hd
    rw [← e] at hd
    obtain ⟨d', hd', rfl⟩ := List.mem_map.1 hd
    exact hall d' hd'
  · rcases h with ⟨p, hp, h⟩ | ⟨c, rest, rfl, _⟩
    · have := prefix_map Char.toLower h
      rw [e] at this
      have key : ∀ k ∈ Spec.errorKeywords, ∀ p ∈ ["gAAAA", "AAAA", "tap", "req-", "AUTH_"],
        (p.toList.map Char.toLower).isPrefixOf k.toList = false := by decide
      have h' := key k hk p hp
      rw [List.isPrefixOf_iff_prefix.2 this] at h'; cases h'
    · have key : ∀ k ∈ Spec.errorKeywords, k.toList.take 2 ≠ ['t', 'x'] := by decide
      apply key k hk
      rw [← e]; simp
  · obtain ⟨c, a, x, y, z, rfl, _⟩ := h
    have hl : k.toList.getLast? = some '-' := by
      rw [← e]; simp only [List.map_append, List.getLast?_append]; rfl
    have key : ∀ k ∈ Spec.errorKeywords, k.toList.getLast? ≠ some '-' := by decide
    exact key k hk hl
  · obtain ⟨_, _, a, rest, rfl, _⟩ := h
    exact hno ':' (by simp) (by decide) (by simp)
  · rcases h with h | h | h
    · exact hno '/' (h.subset (by simp)) (by decide) (by simp)
    · exact hno '/' (h.subset (by simp)) (by decide) (by simp)
    · have := prefix_map Char.toLower h
      rw [e] at this
      have key : ∀ k ∈ Spec.errorKeywords, ("tmp".toList.map Char.toLower).isPrefixOf k.toList = false := by decide
      have h' := key k hk
      rw [List.isPrefixOf_iff_prefix.2 this] at h'; cases h'
  · rcases h with h | h | ⟨_, _, rfl, _⟩
    · exact hno '/' (h.subset (by simp)) (by decide) (by simp)
    · exact hno '/' (h.subset (by simp)) (by decide) (by simp)
    · exact hno '.' (by simp) (by decide) (by simp)
  · rcases h with h | ⟨h, _⟩
    · exact hno '=' (h.subset (by simp)) (by decide) (by simp)
    · have : ∀ w : Str, (∀ c ∈ w, c.utf8Size = 1) → len w = w.length := by
        intro w hw
        induction w with
        | nil => rfl
        | cons c w ih => rw [len_cons, ih fun d hd => hw d (by simp [hd]), hw c (by simp), List.length_cons]; omega
      rw [← len_eq, this w fun c hc => (hch c hc).2.2.2.2] at h
      omega

theorem doProcess_error {x k : Str} (hs : Spec.Strip x k) (h : Spec.ErrorKeyword k) :
    doProcess wd x = (Spec.amplified k, true) := by
  have h1 := strip_iff.1 hs
  rw [doProcess_eq]; unfold doProcessBody
  simp only [h1, parseLiteral_none.2 fun c => keyword_no_class h c, isError_iff.2 h, if_true]
  rfl

/-! ### Key/value words -/

/-- the key of a key/value word: starts with a letter or `_`, no separator inside, and not a python
string prefix -/
theorem trimQuote_kv {k v : Str} {sep d : Char} {k' : Str} (hk : k = d :: k') (hd : d.isAlpha = true ∨ d = '_')
    (hsep : sep = '=' ∨ sep = ':') (hu : ¬ ['u', '"'] <+: k ∧ ¬ ['u', '\''] <+: k) :
    trimQuote (k ++ sep :: v) = k ++ sep :: trimEnd isPunct v := by
  have hp : ∀ a : Char, a ≠ '=' → a ≠ ':' → ¬ ['u', a] <+: k → ∀ y, ¬ ['u', a] <+: k ++ sep :: y := by
    intro a h1 h2 hn y hpre
    cases k' with
    | nil =>
      subst hk
      obtain ⟨t, ht⟩ := hpre
      simp at ht
      rcases hsep with rfl | rfl
      · exact h1 ht.2.1
      · exact h2 ht.2.1
    | cons e k'' =>
      subst hk
      obtain ⟨t, ht⟩ := hpre
      simp at ht
      exact hn ⟨k'', by rw [← ht.1, ← ht.2.1]; rfl⟩
  apply strip_iff.1
  obtain ⟨b, e, hb, hb'⟩ := trimEnd_decomp isPunct v
  refine ⟨0, 0, [], b, ?_, ?_, ?_, by simp, fun c hc => (isPunct_iff c).1 (hb c hc), ?_, ?_⟩
  · simp [← e]
  · simpa [← e] using hp '"' (by decide) (by decide) hu.1 v
  · simpa [← e] using hp '\'' (by decide) (by decide) hu.2 v
  · intro c hc
    subst hk
    simp at hc; subst hc
    rw [← isPunct_iff]
    rcases hd with hd | rfl
    · intro hpu
      rw [isPunct_iff] at hpu
      have : ∀ c ∈ ['\'', '"', ',', ';', '(', ')', '[', ']', '{', '}', '<', '>', '\\'], Char.isAlpha c = false := by decide
      rw [this d hpu] at hd; cases hd
    · decide
  · intro c hc
    rw [← isPunct_iff]
    rw [List.getLast?_append] at hc
    cases hl : trimEnd isPunct v with
    | nil =>
      rw [hl] at hc; simp at hc; subst hc
      rcases hsep with rfl | rfl <;> decide
    | cons e' r =>
      have : (sep :: trimEnd isPunct v).getLast? = (trimEnd isPunct v).getLast? := by rw [hl]; rfl
      rw [this] at hc
      have hc' : (trimEnd isPunct v).getLast? = some c := by
        cases hx : (trimEnd isPunct v).getLast? with
        | none => simp at hx; rw [hx] at hl; cases hl
        | some z => rw [hx] at hc; simpa using hc
      rw [hb' c hc']; simp

theorem isKeyValue_of {k v : Str} {sep d : Char} {k' : Str} (hk : k = d :: k') (hd : d.isAlpha = true ∨ d = '_')
    (hsep : sep = '=' ∨ sep = ':') (hno : ∀ c ∈ k, c ≠ '=' ∧ c ≠ ':') :
    isKeyValue (k ++ sep :: v) = some (k, v) := by
  unfold isKeyValue
  rw [splitOnce_of (by simpa using hsep) (by intro c hc; simpa using hno c hc)]
  subst hk
  have : (isAlpha d || d = '_') = true := by rw [isAlpha_eq]; simpa using hd
  simp only [this, if_true]

theorem keyword_no_sep {w : Str} (h : Spec.ErrorKeyword w) : '=' ∉ w ∧ ':' ∉ w := by
  obtain ⟨k, hk, e⟩ := h
  exact ⟨fun hc => kw_other k hk _ (lower_mem e hc (by decide)) (by simp),
    fun hc => kw_other k hk _ (lower_mem e hc (by decide)) (by simp)⟩

/-- What a word `key=value` with a secret looking key can produce. -/
theorem doProcess_secret (n : Nat) {k : Str} {sep d : Char} {k' : Str} (hk : k = d :: k') (hd : d.isAlpha = true ∨ d = '_')
    (hsep : sep = '=' ∨ sep = ':') (hu : ¬ ['u', '"'] <+: k ∧ ¬ ['u', '\''] <+: k)
    (hno : ∀ c ∈ k, c ≠ '=' ∧ c ≠ ':') (hsec : Spec.SecretKey k) :
    ∀ v : Str, v.length < n → ∃ t m, (doProcess wd (k ++ sep :: v)).1 = t ++ (List.replicate m "%PID".toList).flatten ∧
      ((∃ c : Spec.Class, t = c.token.toList) ∨ t = [] ∨ t = "%ODD".toList ∨
        t = (doProcess wd k).1 ++ "%EQ %VALUE_ID".toList) := by
  induction n with
  | zero => intro v h; omega
  | succ n ih =>
  intro v hv
  have hq := trimQuote_kv (v := v) hk hd hsep hu
  have herr : isError wd (k ++ sep :: trimEnd isPunct v) = false := by
    cases h : isError wd (k ++ sep :: trimEnd isPunct v) with
    | false => rfl
    | true =>
      have := keyword_no_sep (isError_iff.1 h)
      rcases hsep with rfl | rfl
      · exact absurd (by simp) this.1
      · exact absurd (by simp) this.2
  rw [doProcess_eq]; unfold doProcessBody
  simp only [hq, herr]
  cases h0 : parseLiteral wd (k ++ sep :: trimEnd isPunct v) with
  | some t =>
    obtain ⟨c, _, rfl⟩ := parseLiteral_some.1 h0
    exact ⟨_, 0, (List.append_nil _).symm, .inl ⟨c, rfl⟩⟩
  | none =>
  simp only [Bool.false_eq_true, if_false]
  split
  · exact ⟨[], 0, rfl, .inr (.inl rfl)⟩
  cases h1 : trimPid (k ++ sep :: trimEnd isPunct v) with
  | some s =>
    simp only
    obtain ⟨ds, e, hds⟩ := trimPid_eq h1
    -- the bracket is in the value
    have : ∃ v', s = k ++ sep :: v' ∧ v'.length < (trimEnd isPunct v).length := by
      rcases List.append_eq_append_iff.1 e with ⟨u, e1, e2⟩ | ⟨u, e1, e2⟩
      · cases u with
        | nil =>
          simp at e2
          rcases hsep with rfl | rfl
          · exact absurd e2.1 (by decide)
          · exact absurd e2.1 (by decide)
        | cons x u =>
          simp at e2
          obtain ⟨rfl, e2⟩ := e2
          exact ⟨u, e1, by rw [e2]; simp⟩
      · -- the separator would be a digit or the bracket
        have : sep ∈ '[' :: ds := by rw [e2]; simp
        rcases List.mem_cons.1 this with h | h
        · rcases hsep with rfl | rfl <;> exact absurd h (by decide)
        · have := hds sep h
          rcases hsep with rfl | rfl <;> exact absurd this (by decide)
    obtain ⟨v', rfl, hl⟩ := this
    have hle : (trimEnd isPunct v).length ≤ v.length := by
      obtain ⟨b, e, _⟩ := trimEnd_decomp isPunct v
      have := congrArg List.length e
      simp at this; omega
    obtain ⟨t, m, h2, h3⟩ := ih v' (by omega)
    refine ⟨t, m + 1, ?_, h3⟩
    have hrep : (List.replicate (m + 1) "%PID".toList).flatten = (List.replicate m "%PID".toList).flatten ++ "%PID".toList := by
      rw [List.replicate_succ', List.flatten_append]; simp
    rw [h2, hrep, List.append_assoc]
  | none =>
  simp only
  split
  · exact ⟨_, 0, (List.append_nil _).symm, .inr (.inr (.inl rfl))⟩
  rw [isKeyValue_of hk hd hsep hno]
  simp only [isKeyForId_iff.2 hsec, if_true]
  exact ⟨_, 0, (List.append_nil _).symm, .inr (.inr (.inr rfl))⟩

theorem trimPid_none {w : Str} (h : ¬ ∃ s ds, w = s ++ '[' :: ds ∧ ∀ c ∈ ds, c.isDigit = true) : trimPid w = none := by
  cases e : trimPid w with
  | none => rfl
  | some s => obtain ⟨ds, h1, h2⟩ := trimPid_eq e; exact absurd ⟨s, ds, h1, h2⟩ h

/-- A word that reaches the key/value rule. -/
theorem doProcess_reach {x w k v : Str} {sep d : Char} {k' : Str} (hs : Spec.Strip x w)
    (hw : w = k ++ sep :: v) (hk : k = d :: k') (hd : d.isAlpha = true ∨ d = '_')
    (hsep : sep = '=' ∨ sep = ':') (hno : ∀ c ∈ k, c ≠ '=' ∧ c ≠ ':') (hsec : Spec.SecretKey k)
    (h1 : ∀ c, ¬ Spec.Looks wd w c) (h2 : 3 < Spec.bytes w)
    (h3 : ¬ ∃ s ds, w = s ++ '[' :: ds ∧ ∀ c ∈ ds, c.isDigit = true) (h4 : ∀ c ∈ w, ¬ Spec.Odd c) :
    doProcess wd x = ((doProcess wd k).1 ++ "%EQ %VALUE_ID".toList, true) := by
  have e1 := strip_iff.1 hs
  have herr : isError wd w = false := by
    cases h : isError wd w with
    | false => rfl
    | true =>
      have := keyword_no_sep (isError_iff.1 h)
      rw [hw] at this
      rcases hsep with rfl | rfl
      · exact absurd (by simp) this.1
      · exact absurd (by simp) this.2
  have hodd : containsOddChar wd w = false := by
    cases h : containsOddChar wd w with
    | false => rfl
    | true => obtain ⟨c, hc, ho⟩ := containsOddChar_iff.1 h; exact absurd ho (h4 c hc)
  have hlen : ¬ len w ≤ 3 := by rw [len_eq]; omega
  have hkv : isKeyValue w = some (k, v) := by rw [hw]; exact isKeyValue_of hk hd hsep hno
  rw [doProcess_eq]; unfold doProcessBody
  simp only [e1, parseLiteral_none.2 h1, herr, hodd, if_neg hlen, trimPid_none h3, hkv, isKeyForId_iff.2 hsec]
  rfl

theorem splitOnce_none {p : Char → Bool} {w : Str} (h : ∀ c ∈ w, p c = false) : splitOnce p w = none := by
  induction w with
  | nil => rfl
  | cons c w ih =>
    unfold splitOnce
    rw [h c (by simp), ih fun d hd => h d (by simp [hd])]
    rfl

/-- An ordinary word that is not cut: only its numbers are replaced. -/
theorem doProcess_plain {x w : Str} (hs : Spec.Strip x w) (h : Spec.Ordinary wd w) (hu : Spec.Uncut w)
    (he : ¬ Spec.ErrorKeyword w) (hb : Spec.bytes w < 32) :
    doProcess wd x = if 3 < len (removeNumbers w) then (removeNumbers w, true) else ([], false) := by
  obtain ⟨h1, h2, h3, h4⟩ := h
  have e1 := strip_iff.1 hs
  have herr : isError wd w = false := by
    cases h : isError wd w with
    | false => rfl
    | true => exact absurd (isError_iff.1 h) he
  have hodd : containsOddChar wd w = false := by
    cases h : containsOddChar wd w with
    | false => rfl
    | true => obtain ⟨c, hc, ho⟩ := containsOddChar_iff.1 h; exact absurd ho (h4 c hc)
  have hlen : ¬ len w ≤ 3 := by rw [len_eq]; omega
  have hbig : ¬ len w ≥ 32 := by rw [len_eq]; omega
  have hc : ∀ a ∈ ['=', ':', '/', '-', '|', '[', '(', '\\', '@'], ∀ c ∈ w, c ≠ a := fun a ha c hc e => hu c hc (e ▸ ha)
  have s1 : splitOnce (fun c => c = '=' || c = ':') w = none := splitOnce_none fun c h => by
    simp [hc '=' (by simp) c h, hc ':' (by simp) c h]
  have s2 : splitOnce (fun c => decide (c = '/')) w = none := splitOnce_none fun c h => by simp [hc '/' (by simp) c h]
  have s3 : splitOnce (fun c => decide (c = '-')) w = none := splitOnce_none fun c h => by simp [hc '-' (by simp) c h]
  have s4 : splitOnce (fun c => decide (c = '|')) w = none := splitOnce_none fun c h => by simp [hc '|' (by simp) c h]
  have s5 : isTwoWords w = none := by
    unfold isTwoWords
    rw [splitOnce_none fun c h => by simp [hc '[' (by simp) c h, hc '(' (by simp) c h, hc '\\' (by simp) c h, hc '@' (by simp) c h]]
    rfl
  have s6 : isKeyValue w = none := by unfold isKeyValue; rw [s1]
  rw [doProcess_eq]; unfold doProcessBody
  simp only [e1, parseLiteral_none.2 h1, herr, hodd, if_neg hlen, trimPid_none h3, s2, s3, s4, s5, s6, if_neg hbig]
  rfl

/-! ### Numbers -/

theorem rn0 (c : Char) (cs : Str) : removeNumbersGo 0 (c :: cs) =
    if isDigit c then 'N' :: removeNumbersGo 1 cs else c :: removeNumbersGo 0 cs := by simp only [removeNumbersGo]
theorem rn1_digit {c : Char} (cs : Str) (h : isDigit c = true) : removeNumbersGo 1 (c :: cs) = removeNumbersGo 1 cs := by
  conv => lhs; unfold removeNumbersGo
  simp only [h, if_true]
theorem rn1_dot {d : Char} (cs : Str) (h : isDigit d = true) :
    removeNumbersGo 1 ('.' :: d :: cs) = removeNumbersGo 2 (d :: cs) := by
  have h0 : isDigit '.' = false := by decide
  conv => lhs; unfold removeNumbersGo
  simp only [h0, h]
  rfl
theorem rn1_stop {c : Char} (cs : Str) (h : isDigit c = false) (h2 : c ≠ '.' ∨ ∀ d, cs.head? = some d → isDigit d = false) :
    removeNumbersGo 1 (c :: cs) = c :: removeNumbersGo 0 cs := by
  conv => lhs; unfold removeNumbersGo
  simp only [h]
  cases cs with
  | nil => simp
  | cons d r =>
    rcases h2 with h2 | h2
    · simp [h2]
    · simp [h2 d rfl]
theorem rn2 (c : Char) (cs : Str) : removeNumbersGo 2 (c :: cs) =
    if isDigit c then removeNumbersGo 2 cs else c :: removeNumbersGo 0 cs := by
  conv => lhs; unfold removeNumbersGo
  rfl

theorem rn_run1 {ds w : Str} (h : ∀ c ∈ ds, c.isDigit = true) : removeNumbersGo 1 (ds ++ w) = removeNumbersGo 1 w := by
  induction ds with
  | nil => rfl
  | cons c ds ih =>
    have : isDigit c = true := by rw [isDigit_eq]; exact h c (by simp)
    show removeNumbersGo 1 (c :: (ds ++ w)) = _
    rw [rn1_digit _ this, ih fun d hd => h d (by simp [hd])]

theorem rn_run2 {ds w : Str} (h : ∀ c ∈ ds, c.isDigit = true) : removeNumbersGo 2 (ds ++ w) = removeNumbersGo 2 w := by
  induction ds with
  | nil => rfl
  | cons c ds ih =>
    have : isDigit c = true := by rw [isDigit_eq]; exact h c (by simp)
    show removeNumbersGo 2 (c :: (ds ++ w)) = _
    rw [rn2, if_pos this, ih fun d hd => h d (by simp [hd])]

theorem rn_stop2 {w : Str} (h : ∀ c, w.head? = some c → c.isDigit = false) : removeNumbersGo 2 w = removeNumbersGo 0 w := by
  cases w with
  | nil => rfl
  | cons c w =>
    have : ¬ isDigit c = true := by rw [isDigit_eq, h c rfl]; simp
    rw [rn2, if_neg this, rn0, if_neg this]

theorem rn_stop1 {w : Str} (h : ∀ c, w.head? = some c → c.isDigit = false)
    (h2 : ¬ ∃ d r, w = '.' :: d :: r ∧ d.isDigit) : removeNumbersGo 1 w = removeNumbersGo 0 w := by
  cases w with
  | nil => rfl
  | cons c w =>
    have hc : isDigit c = false := by rw [isDigit_eq, h c rfl]
    rw [rn1_stop _ hc, rn0, hc]
    · simp
    · by_cases e : c = '.'
      · right
        intro d hd
        cases w with
        | nil => simp at hd
        | cons x r =>
          simp at hd; subst hd; subst e
          cases hd : isDigit x with
          | true => exact absurd ⟨x, r, rfl, by rw [← isDigit_eq]; exact hd⟩ h2
          | false => rfl
      · exact .inl e

theorem removeNumbers_of {w s : Str} (h : Spec.Numbers w s) : removeNumbers w = s := by
  induction h with
  | nil => rfl
  | char c w s hc _ ih =>
    have : ¬ isDigit c = true := by rw [isDigit_eq, hc]; simp
    unfold removeNumbers at ih ⊢
    rw [rn0, if_neg this, ih]
  | integer ds w s h1 h2 h3 h4 _ ih =>
    cases ds with
    | nil => exact absurd rfl h1
    | cons d ds =>
      have : isDigit d = true := by rw [isDigit_eq]; exact h2 d (by simp)
      unfold removeNumbers at ih ⊢
      rw [List.cons_append, rn0, if_pos this, rn_run1 fun c hc => h2 c (by simp [hc]), rn_stop1 h3 h4, ih]
  | decimal ds es w s h1 h2 h3 h4 h5 _ ih =>
    cases ds with
    | nil => exact absurd rfl h1
    | cons d ds =>
    cases es with
    | nil => exact absurd rfl h3
    | cons e es =>
      have hd : isDigit d = true := by rw [isDigit_eq]; exact h2 d (by simp)
      have he : isDigit e = true := by rw [isDigit_eq]; exact h4 e (by simp)
      unfold removeNumbers at ih ⊢
      rw [List.cons_append, List.cons_append, rn0, if_pos hd, List.append_assoc, rn_run1 fun c hc => h2 c (by simp [hc])]
      rw [List.cons_append, List.cons_append, rn1_dot _ he]
      rw [show e :: (es ++ w) = (e :: es) ++ w from rfl, rn_run2 h4, rn_stop2 h5, ih]

theorem takeWhile_all {p : Char → Bool} {w : Str} {d : Char} (h : d ∈ w.takeWhile p) : p d = true := by
  induction w with
  | nil => simp at h
  | cons c w ih =>
    by_cases hc : p c = true
    · rw [List.takeWhile_cons_of_pos hc] at h
      rcases List.mem_cons.1 h with rfl | h
      · exact hc
      · exact ih h
    · rw [List.takeWhile_cons_of_neg hc] at h; cases h

theorem dropWhile_head' {p : Char → Bool} {w : Str} {d : Char} (h : (w.dropWhile p).head? = some d) : p d = false := by
  obtain ⟨_, _, _, h'⟩ := dropWhile_decomp p w
  exact h' d h

theorem numbers_exist (n : Nat) : ∀ w : Str, w.length ≤ n → ∃ s, Spec.Numbers w s := by
  induction n with
  | zero => intro w h; cases w with | nil => exact ⟨[], .nil⟩ | cons c w => simp at h
  | succ n ih =>
    intro w h
    cases w with
    | nil => exact ⟨[], .nil⟩
    | cons c w =>
      by_cases hc : c.isDigit = true
      · let ds := (c :: w).takeWhile Char.isDigit
        let r := (c :: w).dropWhile Char.isDigit
        have e : ds ++ r = c :: w := List.takeWhile_append_dropWhile
        have hds : ds = c :: w.takeWhile Char.isDigit := by simp [ds, hc]
        have hne : ds ≠ [] := by simp [hds]
        have hall : ∀ d ∈ ds, d.isDigit = true := fun d hd => takeWhile_all hd
        have hr : ∀ d, r.head? = some d → d.isDigit = false := fun d hd => dropWhile_head' hd
        have hl : r.length ≤ n := by
          have := congrArg List.length e
          simp [hds] at this; simp at h; omega
        by_cases h2 : ∃ d q, r = '.' :: d :: q ∧ d.isDigit = true
        · obtain ⟨d, q, hq, hd⟩ := h2
          let es := (d :: q).takeWhile Char.isDigit
          let z := (d :: q).dropWhile Char.isDigit
          have e' : es ++ z = d :: q := List.takeWhile_append_dropWhile
          have hes : es = d :: q.takeWhile Char.isDigit := by simp [es, hd]
          obtain ⟨s, hs⟩ := ih z (by
            have := congrArg List.length e'
            simp [hes] at this
            rw [hq] at hl; simp at hl; omega)
          refine ⟨'N' :: s, ?_⟩
          rw [← e, hq, ← e']
          have := Spec.Numbers.decimal ds es z s hne hall (by simp [hes]) (fun d hd => takeWhile_all hd)
            (fun d hd => dropWhile_head' hd) hs
          simpa using this
        · obtain ⟨s, hs⟩ := ih r hl
          exact ⟨'N' :: s, e ▸ .integer ds r s hne hall hr h2 hs⟩
      · obtain ⟨s, hs⟩ := ih w (by simpa using h)
        exact ⟨c :: s, .char c w s (by simpa using hc) hs⟩

theorem numbers_iff {w s : Str} : Spec.Numbers w s ↔ removeNumbers w = s := by
  constructor
  · exact removeNumbers_of
  · intro h
    obtain ⟨s', h'⟩ := numbers_exist w.length w (Nat.le_refl _)
    rw [removeNumbers_of h'] at h
    exact h ▸ h'

end
end LJ.Tokenizer

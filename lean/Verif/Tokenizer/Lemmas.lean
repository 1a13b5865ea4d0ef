/-
Trimming, splitting into words, and the structure of `do_process`.
-/
import Verif.Tokenizer.Noise
namespace LJ.Tokenizer
open LJ.Regex
variable {wd : Char → Bool} {w : Str}

/-! ### Trimming -/

theorem trimEnd_decomp (p : Char → Bool) (w : Str) :
    ∃ b, w = trimEnd p w ++ b ∧ (∀ c ∈ b, p c = true) ∧ ∀ c, (trimEnd p w).getLast? = some c → p c = false := by
  refine ⟨(w.reverse.takeWhile p).reverse, ?_, ?_, ?_⟩
  · unfold trimEnd
    rw [← List.reverse_append, List.takeWhile_append_dropWhile, List.reverse_reverse]
  · intro c hc
    have h := List.all_takeWhile (p := p) (l := w.reverse)
    rw [List.all_eq_true] at h
    exact h c (by simpa using hc)
  · intro c hc
    unfold trimEnd at hc
    rw [List.getLast?_reverse] at hc
    have h := List.head?_dropWhile_not p w.reverse
    rw [hc] at h; simpa using h

theorem dropWhile_decomp (p : Char → Bool) (w : Str) :
    ∃ a, w = a ++ w.dropWhile p ∧ (∀ c ∈ a, p c = true) ∧ ∀ c, (w.dropWhile p).head? = some c → p c = false := by
  refine ⟨w.takeWhile p, List.takeWhile_append_dropWhile.symm, ?_, ?_⟩
  · intro c hc
    have h := List.all_takeWhile (p := p) (l := w)
    rw [List.all_eq_true] at h
    exact h c hc
  · intro c hc
    have h := List.head?_dropWhile_not p w
    rw [hc] at h; simpa using h

theorem dropWhile_append_all {p : Char → Bool} {a t : Str} (ha : ∀ c ∈ a, p c = true) :
    (a ++ t).dropWhile p = t.dropWhile p := by
  induction a with
  | nil => rfl
  | cons c a ih => simp [ha c (by simp), ih fun d hd => ha d (by simp [hd])]

theorem dropWhile_id {p : Char → Bool} {t : Str} (h : ∀ c, t.head? = some c → p c = false) :
    t.dropWhile p = t := by
  cases t with
  | nil => rfl
  | cons c t => simp [h c rfl]

theorem trimEnd_append_all {p : Char → Bool} {b t : Str} (hb : ∀ c ∈ b, p c = true) :
    trimEnd p (t ++ b) = trimEnd p t := by
  unfold trimEnd
  rw [List.reverse_append, dropWhile_append_all (by simpa using hb)]

theorem trimEnd_id {p : Char → Bool} {t : Str} (h : ∀ c, t.getLast? = some c → p c = false) :
    trimEnd p t = t := by
  unfold trimEnd
  rw [dropWhile_id, List.reverse_reverse]
  intro c hc; rw [List.head?_reverse] at hc; exact h c hc

/-- `trim_matches` is determined by the decomposition of the text. -/
theorem trimBoth_unique {p : Char → Bool} {a t b : Str} (ha : ∀ c ∈ a, p c = true)
    (hb : ∀ c ∈ b, p c = true) (h1 : ∀ c, t.head? = some c → p c = false)
    (h2 : ∀ c, t.getLast? = some c → p c = false) : trimBoth p (a ++ t ++ b) = t := by
  unfold trimBoth
  cases t with
  | nil =>
    rw [List.append_nil, dropWhile_append_all ha]
    have : b.dropWhile p = [] := by
      have := dropWhile_append_all (t := []) hb
      simpa using this
    rw [this]; rfl
  | cons c t =>
    rw [List.append_assoc, dropWhile_append_all ha]
    rw [dropWhile_id (by intro d hd; exact h1 d (by simpa using hd)), trimEnd_append_all hb, trimEnd_id h2]

theorem trimBoth_decomp (p : Char → Bool) (w : Str) :
    ∃ a b, w = a ++ trimBoth p w ++ b ∧ (∀ c ∈ a, p c = true) ∧ (∀ c ∈ b, p c = true) ∧
      (∀ c, (trimBoth p w).head? = some c → p c = false) ∧
      (∀ c, (trimBoth p w).getLast? = some c → p c = false) := by
  obtain ⟨a, h1, h2, h3⟩ := dropWhile_decomp p w
  obtain ⟨b, h4, h5, h6⟩ := trimEnd_decomp p (w.dropWhile p)
  refine ⟨a, b, ?_, h2, h5, ?_, h6⟩
  · unfold trimBoth
    rw [List.append_assoc, ← h4]; exact h1
  · intro c hc
    unfold trimBoth at hc
    apply h3 c
    rw [h4]
    cases h : trimEnd p (w.dropWhile p) with
    | nil => rw [h] at hc; simp at hc
    | cons d l => rw [h] at hc; simpa using hc

theorem trim_iff {l t : Str} : Spec.Trimmed l t ↔ trim l = t := by
  have hf : ∀ c, isWs c = false ↔ ¬ Spec.Ws c := fun c => by rw [← isWs_iff]; simp
  constructor
  · rintro ⟨a, b, rfl, ha, hb, h1, h2⟩
    exact trimBoth_unique (fun c hc => (isWs_iff c).2 (ha c hc)) (fun c hc => (isWs_iff c).2 (hb c hc))
      (fun c hc => (hf c).2 (h1 c hc)) (fun c hc => (hf c).2 (h2 c hc))
  · rintro rfl
    obtain ⟨a, b, h, ha, hb, h1, h2⟩ := trimBoth_decomp isWs l
    exact ⟨a, b, h, fun c hc => (isWs_iff c).1 (ha c hc), fun c hc => (isWs_iff c).1 (hb c hc),
      fun c hc => (hf c).1 (h1 c hc), fun c hc => (hf c).1 (h2 c hc)⟩

theorem trimPrefix2_decomp (a b : Char) (w : Str) :
    ∃ n, w = (List.replicate n [a, b]).flatten ++ trimPrefix2 a b w ∧ ¬ [a, b] <+: trimPrefix2 a b w := by
  fun_induction trimPrefix2 a b w with
  | case1 c d cs h ih =>
    obtain ⟨n, h1, h2⟩ := ih
    obtain ⟨rfl, rfl⟩ := h
    refine ⟨n + 1, ?_, h2⟩
    rw [List.replicate_succ, List.flatten_cons, List.append_assoc, ← h1]; rfl
  | case2 c d cs h =>
    refine ⟨0, rfl, fun h' => h ?_⟩
    simpa [eq_comm] using h'
  | case3 w hw =>
    refine ⟨0, by simp, fun h => ?_⟩
    obtain ⟨t, rfl⟩ := h
    exact hw a b t rfl

theorem trimPrefix2_unique {a b : Char} {n : Nat} {t : Str} (h : ¬ [a, b] <+: t) :
    trimPrefix2 a b ((List.replicate n [a, b]).flatten ++ t) = t := by
  induction n with
  | zero =>
    simp
    match t, h with
    | [], _ => rfl
    | [_], _ => rfl
    | c :: d :: cs, h =>
      rw [trimPrefix2, if_neg]
      rintro ⟨rfl, rfl⟩; exact h (by simp)
  | succ n ih =>
    rw [List.replicate_succ, List.flatten_cons]
    simp only [List.cons_append, List.nil_append]
    rw [trimPrefix2, if_pos ⟨rfl, rfl⟩]
    exact ih

/-- The stripped word is the one of the specification. -/
theorem strip_iff {x k : Str} : Spec.Strip x k ↔ trimQuote x = k := by
  have hf : ∀ c, isPunct c = false ↔ ¬ Spec.Punct c := fun c => by rw [← isPunct_iff]; simp
  constructor
  · rintro ⟨n, m, q, q', rfl, h1, h2, h3, h4, h5, h6⟩
    unfold trimQuote
    rw [trimPrefix2_unique h1, trimPrefix2_unique h2]
    exact trimBoth_unique (fun c hc => (isPunct_iff c).2 (h3 c hc)) (fun c hc => (isPunct_iff c).2 (h4 c hc))
      (fun c hc => (hf c).2 (h5 c hc)) (fun c hc => (hf c).2 (h6 c hc))
  · rintro rfl
    obtain ⟨n, h1, h2⟩ := trimPrefix2_decomp 'u' '"' x
    obtain ⟨m, h3, h4⟩ := trimPrefix2_decomp 'u' '\'' (trimPrefix2 'u' '"' x)
    obtain ⟨q, q', h5, h6, h7, h8, h9⟩ := trimBoth_decomp isPunct (trimPrefix2 'u' '\'' (trimPrefix2 'u' '"' x))
    refine ⟨n, m, q, q', ?_, ?_, ?_, fun c hc => (isPunct_iff c).1 (h6 c hc), fun c hc => (isPunct_iff c).1 (h7 c hc),
      fun c hc => (hf c).1 (h8 c hc), fun c hc => (hf c).1 (h9 c hc)⟩
    · show x = _ ++ (_ ++ (q ++ trimBoth isPunct _ ++ q'))
      rw [← h5, ← h3, ← h1]
    · show ¬ _ <+: (_ ++ (q ++ trimBoth isPunct _ ++ q'))
      rw [← h5, ← h3]; exact h2
    · show ¬ _ <+: (q ++ trimBoth isPunct _ ++ q')
      rw [← h5]; exact h4

theorem len_append (a b : Str) : len (a ++ b) = len a + len b := by simp [len]
theorem len_flatten_replicate (n : Nat) (s : Str) : len (List.replicate n s).flatten = n * len s := by
  induction n with
  | zero => simp [len]
  | succ n ih => rw [List.replicate_succ, List.flatten_cons, len_append, ih, Nat.succ_mul, Nat.add_comm]

theorem trimQuote_infix (x : Str) : ∃ a b, x = a ++ trimQuote x ++ b := by
  obtain ⟨n, m, q, q', h, _⟩ := strip_iff.2 (rfl : trimQuote x = trimQuote x)
  exact ⟨(List.replicate n ['u', '"']).flatten ++ ((List.replicate m ['u', '\'']).flatten ++ q), q', by
    rw [List.append_assoc, List.append_assoc, List.append_assoc, ← List.append_assoc q]; exact h⟩

theorem trimQuote_length (x : Str) : (trimQuote x).length ≤ x.length := by
  obtain ⟨a, b, h⟩ := trimQuote_infix x
  have := congrArg List.length h
  simp at this; omega

theorem trimQuote_len (x : Str) : len (trimQuote x) ≤ len x := by
  obtain ⟨a, b, h⟩ := trimQuote_infix x
  have := congrArg len h
  simp [len_append] at this; omega

theorem trimQuote_nil : trimQuote [] = [] := rfl

theorem splitOnce_eq {p : Char → Bool} {w a b : Str} (h : splitOnce p w = some (a, b)) :
    ∃ c, p c = true ∧ w = a ++ c :: b ∧ ∀ d ∈ a, p d = false := by
  induction w generalizing a b with
  | nil => simp [splitOnce] at h
  | cons c w ih =>
    unfold splitOnce at h
    split at h
    · rename_i hc; cases h; exact ⟨c, hc, rfl, by simp⟩
    · rename_i hc
      rw [Option.map_eq_some_iff] at h
      obtain ⟨⟨a', b'⟩, h1, h2⟩ := h
      cases h2
      obtain ⟨d, hd, rfl, h3⟩ := ih h1
      refine ⟨d, hd, rfl, fun e he => ?_⟩
      rcases List.mem_cons.1 he with rfl | he
      · simpa using hc
      · exact h3 e he

theorem splitOnce_of {p : Char → Bool} {a b : Str} {c : Char} (hc : p c = true) (ha : ∀ d ∈ a, p d = false) :
    splitOnce p (a ++ c :: b) = some (a, b) := by
  induction a with
  | nil => simp [splitOnce, hc]
  | cons d a ih =>
    rw [List.cons_append, splitOnce, if_neg (by simp [ha d (by simp)]), ih fun e he => ha e (by simp [he])]
    rfl

theorem isKeyValue_eq {w k v : Str} (h : isKeyValue w = some (k, v)) :
    ∃ c, (c = '=' ∨ c = ':') ∧ w = k ++ c :: v ∧ (∀ d ∈ k, d ≠ '=' ∧ d ≠ ':') ∧
      ∃ d k', k = d :: k' ∧ (d.isAlpha = true ∨ d = '_') := by
  unfold isKeyValue at h
  split at h
  · rename_i k0 v0 hs
    obtain ⟨c, hc, rfl, hk⟩ := splitOnce_eq hs
    cases k0 with
    | nil => cases h
    | cons d k' =>
      simp only at h
      split at h
      · rename_i hd
        cases h
        refine ⟨c, by simpa using hc, rfl, fun d hd => by simpa using hk d hd, d, k', rfl, ?_⟩
        rw [isAlpha_eq] at hd; simpa using hd
      · cases h
  · cases h

theorem isTwoWords_eq {w a b : Str} (h : isTwoWords w = some (a, b)) :
    ∃ c b', w = a ++ c :: b ++ b' := by
  unfold isTwoWords at h
  rw [Option.map_eq_some_iff] at h
  obtain ⟨⟨k, v⟩, h1, h2⟩ := h
  cases h2
  obtain ⟨c, _, rfl, _⟩ := splitOnce_eq h1
  obtain ⟨b', hb, _⟩ := trimEnd_decomp (fun c => c = ']' || c = ')') v
  refine ⟨c, b', ?_⟩
  rw [List.append_assoc, List.cons_append, ← hb]

theorem trimPid_eq {w s : Str} (h : trimPid w = some s) :
    ∃ ds, w = s ++ '[' :: ds ∧ ∀ c ∈ ds, c.isDigit = true := by
  unfold trimPid at h
  simp only at h
  split at h
  · rename_i hl
    cases h
    obtain ⟨ds, h1, h2, _⟩ := trimEnd_decomp isDigit w
    refine ⟨ds, ?_, fun c hc => isDigit_eq c ▸ h2 c hc⟩
    rw [List.append_cons]
    obtain ⟨l, hl'⟩ := List.getLast?_eq_some_iff.1 hl
    rw [hl', List.dropLast_concat, ← hl']; exact h1
  · cases h

/-! ### `do_process` -/

theorem isKeyValue_lt {w k v : Str} (h : isKeyValue w = some (k, v)) : k.length < w.length ∧ v.length < w.length := by
  obtain ⟨c, _, rfl, _⟩ := isKeyValue_eq h
  simp; omega
theorem splitOnce_lt {p : Char → Bool} {w k v : Str} (h : splitOnce p w = some (k, v)) :
    k.length < w.length ∧ v.length < w.length := by
  obtain ⟨c, _, rfl, _⟩ := splitOnce_eq h
  simp; omega
theorem isTwoWords_lt {w k v : Str} (h : isTwoWords w = some (k, v)) : k.length < w.length ∧ v.length < w.length := by
  obtain ⟨c, b', rfl⟩ := isTwoWords_eq h
  simp; omega
theorem trimPid_lt {w s : Str} (h : trimPid w = some s) : s.length < w.length := by
  obtain ⟨ds, rfl, _⟩ := trimPid_eq h
  simp

/-- The recursive calls are on strictly shorter words. -/
theorem body_congr {f g : Str → Str × Bool} {word : Str} (h : ∀ x, x.length < word.length → f x = g x) :
    doProcessBody wd f word = doProcessBody wd g word := by
  have hw := trimQuote_length word
  unfold doProcessBody
  simp only
  cases parseLiteral wd (trimQuote word) with
  | some t => rfl
  | none =>
  simp only
  split
  · rfl
  split
  · rfl
  cases h1 : trimPid (trimQuote word) with
  | some s => simp only; rw [h s (by have := trimPid_lt h1; omega)]
  | none =>
  simp only
  split
  · rfl
  cases h2 : isKeyValue (trimQuote word) with
  | some kv =>
    have := isKeyValue_lt h2
    simp only; rw [h kv.1 (by omega), h kv.2 (by omega)]
  | none =>
  simp only
  cases h3 : splitOnce (· = '/') (trimQuote word) with
  | some kv =>
    have := splitOnce_lt h3
    simp only; rw [h kv.1 (by omega), h kv.2 (by omega)]
  | none =>
  simp only
  cases h4 : splitOnce (· = '-') (trimQuote word) with
  | some kv =>
    have := splitOnce_lt h4
    simp only; rw [h kv.1 (by omega), h kv.2 (by omega)]
  | none =>
  simp only
  cases h5 : splitOnce (· = '|') (trimQuote word) with
  | some kv =>
    have := splitOnce_lt h5
    simp only; rw [h kv.1 (by omega), h kv.2 (by omega)]
  | none =>
  simp only
  split
  · rfl
  cases h6 : isTwoWords (trimQuote word) with
  | some kv =>
    have := isTwoWords_lt h6
    simp only; rw [h kv.1 (by omega), h kv.2 (by omega)]
  | none => rfl

theorem doProcessN_stable {n m : Nat} {word : Str} (hn : word.length < n) (hm : word.length < m) :
    doProcessN wd n word = doProcessN wd m word := by
  induction n generalizing m word with
  | zero => omega
  | succ n ih =>
    cases m with
    | zero => omega
    | succ m =>
      rw [doProcessN, doProcessN]
      exact body_congr fun x hx => ih (by omega) (by omega)

theorem doProcess_eq (word : Str) : doProcess wd word = doProcessBody wd (doProcess wd) word := by
  show doProcessN wd (word.length + 1) word = _
  rw [doProcessN]
  exact body_congr fun x hx => doProcessN_stable (by omega) (by omega)

/-- The executions of `do_process`: what is appended and the boolean. -/
inductive Run (wd : Char → Bool) : Str → Str → Bool → Prop
  | literal {x t} : parseLiteral wd (trimQuote x) = some t → Run wd x t true
  | err {x} : isError wd (trimQuote x) = true → Run wd x (pushError (trimQuote x)) true
  | skip {x} : Run wd x [] false
  | pid {x s o b} : trimPid (trimQuote x) = some s → Run wd s o b → Run wd x (o ++ "%PID".toList) true
  | odd {x} : 3 < len (trimQuote x) → Run wd x "%ODD".toList true
  | secret {x k v o b} : isKeyValue (trimQuote x) = some (k, v) → Run wd k o b →
      Run wd x (o ++ "%EQ %VALUE_ID".toList) true
  | kv {x k v o1 b1 o2 b2} : isKeyValue (trimQuote x) = some (k, v) → Run wd k o1 b1 → Run wd v o2 b2 →
      Run wd x (o1 ++ "%EQ ".toList ++ o2) b2
  | sep {x a c b z o1 b1 o2 b2} (s : Str) : trimQuote x = a ++ c :: b ++ z →
      s ∈ ["/ ".toList, "- ".toList, "| ".toList, " ".toList] → Run wd a o1 b1 → Run wd b o2 b2 →
      Run wd x (o1 ++ (if b1 then s else []) ++ o2) b2
  | dash {x} : 3 < len (trimQuote x) → Run wd x "%DASH".toList true
  | big {x} : 32 ≤ len (trimQuote x) → Run wd x "%BIG".toList true
  | raw {x} : len (trimQuote x) < 32 → containsOddChar wd (trimQuote x) = false →
      3 < len (removeNumbers (trimQuote x)) → Run wd x (removeNumbers (trimQuote x)) true

section
attribute [local irreducible] parseLiteral isError containsOddChar isKeyForId hasManyDash doProcess

theorem run_body (n : Nat) : ∀ x : Str, x.length < n → Run wd x (doProcess wd x).1 (doProcess wd x).2 := by
  induction n with
  | zero => intro x h; omega
  | succ n ih =>
  intro word hn
  have hw := trimQuote_length word
  rw [doProcess_eq]
  unfold doProcessBody
  simp only
  cases h0 : parseLiteral wd (trimQuote word) with
  | some t => exact .literal h0
  | none =>
  simp only
  split
  · rename_i h; exact .err h
  split
  · exact .skip
  rename_i hlen
  cases h1 : trimPid (trimQuote word) with
  | some s =>
    have r1 := ih s (by have := trimPid_lt h1; omega)
    simp only
    exact .pid h1 r1
  | none =>
  simp only
  split
  · exact .odd (by omega)
  rename_i hodd
  cases h2 : isKeyValue (trimQuote word) with
  | some kv =>
    have := isKeyValue_lt h2
    simp only
    split
    · have r1 := ih kv.1 (by omega)
      exact Run.secret h2 r1
    · have r1 := ih kv.1 (by omega)
      have r2 := ih kv.2 (by omega)
      exact Run.kv h2 r1 r2
  | none =>
  simp only
  cases h3 : splitOnce (· = '/') (trimQuote word) with
  | some kv =>
    have := splitOnce_lt h3
    obtain ⟨c, _, e, _⟩ := splitOnce_eq h3
    have r1 := ih kv.1 (by omega)
    have r2 := ih kv.2 (by omega)
    have e' : trimQuote word = kv.1 ++ c :: kv.2 ++ [] := by simpa using e
    have r := Run.sep "/ ".toList (z := []) e' (by simp) r1 r2
    simp only
    exact r
  | none =>
  simp only
  cases h4 : splitOnce (· = '-') (trimQuote word) with
  | some kv =>
    have := splitOnce_lt h4
    obtain ⟨c, _, e, _⟩ := splitOnce_eq h4
    simp only
    split
    · exact .dash (by omega)
    · have r1 := ih kv.1 (by omega)
      have r2 := ih kv.2 (by omega)
      have e' : trimQuote word = kv.1 ++ c :: kv.2 ++ [] := by simpa using e
      have r := Run.sep "- ".toList (z := []) e' (by simp) r1 r2
      simp only
      exact r
  | none =>
  simp only
  cases h5 : splitOnce (· = '|') (trimQuote word) with
  | some kv =>
    have := splitOnce_lt h5
    obtain ⟨c, _, e, _⟩ := splitOnce_eq h5
    have r1 := ih kv.1 (by omega)
    have r2 := ih kv.2 (by omega)
    have e' : trimQuote word = kv.1 ++ c :: kv.2 ++ [] := by simpa using e
    have r := Run.sep "| ".toList (z := []) e' (by simp) r1 r2
    simp only
    exact r
  | none =>
  simp only
  split
  · rename_i hb; exact .big hb
  rename_i hb
  cases h6 : isTwoWords (trimQuote word) with
  | some kv =>
    have := isTwoWords_lt h6
    obtain ⟨c, b', e⟩ := isTwoWords_eq h6
    have r1 := ih kv.1 (by omega)
    have r2 := ih kv.2 (by omega)
    have r := Run.sep " ".toList e (by simp) r1 r2
    simp only
    exact r
  | none =>
  simp only
  split
  · rename_i hx; exact .raw (by omega) (by simpa using hodd) hx
  · exact .skip

theorem run (x : Str) : Run wd x (doProcess wd x).1 (doProcess wd x).2 := run_body _ x (Nat.lt_succ_self _)

end

end LJ.Tokenizer

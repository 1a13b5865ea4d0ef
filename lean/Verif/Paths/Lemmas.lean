/-
Lemmas on strings, components and names.
-/
import Verif.Paths.Spec
namespace LJ.Paths

/-! ### Strings -/

theorem startsWith_iff {s pat : Str} : startsWith s pat = true ↔ pat <+: s := List.isPrefixOf_iff_prefix
theorem endsWith_iff {s pat : Str} : endsWith s pat = true ↔ pat <:+ s := List.isSuffixOf_iff_suffix

theorem contains_iff (pat s : Str) : contains pat s = true ↔ pat <:+: s := by
  induction s with
  | nil =>
    unfold contains
    rw [List.isEmpty_iff, List.infix_nil]
  | cons c s ih =>
    unfold contains
    rw [Bool.or_eq_true, List.isPrefixOf_iff_prefix, ih, List.infix_cons_iff]

theorem split_ne_nil (sep : Char) (s : Str) : split sep s ≠ [] := by
  induction s with
  | nil => simp [split]
  | cons c s ih =>
    unfold split
    split
    · simp
    · split <;> simp

theorem split_cons (sep c : Char) (s : Str) : split sep (c :: s) = if c = sep then [] :: split sep s
    else match split sep s with | [] => [[c]] | p :: ps => (c :: p) :: ps := rfl

theorem split_sep (sep : Char) (a b : Str) : split sep (a ++ sep :: b) = split sep a ++ split sep b := by
  induction a with
  | nil => simp [split]
  | cons c a ih =>
    rw [List.cons_append, split_cons, split_cons]
    by_cases hc : c = sep
    · rw [if_pos hc, if_pos hc, ih]; rfl
    · rw [if_neg hc, if_neg hc, ih]
      cases h : split sep a with
      | nil => exact absurd h (split_ne_nil sep a)
      | cons p ps => rfl

theorem split_no (sep : Char) {a : Str} (h : sep ∉ a) : split sep a = [a] := by
  induction a with
  | nil => rfl
  | cons c a ih =>
    rw [List.mem_cons, not_or] at h
    unfold split
    rw [if_neg (fun e => h.1 e.symm), ih h.2]

theorem split_head (sep : Char) {s : Str} (h : sep ∈ s) (u : Str) : (split sep (s ++ u)).head? = (split sep s).head? := by
  obtain ⟨a, b, rfl⟩ := List.append_of_mem h
  rw [List.append_assoc, List.cons_append, split_sep, split_sep]
  cases h : split sep a with
  | nil => exact absurd h (split_ne_nil _ _)
  | cons p ps => rfl

theorem splitOnce_append (sep : Char) (s u : Str) (h : sep ∈ s) : splitOnce sep (s ++ u) = splitOnce sep s := by
  induction s with
  | nil => cases h
  | cons c s ih =>
    rw [List.cons_append]
    unfold splitOnce
    by_cases hc : c = sep
    · rw [if_pos hc, if_pos hc]
    · rw [if_neg hc, if_neg hc, ih ((List.mem_cons.1 h).resolve_left fun e => hc e.symm)]

theorem splitOnce_none (sep : Char) {s : Str} (h : sep ∉ s) : splitOnce sep s = none := by
  induction s with
  | nil => rfl
  | cons c s ih =>
    rw [List.mem_cons, not_or] at h
    unfold splitOnce
    rw [if_neg fun e => h.1 e.symm, ih h.2]; rfl

theorem startsWith_append (s u pat : Str) (c : Char) (hc : c ∉ pat) : startsWith (s ++ c :: u) pat = startsWith s pat := by
  rw [Bool.eq_iff_iff, startsWith_iff, startsWith_iff]
  constructor
  · intro h
    by_cases hl : pat.length ≤ s.length
    · exact List.prefix_of_prefix_length_le h (List.prefix_append _ _) hl
    · exfalso
      have h2 : s <+: pat := List.prefix_of_prefix_length_le (List.prefix_append _ _) h (by omega)
      obtain ⟨t, rfl⟩ := h2
      have h3 := (List.prefix_append_right_inj s).1 h
      cases t with
      | nil => simp at hl
      | cons x t =>
        rw [List.cons_prefix_cons] at h3
        rw [h3.1] at hc
        simp at hc
  · exact fun h => h.trans (List.prefix_append _ _)

theorem trimEnd_snoc {p : Char → Bool} (x : Str) {c : Char} (hc : p c = true) : trimEnd p (x ++ [c]) = trimEnd p x := by
  unfold trimEnd
  rw [List.reverse_append]
  simp [hc]

theorem trimEnd_keep {p : Char → Bool} (x : Str) {c : Char} (hc : p c = false) : trimEnd p (x ++ [c]) = x ++ [c] := by
  unfold trimEnd
  rw [List.reverse_append]
  simp [hc]

theorem dropWhile_append {p : Char → Bool} (x y : Str) :
    (x ++ y).dropWhile p = if x.dropWhile p = [] then y.dropWhile p else x.dropWhile p ++ y := by
  induction x with
  | nil => simp
  | cons c x ih =>
    rw [List.cons_append, List.dropWhile_cons, List.dropWhile_cons]
    split
    · exact ih
    · simp

theorem trimBoth_snoc {p : Char → Bool} (x : Str) {c : Char} (hc : p c = true) : trimBoth p (x ++ [c]) = trimBoth p x := by
  unfold trimBoth trimStart
  rw [dropWhile_append]
  split
  · rename_i h
    rw [h]
    simp [hc]
  · exact trimEnd_snoc _ hc

theorem trimBoth_append {p : Char → Bool} (x y : Str) (hy : ∀ c ∈ y, p c = true) : trimBoth p (x ++ y) = trimBoth p x := by
  induction y generalizing x with
  | nil => rw [List.append_nil]
  | cons c y ih =>
    have := ih (x ++ [c]) (fun d hd => hy d (List.mem_cons_of_mem _ hd))
    rw [List.append_assoc, List.singleton_append] at this
    rw [this, trimBoth_snoc _ (hy c (List.mem_cons_self ..))]

theorem trimGz_gz (s : Str) : trimGz (s ++ ".gz".toList) = trimGz s := by
  unfold trimGz
  rw [List.reverse_append]
  rfl

theorem byteLen_append (a b : Str) : byteLen (a ++ b) = byteLen a + byteLen b := by simp [byteLen]

theorem sliceFrom_append (a b : Str) : sliceFrom (a ++ b) (byteLen a) = some b := by
  induction a with
  | nil => cases b <;> rfl
  | cons c a ih =>
    have e : byteLen (c :: a) = c.utf8Size + byteLen a := by simp [byteLen]
    obtain ⟨n, hn⟩ : ∃ n, c.utf8Size + byteLen a = n + 1 := ⟨c.utf8Size + byteLen a - 1, by have := c.utf8Size_pos; omega⟩
    rw [e, hn, List.cons_append]
    unfold sliceFrom
    rw [if_pos (by omega)]
    have : n + 1 - c.utf8Size = byteLen a := by omega
    rw [this, ih]

theorem sliceFrom_none (s : Str) (n : Nat) (h : byteLen s < n) : sliceFrom s n = none := by
  induction s generalizing n with
  | nil =>
    cases n with
    | zero => simp [byteLen] at h
    | succ n => rfl
  | cons c s ih =>
    have e : byteLen (c :: s) = c.utf8Size + byteLen s := by simp [byteLen]
    rw [e] at h
    cases n with
    | zero => omega
    | succ n =>
      unfold sliceFrom
      split
      · exact ih _ (by omega)
      · rfl

theorem sliceTo_ascii (s : Str) (n : Nat) (h : ∀ c ∈ s, c.utf8Size = 1) :
    sliceTo s n = if n ≤ s.length then some (s.take n) else none := by
  induction s generalizing n with
  | nil => cases n <;> simp [sliceTo]
  | cons c s ih =>
    cases n with
    | zero => simp [sliceTo]
    | succ n =>
      unfold sliceTo
      rw [h c (by simp)]
      simp only [Nat.le_add_left, if_true, Nat.add_sub_cancel, List.length_cons, Nat.add_le_add_iff_right]
      rw [ih n fun d hd => h d (by simp [hd])]
      split <;> rfl

/-! ### Components -/

theorem compOf_normal {n : Str} (h : Spec.Normal n) : compOf n = some (.normal n) := by
  unfold compOf
  rw [if_neg h.2.1, if_neg h.2.2.1, if_neg h.2.2.2]

theorem components_normal {n : Str} (h : Spec.Normal n) : components n = [.normal n] := by
  unfold components
  rw [split_no '/' h.1]
  simp [h.2.1, h.2.2.1, compOf_normal h]

theorem components_snoc (a : Str) {n : Str} (h : Spec.Normal n) : components (a ++ '/' :: n) = components (a ++ ['/']) ++ [.normal n] := by
  unfold components
  rw [split_sep, split_sep, split_no '/' h.1]
  cases hs : split '/' a with
  | nil => exact absurd hs (split_ne_nil _ _)
  | cons f r =>
    have e : (r ++ split '/' []).filterMap compOf = r.filterMap compOf := by simp [split, compOf]
    simp only [List.cons_append, e, List.filterMap_append, List.append_assoc]
    have e1 : r ++ [n] ≠ [] := by simp
    have e2 : r ++ split '/' [] ≠ [] := by simp [split]
    simp only [if_neg e1, if_neg e2]
    have e3 : List.filterMap compOf [n] = [.normal n] := by simp [compOf_normal h]
    rw [e3]

/-- the components of a path with a file name: they are those of its directory, and the name -/
theorem components_dir {dir n : Str} (hd : Spec.Dir dir) (h : Spec.Normal n) : components (dir ++ n) = components dir ++ [.normal n] := by
  rcases hd with rfl | ⟨a, rfl⟩
  · rw [List.nil_append, components_normal h]; rfl
  · rw [List.append_assoc, List.singleton_append]
    exact components_snoc a h

/-- what precedes the file name in the short name -/
def shortPrefix (ps : List Comp) : Str :=
  match fileName ps with
  | none => []
  | some name => (if isSmallHash name then ((parentStr ps).map Prod.snd).getD [] else name) ++ ['/']

theorem fileName_snoc (ps : List Comp) (n : Str) : fileName (ps ++ [.normal n]) = some n := by
  simp [fileName]

theorem parent_snoc (ps : List Comp) (n : Str) : parent (ps ++ [.normal n]) = some ps := by
  simp [parent]

theorem shortFileName_snoc (ps : List Comp) (n : Str) : shortFileName (ps ++ [.normal n]) = shortPrefix ps ++ n := by
  unfold shortFileName shortPrefix parentStr
  rw [parent_snoc, Option.bind_some]
  cases h : fileName ps with
  | none => simp [fileNameOr, fileName_snoc]
  | some name =>
    simp only [Option.map_some, fileNameOr, fileName_snoc, Option.getD_some]
    split <;> simp

/-! ### Characters -/

theorem kept_iff (c : Char) : (c.isAlpha || isSymbol c) = true ↔ Spec.Kept c := by
  constructor
  · intro h
    rw [Bool.or_eq_true] at h
    rcases h with h | h
    · have key : ∀ n, n < 128 → (Char.ofNat n).isAlpha = true → Spec.Kept (Char.ofNat n) := by decide +kernel
      have hn : c.toNat < 128 := by
        simp only [Char.isAlpha, Char.isUpper, Char.isLower, Bool.or_eq_true, Bool.and_eq_true, decide_eq_true_eq, ge_iff_le,
          UInt32.le_iff_toNat_le] at h
        rcases h with h | h
        · have := h.2; exact Nat.lt_of_le_of_lt this (by decide)
        · have := h.2; exact Nat.lt_of_le_of_lt this (by decide)
      have e := key c.toNat hn
      rw [Char.ofNat_toNat] at e
      exact e h
    · unfold isSymbol at h
      simp only [Bool.or_eq_true, beq_iff_eq] at h
      rcases h with ((rfl | rfl) | rfl) | rfl <;> decide
  · intro h
    have key : ∀ c ∈ "abcdefghijklmnopqrstuvwxyzABCDEFGHIJKLMNOPQRSTUVWXYZ/._-".toList, (c.isAlpha || isSymbol c) = true := by decide
    exact key c h

theorem letter_iff (c : Char) : Spec.Letter c ↔ Spec.Kept c ∧ isSymbol c = false := by
  constructor
  · intro h
    have key : ∀ c ∈ "abcdefghijklmnopqrstuvwxyzABCDEFGHIJKLMNOPQRSTUVWXYZ".toList, Spec.Kept c ∧ isSymbol c = false := by decide
    exact key c h
  · rintro ⟨h, h2⟩
    have key : ∀ c ∈ "abcdefghijklmnopqrstuvwxyzABCDEFGHIJKLMNOPQRSTUVWXYZ/._-".toList, isSymbol c = false → Spec.Letter c := by decide
    exact key c h h2

theorem keep_eq (s : Str) : keep s = s.filter fun c => decide (Spec.Kept c) := by
  unfold keep
  apply List.filter_congr
  intro c _
  rw [Bool.eq_iff_iff, kept_iff, decide_eq_true_iff]

theorem isSmallHash_iff (n : Str) : isSmallHash n = true ↔ Spec.SmallHash n := by
  unfold isSmallHash Spec.SmallHash
  have hc : ∀ c : Char, (('a' ≤ c && c ≤ 'f') || c.isDigit) = true ↔ c ∈ "0123456789abcdef".toList := by
    intro c
    constructor
    · intro h
      have key : ∀ n, n < 128 → (('a' ≤ Char.ofNat n && Char.ofNat n ≤ 'f') || (Char.ofNat n).isDigit) = true →
          Char.ofNat n ∈ "0123456789abcdef".toList := by decide +kernel
      have hn : c.toNat < 128 := by
        simp only [Char.isDigit, Bool.or_eq_true, Bool.and_eq_true, decide_eq_true_eq, ge_iff_le] at h
        rcases h with h | h
        · exact Nat.lt_of_le_of_lt (UInt32.le_iff_toNat_le.1 (Char.le_def.1 h.2)) (by decide)
        · exact Nat.lt_of_le_of_lt (UInt32.le_iff_toNat_le.1 h.2) (by decide)
      have e := key c.toNat hn
      rw [Char.ofNat_toNat] at e
      exact e h
    · intro h
      have key : ∀ c ∈ "0123456789abcdef".toList, (('a' ≤ c && c ≤ 'f') || c.isDigit) = true := by decide
      exact key c h
  have hsz : ∀ c ∈ "0123456789abcdef".toList, c.utf8Size = 1 := by decide
  rw [Bool.and_eq_true, List.all_eq_true, beq_iff_eq]
  have hlen : ∀ n : Str, (∀ c ∈ n, c ∈ "0123456789abcdef".toList) → byteLen n = n.length := by
    intro n
    induction n with
    | nil => intro _; rfl
    | cons c n ih =>
      intro h
      have e : byteLen (c :: n) = c.utf8Size + byteLen n := by simp [byteLen]
      rw [e, hsz c (h c (by simp)), ih fun d hd => h d (by simp [hd]), List.length_cons]; omega
  constructor
  · rintro ⟨h1, h2⟩
    have h3 : ∀ c ∈ n, c ∈ "0123456789abcdef".toList := fun c hcn => (hc c).1 (h2 c hcn)
    exact ⟨by rw [← hlen n h3, h1], h3⟩
  · rintro ⟨h1, h2⟩
    exact ⟨by rw [hlen n h2, h1], fun c hcn => (hc c).2 (h2 c hcn)⟩

end LJ.Paths

/-
Regular expressions as data: the meaning of `Regex::is_match` (crate `regex`, used by
tokenizer/src/tokenizer.rs and model/src/{unix,files}.rs), and an executable matcher.

`Matches` is the declarative semantics (which parts of a text a pattern matches); `isMatch` is the
executable search used by the models, proved equal to it in `Regex/Lemmas.lean`.  Greedy / lazy and
leftmost preferences do not matter for `is_match`, so they are not represented.

Unicode tables: `\w` (and so `\b`) is a parameter `wd : Char → Bool`.  Patterns are transcribed by
hand from the source strings; the parser of the `regex` crate is trusted.
-/
namespace LJ.Regex

/-- Abstract syntax. -/
inductive RE where
  | fail
  | eps
  /-- one character in a class -/
  | cls (p : Char → Bool)
  | seq (a b : RE)
  | alt (a b : RE)
  | star (a : RE)
  /-- `^` (not multi-line): start of the text -/
  | bol
  /-- `$` (not multi-line): end of the text -/
  | eol
  /-- `\w` -/
  | word
  /-- `\b` -/
  | wordb

/-- Reflexive transitive closure. -/
inductive Iter (R : Nat → Nat → Prop) : Nat → Nat → Prop where
  | refl (i) : Iter R i i
  | step {i k j} : R i k → Iter R k j → Iter R i j

/-- Is there a word character at position `i`? -/
def wordAt (wd : Char → Bool) (w : List Char) (i : Nat) : Bool :=
  match w[i]? with
  | some c => wd c
  | none => false

/-- Is there a word character just before position `i`? -/
def wordBefore (wd : Char → Bool) (w : List Char) : Nat → Bool
  | 0 => false
  | i + 1 => wordAt wd w i

/-- `Matches wd w r i j`: the characters `i, …, j-1` of the text `w` match `r`. -/
def Matches (wd : Char → Bool) (w : List Char) : RE → Nat → Nat → Prop
  | .fail, _, _ => False
  | .eps, i, j => i = j
  | .cls p, i, j => j = i + 1 ∧ ∃ c, w[i]? = some c ∧ p c = true
  | .seq a b, i, j => ∃ k, Matches wd w a i k ∧ Matches wd w b k j
  | .alt a b, i, j => Matches wd w a i j ∨ Matches wd w b i j
  | .star a, i, j => Iter (Matches wd w a) i j
  | .bol, i, j => i = j ∧ i = 0
  | .eol, i, j => i = j ∧ i = w.length
  | .word, i, j => j = i + 1 ∧ ∃ c, w[i]? = some c ∧ wd c = true
  | .wordb, i, j => i = j ∧ wordBefore wd w i ≠ wordAt wd w i

/-- The pattern matches somewhere in the text. -/
def Found (wd : Char → Bool) (r : RE) (w : List Char) : Prop :=
  ∃ i j, i ≤ w.length ∧ Matches wd w r i j

/-! ### Executable matcher -/

def union (a b : List Nat) : List Nat := (a ++ b).eraseDups

def closure (f : List Nat → List Nat) : Nat → List Nat → List Nat
  | 0, s => s
  | n + 1, s => closure f n (union s (f s))

/-- All the positions where a match started in one of the given positions can end. -/
def ends (wd : Char → Bool) (w : List Char) : RE → List Nat → List Nat
  | .fail, _ => []
  | .eps, s => s
  | .cls p, s => s.filterMap fun i => match w[i]? with
    | some c => if p c then some (i + 1) else none
    | none => none
  | .seq a b, s => ends wd w b (ends wd w a s)
  | .alt a b, s => union (ends wd w a s) (ends wd w b s)
  | .star a, s => closure (ends wd w a) w.length s
  | .bol, s => s.filter (· == 0)
  | .eol, s => s.filter (· == w.length)
  | .word, s => s.filterMap fun i => match w[i]? with
    | some c => if wd c then some (i + 1) else none
    | none => none
  | .wordb, s => s.filter fun i => wordBefore wd w i != wordAt wd w i

/-- `Regex::is_match`. -/
def isMatch (wd : Char → Bool) (r : RE) (w : List Char) : Bool :=
  !(ends wd w r (List.range (w.length + 1))).isEmpty

/-! ### Notations for patterns -/

/-- one given character -/
def chr (c : Char) : RE := .cls (· == c)
/-- one of the characters of the string -/
def oneOf (s : String) : RE := .cls fun c => s.toList.contains c
/-- a literal string -/
def lit (s : String) : RE := s.toList.foldr (fun c r => .seq (chr c) r) .eps
def seqs (l : List RE) : RE := l.foldr .seq .eps
def alts (l : List RE) : RE := l.foldr .alt .fail
/-- `r+` -/
def plus (r : RE) : RE := .seq r (.star r)
/-- `r?` -/
def opt (r : RE) : RE := .alt .eps r
/-- `r{n}` -/
def rep : Nat → RE → RE
  | 0, _ => .eps
  | n + 1, r => .seq r (rep n r)
/-- `r{n,}` -/
def repMin (n : Nat) (r : RE) : RE := .seq (rep n r) (.star r)
/-- `.`: anything but a line return -/
def dot : RE := .cls (· != '\n')

def isDigit (c : Char) : Bool := '0' ≤ c && c ≤ '9'
def isLower (c : Char) : Bool := 'a' ≤ c && c ≤ 'z'
def isUpper (c : Char) : Bool := 'A' ≤ c && c ≤ 'Z'
def isAlpha (c : Char) : Bool := isLower c || isUpper c

/-- ASCII lower case. -/
def lower (c : Char) : Char := if isUpper c then Char.ofNat (c.toNat + 32) else c

/-- `(?i-u:c)` for a lower case ASCII character `c` (or a character without case). -/
def chrA (c : Char) : RE := .cls fun d => lower d == c
def litA (s : String) : RE := s.toList.foldr (fun c r => .seq (chrA c) r) .eps

/-- Unicode simple case folding restricted to its classes that contain an ASCII letter: besides the
two cases, `s` has `ſ` (U+017F) and `k` has the Kelvin sign (U+212A). -/
def foldU (c : Char) : Char :=
  if c = Char.ofNat 0x17F then 's' else if c = Char.ofNat 0x212A then 'k' else lower c

/-- `(?i:c)` for a lower case ASCII character `c` (or a character without case). -/
def chrU (c : Char) : RE := .cls fun d => foldU d == c
def litU (s : String) : RE := s.toList.foldr (fun c r => .seq (chrU c) r) .eps

end LJ.Regex

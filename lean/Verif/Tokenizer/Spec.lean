/-
What the tokenizer is supposed to do, in terms of lists of characters only: no regular expression,
and nothing from `Tokenizer/Model.lean`.
-/
namespace LJ.Tokenizer.Spec

abbrev Str := List Char

/-- number of bytes of a text in UTF-8 -/
def bytes (w : Str) : Nat := (w.map Char.utf8Size).sum

/-- Unicode White_Space -/
def whitespace : List Nat :=
  [0x9, 0xA, 0xB, 0xC, 0xD, 0x20, 0x85, 0xA0, 0x1680, 0x2000, 0x2001, 0x2002, 0x2003, 0x2004, 0x2005,
   0x2006, 0x2007, 0x2008, 0x2009, 0x200A, 0x2028, 0x2029, 0x202F, 0x205F, 0x3000]
def Ws (c : Char) : Prop := c.toNat ∈ whitespace
def AllWs (w : Str) : Prop := ∀ c ∈ w, Ws c

/-- `t` is `l` without its surrounding whitespace. -/
def Trimmed (l t : Str) : Prop :=
  ∃ a b, l = a ++ t ++ b ∧ AllWs a ∧ AllWs b ∧ (∀ c, t.head? = some c → ¬ Ws c) ∧
    (∀ c, t.getLast? = some c → ¬ Ws c)

/-! ### Words -/

/-- A (possibly empty) mix of spaces, tabs and literal `\n` and `\r`. -/
def Blank (s : Str) : Prop :=
  ∃ us : List Str, s = us.flatten ∧ ∀ u ∈ us, u ∈ [[' '], ['\t'], ['\\', 'n'], ['\\', 'r']]

/-- A non empty text with no blank inside. -/
def IsWord (w : Str) : Prop :=
  w ≠ [] ∧ ' ' ∉ w ∧ '\t' ∉ w ∧ ¬ ['\\', 'n'] <:+: w ∧ ¬ ['\\', 'r'] <:+: w

/-- `ws` are the words of the line: the line is blanks, then each word followed by blanks (at least
one blank between two words). -/
def IsSplit (line : Str) (ws : List Str) : Prop :=
  ∃ (s0 : Str) (ps : List (Str × Str)),
    line = s0 ++ ps.flatMap (fun p => p.1 ++ p.2) ∧ ps.map Prod.fst = ws ∧ Blank s0 ∧
    (∀ p ∈ ps, IsWord p.1 ∧ Blank p.2) ∧ ∀ p ∈ ps.dropLast, p.2 ≠ []

/-- The quotes and punctuation removed around a word. -/
def Punct (c : Char) : Prop := c ∈ ['\'', '"', ',', ';', '(', ')', '[', ']', '{', '}', '<', '>', '\\']

/-- `k` is the word `x` without its surrounding quotes and punctuation: first the python string
prefixes `u"`, then `u'`, then the punctuation on both sides. -/
def Strip (x k : Str) : Prop :=
  ∃ (n m : Nat) (q q' : Str),
    x = (List.replicate n ['u', '"']).flatten ++ ((List.replicate m ['u', '\'']).flatten ++ (q ++ k ++ q')) ∧
    ¬ ['u', '"'] <+: ((List.replicate m ['u', '\'']).flatten ++ (q ++ k ++ q')) ∧
    ¬ ['u', '\''] <+: (q ++ k ++ q') ∧
    (∀ c ∈ q, Punct c) ∧ (∀ c ∈ q', Punct c) ∧
    (∀ c, k.head? = some c → ¬ Punct c) ∧ (∀ c, k.getLast? = some c → ¬ Punct c)

/-! ### Recognised words -/

/-- Caseless comparison with an ASCII keyword: upper and lower case are the same, and Unicode adds
the long s and the Kelvin sign. -/
def fold (c : Char) : Char :=
  if c.toNat = 0x17F then 's' else if c.toNat = 0x212A then 'k' else c.toLower

def errorKeywords : List String :=
  ["error", "err", "fatal", "failure", "failed", "fail", "warning", "warn", "denied", "assert",
   "assertion", "non-zero", "exception", "traceback"]
def ErrorKeyword (w : Str) : Prop := ∃ k ∈ errorKeywords, w.map Char.toLower = k.toList

def dates : List String :=
  ["monday", "tuesday", "wednesday", "thursday", "friday", "saturday", "sunday", "january",
   "february", "march", "april", "may", "june", "july", "august", "september", "october",
   "november", "december"]

def secrets : List String := ["id", "key", "ref", "region", "token", "secret", "password"]
/-- The key contains, in any case, one of the secret looking names. -/
def SecretKey (k : Str) : Prop := ∃ s ∈ secrets, s.toList <:+: k.map fold

/-- hexadecimal digits, brackets, and the letters `x` and `Z` -/
def Hexish (c : Char) : Prop := c.isDigit ∨ c ∈ "abcdefABCDEFxZ[]".toList
def TokenChar (c : Char) : Prop := c.isAlphanum ∨ c ∈ "_+/-".toList
def Base64Char (c : Char) : Prop := c.isAlphanum ∨ c ∈ "+/=".toList

/-- The classes of volatile values, most specific first. -/
inductive Class where
  | date | hash | id | cookie | uuid | url | path | ref | base64

def Class.rank : Class → Nat
  | date => 0 | hash => 1 | id => 2 | cookie => 3 | uuid => 4 | url => 5 | path => 6 | ref => 7
  | base64 => 8

def Class.token : Class → String
  | date => "%DATE" | hash => "%HASH" | id => "%ID" | cookie => "%COOKIE" | uuid => "%UID"
  | url => "%URL" | path => "%PATH" | ref => "%REF" | base64 => "%BASE64"

/-- Which words look like a value of the class (`wd`: the Unicode word characters). -/
def Looks (wd : Char → Bool) (w : Str) : Class → Prop
  | .date => ∃ k ∈ dates, w.map Char.toLower = k.toList
  | .hash =>
    (∃ algo ∈ ["hash", "sha", "md"], ∃ a ds rest, w = a ++ ds ++ ':' :: rest ∧
      a.map fold = algo.toList ∧ ∀ c ∈ ds, c.isDigit) ∨
    (∃ a run b, w = a ++ run ++ b ∧ 64 ≤ run.length ∧ ∀ c ∈ run, TokenChar c)
  | .id => ∃ n c rest, w = List.replicate n ':' ++ c :: rest ∧ Hexish c ∧
      ∀ d ∈ rest, Hexish d ∨ d ∈ [':', '.', '-']
  | .cookie =>
    (∃ p ∈ ["gAAAA", "AAAA", "tap", "req-", "AUTH_"], p.toList <+: w) ∨
    (∃ c rest, w = 't' :: 'x' :: c :: rest ∧ c.isLower)
  | .uuid => ∃ c a x y z, w = c :: a ++ '-' :: x ++ '-' :: y ++ '-' :: z ++ ['-'] ∧ c.isAlphanum ∧
      '\n' ∉ a ∧ (x.length = 4 ∧ ∀ d ∈ x, d.isAlphanum) ∧ (y.length = 4 ∧ ∀ d ∈ y, d.isAlphanum) ∧
      (z.length = 4 ∧ ∀ d ∈ z, d.isAlphanum)
  | .url => ∃ s ∈ ["https", "http", "ftp", "ssh"], ∃ a rest, w = a ++ "://".toList ++ rest ∧
      a.map fold = s.toList
  | .path => "tmp/".toList <:+: w ∨ "/tmp".toList <:+: w ∨ "tmp".toList <+: w
  | .ref => "refs/".toList <+: w ∨ "repos/".toList <+: w ∨
      ∃ a b, w = a ++ "..".toList ++ b ∧ a.length = 7 ∧ b.length = 7 ∧ (∀ c ∈ a, wd c) ∧ ∀ c ∈ b, wd c
  | .base64 => "==".toList <:+ w ∨ (24 < bytes w ∧ ∀ c ∈ w, Base64Char c)

/-- The class of a word is the first one it looks like. -/
def InClass (wd : Char → Bool) (c : Class) (w : Str) : Prop :=
  Looks wd w c ∧ ∀ c' : Class, c'.rank < c.rank → ¬ Looks wd w c'

/-- characters that are never part of a readable word -/
def Odd (c : Char) : Prop := c ∈ ['<', '>', '{', '}', '%', '$', ',', '*']

/-- `w` is a `key=value` or `key:value` word whose key `k` looks like the name of a secret. -/
def SecretAssignment (w k : Str) : Prop :=
  ∃ sep v, w = k ++ sep :: v ∧ (sep = '=' ∨ sep = ':') ∧ (∃ d k', k = d :: k' ∧ (d.isAlpha ∨ d = '_')) ∧
    (∀ c ∈ k, c ≠ '=' ∧ c ≠ ':') ∧ ¬ ['u', '"'] <+: k ∧ ¬ ['u', '\''] <+: k ∧ SecretKey k

/-- `w` is an ordinary word: not a volatile value, more than three bytes, not ending with a process
id such as `[42`, and without odd characters. -/
def Ordinary (wd : Char → Bool) (w : Str) : Prop :=
  (∀ c, ¬ Looks wd w c) ∧ 3 < bytes w ∧ (¬ ∃ s ds, w = s ++ '[' :: ds ∧ ∀ c ∈ ds, c.isDigit) ∧
    ∀ c ∈ w, ¬ Odd c

/-- `s` is `w` with every number (an integer, or a decimal number such as `4.2`) replaced by `N`. -/
inductive Numbers : Str → Str → Prop
  | nil : Numbers [] []
  | char (c w s) : c.isDigit = false → Numbers w s → Numbers (c :: w) (c :: s)
  | integer (ds w s) : ds ≠ [] → (∀ c ∈ ds, c.isDigit) → (∀ c, w.head? = some c → c.isDigit = false) →
      (¬ ∃ d r, w = '.' :: d :: r ∧ d.isDigit) → Numbers w s → Numbers (ds ++ w) ('N' :: s)
  | decimal (ds es w s) : ds ≠ [] → (∀ c ∈ ds, c.isDigit) → es ≠ [] → (∀ c ∈ es, c.isDigit) →
      (∀ c, w.head? = some c → c.isDigit = false) → Numbers w s → Numbers (ds ++ '.' :: es ++ w) ('N' :: s)

/-- The word has none of the characters that cut a word in two. -/
def Uncut (w : Str) : Prop := ∀ c ∈ w, c ∉ ['=', ':', '/', '-', '|', '[', '(', '\\', '@']

/-! ### Noise -/

def InLine (w : Str) : Prop := '\n' ∉ w
def WordBoundary (wd : Char → Bool) (before after : Str) : Prop :=
  before.getLast?.any wd ≠ after.head?.any wd

/-- The lines that carry no information (`l` is trimmed). -/
inductive Noise (wd : Char → Bool) : Str → Prop
  /-- a single word -/
  | single (l) : (∀ c ∈ l, ¬ Ws c) → Noise wd l
  /-- http probes -/
  | httpGet (a c b) : c ≠ '\n' → Noise wd (a ++ "GET / HTTP/1".toList ++ [c] ++ "1".toList ++ b)
  /-- yum mirror list, at the end of the line -/
  | yumMirror (a name host) : name ≠ [] → (∀ c ∈ name, c.isAlpha) →
      (∀ c ∈ host, c.isAlphanum ∨ c ∈ ['.', '-']) →
      Noise wd (a ++ "* ".toList ++ name ++ ": ".toList ++ host)
  | yumRetry (a c b) : c ≠ '\n' → Noise wd (a ++ "Trying other mirror".toList ++ [c] ++ b)
  | ovs (a x cmd b) : InLine x → cmd ∈ ["dump-ports", "dump-flows", "show"] →
      WordBoundary wd cmd.toList b →
      Noise wd (a ++ "ovs-ofctl ".toList ++ x ++ " ".toList ++ cmd.toList ++ b)
  | tables (a prog x b) : prog ∈ ["ip", "eb"] → InLine x → WordBoundary wd ['L'] b →
      Noise wd (a ++ prog.toList ++ "tables ".toList ++ x ++ " -L".toList ++ b)
  /-- chrony sources -/
  | chrony (c host d b) : c ∈ ['+', '*', '-'] → 5 ≤ host.length →
      (∀ x ∈ host, x.isLower ∨ x.isDigit ∨ x ∈ ['.', '>', '-']) → d.isDigit →
      Noise wd ('^' :: c :: ' ' :: host ++ ' ' :: d :: b)
  /-- memcached requests -/
  | memcached (x n b) : x ≠ [] → (∀ c ∈ x, c.isDigit ∨ c ∈ "abcdefs/".toList) → n ≠ [] →
      (∀ c ∈ n, c.isDigit) → Noise wd (x ++ ['>'] ++ n ++ ' ' :: b)
  /-- shell traces -/
  | echo (x) : x ≠ [] → ' ' ∉ x → Noise wd ("++ echo ".toList ++ x)
  /-- randomart of ssh keys -/
  | randomart (a x b) : (∀ c ∈ a, c ∈ [' ', '\'', '"', ',']) → (∀ c ∈ b, c ∈ [' ', '\'', '"', ',']) →
      x.length = 17 → InLine x → Noise wd (a ++ ['|'] ++ x ++ ['|'] ++ b)

/-- The five tokens that make an error keyword weigh more. -/
def amplified (k : Str) : Str :=
  k ++ " ".toList ++ k ++ "%A ".toList ++ k ++ "%B ".toList ++ k ++ "%C ".toList ++ k ++ "%D".toList

end LJ.Tokenizer.Spec

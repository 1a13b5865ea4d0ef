/-
Model of `tokenizer/src/tokenizer.rs`, function by function.

Conventions.  `&str` is `List Char`; `str::len` is the UTF-8 length (`len`).  `result: &mut String`
is only ever appended to, so `do_process` returns what it appends and its boolean.  Regexes are the
patterns of the source, transcribed with the combinators of `Regex/Basic.lean`; the Unicode word
class (`\w`, `\b`) is the parameter `wd`.
-/
import Verif.Regex.Basic
namespace LJ.Tokenizer
open LJ.Regex

abbrev Str := List Char

/-- `str::len`: the number of bytes in UTF-8. -/
def len (w : Str) : Nat := (w.map Char.utf8Size).sum

/-- `char::is_whitespace` (the Unicode White_Space property). -/
def isWs (c : Char) : Bool :=
  let n := c.toNat
  (0x9 ≤ n && n ≤ 0xD) || n == 0x20 || n == 0x85 || n == 0xA0 || n == 0x1680 ||
    (0x2000 ≤ n && n ≤ 0x200A) || n == 0x2028 || n == 0x2029 || n == 0x202F || n == 0x205F ||
    n == 0x3000

/-- `trim_end_matches(p)` -/
def trimEnd (p : Char → Bool) (w : Str) : Str := (w.reverse.dropWhile p).reverse
/-- `trim_matches(p)` -/
def trimBoth (p : Char → Bool) (w : Str) : Str := trimEnd p (w.dropWhile p)
/-- `str::trim` -/
def trim (w : Str) : Str := trimBoth isWs w

/-- `split_once(p)` -/
def splitOnce (p : Char → Bool) : Str → Option (Str × Str)
  | [] => none
  | c :: cs => if p c then some ([], cs) else (splitOnce p cs).map fun (a, b) => (c :: a, b)

/-- `str::contains(sub)` -/
def contains (sub : Str) : Str → Bool
  | [] => sub.isEmpty
  | c :: cs => sub.isPrefixOf (c :: cs) || contains sub cs

/-- tokenizer.rs:43-48 `words`: `Regex::new(r"([ \t]|\\[nr])+").split(line)`.  The separators are
maximal runs of spaces, tabs and the two character sequences backslash-n and backslash-r. -/
def wordsGo (cur : Str) (inSep : Bool) : Str → List Str
  | [] => [cur]
  | ' ' :: cs => if inSep then wordsGo [] true cs else cur :: wordsGo [] true cs
  | '\t' :: cs => if inSep then wordsGo [] true cs else cur :: wordsGo [] true cs
  | '\\' :: 'n' :: cs => if inSep then wordsGo [] true cs else cur :: wordsGo [] true cs
  | '\\' :: 'r' :: cs => if inSep then wordsGo [] true cs else cur :: wordsGo [] true cs
  | c :: cs => wordsGo (cur ++ [c]) false cs
def words (line : Str) : List Str := wordsGo [] false line

/-- `trim_start_matches` of a two character prefix (repeatedly). -/
def trimPrefix2 (a b : Char) : Str → Str
  | c :: d :: cs => if c = a ∧ d = b then trimPrefix2 a b cs else c :: d :: cs
  | w => w

/-- tokenizer.rs:53-58, the trimmed characters. -/
def isPunct (c : Char) : Bool := "'\",;()[]{}<>\\".toList.contains c

/-- tokenizer.rs:50-59 `trim_quote_and_punctuation` -/
def trimQuote (w : Str) : Str :=
  trimBoth isPunct (trimPrefix2 'u' '\'' (trimPrefix2 'u' '"' w))

/-- tokenizer.rs:63-80, the noise patterns. -/
def globalFilterRE : RE := alts [
  -- GET / HTTP/1.1
  seqs [lit "GET / HTTP/1", dot, lit "1"],
  -- \* [a-zA-Z]+: [a-zA-Z0-9\.-]*$
  seqs [lit "* ", plus (.cls isAlpha), lit ": ",
    .star (.cls fun c => isAlpha c || isDigit c || c == '.' || c == '-'), .eol],
  -- Trying other mirror.
  seqs [lit "Trying other mirror", dot],
  -- ovs-ofctl .* (dump-ports|dump-flows|show)\b
  seqs [lit "ovs-ofctl ", .star dot, lit " ",
    alts [lit "dump-ports", lit "dump-flows", lit "show"], .wordb],
  -- (ip|eb)tables .* -L\b
  seqs [alts [lit "ip", lit "eb"], lit "tables ", .star dot, lit " -L", .wordb],
  -- (^\^[+*-] [a-z0-9\.>-]{5,} [0-9])
  seqs [.bol, lit "^", oneOf "+*-", lit " ",
    repMin 5 (.cls fun c => isLower c || isDigit c || c == '.' || c == '>' || c == '-'),
    lit " ", .cls isDigit],
  -- (^[a-f0-9s/]+>[0-9]+ )
  seqs [.bol, plus (.cls fun c => ('a' ≤ c && c ≤ 'f') || isDigit c || c == 's' || c == '/'),
    lit ">", plus (.cls isDigit), lit " "],
  -- (^\+\+ echo [^ ]+$)
  seqs [.bol, lit "++ echo ", plus (.cls (· != ' ')), .eol],
  -- (^[ '",]*\|.{17}\|[ '",]*$)
  seqs [.bol, .star (oneOf " '\","), lit "|", rep 17 dot, lit "|", .star (oneOf " '\","), .eol]]

/-- tokenizer.rs:62-83 `global_filter` -/
def globalFilter (wd : Char → Bool) (line : Str) : Bool :=
  let isSingleWord := !line.any isWs
  isSingleWord || isMatch wd globalFilterRE line

/-- tokenizer.rs:102-107 `remove_numbers`: `replace_all("([0-9]+\.[0-9]+)|([0-9]+)", "N")`.
State 0: copying; 1: inside a first run of digits; 2: inside the digits after the dot. -/
def removeNumbersGo : Nat → Str → Str
  | _, [] => []
  | 0, c :: cs => if isDigit c then 'N' :: removeNumbersGo 1 cs else c :: removeNumbersGo 0 cs
  | 1, c :: cs =>
    if isDigit c then removeNumbersGo 1 cs
    else if c = '.' && (match cs with | d :: _ => isDigit d | [] => false) then removeNumbersGo 2 cs
    else c :: removeNumbersGo 0 cs
  | _, c :: cs => if isDigit c then removeNumbersGo 2 cs else c :: removeNumbersGo 0 cs
def removeNumbers (w : Str) : Str := removeNumbersGo 0 w

def dateWords : List String :=
  ["sunday", "monday", "tuesday", "wednesday", "thursday", "friday", "saturday",
   "january", "february", "march", "april", "may", "june", "july", "august", "september",
   "october", "november", "december"]
/-- tokenizer.rs:114-125 `is_date` -/
def isDate (wd : Char → Bool) (w : Str) : Bool :=
  isMatch wd (seqs [.bol, alts (dateWords.map litA), .eol]) w

def errorWords : List String :=
  ["error", "fatal", "failure", "failed", "warning", "err", "fail", "warn", "denied",
   "assert", "assertion", "non-zero", "exception", "traceback"]
/-- tokenizer.rs:135-149 `is_error` -/
def isError (wd : Char → Bool) (w : Str) : Bool :=
  isMatch wd (seqs [.bol, alts (errorWords.map litA), .eol]) w

/-- tokenizer.rs:152-157 `contains_odd_char`: `[<>{}%$,*]` -/
def containsOddChar (wd : Char → Bool) (w : Str) : Bool := isMatch wd (oneOf "<>{}%$,*") w

/-- the class `[\[\]0-9a-fA-FxZ]` -/
def isUidChar (c : Char) : Bool :=
  c == '[' || c == ']' || isDigit c || ('a' ≤ c && c ≤ 'f') || ('A' ≤ c && c ≤ 'F') || c == 'x' || c == 'Z'
/-- tokenizer.rs:165-171 `is_uid`: `^(:*[\[\]0-9a-fA-FxZ]+[:.-]*)+$` -/
def isUid (wd : Char → Bool) (w : Str) : Bool :=
  isMatch wd (seqs [.bol,
    plus (seqs [.star (chr ':'), plus (.cls isUidChar), .star (oneOf ":.-")]), .eol]) w

def isAlnum (c : Char) : Bool := isAlpha c || isDigit c
/-- tokenizer.rs:180-190 `is_uuid`: `^[a-zA-Z0-9].*-[a-zA-Z0-9]{4}-[a-zA-Z0-9]{4}-[a-zA-Z0-9]{4}-$` -/
def isUuid (wd : Char → Bool) (w : Str) : Bool :=
  isMatch wd (seqs [.bol, .cls isAlnum, .star dot, lit "-", rep 4 (.cls isAlnum), lit "-",
    rep 4 (.cls isAlnum), lit "-", rep 4 (.cls isAlnum), lit "-", .eol]) w

/-- tokenizer.rs:193-198 `has_many_dash`: `^.+-.+-.+-.` -/
def hasManyDash (wd : Char → Bool) (w : Str) : Bool :=
  isMatch wd (seqs [.bol, plus dot, lit "-", plus dot, lit "-", plus dot, lit "-", dot]) w

/-- tokenizer.rs:200-206 `is_cookie`: `^(gAAAA|AAAA|tx[a-z]|tap|req-|AUTH_)` -/
def isCookie (wd : Char → Bool) (w : Str) : Bool :=
  isMatch wd (seqs [.bol, alts [lit "gAAAA", lit "AAAA", seqs [lit "tx", .cls isLower], lit "tap",
    lit "req-", lit "AUTH_"]]) w

/-- tokenizer.rs:208-214 `is_url`: `(?i:^(https|http|ftp|ssh)://)` -/
def isUrl (wd : Char → Bool) (w : Str) : Bool :=
  isMatch wd (seqs [.bol, alts [litU "https", litU "http", litU "ftp", litU "ssh"], litU "://"]) w

/-- tokenizer.rs:216-221 `is_base64`: ends with `==`, or more than 24 bytes of `[A-Za-z0-9+/=]` -/
def isBase64 (wd : Char → Bool) (w : Str) : Bool :=
  "==".toList.isSuffixOf w || (decide (len w > 24) &&
    isMatch wd (seqs [.bol, plus (.cls fun c => isAlnum c || c == '+' || c == '/' || c == '='), .eol]) w)

/-- the class `[a-zA-Z0-9_+/\-]` -/
def isTokenChar (c : Char) : Bool := isAlnum c || c == '_' || c == '+' || c == '/' || c == '-'
/-- tokenizer.rs:240-252 `is_hash`: `(?i:^(hash|sha|md)[0-9]*:)|\.?[a-zA-Z0-9_+/\-]{64,}?` -/
def isHash (wd : Char → Bool) (w : Str) : Bool :=
  isMatch wd (.alt
    (seqs [.bol, alts [litU "hash", litU "sha", litU "md"], .star (.cls isDigit), litU ":"])
    (seqs [opt (lit "."), repMin 64 (.cls isTokenChar)])) w

/-- tokenizer.rs:265-270 `is_refs`: `refs/…`, `repos/…` or `^\w{7}\.\.\w{7}$` -/
def isRefs (wd : Char → Bool) (w : Str) : Bool :=
  "refs/".toList.isPrefixOf w || "repos/".toList.isPrefixOf w ||
    isMatch wd (seqs [.bol, rep 7 .word, lit "..", rep 7 .word, .eol]) w

/-- tokenizer.rs:273-284 `is_key_value` -/
def isKeyValue (w : Str) : Option (Str × Str) :=
  match splitOnce (fun c => c = '=' || c = ':') w with
  | some (k, v) =>
    match k with
    | c :: _ => if isAlpha c || c = '_' then some (k, v) else none
    | [] => none
  | none => none

/-- tokenizer.rs:291-294 `is_two_words` -/
def isTwoWords (w : Str) : Option (Str × Str) :=
  (splitOnce (fun c => c = '[' || c = '(' || c = '\\' || c = '@') w).map fun (k, v) =>
    (k, trimEnd (fun c => c = ']' || c = ')') v)

def secretKeys : List String := ["id", "key", "ref", "region", "token", "secret", "password"]
/-- tokenizer.rs:296-306 `is_key_for_id`: `(?i:(id|key|ref|region|token|secret|password))` -/
def isKeyForId (wd : Char → Bool) (w : Str) : Bool := isMatch wd (alts (secretKeys.map litU)) w

/-- tokenizer.rs:308-310 `is_random_path` -/
def isRandomPath (w : Str) : Bool :=
  contains "tmp/".toList w || contains "/tmp".toList w || "tmp".toList.isPrefixOf w

/-- tokenizer.rs:380-402 `parse_literal` -/
def parseLiteral (wd : Char → Bool) (w : Str) : Option Str :=
  if isDate wd w then some "%DATE".toList
  else if isHash wd w then some "%HASH".toList
  else if isUid wd w then some "%ID".toList
  else if isCookie wd w then some "%COOKIE".toList
  else if isUuid wd w then some "%UID".toList
  else if isUrl wd w then some "%URL".toList
  else if isRandomPath w then some "%PATH".toList
  else if isRefs wd w then some "%REF".toList
  else if isBase64 wd w then some "%BASE64".toList
  else none

/-- tokenizer.rs:404-407 `trim_pid` -/
def trimPid (w : Str) : Option Str :=
  let t := trimEnd isDigit w
  if t.getLast? = some '[' then some t.dropLast else none

/-- tokenizer.rs:410-422 `push_error` -/
def pushError (w : Str) : Str :=
  w ++ " ".toList ++ w ++ "%A ".toList ++ w ++ "%B ".toList ++ w ++ "%C ".toList ++ w ++ "%D".toList

/-- tokenizer.rs:432-500 `do_process`; returns what is appended to `result` and the boolean.
`self` is the recursive call. -/
def doProcessBody (wd : Char → Bool) (self : Str → Str × Bool) (word : Str) : Str × Bool :=
  let w := trimQuote word
  match parseLiteral wd w with
  | some token => (token, true)
  | none =>
  if isError wd w then (pushError w, true)
  else if len w ≤ 3 then ([], false)
  else match trimPid w with
  | some strip => ((self strip).1 ++ "%PID".toList, true)
  | none =>
  if containsOddChar wd w then ("%ODD".toList, true)
  else match isKeyValue w with
  | some (key, value) =>
    let k := (self key).1
    if isKeyForId wd key then (k ++ "%EQ %VALUE_ID".toList, true)
    else
      let v := self value
      (k ++ "%EQ ".toList ++ v.1, v.2)
  | none =>
  match splitOnce (· = '/') w with
  | some (w1, w2) =>
    let r1 := self w1
    let r2 := self w2
    (r1.1 ++ (if r1.2 then "/ ".toList else []) ++ r2.1, r2.2)
  | none =>
  match splitOnce (· = '-') w with
  | some (w1, w2) =>
    if hasManyDash wd w2 then ("%DASH".toList, true)
    else
      let r1 := self w1
      let r2 := self w2
      (r1.1 ++ (if r1.2 then "- ".toList else []) ++ r2.1, r2.2)
  | none =>
  match splitOnce (· = '|') w with
  | some (w1, w2) =>
    let r1 := self w1
    let r2 := self w2
    (r1.1 ++ (if r1.2 then "| ".toList else []) ++ r2.1, r2.2)
  | none =>
  if len w ≥ 32 then ("%BIG".toList, true)
  else match isTwoWords w with
  | some (w1, w2) =>
    let r1 := self w1
    let r2 := self w2
    (r1.1 ++ (if r1.2 then " ".toList else []) ++ r2.1, r2.2)
  | none =>
    let x := removeNumbers w
    if len x > 3 then (x, true) else ([], false)

/-- `do_process` with a bound on the recursion depth. -/
def doProcessN (wd : Char → Bool) : Nat → Str → Str × Bool
  | 0, _ => ([], false)
  | n + 1, word => doProcessBody wd (doProcessN wd n) word

/-- `do_process`: a depth of one more than the number of characters is enough, and any larger bound
gives the same result (`C09_recursion_shrinks`), so the bound plays no role. -/
def doProcess (wd : Char → Bool) (word : Str) : Str × Bool := doProcessN wd (word.length + 1) word

/-- tokenizer.rs:515-519, one iteration of the loop of `process`: what a word appends. -/
def tokensOf (wd : Char → Bool) (word : Str) : Str :=
  let r := doProcess wd word
  r.1 ++ (if r.2 then " ".toList else [])

/-- tokenizer.rs:503-521 `process` -/
def process (wd : Char → Bool) (line : Str) : Str :=
  let line := trim line
  if globalFilter wd line then "%GL_FILTER".toList
  else trim ((words line).flatMap (tokensOf wd))

end LJ.Tokenizer

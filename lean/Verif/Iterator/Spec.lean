/-
Independent specification of the line iterator: what the lines of a content are, written as a one
pass splitter that knows nothing about buffers, reads or positions.
-/
namespace LJ.Iterator.Spec

/-- Split `input` in its pieces, each with its line number.  `esc`: the previous byte is a pending
backslash; `inStr`: inside a JSON string; `cur`: the piece read so far; `ln`: current line number.

* a line return ends the piece and the line,
* a backslash followed by `n` ends the piece (the two characters are removed), not the line; a
  backslash followed by anything else is plain text and takes that next byte with it,
* in JSON mode a `"` toggles the string state and, outside strings, one of `, [ ] { }` ends the
  piece, not the line. -/
def split (json esc inStr : Bool) (cur : List UInt8) (ln : Nat) :
    List UInt8 → List (List UInt8 × Nat)
  | [] => [(cur, ln)]
  | c :: cs =>
    if esc then
      if c = 'n'.toUInt8 then (cur.dropLast, ln) :: split json false inStr [] ln cs
      else split json false inStr (cur ++ [c]) ln cs
    else if c = '\\'.toUInt8 then split json true inStr (cur ++ [c]) ln cs
    else if c = '\n'.toUInt8 then (cur, ln) :: split json false inStr [] (ln + 1) cs
    else if json && c == '"'.toUInt8 then split json false (!inStr) (cur ++ [c]) ln cs
    else if json && !inStr && [','.toUInt8, '['.toUInt8, ']'.toUInt8, '{'.toUInt8, '}'.toUInt8].contains c then
      (cur, ln) :: split json false inStr [] ln cs
    else split json false inStr (cur ++ [c]) ln cs

/-- All the pieces of a content, numbered from line 1; the last one is the unterminated rest. -/
def pieces (json : Bool) (input : List UInt8) : List (List UInt8 × Nat) :=
  split json false false [] 1 input

/-- The pieces that are worth yielding: not empty and not over the limit. -/
def keep (max : Nat) (ps : List (List UInt8 × Nat)) : List (List UInt8 × Nat) :=
  ps.filter fun p => 0 < p.1.length && p.1.length ≤ max

/-- The lines of a content. -/
def lines (json : Bool) (max : Nat) (input : List UInt8) : List (List UInt8 × Nat) :=
  keep max (pieces json input)

/-- The unterminated rest of a content: its last piece. -/
def rest (json : Bool) (input : List UInt8) : List UInt8 :=
  ((pieces json input).getLastD ([], 0)).1

/-- The read schedule `reads` never leaves an unterminated line over the limit when the next read
is issued (the end of the content excepted). -/
def NoOverflow (json : Bool) (max : Nat) (reads : List (List UInt8)) : Prop :=
  ∀ k, k < reads.length → (rest json (reads.take k).flatten).length ≤ max

/-- Put separators back between pieces. -/
def weave : List (List UInt8) → List (List UInt8) → List UInt8
  | p :: ps, s :: ss => p ++ s ++ weave ps ss
  | p :: _, [] => p
  | [], _ => []

/-- The separator strings. -/
def IsSep (json : Bool) (s : List UInt8) : Prop :=
  s = ['\n'.toUInt8] ∨ s = ['\\'.toUInt8, 'n'.toUInt8] ∨
    (json = true ∧ s ∈ [[','.toUInt8], ['['.toUInt8], [']'.toUInt8], ['{'.toUInt8], ['}'.toUInt8]])

/-- One read of the underlying reader returns between 1 and 8192 bytes. -/
def Blocks (reads : List (List UInt8)) : Prop := ∀ b ∈ reads, b ≠ [] ∧ b.length ≤ 8192

end LJ.Iterator.Spec

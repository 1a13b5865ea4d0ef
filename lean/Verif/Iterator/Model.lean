/-
Model of `iterator/src/iterator.rs` (BytesLines), function by function.

Conventions of this file.
* `usize` counters (`line_count`, positions, lengths) are `Nat`: buffers and counters below 2^64.
  The one subtraction that can underflow (`prev_pos + pos - 1`, iterator.rs:253) is computed in `Int`
  and handled explicitly, both with overflow checks (debug build: panic) and without
  (release build: the value wraps to `usize::MAX`).
* A Rust panic is the explicit outcome `Outcome.panic`.
* `reader: R` is the list of results its successive `read` calls produce; see `Reader.read`.
* `&mut self` methods return the new state.  All recursive calls of `read_slice`, `get_slice` and
  `drop_until_next_line` are tail calls: each body is a non recursive function returning either a
  result or the next call, and `run` performs the calls.
-/
namespace LJ.Iterator

abbrev Bytes := List UInt8

/-- `'\n'` -/
def LF : UInt8 := 10
/-- `'\\'` -/
def BACKSLASH : UInt8 := 92
/-- `'n'` -/
def CH_N : UInt8 := 110
/-- `'"'` -/
def QUOTE : UInt8 := 34

/-- iterator.rs:33-41 `enum Sep`. -/
inductive Sep where
  | newLine
  | subLine
  | json
deriving DecidableEq, Repr

/-- iterator.rs:43-52 `Sep::len`. -/
def Sep.len : Sep → Nat
  | .newLine => 1
  | .subLine => 2
  | .json => 1

/-- iterator.rs:54-60 `enum State`. -/
inductive St where
  | eof
  | scanning (sep : Sep)
deriving DecidableEq, Repr

/-- The result of one `read` call on the underlying reader: `data bs` is `Ok(bs.len())` with the
bytes written in the buffer (`data []` is `Ok(0)`, end of file), `err e` is `Err(e)`. -/
inductive ReadRes (ε : Type) where
  | data (bs : Bytes)
  | err (e : ε)
deriving DecidableEq, Repr

/-- The future of the reader (`reader: R`, iterator.rs:99). -/
abbrev Reader (ε : Type) := List (ReadRes ε)

/-- `Read::read(&mut buf)` with `buf.len() = n`.  A block longer than the buffer is delivered over
several reads; when the list is exhausted the reader stays at end of file. -/
def Reader.read {ε : Type} (n : Nat) : Reader ε → Except ε Bytes × Reader ε
  | [] => (.ok [], [])
  | .err e :: r => (.error e, r)
  | .data bs :: r => (.ok (bs.take n), if bs.length ≤ n then r else .data (bs.drop n) :: r)

/-- The two constants of `BytesLines::new` (iterator.rs:137-138) and whether integer overflow
checks are compiled in (debug builds). -/
structure Cfg where
  chunkSize : Nat
  maxLineLength : Nat
  overflowChecks : Bool

/-- The scanner part of the state: `escaped` and `split_json` (iterator.rs:105,107,110-112;
`some inString` is `Some(JsonState { in_string })`). -/
structure Lex where
  escaped : Bool
  splitJson : Option Bool
deriving DecidableEq, Repr

/-- iterator.rs:98-108 `struct BytesLines`. -/
structure BL (ε : Type) where
  reader : Reader ε
  buf : Bytes
  state : St
  lineCount : Nat
  lex : Lex
  prevPos : Nat

/-- The result of `next`: `None`, `Some(Ok((bytes, nr)))`, `Some(Err(e))`, or a panic. -/
inductive Outcome (ε : Type) where
  | done
  | line (bs : Bytes) (nr : Nat)
  | error (e : ε)
  | panic
deriving DecidableEq, Repr

/-- iterator.rs:135-155 `BytesLines::new`. -/
def BL.new {ε : Type} (reader : Reader ε) (splitJson : Bool) : BL ε where
  reader := reader
  buf := []
  state := .scanning .newLine
  lineCount := 0
  lex := { escaped := false, splitJson := if splitJson then some false else none }
  prevPos := 0

/-- iterator.rs:305-314 `match_json_kv`; returns the new `in_string` and the separator. -/
def matchJsonKv (c : UInt8) (inString : Bool) : Bool × Option Sep :=
  if c = QUOTE then (!inString, none)
  else if !inString && (c = 44 || c = 91 || c = 93 || c = 123 || c = 125) then
    (inString, some .json)
  else (inString, none)

/-- The body of the loop of `find_next_line` up to the separator, iterator.rs:230-248. -/
def lexByte (l : Lex) (c : UInt8) : Lex × Option Sep :=
  if l.escaped then
    ({ l with escaped := false }, if c = CH_N then some .subLine else none)
  else if c = BACKSLASH then ({ l with escaped := true }, none)
  else if c = LF then (l, some .newLine)
  else match l.splitJson with
    | some inString =>
      let r := matchJsonKv c inString
      ({ l with splitJson := some r.1 }, r.2)
    | none => (l, none)

/-- The loop of `find_next_line`, iterator.rs:229: scans `slice[prev_pos..]`, `i` being the absolute
index (`prev_pos + pos`) of the head.  Returns the index of the last byte of the separator. -/
def scan (l : Lex) : Bytes → Nat → Lex × Option (Nat × Sep)
  | [], _ => (l, none)
  | c :: cs, i =>
    match lexByte l c with
    | (l', some sep) => (l', some (i, sep))
    | (l', none) => scan l' cs (i + 1)

/-- iterator.rs:262-268 `update_line_counter`. -/
def BL.updateLineCounter {ε : Type} (s : BL ε) (st : St) : BL ε :=
  { s with
    lineCount := if s.state = .scanning .newLine then s.lineCount + 1 else s.lineCount
    state := st }

/-- Result of `find_next_line`: a panic, or the new state and maybe `(line_separator_pos, sep)`.
The position is signed: `-1` stands for the underflow at iterator.rs:253. -/
inductive Found (ε : Type) where
  | panic
  | res (s : BL ε) (r : Option (Int × Sep))

/-- iterator.rs:227-260 `find_next_line`. -/
def BL.findNextLine {ε : Type} (cfg : Cfg) (s : BL ε) : Found ε :=
  if s.buf.length < s.prevPos then .panic               -- slice[self.prev_pos..] out of range
  else
    match scan s.lex (s.buf.drop s.prevPos) s.prevPos with
    | (lex, none) => .res { s with lex := lex } none
    | (lex, some (i, sep)) =>
      let s := ({ s with lex := lex }).updateLineCounter (.scanning sep)
      let pos : Int := if sep = .subLine then (i : Int) - 1 else i
      if pos < 0 && cfg.overflowChecks then .panic       -- attempt to subtract with overflow
      else .res s (some (pos, sep))

/-- Which function is being executed. -/
inductive Fn where
  | readSlice
  | getSlice
  | dropUntilNextLine
deriving DecidableEq, Repr

/-- What a function body does: return, or tail call another one. -/
inductive Step (ε : Type) where
  | ret (s : BL ε) (o : Outcome ε)
  | call (f : Fn) (s : BL ε)

/-- `buf.resize(n, 0)`. -/
def resize (b : Bytes) (n : Nat) : Bytes := b.take n ++ List.replicate (n - b.length) 0

/-- iterator.rs:158-181 `read_slice`. -/
def readSlice {ε : Type} (cfg : Cfg) (s : BL ε) : Step ε :=
  let pos := s.buf.length
  let buf := resize s.buf (pos + cfg.chunkSize)
  match s.reader.read cfg.chunkSize with
  | (.ok [], r) =>
    if pos > 0 then
      let s := ({ s with reader := r, buf := buf }).updateLineCounter .eof
      .ret { s with buf := s.buf.drop pos } (.line (s.buf.take pos) s.lineCount)
    else .ret { s with reader := r, buf := buf } .done
  | (.ok bs, r) =>
    -- the reader overwrote buf[pos..pos+n], then truncate(pos + n)
    .call .getSlice { s with reader := r, buf := buf.take pos ++ bs }
  | (.error e, r) => .ret { s with reader := r, buf := buf } (.error e)

/-- iterator.rs:184-224 `get_slice`.  `usize` comparison `pos > max_line_length` is true for the
wrapped value (`pos < 0`); `advance(pos + sep.len())` wraps back to the exact sum. -/
def getSlice {ε : Type} (cfg : Cfg) (s : BL ε) : Step ε :=
  match s.findNextLine cfg with
  | .panic => .ret s .panic
  | .res s none =>
    if s.buf.length > cfg.maxLineLength then
      .call .dropUntilNextLine { s with prevPos := 0, buf := [] }
    else
      .call .readSlice { s with prevPos := s.buf.length }
  | .res s (some (pos, sep)) =>
    let s := { s with prevPos := 0 }
    if pos < 0 ∨ pos > cfg.maxLineLength then
      let n := (pos + sep.len).toNat
      if n ≤ s.buf.length then .call .getSlice { s with buf := s.buf.drop n }
      else .ret s .panic                                  -- advance out of range
    else
      let pos := pos.toNat
      if s.buf.length < pos then .ret s .panic            -- split_to out of range
      else
        let res := s.buf.take pos
        let rest := s.buf.drop pos
        if rest.length < sep.len then .ret s .panic       -- advance out of range
        else
          let s := { s with buf := rest.drop sep.len }
          if res.isEmpty then .call .getSlice s
          else .ret s (.line res s.lineCount)

/-- iterator.rs:271-301 `drop_until_next_line`. -/
def dropUntilNextLine {ε : Type} (cfg : Cfg) (s : BL ε) : Step ε :=
  let buf := resize s.buf cfg.chunkSize
  match s.reader.read cfg.chunkSize with
  | (.ok [], r) => .ret { s with reader := r, buf := buf } .done
  | (.error e, r) => .ret { s with reader := r, buf := buf } (.error e)
  | (.ok bs, r) =>
    -- the reader overwrote buf[..n]; note that the buffer is not truncated to n
    let s := { s with reader := r, buf := bs ++ buf.drop bs.length }
    match s.findNextLine cfg with
    | .panic => .ret s .panic
    | .res s none => .call .dropUntilNextLine { s with buf := [] }
    | .res s (some (pos, sep)) =>
      if bs.length = cfg.chunkSize then .call .readSlice { s with buf := [] }
      else
        let n := (pos + sep.len).toNat
        if n ≤ s.buf.length then .call .getSlice { s with buf := s.buf.drop n }
        else .ret s .panic

/-- One function body. -/
def body {ε : Type} (cfg : Cfg) : Fn → BL ε → Step ε
  | .readSlice => readSlice cfg
  | .getSlice => getSlice cfg
  | .dropUntilNextLine => dropUntilNextLine cfg

/-! ### Termination of the calls

The proof that every chain of calls ends is part of the model: `run` is only defined through it. -/

/-- Size of what the reader can still deliver. -/
def readerSize {ε : Type} : Reader ε → Nat
  | [] => 0
  | .err _ :: r => readerSize r + 1
  | .data bs :: r => readerSize r + bs.length + 1

def Fn.rank : Fn → Nat
  | .getSlice => 1
  | _ => 0

theorem read_ok_size {ε : Type} {n : Nat} {r r' : Reader ε} {c : UInt8} {bs : Bytes}
    (h : Reader.read n r = (.ok (c :: bs), r')) : readerSize r' < readerSize r := by
  match r with
  | [] => simp [Reader.read] at h
  | .err e :: r => simp [Reader.read] at h
  | .data b :: r =>
    simp only [Reader.read, Prod.mk.injEq, Except.ok.injEq] at h
    obtain ⟨h1, h2⟩ := h
    subst h2
    split
    · simp [readerSize]; omega
    · simp only [readerSize, List.length_drop]
      have : n ≠ 0 := by rintro rfl; simp at h1
      omega

theorem read_err_size {ε : Type} {n : Nat} {r r' : Reader ε} {e : ε}
    (h : Reader.read n r = (.error e, r')) : readerSize r' < readerSize r := by
  match r with
  | [] => simp [Reader.read] at h
  | .err e :: r => simp [Reader.read] at h; simp [readerSize, h.2]
  | .data b :: r => simp [Reader.read] at h

theorem Sep.len_pos (s : Sep) : 0 < s.len := by cases s <;> decide

/-- The index found by `scan` is inside the scanned slice. -/
theorem scan_some {l l' : Lex} {bs : Bytes} {i j : Nat} {sep : Sep}
    (h : scan l bs i = (l', some (j, sep))) : i ≤ j ∧ j < i + bs.length := by
  induction bs generalizing l i with
  | nil => simp [scan] at h
  | cons c cs ih =>
    simp only [scan] at h
    split at h
    · simp only [Prod.mk.injEq, Option.some.injEq] at h
      simp; omega
    · have := ih h
      simp; omega

theorem findNextLine_some {ε : Type} {cfg : Cfg} {s s' : BL ε} {pos : Int} {sep : Sep}
    (h : s.findNextLine cfg = .res s' (some (pos, sep))) :
    s'.reader = s.reader ∧ s'.buf = s.buf ∧ 0 < (pos + sep.len).toNat ∧
      (pos + sep.len).toNat ≤ s.buf.length := by
  unfold BL.findNextLine at h
  split at h
  · cases h
  · rename_i hp
    split at h
    · cases h
    · rename_i lex i sep' hs
      have hb := scan_some hs
      simp only [List.length_drop] at hb
      dsimp only at h
      generalize hq : (if sep' = Sep.subLine then (i : Int) - 1 else (i : Int)) = q at h
      split at h
      · cases h
      · injection h with h1 h2
        simp only [Option.some.injEq, Prod.mk.injEq] at h2
        obtain ⟨rfl, rfl⟩ := h2
        subst h1
        refine ⟨rfl, rfl, ?_, ?_⟩ <;> cases sep' <;> simp [Sep.len] at * <;> omega

theorem findNextLine_none {ε : Type} {cfg : Cfg} {s s' : BL ε}
    (h : s.findNextLine cfg = .res s' none) : s'.reader = s.reader ∧ s'.buf = s.buf := by
  unfold BL.findNextLine at h
  split at h
  · cases h
  · split at h
    · injection h with h1 h2; subst h1; exact ⟨rfl, rfl⟩
    · rename_i sep' _
      dsimp only at h
      generalize (if sep' = Sep.subLine then _ else _ : Int) = q at h
      split at h
      · cases h
      · injection h with h1 h2; cases h2

theorem body_call_lt {ε : Type} {cfg : Cfg} {f f' : Fn} {s s' : BL ε}
    (h : body cfg f s = .call f' s') :
    Prod.Lex (· < ·) (Prod.Lex (· < ·) (· < ·))
      (readerSize s'.reader, f'.rank, s'.buf.length) (readerSize s.reader, f.rank, s.buf.length) := by
  cases f with
  | readSlice =>
    simp only [body, readSlice] at h
    split at h
    · split at h <;> cases h
    · rename_i bs r hne hr
      injection h with h1 h2
      subst h1 h2
      cases bs with
      | nil => exact absurd rfl (hne)
      | cons c cs => exact Prod.Lex.left _ _ (read_ok_size hr)
    · cases h
  | getSlice =>
    simp only [body, getSlice] at h
    split at h
    · cases h
    · rename_i s1 hf
      have := findNextLine_none hf
      split at h <;> injection h with h1 h2 <;> subst h1 h2 <;> simp only [this.1] <;>
        exact Prod.Lex.right _ (Prod.Lex.left _ _ (by decide))
    · rename_i s1 pos sep hf
      have := findNextLine_some hf
      split at h
      · split at h
        · injection h with h1 h2
          subst h1 h2
          simp only [this.1]
          exact Prod.Lex.right _ (Prod.Lex.right _ (by simp [this.2.1]; omega))
        · cases h
      · split at h
        · cases h
        · split at h
          · cases h
          · split at h
            · injection h with h1 h2
              subst h1 h2
              simp only [this.1]
              have := sep.len_pos
              refine Prod.Lex.right _ (Prod.Lex.right _ ?_)
              simp only [List.length_drop, *] at *
              omega
            · cases h
  | dropUntilNextLine =>
    simp only [body, dropUntilNextLine] at h
    split at h
    · cases h
    · cases h
    · rename_i bs r hne hr
      have hlt : readerSize r < readerSize s.reader := by
        cases bs with
        | nil => exact absurd rfl hne
        | cons c cs => exact read_ok_size hr
      split at h
      · cases h
      · rename_i s1 hf
        have := findNextLine_none hf
        injection h with h1 h2
        subst h1 h2
        exact Prod.Lex.left _ _ (by simpa [this.1] using hlt)
      · rename_i s1 pos sep hf
        have := findNextLine_some hf
        split at h
        · injection h with h1 h2
          subst h1 h2
          exact Prod.Lex.left _ _ (by simpa [this.1] using hlt)
        · split at h
          · injection h with h1 h2
            subst h1 h2
            exact Prod.Lex.left _ _ (by simpa [this.1] using hlt)
          · cases h

/-- Run the tail calls until a function returns. -/
def run {ε : Type} (cfg : Cfg) (f : Fn) (s : BL ε) : BL ε × Outcome ε :=
  match _h : body cfg f s with
  | .ret s o => (s, o)
  | .call f' s' => run cfg f' s'
termination_by (readerSize s.reader, f.rank, s.buf.length)
decreasing_by exact body_call_lt _h

/-- iterator.rs:117-126 `Iterator::next`. -/
def BL.next {ε : Type} (cfg : Cfg) (s : BL ε) : BL ε × Outcome ε :=
  match s.state with
  | .eof => (s, .done)
  | .scanning _ => if s.buf.isEmpty then run cfg .readSlice s else run cfg .getSlice s

end LJ.Iterator

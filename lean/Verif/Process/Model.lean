/-
Model of `model/src/process.rs`: the trainer and the processor.

The lines come from `logreduce_iterator::BytesLines`: the successive results of `reader.next()` are a
list of `Ev`, a line with its number or a read error; at the end of the list the reader keeps
returning `None`.  `std::str::from_utf8` (and `clone_bytes_to_string`, which is the same conversion)
is an arbitrary partial function `decode`.  The index (`ChunkIndex`) is given by its functions
`tokenize` and `search`; the distances are of any type `D` and `over d` is `d > THRESHOLD`.
A `HashSet` is a list used only by insertion and membership.  A panic is `none`.
-/
namespace LJ.Process

abbrev Str := List Char
abbrev Bytes := List UInt8

/-- model/src/process.rs:14 -/
def CTX_DISTANCE : Nat := 3
/-- model/src/process.rs:15 -/
def CHUNK_SIZE : Nat := 512

/-- iterator.rs:115 `LogLine`: the bytes of a line and its number. -/
abbrev LogLine := Bytes × Nat

/-- one result of `reader.next()` -/
abbrev Ev (ε : Type) := Except ε LogLine

/-- The errors of `add` and `read_anomalies`: from the reader, or from `from_utf8`. -/
inductive Err (ε : Type) where
  | io (e : ε)
  | utf8
deriving DecidableEq, Repr

/-- model.rs:185-190 `Anomaly` -/
structure Anomaly (D : Type) where
  distance : D
  pos : Nat
  line : Str
deriving DecidableEq, Repr

/-- model.rs:192-197 `AnomalyContext` -/
structure AnomalyContext (D : Type) where
  before : List Str
  anomaly : Anomaly D
  after : List Str
deriving DecidableEq, Repr

/-- What the trainer and the processor use: the conversion of the bytes, the functions of the index,
and the comparison with `THRESHOLD` (process.rs:13). -/
structure Env (D : Type) where
  decode : Bytes → Option Str
  tokenize : Str → Str
  search : List Str → List D
  over : D → Bool

/-! ### The trainer -/

/-- process.rs:18-25 `ChunkTrainer`.  `chunks` is the sequence of the calls to `index.add`. -/
structure Trainer where
  chunks : List (List Str)
  skipLines : List Str
  baselines : List Str
  lineCount : Nat
  byteCount : Nat
deriving DecidableEq, Repr

/-- process.rs:28-37 `ChunkTrainer::new` -/
def Trainer.new : Trainer := ⟨[], [], [], 0, 0⟩

section
variable {D ε : Type}

/-- process.rs:55-63, a tokenized line. -/
def Trainer.addTokens (s : Trainer) (tokens : Str) : Trainer :=
  if tokens ∈ s.skipLines then s
  else
    let s := { s with skipLines := tokens :: s.skipLines, baselines := s.baselines ++ [tokens] }
    if s.baselines.length = CHUNK_SIZE then { s with chunks := s.chunks ++ [s.baselines], baselines := [] }
    else s

/-- process.rs:47-67 `add`, over the results of the reader. -/
def Trainer.add (env : Env D) : List (Ev ε) → Trainer → Except (Err ε) Unit × Trainer
  | [], s => (.ok (), s)
  | .error e :: _, s => (.error (.io e), s)
  | .ok line :: r, s =>
    match env.decode line.1 with
    | none => (.error .utf8, s)
    | some raw =>
      let s := { s with lineCount := s.lineCount + 1, byteCount := s.byteCount + line.1.length }
      Trainer.add env r (s.addTokens (env.tokenize raw))

/-- process.rs:69-73 `complete` -/
def Trainer.complete (s : Trainer) : Trainer :=
  if s.baselines = [] then s else { s with chunks := s.chunks ++ [s.baselines] }

/-- model.rs:268-278, the training of the sources of an index: the readers are added one after the
other, and an error of `add` is only logged. -/
def Trainer.addAll (env : Env D) (readers : List (List (Ev ε))) (s : Trainer) : Trainer :=
  readers.foldl (fun s r => (s.add env r).2) s

/-! ### The processor -/

/-- An entry of the buffer: a line and its coordinate. -/
abbrev Entry := LogLine × Nat

/-- process.rs:79-103 `ChunkProcessor`, without the reader and the index. -/
structure St (D : Type) where
  buffer : List Entry
  targets : List Str
  targetsCoord : List Nat
  leftOvers : List Str
  currentAnomaly : Option (AnomalyContext D)
  anomalies : List (AnomalyContext D)
  skipLines : List Str
  coord : Nat
  lineCount : Nat
  byteCount : Nat
deriving DecidableEq, Repr

/-- process.rs:121-141 `ChunkProcessor::new` -/
def St.new (skipLines : List Str) : St D := ⟨[], [], [], [], none, [], skipLines, 0, 0, 0⟩

/-- `raw_str.contains(pat)` -/
def contains (pat : Str) : Str → Bool
  | [] => pat == []
  | c :: cs => pat.isPrefixOf (c :: cs) || contains pat cs

/-- process.rs:153 -/
def MARKER : Str := "TASK [log-classify".toList

/-- `&v[i..]` -/
def sliceFrom {α : Type} (l : List α) (i : Nat) : Option (List α) :=
  if i ≤ l.length then some (l.drop i) else none

/-- `&v[i..j]` -/
def slice {α : Type} (l : List α) (i j : Nat) : Option (List α) :=
  if i ≤ j ∧ j ≤ l.length then some ((l.take j).drop i) else none

/-- `v.rotate_right(k)` -/
def rotateRight {α : Type} (l : List α) (k : Nat) : Option (List α) :=
  if k ≤ l.length then some (l.drop (l.length - k) ++ l.take (l.length - k)) else none

/-- `.iter().map(|..| clone_bytes_to_string(bytes).unwrap()).collect()` -/
def texts (env : Env D) (l : List Entry) : Option (List Str) := l.mapM fun e => env.decode e.1.1

/-- process.rs:312-344 `collect_before` -/
def collectBefore (env : Env D) (bufferPos lastContextPos : Nat) (buffer : List Entry) (leftOvers : List Str) :
    Option (List Str) := do
  let minPos := if bufferPos < CTX_DISTANCE then 0 else bufferPos - CTX_DISTANCE
  let beforeContextPos := max lastContextPos minPos
  let part ← slice buffer beforeContextPos bufferPos
  let before ← texts env part
  if beforeContextPos = 0 ∧ before.length < CTX_DISTANCE then do
    let need := CTX_DISTANCE - before.length
    let available := leftOvers.length
    let want := min need available
    let extra ← sliceFrom leftOvers (available - want)
    rotateRight (before ++ extra) want
  else some before

/-- The local variables of `do_search_anomalies` and the fields it updates. -/
structure Flush (D : Type) where
  bufferPos : Nat
  lastContextPos : Nat
  currentAnomaly : Option (AnomalyContext D)
  anomalies : List (AnomalyContext D)

/-- process.rs:220-231, one line of after context. -/
def Flush.feed (env : Env D) (f : Flush D) (bytes : Bytes) : Option (Flush D) :=
  match f.currentAnomaly with
  | some anomaly => do
    let raw ← env.decode bytes
    let anomaly := { anomaly with after := anomaly.after ++ [raw] }
    if anomaly.after.length ≥ CTX_DISTANCE then
      some { f with anomalies := f.anomalies ++ [anomaly], currentAnomaly := none, lastContextPos := f.bufferPos }
    else some { f with currentAnomaly := some anomaly, lastContextPos := f.bufferPos }
  | none => some f

/-- process.rs:211-235, the loop over `buffer` for one target. -/
def scan (env : Env D) (isAnomaly : Bool) (coord : Nat) : List Entry → Flush D → Option (Flush D × Option (Str × Nat))
  | [], f => some (f, none)
  | ((bytes, lineNumber), lineCoord) :: rest, f =>
    let f := { f with bufferPos := f.bufferPos + 1 }
    if lineCoord = coord ∧ isAnomaly then do
      let raw ← env.decode bytes
      some (f, some (raw, lineNumber))
    else do
      let f ← f.feed env bytes
      if lineCoord = coord then some (f, none) else scan env isAnomaly coord rest f

/-- process.rs:203-267, the body of the loop over the distances. -/
def onTarget (env : Env D) (buffer : List Entry) (leftOvers : List Str) (f : Flush D) (x : D × Nat) :
    Option (Flush D) := do
  let isAnomaly := env.over x.1
  let rest ← sliceFrom buffer f.bufferPos
  let (f, target) ← scan env isAnomaly x.2 rest f
  match target with
  | some (line, pos) =>
    let f := match f.currentAnomaly with
      | some anomaly => { f with anomalies := f.anomalies ++ [anomaly], currentAnomaly := none }
      | none => f
    if f.bufferPos = 0 then none                          -- buffer_pos - 1
    else do
      let before ← collectBefore env (f.bufferPos - 1) f.lastContextPos buffer leftOvers
      some { f with
        lastContextPos := f.bufferPos
        currentAnomaly := some { before, after := [], anomaly := { distance := x.1, pos, line } } }
  | none => if isAnomaly then none else some f             -- panic!("Could not find target_coord")

/-- process.rs:272-281, the after context of the last anomaly. -/
def tail (env : Env D) : List Entry → Flush D → Option (Flush D)
  | [], f => some f
  | ((bytes, _), _) :: rest, f =>
    match f.currentAnomaly with
    | some anomaly => do
      let raw ← env.decode bytes
      let anomaly := { anomaly with after := anomaly.after ++ [raw] }
      if anomaly.after.length ≥ CTX_DISTANCE then
        some { f with anomalies := f.anomalies ++ [anomaly], currentAnomaly := none }
      else tail env rest { f with currentAnomaly := some anomaly }
    | none => some f

/-- process.rs:270-284, the end of `do_search_anomalies`. -/
def lastAfter (env : Env D) (buffer : List Entry) (f : Flush D) : Option (Flush D) :=
  if f.currentAnomaly.isSome ∧ f.lastContextPos < buffer.length then tail env (buffer.drop f.lastContextPos) f
  else some f

/-- process.rs:288-305 `reset` -/
def St.reset (env : Env D) (s : St D) (leftOversPos : Nat) : Option (St D) := do
  let minPos := if s.buffer.length < CTX_DISTANCE then 0 else s.buffer.length - CTX_DISTANCE
  let rest ← sliceFrom s.buffer (max leftOversPos minPos)
  let leftOvers ← texts env rest
  some { s with targets := [], targetsCoord := [], leftOvers, buffer := [] }

/-- process.rs:197-286 `do_search_anomalies` -/
def St.doSearch (env : Env D) (s : St D) : Option (St D) := do
  let distances := env.search s.targets
  let f ← (distances.zip s.targetsCoord).foldlM (onTarget env s.buffer s.leftOvers)
    ⟨0, 0, s.currentAnomaly, s.anomalies⟩
  let f ← lastAfter env s.buffer f
  St.reset env { s with currentAnomaly := f.currentAnomaly, anomalies := f.anomalies } f.lastContextPos

/-- process.rs:183-186, the last chunk. -/
def St.flushTargets (env : Env D) (s : St D) : Option (St D) :=
  if s.targets = [] then some s else s.doSearch env

/-- process.rs:183-192, after the loop. -/
def St.finish (env : Env D) (s : St D) : Option (St D) := do
  let s ← s.flushTargets env
  match s.currentAnomaly with
  | some anomaly => some { s with anomalies := s.anomalies ++ [anomaly], currentAnomaly := none }
  | none => some s

/-- process.rs:148-150, counting a line. -/
def St.count (s : St D) (line : LogLine) : St D :=
  { s with lineCount := s.lineCount + 1, byteCount := s.byteCount + line.1.length, coord := s.coord + 1 }

/-- process.rs:158-167, a line enters the buffer, and its tokens the targets when they are new. -/
def St.push (env : Env D) (s : St D) (line : LogLine) (raw : Str) : St D :=
  let tokens := env.tokenize raw
  let s := { s with buffer := s.buffer ++ [(line, s.coord)] }
  if tokens ∈ s.skipLines then s
  else { s with
    skipLines := tokens :: s.skipLines
    targets := s.targets ++ [tokens]
    targetsCoord := s.targetsCoord ++ [s.coord] }

/-- process.rs:164, 169 and 175: whether the pushed line triggers a search.  `isNew` is
`!self.skip_lines.contains(&tokens)` before the push. -/
def St.full (s : St D) (isNew : Bool) : Bool :=
  if isNew then s.targets.length == CHUNK_SIZE else s.buffer.length > CHUNK_SIZE * 10

/-- process.rs:143-194 `read_anomalies` -/
def readAnomalies (env : Env D) : List (Ev ε) → St D → Option (Except (Err ε) Unit × List (Ev ε) × St D)
  | [], s => do
    let s ← s.finish env
    some (.ok (), [], s)
  | .error e :: r, s => some (.error (.io e), r, s)
  | .ok line :: r, s =>
    match env.decode line.1 with
    | none => some (.error .utf8, r, s)
    | some raw =>
      let s := s.count line
      if contains MARKER raw then do
        let s ← s.finish env
        some (.ok (), r, s)
      else
        let isNew := !decide (env.tokenize raw ∈ s.skipLines)
        let s := s.push env line raw
        if s.full isNew then do
          let s ← s.doSearch env
          if s.anomalies ≠ [] then some (.ok (), r, s) else readAnomalies env r s
        else readAnomalies env r s

/-- The result of `next`: the item and the state of the iterator. -/
abbrev NextRes (D ε : Type) := Option (Except (Err ε) (AnomalyContext D)) × List (Ev ε) × St D

/-- process.rs:107-117 `next`.  After a successful `read_anomalies` the recursive call finds the queue
non-empty. -/
def next (env : Env D) (r : List (Ev ε)) (s : St D) : Option (NextRes D ε) :=
  match s.anomalies with
  | a :: as => some (some (.ok a), r, { s with anomalies := as })
  | [] => do
    let (res, r, s) ← readAnomalies env r s
    match res with
    | .error e => some (some (.error e), r, s)
    | .ok () =>
      match s.anomalies with
      | [] => some (none, r, s)
      | a :: as => some (some (.ok a), r, { s with anomalies := as })

/-- How a run over the iterator ends: `None`, an error, a panic, or not within the allowance. -/
inductive Stop (ε : Type) where
  | finished
  | failed (e : Err ε)
  | panicked
  | timeout
deriving DecidableEq, Repr

/-- model.rs:477-486, the loop over the processor: the anomalies until `None` or the first error.
At most `fuel` calls to `next` (the theorems show that `r.length + 2` calls are enough for a new
processor). -/
def collect (env : Env D) : Nat → List (Ev ε) → St D → List (AnomalyContext D) × Stop ε × St D
  | 0, _, s => ([], .timeout, s)
  | fuel + 1, r, s =>
    match next env r s with
    | none => ([], .panicked, St.new [])                 -- the state is lost
    | some (none, _, s) => ([], .finished, s)
    | some (some (.error e), _, s) => ([], .failed e, s)
    | some (some (.ok a), r, s) =>
      let (as, stop, s) := collect env fuel r s
      (a :: as, stop, s)

/-- Processing of a source with the skip set of the previous sources. -/
def process (env : Env D) (skipLines : List Str) (r : List (Ev ε)) : List (AnomalyContext D) × Stop ε × St D :=
  collect env (r.length + 2) r (St.new skipLines)

/-- The states the processor goes through.  The flag tells that a search is due: the line which
filled the chunk is in the buffer, and the next action is `do_search_anomalies` (process.rs:165, 176). -/
inductive Reach (env : Env D) : Bool → St D → Prop
  | start (skipLines : List Str) : Reach env false (St.new skipLines)
  | pop {s a as} : Reach env false s → s.anomalies = a :: as → Reach env false { s with anomalies := as }
  | line {s line raw} : Reach env false s → s.anomalies = [] → env.decode line.1 = some raw → contains MARKER raw = false →
      Reach env (((s.count line).push env line raw).full (!decide (env.tokenize raw ∈ s.skipLines)))
        ((s.count line).push env line raw)
  | search {s s'} : Reach env true s → s.doSearch env = some s' → Reach env false s'
  | marker {s s' line} : Reach env false s → s.anomalies = [] → (s.count line).finish env = some s' → Reach env false s'
  | eof {s s'} : Reach env false s → s.anomalies = [] → s.finish env = some s' → Reach env false s'

end
end LJ.Process

/-
Several runs of the program which use the same cache directory at the same time: `cache/src/cache.rs`, with its users in
`model/src/reader.rs` and `model/src/urls.rs`, one system call at a time.

`Verif/Cache` has one process, whose operations are not interrupted.  Here a job is one use of the cache by some process, and the
system calls of any number of jobs are interleaved in any order: the checks that a file exists, the opening of files (`File::create`
truncates the file which is there), and each read and write, at the position of the one who opened the file.  Jobs can be killed.

The file of a key is found directly, without its name: the names of distinct keys are distinct (C55).  A compressed file is its
bytes: `Gz` is the encoder and the decoder.  Any access to the disk can fail (`fault`).
-/
import Verif.Cache.Model
namespace LJ.Shared
open LJ.Codec (Bytes Texts Url)
open LJ.Cache (Remote)

/-- flate2: what `GzEncoder` hands over at most for the data written so far, what its drop adds, and what `GzDecoder` gives for some
bytes: data, and whether it ends without an error. -/
structure Gz where
  flow : Bytes → Bytes
  tail : Bytes → Bytes
  dec : Bytes → Bytes × Bool

/-- The whole file of some data -/
def Gz.enc (g : Gz) (d : Bytes) : Bytes := g.flow d ++ g.tail d

variable (t : Texts)

/-- cache.rs:22-36, the files of the cache: a listing, a content, and the results of HEAD requests. -/
inductive Key where
  | listing (url : Url t)
  | content (base url : Url t)
  | headYes (base url : Url t)
  | headNo (base url : Url t)
deriving DecidableEq

/-- What a run does with the cache: reader.rs:79-96 `from_url` and the reads that follow, urls.rs:40-59 `httpdir_iter`,
reader.rs:62-77 `head_url`. -/
inductive Job where
  | content (base url : Url t)
  | listing (url : Url t)
  | head (base url : Url t)
deriving DecidableEq

/-- What the network answers -/
inductive Answer where
  | body (r : Remote)
  | urls (l : List (Url t))
  | status (ok : Bool)
deriving DecidableEq

/-- What a job ends with; `data` is everything that was read, when its end was reached without an error. -/
inductive Result where
  | data (b : Bytes)
  | urls (l : List (Url t))
  | status (ok : Bool)
  | error
deriving DecidableEq

/-- Where a job is -/
inductive Pc where
  | start
  /-- `head`: there is no success in the cache -/
  | second
  /-- the file exists -/
  | found
  /-- the file does not exist: the network is asked -/
  | missing
  /-- the network answered -/
  | answered (a : Answer t)
  /-- `create` saw no file -/
  | checked (a : Answer t)
  /-- a cached file, with the bytes read so far -/
  | reading (file : Nat) (raw : Bytes)
  /-- cache.rs:139-142 `CacheReader`: the file, what is written of it, and the data which was given -/
  | filling (file pos : Nat) (given : Bytes) (remote : Remote)
  /-- the last writes: those of the drop of the encoder, and those of `serialize_into` -/
  | flushing (file pos : Nat) (out : Bytes) (r : Result t)
  | done (r : Result t)
deriving DecidableEq

variable {t}

/-- A file -/
structure File (t : Texts) where
  key : Key t
  bytes : Bytes

/-- The cache directory, the files, and the jobs which have begun -/
structure State (t : Texts) where
  names : Key t → Option Nat
  files : List (File t)
  jobs : Nat → Option (Job t × Pc t)

/-- No cache, and no job -/
def State.empty : State t := ⟨fun _ => none, [], fun _ => none⟩

/-- The job `a` is now there. -/
def State.at (s : State t) (a : Nat) (j : Job t) (pc : Pc t) : State t := { s with jobs := fun b => if b = a then some (j, pc) else s.jobs b }

/-- `write` at a position of a file: what is between its end and the position is filled with zeros. -/
def writeAt (pos : Nat) (b : Bytes) (f : Bytes) : Bytes :=
  if b = [] then f
  else (List.range (max f.length (pos + b.length))).map fun i => if pos ≤ i ∧ i < pos + b.length then b.getD (i - pos) 0 else f.getD i 0

/-- A write to the file `i` -/
def State.write (s : State t) (i pos : Nat) (b : Bytes) : State t := { s with files := s.files.modify i fun f => { f with bytes := writeAt pos b f.bytes } }

/-- `File::create` for the file of a key: the file and the new state.  A file which is there is truncated. -/
def State.openNew (s : State t) (k : Key t) : Nat × State t :=
  match s.names k with
  | some i => (i, { s with files := s.files.modify i fun f => { f with bytes := [] } })
  | none => (s.files.length, { s with names := fun k' => if k' = k then some s.files.length else s.names k', files := s.files ++ [⟨k, []⟩] })

/-- The file which a job looks for -/
def Job.key : Job t → Key t
  | .content base url => .content base url
  | .listing url => .listing url
  | .head base url => .headYes base url

/-- The file which a job makes of an answer; `none` for the answers which are not for it -/
def Job.makes : Job t → Answer t → Option (Key t)
  | .content base url, .body _ => some (.content base url)
  | .listing url, .urls _ => some (.listing url)
  | .head base url, .status ok => some (if ok then .headYes base url else .headNo base url)
  | _, _ => none

/-- cache.rs:84-90, 101-104 and 66-73, after the creation of the file: what is to be written. -/
def begins (i : Nat) : Answer t → Pc t
  | .body r => .filling i 0 [] r
  | .urls l =>
    match (LJ.Codec.listing t).enc l with
    | some out => .flushing i 0 out (.urls l)
    | none => .flushing i 0 [] .error
  | .status ok => .done (.status ok)

/-- The next system call of a job, when it is not a read or a write -/
def call (s : State t) (a : Nat) : State t :=
  match s.jobs a with
  | none => s
  | some (j, pc) =>
    match pc with
    -- cache.rs:117-124 `get`
    | .start => s.at a j (if (s.names j.key).isSome then (match j with | .head _ _ => .done (.status true) | _ => .found)
        else match j with | .head _ _ => .second | _ => .missing)
    -- cache.rs:62, for `head_failure`
    | .second =>
      match j with
      | .head base url => s.at a j (if (s.names (.headNo base url)).isSome then .done (.status false) else .missing)
      | _ => s
    -- cache.rs:78 and 95, `File::open`
    | .found => s.at a j (match s.names j.key with | some i => .reading i [] | none => .done .error)
    -- cache.rs:127-131 `create`, the check
    | .answered ans => s.at a j (match j.makes ans with | some k => if (s.names k).isSome then .done .error else .checked ans | none => .done .error)
    -- cache.rs:135, `File::create`
    | .checked ans =>
      match j.makes ans with
      | some k => match s.openNew k with | (i, s) => s.at a j (begins i ans)
      | none => s
    | .flushing _ pos out r => if pos = out.length then s.at a j (.done r) else s
    | _ => s

/-- The answer of the network; `none` when there is none -/
def reply (s : State t) (a : Nat) (ans : Option (Answer t)) : State t :=
  match s.jobs a with
  | some (j, .missing) => s.at a j (match ans with | some ans => .answered ans | none => .done .error)
  | _ => s

variable (g : Gz)

/-- What is read from a cached file, at its end -/
def decoded : Job t → Bytes → Result t
  | .content _ _, raw => if (g.dec raw).2 then .data (g.dec raw).1 else .error
  | .listing _, raw => match LJ.Codec.load (LJ.Codec.listing t) raw with | some l => .urls l | none => .error
  | .head _ _, _ => .error

/-- A read of at most `n + 1` bytes: from a cached file, or from the network, cache.rs:144-158.  A read which gives nothing is the
end. -/
def read (s : State t) (a n : Nat) : State t :=
  match s.jobs a with
  | some (j, .reading i raw) =>
    match (((s.files[i]?).map File.bytes).getD [] |>.drop raw.length).take (n + 1) with
    | [] => s.at a j (.done (decoded g j raw))
    | b => s.at a j (.reading i (raw ++ b))
  | some (j, .filling i pos given r) =>
    match r.read (n + 1) with
    | (none, _) => s.at a j (.flushing i pos (g.enc given) .error)
    | (some [], _) => s.at a j (.flushing i pos (g.enc given) (.data given))
    | (some b, r) => s.at a j (.filling i pos (given ++ b) r)
  | _ => s

/-- A write of at most `k + 1` bytes -/
def emit (s : State t) (a k : Nat) : State t :=
  match s.jobs a with
  | some (j, .filling i pos given r) =>
    let b := ((g.flow given).drop pos).take (k + 1)
    (s.write i pos b).at a j (.filling i (pos + b.length) given r)
  | some (j, .flushing i pos out r) =>
    let b := (out.drop pos).take (k + 1)
    (s.write i pos b).at a j (.flushing i (pos + b.length) out r)
  | _ => s

/-- The reader is dropped before its end: the file is finished all the same. -/
def close (s : State t) (a : Nat) : State t :=
  match s.jobs a with
  | some (j, .reading _ _) => s.at a j (.done .error)
  | some (j, .filling i pos given _) => s.at a j (.flushing i pos (g.enc given) .error)
  | _ => s

/-- The process of a job is killed: nothing more is written. -/
def kill (s : State t) (a : Nat) : State t :=
  match s.jobs a with
  | some (j, .done r) => s.at a j (.done r)
  | some (j, _) => s.at a j (.done .error)
  | none => s

/-- The next access of a job to the disk fails.  `exists` is then false (cache.rs:119 and 130), what opens, reads or creates a file is
an error (cache.rs:78, 95, 135), and so is a write, after which the reader is dropped (cache.rs:152-155; the encoder may have got `k` of
the bytes which were read) and may write what it kept.  The drop of the encoder ignores the errors; `serialize_into` does not. -/
def fault (s : State t) (a k : Nat) : State t :=
  match s.jobs a with
  | some (j, .start) => s.at a j (match j with | .head _ _ => .second | _ => .missing)
  | some (j, .second) => s.at a j .missing
  | some (j, .answered ans) => s.at a j (match j.makes ans with | some _ => .checked ans | none => .done .error)
  | some (j, .found) => s.at a j (.done .error)
  | some (j, .checked _) => s.at a j (.done .error)
  | some (j, .reading _ _) => s.at a j (.done .error)
  | some (j, .filling i pos given r) => s.at a j (.flushing i pos (g.enc (given ++ r.rest.take k)) .error)
  | some (j, .flushing _ _ _ r) => s.at a j (.done (match j with | .listing _ => .error | _ => r))
  | _ => s

variable (t) in
/-- What happens next -/
inductive Event where
  | begins (a : Nat) (j : Job t)
  | call (a : Nat)
  | reply (a : Nat) (ans : Option (Answer t))
  | read (a n : Nat)
  | emit (a k : Nat)
  | close (a : Nat)
  | kill (a : Nat)
  | fault (a k : Nat)
  /-- cache.rs:38-43 `drop`, by any process -/
  | unlink (k : Key t)

/-- One event; it changes nothing when it can't happen. -/
def step (s : State t) : Event t → State t
  | .begins a j => if (s.jobs a).isSome then s else s.at a j .start
  | .call a => call s a
  | .reply a ans => reply s a ans
  | .read a n => read g s a n
  | .emit a k => emit g s a k
  | .close a => close g s a
  | .kill a => kill s a
  | .fault a k => fault g s a k
  | .unlink k => { s with names := fun k' => if k' = k then none else s.names k' }

/-- A schedule -/
def run : List (Event t) → State t → State t
  | [], s => s
  | e :: es, s => run es (step g s e)

end LJ.Shared

/-
Model of the cache: `cache/src/cache.rs`, and of its users in `model/src/reader.rs`, `model/src/urls.rs` and
`model/src/zuul.rs`.

The cache directory maps names to files.  A file which is removed stays readable and writable by those who opened
it, as on Unix: the names are separate from the files.  A compressed file is the data it decompresses to, and whether
it ends properly: an unfinished one gives its data and then an error.  A crash is the death of the process: what was
already handed to the system is kept, and the compressed files which were being written keep any prefix of their data.
The errors of the disk, and several processes at the same time, are in `Verif/Shared`.
-/
import Verif.Codec.Model
import Verif.Crawler.Model
namespace LJ.Cache
open LJ.Codec (Bytes Texts Url)

variable (t : Texts)

instance : DecidableEq (Url t) := inferInstanceAs (DecidableEq { s : String // t.parseUrl s = some s })

/-- The name of a cache file, relative to the cache directory -/
abbrev Name := List Char

variable {t} (digest : String → List Char)

/-! ### The names -/

/-- cache.rs:18-20 `new`; `digest` is the hexadecimal SHA-256. -/
def newName (c : Char) (url : Url t) : Name := c :: digest url.val

/-- cache.rs:22-24 `httpdir` -/
def httpdirName (url : Url t) : Name := newName digest '0' url

/-- cache.rs:26-28 `http` -/
def httpName (base url : Url t) : Name := newName digest '1' base ++ '/' :: newName digest '2' url

/-- cache.rs:30-32 `head_success` -/
def headSuccessName (base url : Url t) : Name := newName digest '1' base ++ '/' :: newName digest '3' url

/-- cache.rs:34-36 `head_failure` -/
def headFailureName (base url : Url t) : Name := newName digest '1' base ++ '/' :: newName digest '4' url

/-! ### The files -/

/-- The content of a file -/
inductive File where
  | raw (bytes : Bytes)
  /-- a compressed file: the data which can be decompressed, and whether an error does not follow it -/
  | gz (data : Bytes) (finished : Bool)
deriving DecidableEq, Repr

/-- What the network does when it is read: give at most `k + 1` bytes, or fail. -/
inductive Grant where
  | short (k : Nat)
  | fail
deriving DecidableEq, Repr

/-- The body of a response: what is left, and what the network will do; then it gives all it is asked. -/
structure Remote where
  rest : Bytes
  grants : List Grant
deriving DecidableEq, Repr

/-- reqwest's `Response::read` with a buffer of `n` bytes; `none` is an error. -/
def Remote.read (n : Nat) (r : Remote) : Option Bytes × Remote :=
  match r.grants with
  | [] => (some (r.rest.take n), { r with rest := r.rest.drop n })
  | .short k :: g => (some (r.rest.take (min n (k + 1))), ⟨r.rest.drop (min n (k + 1)), g⟩)
  | .fail :: g => (none, ⟨r.rest, g⟩)

/-- cache.rs:139-142 `CacheReader`: the remote, and the file being written -/
structure Reader where
  remote : Remote
  file : Nat
deriving DecidableEq, Repr

/-- The cache directory, the files, and the readers of the process; a closed reader is `none`. -/
structure State where
  names : Name → Option Nat
  files : List File
  readers : List (Option Reader)

/-- No cache -/
def State.empty : State := ⟨fun _ => none, [], []⟩

/-- cache.rs:117-124 `get` -/
def get (n : Name) (s : State) : Option File := (s.names n).bind fun i => s.files[i]?

/-- cache.rs:127-137 `create`: it is refused if the file exists; otherwise there is a new file, with this content. -/
def create (n : Name) (f : File) (s : State) : Option State :=
  match s.names n with
  | some _ => none
  | none => some { s with names := fun m => if m = n then some s.files.length else s.names m, files := s.files ++ [f] }

/-- cache.rs:38-43 `drop`: nothing is done if there is no file. -/
def drop (n : Name) (s : State) : State := { s with names := fun m => if m = n then none else s.names m }

/-! ### The cache -/

/-- cache.rs:61-66 `head` -/
def head (base url : Url t) (s : State) : Option Bool :=
  match get (headSuccessName digest base url) s with
  | some _ => some true
  | none => (get (headFailureName digest base url) s).map fun _ => false

/-- cache.rs:66-73 `head_set`; `none` is an error. -/
def headSet (base url : Url t) (result : Bool) (s : State) : Option State :=
  create (if result then headSuccessName digest base url else headFailureName digest base url) (.raw []) s

/-- What a `GzDecoder` gives: some data, and whether it ends without an error. -/
def decompress : File → Bytes × Bool
  | .gz data finished => (data, finished)
  | .raw _ => ([], false)

/-- cache.rs:76-81 `remote_get`: what the reader will give -/
def remoteGet (base url : Url t) (s : State) : Option (Bytes × Bool) := (get (httpName digest base url) s).map decompress

/-- cache.rs:84-90 `remote_add`: the state with a new reader, which is the last one -/
def remoteAdd (base url : Url t) (remote : Remote) (s : State) : Option State :=
  (create (httpName digest base url) (.gz [] false) s).map fun s' => { s' with readers := s'.readers ++ [some ⟨remote, s.files.length⟩] }

/-- The data of a compressed file, when some more is written -/
def append (c : Bytes) : File → File
  | .gz data f => .gz (data ++ c) f
  | f => f

/-- The end of a compressed file: `GzEncoder` finishes it when it is dropped. -/
def finish : File → File
  | .gz data _ => .gz data true
  | f => f

/-- The compressed file after a crash: it keeps `k` bytes of its data. -/
def cut (k : Nat) : File → File
  | .gz data f => .gz (data.take k) f
  | f => f

/-- cache.rs:144-158 `CacheReader::read` -/
def readerRead (id n : Nat) (s : State) : Option Bytes × State :=
  match s.readers[id]? with
  | some (some r) =>
    match r.remote.read n with
    | (some c, remote) => (some c, { s with readers := s.readers.set id (some { r with remote }), files := s.files.modify r.file (append c) })
    | (none, remote) => (none, { s with readers := s.readers.set id (some { r with remote }) })
  | _ => (none, s)

/-- The drop of a `CacheReader` -/
def readerClose (id : Nat) (s : State) : State :=
  match s.readers[id]? with
  | some (some r) => { s with readers := s.readers.set id none, files := s.files.modify r.file finish }
  | _ => s

/-- cache.rs:93-98 `httpdir_get`; `some none` is an error. -/
def httpdirGet (url : Url t) (s : State) : Option (Option (List (Url t))) :=
  (get (httpdirName digest url) s).map fun
    | .raw b => LJ.Codec.load (LJ.Codec.listing t) b
    | .gz _ _ => none

/-- cache.rs:101-104 `httpdir_add` -/
def httpdirAdd (url : Url t) (paths : List (Url t)) (s : State) : Option State :=
  ((LJ.Codec.listing t).enc paths).bind fun b => create (httpdirName digest url) (.raw b) s

/-- cache.rs:107-109 `remote_drop` -/
def remoteDrop (base url : Url t) (s : State) : State := drop (httpName digest base url) s

/-- cache.rs:112-114 `httpdir_drop` -/
def httpdirDrop (url : Url t) (s : State) : State := drop (httpdirName digest url) s

/-- The process dies: the files of the readers keep some of their data. -/
def crash (kept : Nat → Nat) (s : State) : State :=
  { s with
    readers := s.readers.map fun _ => none
    files := s.files.mapIdx fun i f => if s.readers.any (fun r => r.map Reader.file == some i) then cut (kept i) f else f }

/-- The process dies in `httpdir_add`, when `k` bytes are written, which is not all of them. -/
def crashInAdd (url : Url t) (paths : List (Url t)) (k : Nat) (kept : Nat → Nat) (s : State) : State :=
  match (LJ.Codec.listing t).enc paths with
  | some b => crash kept (((create (httpdirName digest url) (.raw (b.take (min k (b.length - 1)))) s)).getD s)
  | none => crash kept s

/-! ### Its users -/

/-- A response: its status and its body -/
structure Response where
  status : Nat
  body : Remote
deriving DecidableEq, Repr

/-- reader.rs:34-38 `remote::head`: `None` when there is no response -/
def remoteHead (answer : Option Nat) : Option Bool := answer.map fun status => decide (200 ≤ status ∧ status < 300)

/-- reader.rs:62-77 `head_url`, with the answer of the server, if it is asked; the result is `none` on errors. -/
def headUrl (useCache : Bool) (base url : Url t) (answer : Option Nat) (s : State) : Option Bool × State :=
  if useCache then
    match head digest base url s with
    | some r => (some r, s)
    | none =>
      match remoteHead answer with
      | none => (none, s)
      | some r =>
        match headSet digest base url r s with
        | some s' => (some r, s')
        | none => (none, s)
  else (remoteHead answer, s)

/-- reader.rs:44-50 `DecompressReader`, from a URL -/
inductive Opened where
  /-- a cached file, with what it gives -/
  | gz (data : Bytes) (finished : Bool)
  /-- the body of a response -/
  | remote (r : Remote)
  /-- the reader which fills the cache, with its number -/
  | cached (id : Nat)
deriving DecidableEq, Repr

/-- reader.rs:79-96 `from_url`, with the answer of the server, if it is asked; `none` on errors. -/
def fromUrl (useCache : Bool) (base url : Url t) (answer : Option Response) (s : State) : Option Opened × State :=
  if useCache then
    match remoteGet digest base url s with
    | some (data, finished) => (some (.gz data finished), s)
    | none =>
      match answer with
      | none => (none, s)
      | some resp =>
        match remoteAdd digest base url resp.body s with
        | some s' => (some (.cached s.readers.length), s')
        | none => (none, s)
  else
    match answer with
    | none => (none, s)
    | some resp => (some (.remote resp.body), s)

/-- reader.rs:98-104 `drop_url` -/
def dropUrl (useCache : Bool) (base url : Url t) (s : State) : State := if useCache then remoteDrop digest base url s else s

/-- urls.rs:40-59 `httpdir_iter`: the listed URLs; `listed` is the outcome of `httpdir::list`, if it is asked. -/
def httpdirIter (url : Url t) (listed : Option (List (Url t))) (s : State) : Option (List (Url t)) × State :=
  match httpdirGet digest url s with
  | some res => (res, s)
  | none =>
    match listed with
    | none => (none, s)
    | some urls =>
      match httpdirAdd digest url urls s with
      | some s' => (some urls, s')
      | none => (none, s)

/-- A remote read byte by byte, at most `fuel` times, as `serde_json::from_reader` does; `none` on errors. -/
def Remote.all : Nat → Remote → Option Bytes
  | 0, _ => none
  | fuel + 1, r =>
    match r.read 1 with
    | (none, _) => none
    | (some [], _) => some []
    | (some (c :: cs), r) => (r.all fuel).map fun d => (c :: cs) ++ d

/-- The same reads, through the reader `id` -/
def readerAll (id : Nat) : Nat → State → Option Bytes × State
  | 0, s => (none, s)
  | fuel + 1, s =>
    match readerRead id 1 s with
    | (none, s) => (none, s)
    | (some [], s) => (some [], s)
    | (some (c :: cs), s) =>
      match readerAll id fuel s with
      | (d, s) => (d.map fun d => (c :: cs) ++ d, s)

/-- The number of reads which surely reach the end of a body -/
def Remote.fuel (r : Remote) : Nat := r.rest.length + 1

/-- zuul.rs:149-164 `get_build` and `get_builds`, with the decoder of the body; the decoder reads all the body, and it
fails if the body does.  A decoder which fails may stop earlier: what it left in the file is dropped anyway. -/
def getDecoded {α : Type} (decode : Bytes → Option α) (useCache : Bool) (base url : Url t) (answer : Option Response) (s : State) :
    Option α × State :=
  match fromUrl digest useCache base url answer s with
  | (none, s) => (none, s)
  | (some (.gz data finished), s) =>
    match (if finished then decode data else none) with
    | some x => (some x, s)
    | none => (none, dropUrl digest useCache base url s)
  | (some (.remote r), s) =>
    match (r.all r.fuel).bind decode with
    | some x => (some x, s)
    | none => (none, dropUrl digest useCache base url s)
  | (some (.cached id), s) =>
    match readerAll id ((answer.map fun r => r.body.fuel).getD 0) s with
    | (d, s) =>
      match d.bind decode with
      | some x => (some x, readerClose id s)
      | none => (none, dropUrl digest useCache base url (readerClose id s))

/-- httpdir.rs:243-255 `http_list`, with the response of the server if any (its status and its text) -/
def httpList {O E : Type} (join : List Char → Option (LJ.Crawler.Url O)) (failed invalid : E) (answer : Option (Nat × List Char)) : LJ.Crawler.Page O E :=
  match answer with
  | none => .error failed
  | some (_, text) =>
    match LJ.Crawler.parseIndexOf join text with
    | some urls => .links urls
    | none => .error invalid

/-! ### Histories -/

variable (t) in
/-- An operation on the cache -/
inductive Op where
  | headSet (base url : Url t) (result : Bool)
  | headUrl (base url : Url t) (answer : Option Nat)
  | remoteAdd (base url : Url t) (remote : Remote)
  | read (id n : Nat)
  | close (id : Nat)
  | remoteDrop (base url : Url t)
  | httpdirAdd (url : Url t) (paths : List (Url t))
  | httpdirDrop (url : Url t)
  | crash (kept : Nat → Nat)
  | crashInAdd (url : Url t) (paths : List (Url t)) (k : Nat) (kept : Nat → Nat)

/-- What an operation returns -/
inductive Out where
  | done
  | error
  | bool (b : Bool)
  | reader (id : Nat)
  | bytes (b : Bytes)
deriving DecidableEq, Repr

/-- One operation -/
def step (op : Op t) (s : State) : Out × State :=
  match op with
  | .headSet base url r =>
    match headSet digest base url r s with
    | some s' => (.bool r, s')
    | none => (.error, s)
  | .headUrl base url answer =>
    match headUrl digest true base url answer s with
    | (some r, s') => (.bool r, s')
    | (none, s') => (.error, s')
  | .remoteAdd base url remote =>
    match remoteAdd digest base url remote s with
    | some s' => (.reader s.readers.length, s')
    | none => (.error, s)
  | .read id n =>
    match readerRead id n s with
    | (some c, s') => (.bytes c, s')
    | (none, s') => (.error, s')
  | .close id => (.done, readerClose id s)
  | .remoteDrop base url => (.done, remoteDrop digest base url s)
  | .httpdirAdd url paths =>
    match httpdirAdd digest url paths s with
    | some s' => (.done, s')
    | none => (.error, s)
  | .httpdirDrop url => (.done, httpdirDrop digest url s)
  | .crash kept => (.done, crash kept s)
  | .crashInAdd url paths k kept => (.done, crashInAdd digest url paths k kept s)

/-- A history of operations, with what each one returned -/
def run : List (Op t) → State → List (Op t × Out) × State
  | [], s => ([], s)
  | op :: ops, s =>
    match step digest op s with
    | (out, s') =>
      match run ops s' with
      | (trace, s'') => ((op, out) :: trace, s'')

end LJ.Cache

/-
Model of what is saved and loaded: bincode 1.3 with its default options (fixed size little endian integers,
lengths in 64 bits, variants in 32 bits), for the types of `model/src/model.rs`, `model/src/zuul.rs`,
`index/src/index.rs` and the listings of `cache/src/cache.rs`.

The compression of the saved files is not modelled.  The parser of URLs and the text form of dates are parameters.
-/
namespace LJ.Codec

/-- Bytes of a file -/
abbrev Bytes := List UInt8

/-- A serializer, which may fail, and a deserializer, which returns what is left. -/
structure Codec (α : Type) where
  enc : α → Option Bytes
  dec : Bytes → Option (α × Bytes)

/-! ### bincode -/

/-- the `k` bytes of a number, the lowest first -/
def leBytes : Nat → Nat → Bytes
  | 0, _ => []
  | k + 1, n => UInt8.ofNat (n % 256) :: leBytes k (n / 256)

/-- the number of some bytes -/
def leNat : Bytes → Nat
  | [] => 0
  | b :: bs => b.toNat + 256 * leNat bs

/-- the first `k` bytes and what follows; `none` at the end of the file -/
def takeBytes (k : Nat) (bs : Bytes) : Option (Bytes × Bytes) := if k ≤ bs.length then some (bs.take k, bs.drop k) else none

/-- `u64`, and `usize` on a 64 bit machine -/
def u64 : Codec UInt64 where
  enc n := some (leBytes 8 n.toNat)
  dec bs := (takeBytes 8 bs).map fun (b, r) => (UInt64.ofNat (leNat b), r)

/-- `u32`, the bits of an `f32` and the number of a variant -/
def u32 : Codec UInt32 where
  enc n := some (leBytes 4 n.toNat)
  dec bs := (takeBytes 4 bs).map fun (b, r) => (UInt32.ofNat (leNat b), r)

/-- fields in sequence: structures and tuples -/
def pair {α β : Type} (a : Codec α) (b : Codec β) : Codec (α × β) where
  enc x := (a.enc x.1).bind fun p => (b.enc x.2).map fun q => p ++ q
  dec bs := (a.dec bs).bind fun (x, r) => (b.dec r).map fun (y, r) => ((x, y), r)

/-- a type with the representation of another one, with a check when it is read -/
def iso {α β : Type} (c : Codec α) (to : β → α) (of : α → Option β) : Codec β where
  enc x := c.enc (to x)
  dec bs := (c.dec bs).bind fun (x, r) => (of x).map fun y => (y, r)

/-- elements one after the other -/
def encAll {α : Type} (c : Codec α) : List α → Option Bytes
  | [] => some []
  | x :: xs => (c.enc x).bind fun p => (encAll c xs).map fun q => p ++ q

/-- `n` elements -/
def decAll {α : Type} (c : Codec α) : Nat → Bytes → Option (List α × Bytes)
  | 0, bs => some ([], bs)
  | n + 1, bs => (c.dec bs).bind fun (x, r) => (decAll c n r).map fun (xs, r) => (x :: xs, r)

/-- `Vec`: its length, which fits in 64 bits on any machine, and its elements -/
def seq {α : Type} (c : Codec α) : Codec (List α) where
  enc xs := if xs.length < 2 ^ 64 then (encAll c xs).map fun p => leBytes 8 xs.length ++ p else none
  dec bs := (takeBytes 8 bs).bind fun (b, r) => decAll c (leNat b) r

/-- an enumeration with two variants -/
def either {α β : Type} (a : Codec α) (b : Codec β) : Codec (α ⊕ β) where
  enc
    | .inl x => (a.enc x).map fun p => leBytes 4 0 ++ p
    | .inr y => (b.enc y).map fun p => leBytes 4 1 ++ p
  dec bs := (takeBytes 4 bs).bind fun (t, r) =>
    if leNat t = 0 then (a.dec r).map fun (x, r) => (.inl x, r)
    else if leNat t = 1 then (b.dec r).map fun (y, r) => (.inr y, r)
    else none

/-- an enumeration with three variants -/
def either3 {α β γ : Type} (a : Codec α) (b : Codec β) (c : Codec γ) : Codec (α ⊕ β ⊕ γ) where
  enc
    | .inl x => (a.enc x).map fun p => leBytes 4 0 ++ p
    | .inr (.inl y) => (b.enc y).map fun p => leBytes 4 1 ++ p
    | .inr (.inr z) => (c.enc z).map fun p => leBytes 4 2 ++ p
  dec bs := (takeBytes 4 bs).bind fun (t, r) =>
    if leNat t = 0 then (a.dec r).map fun (x, r) => (.inl x, r)
    else if leNat t = 1 then (b.dec r).map fun (y, r) => (.inr (.inl y), r)
    else if leNat t = 2 then (c.dec r).map fun (z, r) => (.inr (.inr z), r)
    else none

/-- a variant without data -/
def unit : Codec Unit where
  enc _ := some []
  dec bs := some ((), bs)

/-- the bytes of a string -/
def stringBytes (s : String) : Bytes := s.toUTF8.data.toList

/-- the string of some bytes, which must be UTF-8 -/
def bytesString (bs : Bytes) : Option String := String.fromUTF8? ⟨bs.toArray⟩

/-- bytes with their length -/
def blob : Codec Bytes where
  enc b := if b.length < 2 ^ 64 then some (leBytes 8 b.length ++ b) else none
  dec bs := (takeBytes 8 bs).bind fun (b, r) => takeBytes (leNat b) r

/-- `String` -/
def string : Codec String := iso blob stringBytes bytesString

/-- `PathBuf` is bytes: it is written as a string, and it is an error if it is not one. -/
def path : Codec Bytes where
  enc b := (bytesString b).bind string.enc
  dec bs := (string.dec bs).map fun (s, r) => (stringBytes s, r)

/-- `std::time::Duration`, and `SystemTime` as the duration since 1970 -/
structure Duration where
  secs : UInt64
  nanos : Fin 1000000000
deriving DecidableEq, Repr

/-- `Duration`: the seconds and the nanoseconds; the nanoseconds which are more than a second are carried (`Duration::new`), and it is an error if
the seconds then overflow. -/
def duration : Codec Duration :=
  iso (pair u64 u32) (fun d => (d.secs, UInt32.ofNat d.nanos))
    fun (s, n) => if s.toNat + n.toNat / 1000000000 < 2 ^ 64
      then some ⟨UInt64.ofNat (s.toNat + n.toNat / 1000000000), ⟨n.toNat % 1000000000, Nat.mod_lt _ (by decide)⟩⟩ else none

/-- a pair inserted in a `HashMap`, which has a list of its pairs here -/
def insertPair {κ ν : Type} [DecidableEq κ] (m : List (κ × ν)) (p : κ × ν) : List (κ × ν) :=
  if p.1 ∈ m.map Prod.fst then m.map fun q => if q.1 = p.1 then p else q else m ++ [p]

/-- A `HashMap`, in its iteration order -/
structure Map (κ ν : Type) where
  pairs : List (κ × ν)
  nodup : (pairs.map Prod.fst).Nodup

theorem insertPair_nodup {κ ν : Type} [DecidableEq κ] {m : List (κ × ν)} (h : (m.map Prod.fst).Nodup) (p : κ × ν) :
    ((insertPair m p).map Prod.fst).Nodup := by
  unfold insertPair
  split
  · have : (m.map fun q => if q.1 = p.1 then p else q).map Prod.fst = m.map Prod.fst := by
      rw [List.map_map]
      apply List.map_congr_left
      intro q _
      simp only [Function.comp]
      split
      · rename_i e; exact e.symm
      · rfl
    rw [this]
    exact h
  · rename_i hn
    rw [List.map_append, List.nodup_append]
    refine ⟨h, by simp, ?_⟩
    intro a ha b hb e
    simp only [List.map_cons, List.map_nil, List.mem_singleton] at hb
    exact hn (by rw [← hb, ← e]; exact ha)

/-- the map of pairs inserted one after the other -/
def Map.ofPairs {κ ν : Type} [DecidableEq κ] (ps : List (κ × ν)) : Map κ ν :=
  ps.foldl (fun m p => ⟨insertPair m.pairs p, insertPair_nodup m.nodup p⟩) ⟨[], by simp⟩

/-- `HashMap` -/
def map {κ ν : Type} [DecidableEq κ] (k : Codec κ) (v : Codec ν) : Codec (Map κ ν) :=
  iso (seq (pair k v)) Map.pairs fun ps => some (Map.ofPairs ps)

/-! ### The types -/

/-- The text forms: `Url::parse`, and the dates of `chrono`. -/
structure Texts where
  /-- the normalised URL of a string -/
  parseUrl : String → Option String
  Date : Type
  formatDate : Date → String
  parseDate : String → Option Date
  date_law : ∀ d, parseDate (formatDate d) = some d

variable (t : Texts)

/-- `url::Url`: a string which is its own normal form -/
def Url : Type := { s : String // t.parseUrl s = some s }

/-- `Url` is written as its string, and parsed when it is read. -/
def url : Codec (Url t) :=
  iso string Subtype.val fun s =>
    match t.parseUrl s with
    | some n => if hn : t.parseUrl n = some n then some ⟨n, hn⟩ else none
    | none => none

/-- `DateTime<Utc>` is written as a string. -/
def date : Codec t.Date := iso string t.formatDate t.parseDate

/-- model.rs:76-80 `Source` -/
inductive Source where
  | loc (baseLen : UInt64) (path : Bytes)
  | remote (baseLen : UInt64) (url : Url t)

/-- model.rs:76 -/
def source : Codec (Source t) :=
  iso (either (pair u64 path) (pair u64 (url t)))
    (fun | .loc n p => .inl (n, p) | .remote n u => .inr (n, u))
    fun | .inl (n, p) => some (.loc n p) | .inr (n, u) => some (.remote n u)

/-- zuul.rs:13-26 `Build` -/
structure Build where
  api : Url t
  uuid : String
  jobName : String
  project : String
  branch : String
  result : String
  pipeline : String
  logUrl : Url t
  refUrl : Url t
  endTime : t.Date
  change : UInt64

/-- zuul.rs:13 -/
def build : Codec (Build t) :=
  iso (pair (url t) (pair string (pair string (pair string (pair string (pair string (pair string (pair (url t) (pair (url t) (pair (date t) u64))))))))))
    (fun b => (b.api, b.uuid, b.jobName, b.project, b.branch, b.result, b.pipeline, b.logUrl, b.refUrl, b.endTime, b.change))
    fun (a, b, c, d, e, f, g, h, i, j, k) => some ⟨a, b, c, d, e, f, g, h, i, j, k⟩

/-- model.rs:58-63 `Content` -/
inductive Content where
  | file (s : Source t)
  | directory (s : Source t)
  | zuul (b : Build t)

/-- model.rs:58 -/
def content : Codec (Content t) :=
  iso (either3 (source t) (source t) (build t))
    (fun | .file s => .inl s | .directory s => .inr (.inl s) | .zuul b => .inr (.inr b))
    fun | .inl s => some (.file s) | .inr (.inl s) => some (.directory s) | .inr (.inr b) => some (.zuul b)

/-- index.rs:17 `FeaturesMatrix` (`sprs::CsMatBase`): the storage order, the sizes, the start of the rows, the
columns and the bits of the values -/
structure RawMatrix where
  csc : Bool
  rows : UInt64
  cols : UInt64
  indptr : List UInt64
  indices : List UInt64
  data : List UInt32
deriving DecidableEq, Repr

/-- What `sprs` checks when it reads a matrix: the numbers of elements, the order of the row starts, and the columns,
which are strictly increasing in a row. -/
def RawMatrix.valid (m : RawMatrix) : Bool :=
  let outer := if m.csc then m.cols else m.rows
  let inner := if m.csc then m.rows else m.cols
  m.indptr.length == outer.toNat + 1 && m.indptr.head? == some 0 &&
    m.indptr.getLast?.map UInt64.toNat == some m.indices.length && m.indices.length == m.data.length &&
    (m.indptr.zip m.indptr.tail).all (fun (a, b) => decide (a ≤ b)) &&
    m.indices.all (fun i => decide (i < inner)) &&
    (m.indptr.zip m.indptr.tail).all fun (a, b) =>
      let row := (m.indices.drop a.toNat).take (b.toNat - a.toNat)
      (row.zip row.tail).all fun (i, j) => decide (i < j)

/-- `FeaturesMatrix` -/
def Matrix : Type := { m : RawMatrix // m.valid = true }

/-- index.rs:48-54 `save_mat` and `load_mat` -/
def matrix : Codec Matrix :=
  iso (pair (either unit unit) (pair u64 (pair u64 (pair (seq u64) (pair (seq u64) (seq u32))))))
    (fun m => (if m.val.csc then .inr () else .inl (), m.val.rows, m.val.cols, m.val.indptr, m.val.indices, m.val.data))
    fun (s, r, c, p, i, d) =>
      let m : RawMatrix := ⟨s.isRight, r, c, p, i, d⟩
      if h : m.valid = true then some ⟨m, h⟩ else none

/-- model.rs:558-562 `ChunkIndex` and 591-594 `HashingIndex` -/
inductive ChunkIndex where
  | hashing (baselines : List Matrix)
  | noop

/-- model.rs:558 -/
def chunkIndex : Codec ChunkIndex :=
  iso (either (seq matrix) unit) (fun | .hashing b => .inl b | .noop => .inr ()) fun | .inl b => some (.hashing b) | .inr _ => some .noop

/-- model.rs:175-183 `Index` -/
structure Index where
  createdAt : Duration
  trainTime : Duration
  sources : List (Source t)
  index : ChunkIndex
  lineCount : UInt64
  byteCount : UInt64

/-- model.rs:175 -/
def index : Codec (Index t) :=
  iso (pair duration (pair duration (pair (seq (source t)) (pair chunkIndex (pair u64 u64)))))
    (fun x => (x.createdAt, x.trainTime, x.sources, x.index, x.lineCount, x.byteCount))
    fun (a, b, c, d, e, f) => some ⟨a, b, c, d, e, f⟩

/-- model.rs:149-154 `Model`; an index name is its string. -/
structure Model where
  createdAt : Duration
  baselines : List (Content t)
  indexes : Map String (Index t)

/-- model.rs:149 -/
def model : Codec (Model t) :=
  iso (pair duration (pair (seq (content t)) (map string (index t)))) (fun x => (x.createdAt, x.baselines, x.indexes))
    fun (a, b, c) => some ⟨a, b, c⟩

/-- model.rs:185-190 `Anomaly`, with the bits of the distance -/
structure Anomaly where
  distance : UInt32
  pos : UInt64
  line : String
deriving DecidableEq

/-- model.rs:192-197 `AnomalyContext` -/
structure AnomalyContext where
  before : List String
  anomaly : Anomaly
  after : List String
deriving DecidableEq

/-- model.rs:185 -/
def anomaly : Codec Anomaly :=
  iso (pair u32 (pair u64 string)) (fun a => (a.distance, a.pos, a.line)) fun (a, b, c) => some ⟨a, b, c⟩

/-- model.rs:192 -/
def anomalyContext : Codec AnomalyContext :=
  iso (pair (seq string) (pair anomaly (seq string))) (fun a => (a.before, a.anomaly, a.after)) fun (a, b, c) => some ⟨a, b, c⟩

/-- model.rs:199-207 `LogReport` -/
structure LogReport where
  testTime : Duration
  lineCount : UInt64
  byteCount : UInt64
  anomalies : List AnomalyContext
  source : Source t
  indexName : String

/-- model.rs:199 -/
def logReport : Codec (LogReport t) :=
  iso (pair duration (pair u64 (pair u64 (pair (seq anomalyContext) (pair (source t) string)))))
    (fun x => (x.testTime, x.lineCount, x.byteCount, x.anomalies, x.source, x.indexName))
    fun (a, b, c, d, e, f) => some ⟨a, b, c, d, e, f⟩

/-- model.rs:209-213 `IndexReport` -/
structure IndexReport where
  trainTime : Duration
  sources : List (Source t)

/-- model.rs:209 -/
def indexReport : Codec (IndexReport t) :=
  iso (pair duration (seq (source t))) (fun x => (x.trainTime, x.sources)) fun (a, b) => some ⟨a, b⟩

/-- model.rs:224-236 `Report` -/
structure Report where
  createdAt : Duration
  runTime : Duration
  target : Content t
  baselines : List (Content t)
  logReports : List (LogReport t)
  indexReports : Map String (IndexReport t)
  indexErrors : List (List (Source t))
  readErrors : List (Source t × String)
  totalLineCount : UInt64
  totalAnomalyCount : UInt64

/-- model.rs:224 -/
def report : Codec (Report t) :=
  iso (pair duration (pair duration (pair (content t) (pair (seq (content t)) (pair (seq (logReport t)) (pair (map string (indexReport t))
      (pair (seq (seq (source t))) (pair (seq (pair (source t) string)) (pair u64 u64)))))))))
    (fun x => (x.createdAt, x.runTime, x.target, x.baselines, x.logReports, x.indexReports, x.indexErrors, x.readErrors,
      x.totalLineCount, x.totalAnomalyCount))
    fun (a, b, c, d, e, f, g, h, i, j) => some ⟨a, b, c, d, e, f, g, h, i, j⟩

/-- cache.rs:93-104 `httpdir_add` and `httpdir_get`: a list of URLs -/
def listing : Codec (List (Url t)) := seq (url t)

/-- model.rs:435-452, 239-257 and index.rs:48-54: saving, then loading; what follows is ignored, as `deserialize_from`
and `deserialize` do. -/
def load {α : Type} (c : Codec α) (bs : Bytes) : Option α := (c.dec bs).map Prod.fst

end LJ.Codec

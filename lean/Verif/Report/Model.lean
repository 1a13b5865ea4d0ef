/-
Model of the contents, models and reports of `model/src/model.rs` (lines 150-556): grouping of the
sources, training of the indexes, lookup of an index, and the report.

A content, a source and an index name are of any types.  What the program gets from outside is a
parameter (`World`).  A `HashMap` is an association list with distinct keys; its iteration order is
arbitrary: the functions which drain a map take the order as an argument, and the theorems hold for
every permutation.  Clocks (`created_at`, `train_time`, `test_time`, `run_time`) and the progress
messages are left out.
-/
import Verif.Process.Model
namespace LJ.Report
open LJ.Process (Str Bytes Ev Env Err AnomalyContext Trainer Stop)

/-- What the program gets from outside, and the functions modelled elsewhere. -/
structure World (C S N D E ε : Type) where
  /-- model.rs:381-390 `get_sources_iter`: listing a content may fail at any place. -/
  list : C → List (Except E S)
  /-- model.rs:112-142 `Source::is_valid` -/
  valid : S → Bool
  /-- model.rs:167-169 `IndexName::from_source` (`Verif/Paths`) -/
  nameOf : S → N
  /-- model.rs:95-97 `Source::is_json` -/
  isJson : S → Bool
  /-- model.rs:270-273 and 297-300 `Source::file_open`, `url_open`: the reader, which gives the results
  of the line iterator for the two values of `is_json`. -/
  openSource : S → Except E (Bool → List (Ev ε))
  /-- `std::str::from_utf8` -/
  decode : Bytes → Option Str
  /-- model.rs:566-571 `ChunkIndex::tokenize` -/
  tokenize : Str → Str
  /-- model.rs:573-585 `ChunkIndex::add`, `search`: the chunks added, then the targets. -/
  search : List (List Str) → List Str → List D
  /-- process.rs:13 `THRESHOLD` -/
  over : D → Bool

section
variable {C S N D E ε : Type} [DecidableEq N]

/-- The errors of `get_sources`: of the listing, or "Empty sources". -/
inductive ListErr (E C : Type) where
  | failed (e : E)
  | empty (content : C)
deriving DecidableEq, Repr

/-- `.collect::<Result<Vec<_>>>()` -/
def collectOk : List (Except E S) → Except E (List S)
  | [] => .ok []
  | .error e :: _ => .error e
  | .ok x :: r =>
    match collectOk r with
    | .error e => .error e
    | .ok xs => .ok (x :: xs)

/-- model.rs:368-373, the filter of `get_sources`: errors are kept. -/
def keepSource (valid : S → Bool) : Except E S → Bool
  | .ok s => valid s
  | .error _ => true

/-- model.rs:366-379 `get_sources` -/
def getSources (w : World C S N D E ε) (c : C) : Except (ListErr E C) (List S) :=
  match collectOk ((w.list c).filter (keepSource w.valid)) with
  | .error e => .error (.failed e)
  | .ok [] => .error (.empty c)
  | .ok sources => .ok sources

/-- `groups.entry(name).or_insert_with(Vec::new).push(source)` -/
def push (name : N) (source : S) : List (N × List S) → List (N × List S)
  | [] => [(name, [source])]
  | (n, ss) :: g => if n = name then (n, ss ++ [source]) :: g else (n, ss) :: push name source g

/-- model.rs:394-401, the loops of `group_sources` -/
def groupInto (w : World C S N D E ε) : List C → List (N × List S) → Except (ListErr E C) (List (N × List S))
  | [], g => .ok g
  | c :: cs, g =>
    match getSources w c with
    | .error e => .error e
    | .ok sources => groupInto w cs (sources.foldl (fun g s => push (w.nameOf s) s g) g)

/-- model.rs:392-403 `group_sources` -/
def groupSources (w : World C S N D E ε) (baselines : List C) : Except (ListErr E C) (List (N × List S)) :=
  groupInto w baselines []

/-- model.rs:176-183 `Index`.  The index itself is the sequence of the chunks added. -/
structure Index (S : Type) where
  sources : List S
  chunks : List (List Str)
  lineCount : Nat
  byteCount : Nat
deriving DecidableEq, Repr

/-- What the processor uses of an index. -/
def envOf (w : World C S N D E ε) (chunks : List (List Str)) : Env D := ⟨w.decode, w.tokenize, w.search chunks, w.over⟩

/-- model.rs:269-277, opening and adding the sources. -/
def trainSources (w : World C S N D E ε) (json : Bool) : List S → Trainer → Except E Trainer
  | [], t => .ok t
  | s :: ss, t =>
    match w.openSource s with
    | .error e => .error e
    | .ok reader => trainSources w json ss (t.add (envOf w []) (reader json)).2

/-- model.rs:260-288 `Index::train` -/
def trainIndex (w : World C S N D E ε) (sources : List S) : Except E (Index S) :=
  let json := match sources with | s :: _ => w.isJson s | [] => false
  match trainSources w json sources Trainer.new with
  | .error e => .error e
  | .ok t =>
    let t := t.complete
    .ok ⟨sources, t.chunks, t.lineCount, t.byteCount⟩

/-- model.rs:150-154 `Model` -/
structure Model (C S N : Type) where
  baselines : List C
  indexes : List (N × Index S)

/-- model.rs:416-427, one index per group.  The names of the groups are distinct: the insertion always
adds an entry. -/
def trainGroups (w : World C S N D E ε) : List (N × List S) → Except E (List (N × Index S))
  | [] => .ok []
  | (n, ss) :: g =>
    match trainIndex w ss with
    | .error e => .error e
    | .ok index =>
      match trainGroups w g with
      | .error e => .error e
      | .ok indexes => .ok ((n, index) :: indexes)

/-- The errors of `train` and `report`. -/
inductive Fail (E C : Type) where
  | sources (e : ListErr E C)
  | read (e : E)
deriving DecidableEq, Repr

/-- model.rs:409-433 `Model::train`; `order` is the order of the `drain`. -/
def train (w : World C S N D E ε) (order : List (N × List S) → List (N × List S)) (baselines : List C) :
    Except (Fail E C) (Model C S N) :=
  match groupSources w baselines with
  | .error e => .error (.sources e)
  | .ok g =>
    match trainGroups w (order g) with
    | .error e => .error (.read e)
    | .ok indexes => .ok ⟨baselines, indexes⟩

/-- model.rs:544-556 `lookup_or_single`, model.rs:456-458 `get_index`.  `get` gives the value of the
key, `values` are in an arbitrary order. -/
def lookupOrSingle {V : Type} (hm : List (N × V)) (k : N) : Option V :=
  match hm.lookup k with
  | some v => some v
  | none => if hm.length = 1 then hm.head?.map Prod.snd else none

/-- model.rs:200-207 `LogReport` -/
structure LogReport (S N D : Type) where
  lineCount : Nat
  byteCount : Nat
  anomalies : List (AnomalyContext D)
  source : S
  indexName : N
deriving DecidableEq, Repr

/-- The errors of `read_errors`: the source could not be opened, or read. -/
inductive ReadErr (E ε : Type) where
  | opening (e : E)
  | reading (e : Err ε)
deriving DecidableEq, Repr

/-- model.rs:225-236 `Report`; the index reports are reduced to their sources (model.rs:210-213). -/
structure Report (C S N D E ε : Type) where
  target : C
  baselines : List C
  logReports : List (LogReport S N D)
  indexReports : List (N × List S)
  indexErrors : List (List S)
  readErrors : List (S × ReadErr E ε)
  totalLineCount : Nat
  totalAnomalyCount : Nat
deriving DecidableEq, Repr

/-- model.rs:480-489, after the opening: the anomalies, the error, and the final state of the
processor.  A panic is `none`. -/
def inspect (w : World C S N D E ε) (index : Index S) (source : S) (reader : Bool → List (Ev ε)) (skip : List Str) :
    Option (List (AnomalyContext D) × Option (Err ε) × LJ.Process.St D) :=
  match LJ.Process.process (envOf w index.chunks) skip (reader (w.isJson source)) with
  | (anomalies, .finished, s) => some (anomalies, none, s)
  | (anomalies, .failed e, s) => some (anomalies, some e, s)
  | (_, .panicked, _) => none
  | (_, .timeout, _) => none

/-- model.rs:483-486, recording a read error. -/
def recordErr (source : S) (err : Option (Err ε)) (r : Report C S N D E ε) : Report C S N D E ε :=
  match err with
  | some e => { r with readErrors := r.readErrors ++ [(source, ReadErr.reading e)] }
  | none => r

/-- model.rs:492-497, recording the index. -/
def recordIndex (name : N) (index : Index S) (r : Report C S N D E ε) : Report C S N D E ε :=
  if (r.indexReports.lookup name).isSome then r
  else { r with indexReports := r.indexReports ++ [(name, index.sources)] }

/-- model.rs:489-506, recording the anomalies of a source. -/
def record (name : N) (index : Index S) (source : S) (anomalies : List (AnomalyContext D)) (err : Option (Err ε))
    (st : LJ.Process.St D) (r : Report C S N D E ε) : Report C S N D E ε :=
  let r := recordErr source err r
  let r := { r with totalLineCount := r.totalLineCount + st.lineCount }
  match anomalies with
  | [] => r
  | _ :: _ =>
    let r := recordIndex name index { r with totalAnomalyCount := r.totalAnomalyCount + anomalies.length }
    { r with logReports := r.logReports ++ [⟨st.lineCount, st.byteCount, anomalies, source, name⟩] }

/-- model.rs:475-513, the sources of a group.  When a source can't be opened, the loop ends. -/
def reportSources (w : World C S N D E ε) (name : N) (index : Index S) :
    List S → List Str → Report C S N D E ε → Option (Report C S N D E ε)
  | [], _, r => some r
  | source :: sources, skip, r =>
    match w.openSource source with
    | .error e => some { r with readErrors := r.readErrors ++ [(source, .opening e)] }
    | .ok reader =>
      match inspect w index source reader skip with
      | none => none
      | some (anomalies, err, st) =>
        reportSources w name index sources st.skipLines (record name index source anomalies err st r)

/-- model.rs:472-516, a group. -/
def reportGroup (w : World C S N D E ε) (m : Model C S N) (group : N × List S) (r : Report C S N D E ε) :
    Option (Report C S N D E ε) :=
  match lookupOrSingle m.indexes group.1 with
  | some index => reportSources w group.1 index group.2 [] r
  | none => some { r with indexErrors := r.indexErrors ++ [group.2] }

/-- model.rs:471, the loop over the groups. -/
def reportGroups (w : World C S N D E ε) (m : Model C S N) : List (N × List S) → Report C S N D E ε → Option (Report C S N D E ε)
  | [], r => some r
  | g :: gs, r =>
    match reportGroup w m g r with
    | none => none
    | some r => reportGroups w m gs r

/-- model.rs:462-530 `Model::report`; `order` is the order of the `drain`, a panic is `none`. -/
def report (w : World C S N D E ε) (m : Model C S N) (order : List (N × List S) → List (N × List S)) (target : C) :
    Option (Except (ListErr E C) (Report C S N D E ε)) :=
  match groupSources w [target] with
  | .error e => some (.error e)
  | .ok g =>
    match reportGroups w m (order g) ⟨target, m.baselines, [], [], [], [], 0, 0⟩ with
    | none => none
    | some r => some (.ok r)

end
end LJ.Report

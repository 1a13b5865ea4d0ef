/-
A model as it is in memory and in a file (`Verif/Codec`): the matrices of its indexes instead of the lines added to them
(`Verif/Report`), and the report made with it.

The listing, the names and the readers of the sources are parameters, as in `Verif/Report`.  The errors have any types.
-/
import Verif.Report.Witness
import Verif.Python.Memory
namespace LJ.Saved
open LJ.Process (Str Bytes Ev Env Err AnomalyContext Cfg)
open LJ.Report (World Report LogReport groupSources lookupOrSingle recordErr)
open LJ.Codec (Texts Source Content Duration)
open LJ.Python (toMatrix matOf)

variable {t : Texts} {E ε : Type}

/-! ### What training leaves in memory -/

/-- model.rs:558-562 and 588-613: the index as it is in memory, after chunks are added to it.  The result is none when a matrix is too large for
the memory. -/
noncomputable def keepIndex (cfg : Cfg) (hashing : Bool) (chunks : List (List Str)) : Option LJ.Codec.ChunkIndex :=
  match chunks.foldlM (LJ.Process.ChunkIndex.add cfg) (LJ.Process.newIndex hashing) with
  | some (.hashingTrick ms) => (ms.mapM toMatrix).map .hashing
  | some .noop => some .noop
  | none => none

/-- The clocks of a training: when the model and its indexes were made, and how long it took. -/
structure Clocks where
  model : Duration
  index : String → Duration × Duration

/-- model.rs:260-288 `Index::train`: the index with its clocks.  The counts are `usize`. -/
noncomputable def keepOne (cfg : Cfg) (hashing : Bool) (clocks : Clocks) (x : String × LJ.Report.Index (Source t)) :
    Option (String × LJ.Codec.Index t) :=
  (keepIndex cfg hashing x.2.chunks).map fun i =>
    (x.1, ⟨(clocks.index x.1).1, (clocks.index x.1).2, x.2.sources, i, UInt64.ofNat x.2.lineCount, UInt64.ofNat x.2.byteCount⟩)

/-- model.rs:409-433 `Model::train`: the model in memory. -/
noncomputable def keep (cfg : Cfg) (hashing : Bool) (clocks : Clocks) (m : LJ.Report.Model (Content t) (Source t) String) : Option (LJ.Codec.Model t) :=
  (m.indexes.mapM (keepOne cfg hashing clocks)).map fun ps => ⟨clocks.model, m.baselines, LJ.Codec.Map.ofPairs ps⟩

/-! ### The report made with a model in memory -/

/-- model.rs:580-585 `ChunkIndex::search`.  The result is none when a matrix does not have the number of columns of the targets, which panics in
`sprs`, or has an element which is not a finite number, which is not modelled. -/
noncomputable def search (cfg : Cfg) (index : LJ.Codec.ChunkIndex) : Option (List Str → Option (List ℝ)) :=
  match index with
  | .hashing ms =>
    if ms.all fun m => m.val.cols.toNat == LJ.Index.SIZE then (ms.mapM matOf).map fun b => LJ.Index.HashingIndex.search cfg.fp cfg.hash b
    else none
  | .noop => some fun targets => some (List.replicate targets.length 0)

/-- model.rs:566-571, 602-604 and 621-623 `ChunkIndex::tokenize` -/
def tokenize (cfg : Cfg) (index : LJ.Codec.ChunkIndex) (line : Str) : Str :=
  match index with
  | .hashing _ => LJ.Tokenizer.process cfg.wd line
  | .noop => line

open Classical in
/-- What the processor uses of an index. -/
noncomputable def envOf (cfg : Cfg) (index : LJ.Codec.ChunkIndex) : Option (Env ℝ) :=
  (search cfg index).map fun f => ⟨cfg.decode, tokenize cfg index, fun targets => (f targets).getD [], fun d => decide (d > LJ.Process.THRESHOLD)⟩

/-- What is outside: the listing, the names and the readers of the sources, as in `Verif/Report`. -/
structure Sources (t : Texts) (E ε : Type) where
  list : Content t → List (Except E (Source t))
  valid : Source t → Bool
  nameOf : Source t → String
  isJson : Source t → Bool
  openSource : Source t → Except E (Bool → List (Ev ε))

/-- The world of `Verif/Report` with these sources. -/
noncomputable def Sources.world (o : Sources t E ε) (cfg : Cfg) (hashing : Bool) : World (Content t) (Source t) String ℝ E ε :=
  LJ.Report.indexWorld cfg hashing o.list o.valid o.nameOf o.isJson o.openSource

abbrev Rep (t : Texts) (E ε : Type) := Report (Content t) (Source t) String ℝ E ε

/-- model.rs:480-489, a source: the anomalies, the error, and the final state of the processor.  A panic is `none`. -/
noncomputable def inspect (cfg : Cfg) (o : Sources t E ε) (index : LJ.Codec.Index t) (source : Source t) (reader : Bool → List (Ev ε)) (skip : List Str) :
    Option (List (AnomalyContext ℝ) × Option (Err ε) × LJ.Process.St ℝ) :=
  match envOf cfg index.index with
  | none => none
  | some env =>
    match LJ.Process.process env skip (reader (o.isJson source)) with
    | (anomalies, .finished, s) => some (anomalies, none, s)
    | (anomalies, .failed e, s) => some (anomalies, some e, s)
    | (_, .panicked, _) => none
    | (_, .timeout, _) => none

/-- model.rs:492-497, recording the index. -/
def recordIndex (name : String) (index : LJ.Codec.Index t) (r : Rep t E ε) : Rep t E ε :=
  if (r.indexReports.lookup name).isSome then r
  else { r with indexReports := r.indexReports ++ [(name, index.sources)] }

/-- model.rs:489-506, recording the anomalies of a source. -/
def record (name : String) (index : LJ.Codec.Index t) (source : Source t) (anomalies : List (AnomalyContext ℝ)) (err : Option (Err ε))
    (st : LJ.Process.St ℝ) (r : Rep t E ε) : Rep t E ε :=
  let r := recordErr source err r
  let r := { r with totalLineCount := r.totalLineCount + st.lineCount }
  match anomalies with
  | [] => r
  | _ :: _ =>
    let r := recordIndex name index { r with totalAnomalyCount := r.totalAnomalyCount + anomalies.length }
    { r with logReports := r.logReports ++ [⟨st.lineCount, st.byteCount, anomalies, source, name⟩] }

/-- model.rs:475-513, the sources of a group.  When a source can't be opened, the loop ends. -/
noncomputable def reportSources (cfg : Cfg) (o : Sources t E ε) (name : String) (index : LJ.Codec.Index t) :
    List (Source t) → List Str → Rep t E ε → Option (Rep t E ε)
  | [], _, r => some r
  | source :: sources, skip, r =>
    match o.openSource source with
    | .error e => some { r with readErrors := r.readErrors ++ [(source, .opening e)] }
    | .ok reader =>
      match inspect cfg o index source reader skip with
      | none => none
      | some (anomalies, err, st) =>
        reportSources cfg o name index sources st.skipLines (record name index source anomalies err st r)

/-- model.rs:472-516, a group. -/
noncomputable def reportGroup (cfg : Cfg) (o : Sources t E ε) (m : LJ.Codec.Model t) (group : String × List (Source t)) (r : Rep t E ε) :
    Option (Rep t E ε) :=
  match lookupOrSingle m.indexes.pairs group.1 with
  | some index => reportSources cfg o group.1 index group.2 [] r
  | none => some { r with indexErrors := r.indexErrors ++ [group.2] }

/-- model.rs:471, the loop over the groups. -/
noncomputable def reportGroups (cfg : Cfg) (o : Sources t E ε) (m : LJ.Codec.Model t) :
    List (String × List (Source t)) → Rep t E ε → Option (Rep t E ε)
  | [], r => some r
  | g :: gs, r =>
    match reportGroup cfg o m g r with
    | none => none
    | some r => reportGroups cfg o m gs r

/-- model.rs:462-530 `Model::report`; `order` is the order of the `drain`, a panic is `none`. -/
noncomputable def report (cfg : Cfg) (o : Sources t E ε) (m : LJ.Codec.Model t)
    (order : List (String × List (Source t)) → List (String × List (Source t))) (target : Content t) :
    Option (Except (LJ.Report.ListErr E (Content t)) (Rep t E ε)) :=
  match groupSources (o.world cfg true) [target] with
  | .error e => some (.error e)
  | .ok g =>
    match reportGroups cfg o m (order g) ⟨target, m.baselines, [], [], [], [], 0, 0⟩ with
    | none => none
    | some r => some (.ok r)

end LJ.Saved

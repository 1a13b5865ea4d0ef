/-
Model of `cli/src/dataset.rs`: the evaluation of datasets.  The training and the processing of the lines are
those of `Verif/Report` and `Verif/Process`.  The texts printed are left out.
-/
import Verif.Report.Model
import Verif.Tokenizer.Model
import Verif.Paths.Model
namespace LJ.Dataset
open LJ.Process (Str Ev Err AnomalyContext)
open LJ.Report (World Index)

/-- What ends the evaluation of a dataset. -/
inductive Bad (C E ε Y : Type) where
  /-- dataset.rs:25-26, opening and parsing `inf.yaml` -/
  | inf (e : Y)
  /-- dataset.rs:40 `read_dir` -/
  | dir (e : Y)
  /-- dataset.rs:79-82 -/
  | noFiles
  /-- dataset.rs:52-56 -/
  | train (e : LJ.Report.Fail E C)
  /-- dataset.rs:58-64, the source can't be opened or read -/
  | read (e : LJ.Report.ReadErr E ε)
  /-- dataset.rs:91 -/
  | expected (text line : Str)
  /-- dataset.rs:70-74 -/
  | mismatch (expected got : Nat)
deriving DecidableEq, Repr

/-- The files of a dataset. -/
structure Files (Y : Type) where
  /-- `inf.yaml`, decoded: the expected texts -/
  inf : Except Y (List Str)
  /-- the entries of the directory; an entry may be an error -/
  dir : Except Y (List (Except Y Str))

variable {C S N D E ε Y : Type} [DecidableEq N]

/-- dataset.rs:41 `.map(|d| d.unwrap().path())`; a panic is `none`. -/
def unwrapAll : List (Except Y Str) → Option (List Str)
  | [] => some []
  | .error _ :: _ => none
  | .ok p :: r => (unwrapAll r).map (p :: ·)

/-- dataset.rs:44-50 -/
def findExt (ext : Str) (paths : List Str) : Option Str := paths.find? fun p => LJ.Paths.extension p == some ext

/-- dataset.rs:58-64, model.rs:310-321 `Index::inspect` and `collect::<Result<Vec<_>>>`; a panic is `none`. -/
def inspectFile (w : World C S N D E ε) (index : Index S) (source : S) : Option (Except (LJ.Report.ReadErr E ε) (List (AnomalyContext D))) :=
  match w.openSource source with
  | .error e => some (.error (.opening e))
  | .ok reader =>
    match LJ.Report.inspect w index source reader [] with
    | none => none
    | some (_, some e, _) => some (.error (.reading e))
    | some (anomalies, none, _) => some (.ok anomalies)

/-- dataset.rs:86-93 `assert_anomaly_includes` -/
def includes (line : Str) (anomaly : AnomalyContext D) : Except (Bad C E ε Y) Unit :=
  if LJ.Tokenizer.contains (LJ.Tokenizer.trim line) anomaly.anomaly.line then .ok () else .error (.expected line anomaly.anomaly.line)

/-- dataset.rs:66-68, the loop over the `zip` -/
def checkAll : List (Str × AnomalyContext D) → Except (Bad C E ε Y) Unit
  | [] => .ok ()
  | (line, anomaly) :: r =>
    match includes line anomaly with
    | .error e => .error e
    | .ok () => checkAll r

/-- dataset.rs:65-77, the verdict -/
def verdict (expected : List Str) (anomalies : List (AnomalyContext D)) : Except (Bad C E ε Y) Unit :=
  match checkAll (expected.zip anomalies) with
  | .error e => .error e
  | .ok () => if anomalies.length ≠ expected.length then .error (.mismatch expected.length anomalies.length) else .ok ()

/-- dataset.rs:38-85 `process`.  `file` is `Content::from_pathbuf`, `source` is `Source::from_pathbuf`, `empty` is the
index name "", `order` is the order of the groups in `train`.  A panic is `none`. -/
def process (w : World C S N D E ε) (order : List (N × List S) → List (N × List S)) (file : Str → C) (source : Str → S) (empty : N)
    (dir : Except Y (List (Except Y Str))) (expected : List Str) : Option (Except (Bad C E ε Y) Unit) :=
  match dir with
  | .error e => some (.error (.dir e))
  | .ok entries =>
    match unwrapAll entries with
    | none => none
    | some paths =>
      match findExt "good".toList paths, findExt "fail".toList paths with
      | some good, some fail =>
        match LJ.Report.train w order [file good] with
        | .error e => some (.error (.train e))
        | .ok model =>
          match LJ.Report.lookupOrSingle model.indexes empty with
          | none => none
          | some index =>
            match inspectFile w index (source fail) with
            | none => none
            | some (.error e) => some (.error (.read e))
            | some (.ok anomalies) => some (verdict expected anomalies)
      | _, _ => some (.error .noFiles)

/-- dataset.rs:29-36 `test_datasets` -/
def testDatasets (w : World C S N D E ε) (order : List (N × List S) → List (N × List S)) (file : Str → C) (source : Str → S) (empty : N) :
    List (Files Y) → Option (Except (Bad C E ε Y) Unit)
  | [] => some (.ok ())
  | f :: fs =>
    match f.inf with
    | .error e => some (.error (.inf e))
    | .ok expected =>
      match process w order file source empty f.dir expected with
      | some (.ok ()) => testDatasets w order file source empty fs
      | r => r

end LJ.Dataset

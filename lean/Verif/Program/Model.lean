/-
Model of the program of the command line (`cli/src/main.rs`): the commands and what they print, put together
from the models of the comparison (`Verif/Cli`), of the inputs (`Verif/Paths`), of the contents, models and reports
(`Verif/Report`) and of the live output (`Verif/Output`).

A command is a value of `Args`; the parsing of the arguments by `clap` is in `Verif/Program/Usage.lean`.  The texts printed are those of the standard
output, without the messages of the logger.
-/
import Verif.Cli.Model
import Verif.Paths.Model
import Verif.Output.Model
namespace LJ.Program
open LJ.Process (Str Bytes Ev)
open LJ.Report (Fail ListErr)
open LJ.Paths (Input Res)
open LJ.Output (LiveLabels OutputMode println decimal progress joinComma)
open LJ.Cli (Fs)

/-- The problems which end a command. -/
inductive Problem (C E : Type) where
  | panic
  /-- main.rs:226 and 238-242, an input or baselines which can't be found -/
  | input
  /-- `Model::train` -/
  | training (e : Fail E C)
  /-- `get_sources`, `group_sources` -/
  | sources (e : ListErr E C)
  /-- `file_open`, `url_open` -/
  | opening (e : E)
  /-- the problems with the model and report files -/
  | notFound | permission | noSpace | create | format
  /-- main.rs:231 -/
  | ambiguous
  /-- main.rs:102-106 -/
  | noModelPath
  /-- dataset.rs (`Verif/Cli/Dataset.lean`) -/
  | dataset
  /-- main.rs:184, the value of `LOGREDUCE_LOG` -/
  | level
deriving DecidableEq, Repr

/-- What the program uses of the other crates and of its environment. -/
structure Tool (C S N D E ε : Type) where
  /-- the contents and the index -/
  logs : LJ.Report.World C S N D E ε
  /-- model.rs:326-334 `Content::from_input` -/
  fromInput : Input → Res C
  /-- model.rs:342-364 `Content::discover_baselines` -/
  discover : C → Res (List C)
  /-- the orders of the `drain` of the hash maps: in the training, in the report and in `debug_groups` -/
  trainOrder : List (N × List S) → List (N × List S)
  reportOrder : List (N × List S) → List (N × List S)
  groupOrder : List (N × List S) → List (N × List S)
  /-- the texts of the live output -/
  live : LiveLabels C S D E ε
  /-- `logreduce_report::render` (`Verif/Output/Document.lean`), as bytes; a panic is `none` -/
  page : LJ.Report.Report C S N D E ε → Option Bytes
  /-- the saved models and reports (`Verif/Codec`, `Verif/Saved`) -/
  encModel : LJ.Report.Model C S N → Option Bytes
  decModel : Bytes → Option (LJ.Report.Model C S N)
  encReport : LJ.Report.Report C S N D E ε → Option Bytes
  /-- `PathBuf::set_extension("json")` (`Verif/Render/Path.lean`) -/
  withJson : Str → Str
  /-- the paths where no file can be created, and the room on the disk, as in `Verif/Cli/Model.lean` -/
  noCreate : Str → Bool
  limit : Str → Option Nat
  held : Bytes → Nat
  /-- `Ord` of `IndexName` -/
  le : N → N → Bool
  /-- `Display` of `IndexName`, and `{:?}` of a path -/
  nameText : N → Str
  quote : Str → Str
  /-- `{:?}` of `IndexName`, `{:#?}` of `Vec<Source>` -/
  showName : N → Str
  showSources : List S → Str
  /-- `Display` of `Utf8Error`, for these bytes, and of an error of the reader -/
  utf8Err : Bytes → Str
  readErr : ε → Str
  /-- `logreduce_tokenizer::process` -/
  tokenizer : Str → Str
  /-- `IndexName::from_path` -/
  indexName : Str → Str
  /-- dataset.rs:29-36 `test_datasets` (`Verif/Cli/Dataset.lean`): what it prints, and its result; a panic is `none` -/
  test : List Str → List Str × Option Bool

section
variable {C S N D E ε : Type} [DecidableEq N]

/-- The error of a result of `Verif/Paths`. -/
def ofRes {α : Type} : Res α → Except (Problem C E) α
  | .ok x => .ok x
  | .err => .error .input
  | .panic => .error .panic

/-- `None` is an error. -/
def ofOption {α : Type} (e : Problem C E) : Option α → Except (Problem C E) α
  | some x => .ok x
  | none => .error e

/-- model.rs:409-433 `Model::train` -/
def Tool.train (T : Tool C S N D E ε) (cs : List C) : Except (Problem C E) (LJ.Report.Model C S N) :=
  match LJ.Report.train T.logs T.trainOrder cs with
  | .ok m => .ok m
  | .error e => .error (.training e)

/-- model.rs:462-530 `Model::report` -/
def Tool.report (T : Tool C S N D E ε) (m : LJ.Report.Model C S N) (content : C) : Except (Problem C E) (LJ.Report.Report C S N D E ε) :=
  match LJ.Report.report T.logs m T.reportOrder content with
  | some (.ok r) => .ok r
  | some (.error e) => .error (.sources e)
  | none => .error .panic

/-- main.rs:278-365 `process_live`: what it prints, and its result.  A panic happens in the middle of the output: what was
printed before is left out. -/
def Tool.liveRun (T : Tool C S N D E ε) (mode : OutputMode) (content : C) (m : LJ.Report.Model C S N) : List Str × Except (Problem C E) Unit :=
  match LJ.Output.processLive T.logs T.live mode content m with
  | some (.ok out) => (out, .ok ())
  | some (.error e) => ([], .error (.sources e))
  | none => ([], .error .panic)

/-- What `process` uses (`Verif/Cli/Model.lean`). -/
def Tool.cli (T : Tool C S N D E ε) (mode : OutputMode) :
    LJ.Cli.World Str Input C (LJ.Report.Model C S N) (LJ.Report.Report C S N D E ε) (Problem C E) where
  fromInput i := ofRes (T.fromInput i)
  discover c := ofRes (T.discover c)
  train := T.train
  report := T.report
  live content m := (T.liveRun mode content m).2
  render r := ofOption .panic (T.page r)
  encModel m := ofOption .format (T.encModel m)
  decModel b := ofOption .format (T.decModel b)
  encReport r := ofOption .format (T.encReport r)
  withJson := T.withJson
  createErr p := if T.noCreate p then some .create else none
  limit := T.limit
  held := T.held
  notFound := .notFound
  permission := .permission
  noSpace := .noSpace
  ambiguous := .ambiguous
  noModelPath := .noModelPath

/-- main.rs:32-78 `Commands` -/
inductive Command where
  | diff (src : List Str) (dst : Str)
  | path (path : Str)
  | url (url : Str)
  | journald (start : Option Str) (range : Str)
  | currentBuild
  | train (baselines : List Str)
  | test (datasets : List Str)
  | debugGroups (target : Str)
  | debugTokenizer (line : Str)
  | debugIterator (path : Str)
  | debugIndexname (path : Str)
deriving DecidableEq, Repr

/-- main.rs:15-29 `Cli` -/
structure Args where
  report : Option Str
  model : Option Str
  command : Command
deriving DecidableEq, Repr

/-- What a command did: the texts printed, the result, the model used to inspect a target, and the model and report files. -/
structure Done (C S N E : Type) where
  printed : List Str
  result : Except (Problem C E) Unit
  model : Option (LJ.Report.Model C S N)
  fs : Fs Str

/-- model.rs:416-427, the progress of the training: a text for each group, until an index can't be trained. -/
def Tool.loading (T : Tool C S N D E ε) (mode : OutputMode) : List (N × List S) → List Str
  | [] => []
  | (name, sources) :: groups =>
    progress mode ("Loading index ".toList ++ T.nameText name ++ " with ".toList ++ joinComma (sources.map T.live.source)) ++
      match LJ.Report.trainIndex T.logs sources with
      | .error _ => []
      | .ok _ => T.loading mode groups

/-- model.rs:409-433 `Model::train`, what it prints. -/
def Tool.trainText (T : Tool C S N D E ε) (mode : OutputMode) (cs : List C) : List Str :=
  match LJ.Report.groupSources T.logs cs with
  | .error _ => []
  | .ok groups => T.loading mode (T.trainOrder groups)

/-- main.rs:228-248, what is printed while the model is made; nothing when it is read from a file. -/
def Tool.modelText (T : Tool C S N D E ε) (mode : OutputMode) (fs : Fs Str) (model : Option Str) (baselines : Option (List Input)) (content : C) : List Str :=
  if model.any (LJ.Cli.exists' fs) then []
  else
    match LJ.Cli.findBaselines (T.cli mode) content baselines with
    | .error _ => []
    | .ok cs => T.trainText mode cs

/-- model.rs:296 and 476-507, the progress over the sources of a group, until one which can't be opened. -/
def Tool.visits (T : Tool C S N D E ε) (mode : OutputMode) : List S → List Str
  | [] => []
  | source :: sources =>
    progress mode ("Inspecting ".toList ++ T.live.source source) ++
      match T.logs.openSource source with
      | .error _ => []
      | .ok _ => T.visits mode sources

/-- model.rs:473-511, the progress over a group. -/
def Tool.visitGroup (T : Tool C S N D E ε) (mode : OutputMode) (m : LJ.Report.Model C S N) (group : N × List S) : List Str :=
  match LJ.Report.lookupOrSingle m.indexes group.1 with
  | some _ => T.visits mode group.2
  | none => []

/-- model.rs:462-530 `Model::report`, what it prints.  When it panics, what was printed before is left out. -/
def Tool.reportText (T : Tool C S N D E ε) (mode : OutputMode) (m : LJ.Report.Model C S N) (content : C) : List Str :=
  match T.report m content, LJ.Report.groupSources T.logs [content] with
  | .ok _, .ok groups => (T.reportOrder groups).flatMap (T.visitGroup mode m)
  | _, _ => []

/-- main.rs:259-268, what is printed with a report file; `fs` are the files when the model is saved. -/
def Tool.writingText (T : Tool C S N D E ε) (mode : OutputMode) (cache : Bool) (fs : Fs Str) (file : Str) (m : LJ.Report.Model C S N) (content : C) :
    List Str :=
  T.reportText mode m content ++
    match T.report m content with
    | .error _ => []
    | .ok r =>
      match (LJ.Cli.saveRaw (T.cli mode) cache fs file r).1 with
      | .error _ => []
      | .ok () => [println (T.quote file ++ ": Writing report...".toList)]

/-- main.rs:255-276, what is printed while the target is inspected. -/
def Tool.inspectText (T : Tool C S N D E ε) (mode : OutputMode) (cache : Bool) (fs : Fs Str) (report : Option Str) (m : LJ.Report.Model C S N) (content : C) :
    List Str :=
  match report with
  | none => (T.liveRun mode content m).1
  | some file => T.writingText mode cache fs file m content

/-- main.rs:217-277, what `process` prints; `m` is the model used to inspect the target, if any. -/
def Tool.printed (T : Tool C S N D E ε) (mode : OutputMode) (cache : Bool) (fs : Fs Str) (args : Args) (baselines : Option (List Input)) (input : Input)
    (m : Option (LJ.Report.Model C S N)) : List Str :=
  match T.fromInput input with
  | .ok content =>
    T.modelText mode fs args.model baselines content ++
      match m with
      | some m => T.inspectText mode cache (LJ.Cli.saveModel (T.cli mode) LJ.Cli.alone fs args.model m).2 args.report m content
      | none => []
  | _ => []

/-- main.rs:217-277 `process`, with what it prints. -/
def Tool.process (T : Tool C S N D E ε) (mode : OutputMode) (cache : Bool) (fs : Fs Str) (args : Args) (baselines : Option (List Input)) (input : Input) :
    Done C S N E :=
  let run := LJ.Cli.process (T.cli mode) LJ.Cli.alone cache fs args.report args.model baselines input
  ⟨T.printed mode cache fs args baselines input run.model, run.result, run.model, run.fs⟩

/-- main.rs:367-376 `debug_groups`, after the grouping. -/
def Tool.groupLines (T : Tool C S N D E ε) (groups : List (N × List S)) : List Str :=
  ((T.groupOrder groups).mergeSort fun x y => T.le x.1 y.1).map fun g => println (T.showName g.1 ++ ": ".toList ++ T.showSources g.2)

/-- main.rs:367-376 `debug_groups` -/
def Tool.debugGroups (T : Tool C S N D E ε) (input : Input) : List Str × Except (Problem C E) Unit :=
  match ofRes (T.fromInput input) with
  | .error e => ([], .error e)
  | .ok content =>
    match LJ.Report.groupSources T.logs [content] with
    | .error e => ([], .error (.sources e))
    | .ok groups => (T.groupLines groups, .ok ())

/-- main.rs:142-148, a line of `debug-iterator` -/
def Tool.iterLine (T : Tool C S N D E ε) : Ev ε → Str
  | .ok (bytes, nr) =>
    match T.logs.decode bytes with
    | some txt => println (decimal nr ++ " | ".toList ++ txt)
    | none => println (decimal nr ++ " | error: ".toList ++ T.utf8Err bytes)
  | .error e => println (T.readErr e)

/-- main.rs:135-152, the first source. -/
def Tool.debugFirst (T : Tool C S N D E ε) (path : Str) : List S → List Str × Except (Problem C E) Unit
  | [] => ([println (path ++ ": oops".toList)], .ok ())
  | source :: _ =>
    match T.logs.openSource source with
    | .error e => ([], .error (.opening e))
    | .ok reader => ((reader (T.logs.isJson source)).map T.iterLine, .ok ())

/-- main.rs:131-154, `debug-iterator` -/
def Tool.debugIterator (T : Tool C S N D E ε) (path : Str) : List Str × Except (Problem C E) Unit :=
  match ofRes (T.fromInput (.path path)) with
  | .error e => ([], .error e)
  | .ok content =>
    match LJ.Report.getSources T.logs content with
    | .error e => ([], .error (.sources e))
    | .ok sources => T.debugFirst path sources

/-- The result of the `test` command. -/
def testResult : Option Bool → Except (Problem C E) Unit
  | some true => .ok ()
  | some false => .error .dataset
  | none => .error .panic

/-- A command which leaves the files. -/
def keep (fs : Fs Str) (x : List Str × Except (Problem C E) Unit) : Done C S N E := ⟨x.1, x.2, none, fs⟩

/-- main.rs:101-117, what the `train` command prints. -/
def Tool.trainingText (T : Tool C S N D E ε) (mode : OutputMode) (model : Option Str) (baselines : List Str) : List Str :=
  match model, LJ.Cli.fromInputs (T.cli mode) (baselines.map Input.fromString) with
  | some _, .ok cs => T.trainText mode cs
  | _, _ => []

/-- main.rs:101-117 with the models of `Verif/Cli`. -/
def Tool.trainCommand (T : Tool C S N D E ε) (mode : OutputMode) (fs : Fs Str) (model : Option Str) (baselines : List Str) : Done C S N E :=
  let x := LJ.Cli.trainCommand (T.cli mode) fs model (baselines.map Input.fromString)
  ⟨T.trainingText mode model baselines, x.1, none, x.2⟩

/-- main.rs:81-156 `Cli::run`; `cache` tells that `LOGREDUCE_CACHE` is set. -/
def Tool.run (T : Tool C S N D E ε) (mode : OutputMode) (cache : Bool) (fs : Fs Str) (args : Args) : Done C S N E :=
  match args.command with
  | .path path => T.process mode cache fs args none (.path path)
  | .url url => T.process mode cache fs args none (.url url)
  | .journald _ _ => keep fs ([], .error .panic)
  | .currentBuild => keep fs ([], .error .panic)
  | .diff src dst => T.process mode cache fs args (some (src.map Input.fromString)) (Input.fromString dst)
  | .train baselines => T.trainCommand mode fs args.model baselines
  | .test datasets => keep fs ((T.test datasets).1, testResult (T.test datasets).2)
  | .debugGroups target => keep fs (T.debugGroups (Input.fromString target))
  | .debugTokenizer line => keep fs ([println (T.tokenizer line ++ ['\n'])], .ok ())
  | .debugIndexname path => keep fs ([println (T.indexName path)], .ok ())
  | .debugIterator path => keep fs (T.debugIterator path)

/-- main.rs:201-207, the output mode: `log` tells that `LOGREDUCE_LOG` is set. -/
def outputMode (log tty : Bool) : OutputMode := if log then .debug else if tty then .fastTerminal else .quiet

/-- main.rs:208-214, a new line before the message of an error.  A panic is not such an error. -/
def errorLine (mode : OutputMode) : Except (Problem C E) Unit → List Str
  | .ok () => []
  | .error .panic => []
  | .error _ => if mode.inlined then [println []] else []

/-- main.rs:159-215 `main`.  `level`: the value of `LOGREDUCE_LOG` is set, and is a level; `tty`: the standard output is a terminal. -/
def Tool.main (T : Tool C S N D E ε) (level : Option Bool) (tty cache : Bool) (fs : Fs Str) (args : Args) : Done C S N E :=
  if level = some false then keep fs ([], .error .level)
  else
    let mode := outputMode level.isSome tty
    let d := T.run mode cache fs args
    ⟨d.printed ++ errorLine mode d.result, d.result, d.model, d.fs⟩

end
end LJ.Program

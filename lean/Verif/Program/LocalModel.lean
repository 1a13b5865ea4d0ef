/-
The program of the command line on local files: the commands of `Verif/Program/Model.lean` with the inputs of `Verif/Paths` and the
contents of `Verif/Whole`.  The files of the logs are not those which the command writes: they do not change while it runs.
-/
import Verif.Program.Model
import Verif.Output.Document
import Verif.Whole.Model
namespace LJ.Program
open LJ.Process (Str Bytes)
open LJ.Paths (Input Res Outside Content Source)
open LJ.Whole (Machine Local)

/-- A content of a local path.  The remote contents are not modelled here: an error. -/
def toLocal : Res (Content Empty) → Res Local
  | .ok (.file (.loc _ (some p))) => .ok (.file p)
  | .ok (.directory (.loc _ (some p))) => .ok (.directory p)
  | .ok _ => .err
  | .err => .err
  | .panic => .panic

/-- A local content. -/
def ofLocal : Local → Content Empty
  | .file p => .file (.loc 0 (some p))
  | .directory p => .directory (.loc 0 (some p))

/-- model.rs:326-334 `Content::from_input` (`Verif/Paths/Model.lean`) -/
def localInput (X : Outside Empty) (i : Input) : Res Local := toLocal (LJ.Paths.fromInput X i)

/-- `.collect()` of the contents -/
def toLocals : List (Content Empty) → Res (List Local)
  | [] => .ok []
  | c :: cs =>
    match toLocal (.ok c), toLocals cs with
    | .ok l, .ok ls => .ok (l :: ls)
    | .panic, _ => .panic
    | _, .panic => .panic
    | _, _ => .err

/-- model.rs:342-364 `Content::discover_baselines` (`Verif/Paths/Model.lean`) -/
def localDiscover (X : Outside Empty) (c : Local) : Res (List Local) :=
  match LJ.Paths.discoverBaselines X (fun z => nomatch z) (ofLocal c) with
  | .ok cs => toLocals cs
  | .err => .err
  | .panic => .panic

/-- What the page is made with (`Verif/Output/Document.lean`); `write` makes the bytes of a tree. -/
structure PageMaker where
  checks : Bool
  scale : LJ.Output.Scale ℝ
  css : Str
  version : Str
  labels : LJ.Output.Labels Local Source Str
  write : LJ.Output.Node → Bytes

/-- report.rs:11-29 `render` -/
noncomputable def PageMaker.page (G : PageMaker) (r : LJ.Report.Report Local Source Str ℝ Unit Unit) : Option Bytes :=
  (LJ.Output.document G.checks G.scale G.css G.version G.labels r).map G.write

/-- The program on local files.  The other functions (formats of the saved files and texts) are those of `T`. -/
noncomputable def localTool (M : Machine) (X : Outside Empty) (G : PageMaker) (T : Tool Local Source Str ℝ Unit Unit) : Tool Local Source Str ℝ Unit Unit :=
  { T with
    logs := M.world
    fromInput := localInput X
    discover := localDiscover X
    page := G.page
    tokenizer := M.tok
    indexName := LJ.Paths.indexName }

end LJ.Program

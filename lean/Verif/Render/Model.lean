/-
The page of a report in memory (`Verif/Codec`: the bits of the distances, 64-bit numbers, the texts as strings), and the
`render` program (`report/src/render.rs`), which makes the page of a saved report.

The formats of times and floats are parameters.  How the tree of the document is written as bytes (`html_builder`) is a parameter.
-/
import Verif.Output.Page
import Verif.Output.Document
import Verif.Saved.Runs
import Verif.Render.Path
namespace LJ.Render
open LJ.Process (Str)
open LJ.Codec (Texts Source Content Duration bytesString)
open LJ.Output (Labels Node f32Scale document)
open LJ.Python (f32Value bitsOf)
open LJ.Index (IsF32)

variable {t : Texts} {E ε : Type}

/-! ### The texts of sources and contents -/

/-- model.rs:105-110 `Source::as_str` -/
def asStr : Source t → Str
  | .loc _ path => ((bytesString path).map String.toList).getD []
  | .remote _ url => url.val.toList

/-- model.rs:98-103 `Source::get_relative`: a panic (`none`) when the offset is not the start of a character of the text. -/
def relative : Source t → Option Str
  | .loc n path => LJ.Paths.sliceFrom (((bytesString path).map String.toList).getD []) n.toNat
  | .remote n url => LJ.Paths.sliceFrom url.val.toList n.toNat

/-- model.rs:82-89, `Display` of a source. -/
def sourceText (s : Source t) : Option Str :=
  (relative s).map fun r => match s with
    | .loc _ _ => "local: ".toList ++ r
    | .remote _ _ => "remote: ".toList ++ r

/-- model.rs:65-73, `Display` of a content, and zuul.rs:28-32, of a build. -/
def contentText : Content t → Option Str
  | .file s => (sourceText s).map fun x => "File(".toList ++ x ++ ")".toList
  | .directory s => (sourceText s).map fun x => "Directory(".toList ++ x ++ ")".toList
  | .zuul b => some ("Zuul(".toList ++ (b.api.val.toList ++ "build/".toList ++ b.uuid.toList) ++ ")".toList)

/-- The formats of times and floats: report.rs:377-380 `render_time`, report.rs:177 and report.rs:182-185. -/
structure Formats where
  time : Duration → Str
  seconds : Duration → Str
  reduction : Nat → Nat → Str

/-- The texts of the page. -/
def labels (fm : Formats) (createdAt runTime : Duration) : Labels (Content t) (Source t) String where
  content c := (contentText c).getD []
  relative s := (relative s).getD []
  location := asStr
  name := String.toList
  createdAt := fm.time createdAt
  runTime := fm.seconds runTime
  reduction := fm.reduction

/-! ### The page of a report in memory -/

/-- An anomaly in memory: none when the distance is not a finite number, which is not modelled. -/
noncomputable def anomalyOf (a : LJ.Codec.AnomalyContext) : Option (LJ.Process.AnomalyContext ℝ) :=
  (f32Value a.anomaly.distance).map fun d =>
    ⟨a.before.map String.toList, ⟨d, a.anomaly.pos.toNat, a.anomaly.line.toList⟩, a.after.map String.toList⟩

/-- A log report in memory. -/
noncomputable def logReportOf (l : LJ.Codec.LogReport t) : Option (LJ.Report.LogReport (Source t) String ℝ) :=
  (l.anomalies.mapM anomalyOf).map fun as => ⟨l.lineCount.toNat, l.byteCount.toNat, as, l.source, l.indexName⟩

/-- A report in memory.  The errors of the files are not in the page (report.rs:210-214), and left out. -/
noncomputable def reportOf (x : LJ.Codec.Report t) : Option (LJ.Report.Report (Content t) (Source t) String ℝ Empty Empty) :=
  (x.logReports.mapM logReportOf).map fun ls =>
    ⟨x.target, x.baselines, ls, x.indexReports.pairs.map fun p => (p.1, p.2.sources), x.indexErrors, [], x.totalLineCount.toNat, x.totalAnomalyCount.toNat⟩

/-- Every text shown in the page can be made: `get_relative` does not panic. -/
def displayable (target : Content t) (baselines : List (Content t)) (sources : List (Source t)) : Bool :=
  (contentText target).isSome && baselines.all (fun c => (contentText c).isSome) && sources.all fun s => (relative s).isSome

/-- report.rs:11-29 `render`; a panic is `none`. -/
noncomputable def page (checks : Bool) (fl : ℝ → ℝ) (css version : Str) (fm : Formats) (x : LJ.Codec.Report t) : Option Node :=
  if displayable x.target x.baselines (x.logReports.map (·.source)) then
    (reportOf x).bind (document checks (f32Scale fl) css version (labels fm x.createdAt x.runTime))
  else none

/-! ### The report which a command keeps in memory -/

/-- A `usize` -/
def u64? (n : Nat) : Option UInt64 := if n < 2 ^ 64 then some (UInt64.ofNat n) else none

open Classical in
/-- An `f32` -/
noncomputable def f32? (x : ℝ) : Option UInt32 := if IsF32 x then some (bitsOf x) else none

/-- The clocks of a report: when it was made, how long it took, and how long each file and each index took. -/
structure Clocks (t : Texts) where
  createdAt : Duration
  runTime : Duration
  test : Source t → Duration
  train : String → Duration

/-- model.rs:185-197, an anomaly. -/
noncomputable def keepAnomaly (a : LJ.Process.AnomalyContext ℝ) : Option LJ.Codec.AnomalyContext :=
  match f32? a.anomaly.distance, u64? a.anomaly.pos with
  | some d, some p => some ⟨a.before.map String.ofList, ⟨d, p, String.ofList a.anomaly.line⟩, a.after.map String.ofList⟩
  | _, _ => none

/-- model.rs:199-207, a log report. -/
noncomputable def keepLog (cl : Clocks t) (l : LJ.Report.LogReport (Source t) String ℝ) : Option (LJ.Codec.LogReport t) :=
  match l.anomalies.mapM keepAnomaly, u64? l.lineCount, u64? l.byteCount with
  | some as, some n, some b => some ⟨cl.test l.source, n, b, as, l.source, l.indexName⟩
  | _, _, _ => none

/-- model.rs:224-236, a report; `show` is the text of an error.  None when a number does not fit. -/
noncomputable def keepReport (cl : Clocks t) (text : LJ.Report.ReadErr E ε → String) (r : LJ.Saved.Rep t E ε) : Option (LJ.Codec.Report t) :=
  match r.logReports.mapM (keepLog cl), u64? r.totalLineCount, u64? r.totalAnomalyCount with
  | some ls, some n, some a =>
    some ⟨cl.createdAt, cl.runTime, r.target, r.baselines, ls, LJ.Codec.Map.ofPairs (r.indexReports.map fun p => (p.1, ⟨cl.train p.1, p.2⟩)), r.indexErrors,
      r.readErrors.map fun p => (p.1, text p.2), n, a⟩
  | _, _, _ => none

/-! ### The `render` program -/

/-- What the `render` program uses of the files of `Verif/Cli`, with paths as strings. -/
abbrev World (t : Texts) (I Er : Type) := LJ.Cli.World Str I (Content t) (LJ.Codec.Model t) (LJ.Codec.Report t) Er

/-- main.rs:258-274 with the pages and the files of this directory; the rest of `w` is as in `Verif/Cli`.  `write` makes the bytes of a tree. -/
noncomputable def files {I Er : Type} (w : World t I Er) (gz : LJ.Saved.Gzip) (write : Node → List UInt8) (checks : Bool) (fl : ℝ → ℝ) (css version : Str)
    (fm : Formats) (other : Er) : World t I Er :=
  { w with
    render := fun x => match page checks fl css version fm x with | some n => .ok (write n) | none => .error other
    encReport := fun x => match (LJ.Codec.report t).enc x with | some b => .ok (gz.enc b) | none => .error other
    withJson := setExtension "json".toList }

/-- model.rs:250-255 `Report::load` -/
def loadReport {I Er : Type} (w : World t I Er) (gz : LJ.Saved.Gzip) (other : Er) (fs : LJ.Cli.Fs Str) (path : Str) : Except Er (LJ.Codec.Report t) :=
  match LJ.Cli.readFile w fs path with
  | .error e => .error e
  | .ok b => match LJ.Codec.load (LJ.Codec.report t) (gz.dec b) with | some x => .ok x | none => .error other

/-- render.rs:4-10 `render`.  An `unwrap` of an error panics: the error. -/
def renderFile {I Er : Type} (w : World t I Er) (gz : LJ.Saved.Gzip) (other : Er) (fs : LJ.Cli.Fs Str) (path : Str) : Except Er Unit × LJ.Cli.Fs Str :=
  match loadReport w gz other fs path with
  | .error e => (.error e, fs)
  | .ok x => LJ.Cli.writePage w fs (setExtension "html".toList path) x

/-- render.rs:12-17 `main`: with one argument, the page; otherwise, the usage. -/
def main {I Er : Type} (w : World t I Er) (gz : LJ.Saved.Gzip) (other : Er) (fs : LJ.Cli.Fs Str) (args : List Str) : Except Er Unit × LJ.Cli.Fs Str :=
  match args with
  | [_, path] => renderFile w gz other fs path
  | _ => (.ok (), fs)

end LJ.Render

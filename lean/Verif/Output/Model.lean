/-
Model of what is shown to the user: the HTML report (`report/src/report.rs`) and the live output of
the command line (`cli/src/main.rs`, `process_live`).

An HTML document is the tree of the nodes, with their attributes and texts in the order of the calls;
how `html_builder` turns the tree into characters (indentation, escaping) is not modelled.  The head,
the navigation bar, the scripts and the logo are constants and left out.  `write_str` on a node never
fails.  The texts computed from floats, clocks and `Display` implementations are parameters.
`usize` arithmetic is explicit where it can wrap: `checks` tells a debug build (overflow panics, which
is `none`) from a release build (overflow wraps).
-/
import Verif.Report.Model
namespace LJ.Output
open LJ.Process (Str Anomaly AnomalyContext Err Stop)
open LJ.Report (World Index Model LogReport Report ListErr lookupOrSingle getSources envOf inspect)

/-- `a - b` on `usize` -/
def usub (checks : Bool) (a b : Nat) : Option Nat :=
  if b ≤ a then some (a - b) else if checks then none else some (a + 2 ^ 64 - b)

/-- `a + b` on `usize` -/
def uadd (checks : Bool) (a b : Nat) : Option Nat :=
  if a + b < 2 ^ 64 then some (a + b) else if checks then none else some (a + b - 2 ^ 64)

/-- `format!("{}", n)` -/
def decimal (n : Nat) : Str := Nat.toDigits 10 n

/-- `format!("{:X}", n)` -/
def upperHex (n : Nat) : Str := (Nat.toDigits 16 n).map Char.toUpper

/-- `{:4}`, `{:2X}`, `{:02}`: a number is aligned to the right. -/
def padLeft (fill : Char) (width : Nat) (s : Str) : Str := List.replicate (width - s.length) fill ++ s

/-! ### The HTML report -/

/-- A node of `html_builder`. -/
inductive Node where
  | text (s : Str)
  | elem (tag : String) (attrs : List Str) (children : List Node)
deriving Repr

/-- The numbers computed from a distance, `(distance * 99.0) as usize` and `(distance * 255.0) as usize`
(report.rs:356-357). -/
structure Scale (D : Type) where
  score : D → Nat
  color : D → Nat

section
variable {D : Type}

/-- report.rs:339-341, a line of context. -/
def contextNode (n : Nat) (line : Str) : Node :=
  .elem "pre" [] [.text ("   ".toList ++ padLeft ' ' 4 (decimal n) ++ " | ".toList ++ line)]

/-- report.rs:361-367, the anomaly. -/
def anomalyNode (sc : Scale D) (a : Anomaly D) : Node :=
  .elem "pre" ["style=\"color: #".toList ++ padLeft ' ' 2 (upperHex (sc.color a.distance)) ++ "0000\"".toList]
    [.text (padLeft '0' 2 (decimal (sc.score a.distance)) ++ " ".toList ++ padLeft ' ' 4 (decimal a.pos) ++ " | ".toList ++ a.line)]

/-- report.rs:353 -/
def hr : Node := .elem "hr" ["class=\"ls\"".toList] []

/-- report.rs:337-344 `render_context` from the index `idx` -/
def renderContextFrom (checks : Bool) (pos : Nat) : Nat → List Str → Option (List Node)
  | _, [] => some []
  | idx, line :: xs => do
    let p ← uadd checks pos 1
    let n ← uadd checks p idx
    let rest ← renderContextFrom checks pos (idx + 1) xs
    some (contextNode n line :: rest)

/-- report.rs:337-344 `render_context` -/
def renderContext (checks : Bool) (pos : Nat) (xs : List Str) : Option (List Node) := renderContextFrom checks pos 0 xs

/-- report.rs:351-355, the separator. -/
def separator (last : Option Nat) (start : Nat) : List Node :=
  match last with
  | some l => if l ≠ start then [hr] else []
  | none => []

/-- report.rs:349-372, one anomaly: the nodes and the new `last_pos`. -/
def renderAnomaly (checks : Bool) (sc : Scale D) (last : Option Nat) (c : AnomalyContext D) : Option (List Node × Nat) := do
  let p ← usub checks c.anomaly.pos 1
  let start ← usub checks p c.before.length
  let before ← renderContext checks start c.before
  let after ← renderContext checks c.anomaly.pos c.after
  let last' ← uadd checks c.anomaly.pos c.after.length
  some (separator last start ++ before ++ [anomalyNode sc c.anomaly] ++ after, last')

/-- report.rs:349-372, the loop. -/
def renderFrom (checks : Bool) (sc : Scale D) : Option Nat → List (AnomalyContext D) → Option (List Node)
  | _, [] => some []
  | last, c :: cs => do
    let (nodes, last) ← renderAnomaly checks sc last c
    let rest ← renderFrom checks sc (some last) cs
    some (nodes ++ rest)

/-- report.rs:346-375 `render_lines` -/
def renderLines (checks : Bool) (sc : Scale D) (cs : List (AnomalyContext D)) : Option (List Node) := renderFrom checks sc none cs

/-- The texts of the report made by `Display`, `get_relative`, `as_str` and the float formats. -/
structure Labels (C S N : Type) where
  content : C → Str
  /-- `source.get_relative()` -/
  relative : S → Str
  /-- `source.as_str()` -/
  location : S → Str
  name : N → Str
  /-- report.rs:174 `render_time(&report.created_at)` -/
  createdAt : Str
  /-- report.rs:177 -/
  runTime : Str
  /-- report.rs:182-185, the percentage: of the anomaly count and the line count. -/
  reduction : Nat → Nat → Str

/-- `class="…"` -/
def classAttr (c : String) : Str := "class=\"".toList ++ c.toList ++ "\"".toList
/-- `href="…"` -/
def href (u : Str) : Str := "href=\"".toList ++ u ++ "\"".toList

/-- report.rs:37-61 `table`, without columns. -/
def table (rows : List (List Str)) : Node :=
  .elem "div" ["id='debuginfo'".toList, "style='overflow-x: auto'".toList]
    [.elem "table" ["style='white-space: nowrap; margi: 0px'".toList, "class='table table-condensed table-responsive table-bordered'".toList]
      [.elem "tbody" [] (rows.map fun row => .elem "tr" [] (row.map fun cell => .elem "td" [] [.text cell]))]]

/-- `.iter().format(", ")` -/
def joinComma : List Str → Str
  | [] => []
  | [x] => x
  | x :: y :: xs => x ++ ", ".toList ++ joinComma (y :: xs)

section
variable {C S N E ε : Type} [DecidableEq N]

/-- report.rs:165-191, the info table. -/
def infoTable (lb : Labels C S N) (r : Report C S N D E ε) : Node :=
  table [
    ["Target".toList, lb.content r.target],
    ["Baselines".toList, joinComma (r.baselines.map lb.content)],
    ["Created at".toList, lb.createdAt],
    ["Run time".toList, lb.runTime],
    ["Result".toList, lb.reduction r.totalAnomalyCount r.totalLineCount ++ "% reduction (from ".toList ++
      decimal r.totalLineCount ++ " to ".toList ++ decimal r.totalAnomalyCount ++ ")".toList]]

/-- report.rs:333-335 `model_anchor` -/
def modelAnchor (lb : Labels C S N) (name : N) : Str := "#model_".toList ++ lb.name name

/-- report.rs:257-262 -/
def heading (lb : Labels C S N) (l : LogReport S N D) : Node :=
  .elem "div" [classAttr "list-view-pf-description"]
    [.elem "div" [classAttr "list-group-item-heading"] [.text (lb.relative l.source)]]

/-- report.rs:264-280 -/
def modelInfo (lb : Labels C S N) (l : LogReport S N D) : Node :=
  .elem "div" [classAttr "list-view-pf-additional-info-item", "id='debuginfo'".toList]
    [.elem "span" [classAttr "pficon pficon-registry"] [],
     .elem "a" [href (modelAnchor lb l.indexName)] [.text (lb.name l.indexName)],
     .text " model".toList]

/-- report.rs:282-291 -/
def fileInfo (lb : Labels C S N) (l : LogReport S N D) : Node :=
  .elem "div" [classAttr "list-view-pf-additional-info-item"]
    [.elem "span" [classAttr "fa fa-external-link"] [],
     .elem "a" [href (lb.location l.source)] [.text "file".toList]]

/-- report.rs:293-301 -/
def countInfo (l : LogReport S N D) : Node :=
  .elem "div" [classAttr "list-view-pf-additional-info-item"]
    [.elem "span" [classAttr "fa fa-bug"] [],
     .elem "strong" [] [.text (decimal l.anomalies.length)]]

/-- report.rs:236-304, the header of an item. -/
def itemHeader (lb : Labels C S N) (l : LogReport S N D) (expand : Bool) : Node :=
  .elem "div" [classAttr "list-group-item-header"]
    [.elem "div" [classAttr "list-view-pf-expand"]
      [.elem "span" [classAttr (if expand then "fa fa-angle-right fa-angle-down" else "fa fa-angle-right")] []],
     .elem "div" [classAttr "list-view-pf-main-info"]
      [.elem "div" [classAttr "list-view-pf-left"] [.elem "span" [classAttr "fa pficon-degraded list-view-pf-icon-sm"] []],
       .elem "div" [classAttr "list-view-pf-body"] [heading lb l, modelInfo lb l, fileInfo lb l, countInfo l]]]

/-- report.rs:310-313 -/
def closeIcon : Node := .elem "div" [classAttr "close"] [.elem "span" [classAttr "pficon pficon-close"] []]

/-- report.rs:315-325, the baseline samples: `sources` are those of the index report. -/
def samples (lb : Labels C S N) : Option (List S) → List Node
  | none => []
  | some sources =>
    [.elem "div" ["id='debuginfo'".toList]
      [.text "Baseline samples:".toList,
       .elem "ul" [] ((sources.take 3).map fun s => .elem "li" [] [.elem "a" [href (lb.location s)] [.text (lb.location s)]])]]

/-- report.rs:218-331 `render_content_report` -/
def renderContentReport (checks : Bool) (sc : Scale D) (lb : Labels C S N) (l : LogReport S N D) (indexReport : Option (List S))
    (expand : Bool) : Option Node := do
  let lines ← renderLines checks sc l.anomalies
  some (.elem "div" [classAttr (if expand then "list-group-item list-view-pf-expand-active" else "list-group-item"), "id=\"TODO\"".toList]
    [itemHeader lb l expand,
     .elem "div" [classAttr (if expand then "list-group-item-container container-fluid" else "list-group-item-container container-fluid hidden")]
      (closeIcon :: samples lb indexReport ++ [.elem "div" [classAttr "loglines"] lines])])

/-- report.rs:198-207, the loop over the log reports. -/
def renderReports (checks : Bool) (sc : Scale D) (lb : Labels C S N) (indexReports : List (N × List S)) :
    Bool → List (LogReport S N D) → Option (List Node)
  | _, [] => some []
  | expand, l :: ls => do
    let item ← renderContentReport checks sc lb l (indexReports.lookup l.indexName) expand
    let rest ← renderReports checks sc lb indexReports false ls
    some (item :: rest)

/-- report.rs:157-216 `add_container` -/
def container (checks : Bool) (sc : Scale D) (lb : Labels C S N) (r : Report C S N D E ε) : Option Node := do
  let items ← renderReports checks sc lb r.indexReports true r.logReports
  some (.elem "div" [classAttr "container", "style='width: 100%'".toList]
    [infoTable lb r, .elem "div" [classAttr "list-group list-view-pf list-view-pf-view"] items])

/-! ### The live output -/

/-- model.rs:22-30 `OutputMode` -/
inductive OutputMode where
  | debug
  | fastTerminal
  | quiet
deriving DecidableEq, Repr

/-- model.rs:33-35 `inlined` -/
def OutputMode.inlined : OutputMode → Bool
  | .fastTerminal => true
  | _ => false

/-- The texts of the live output made by `Display` and by the float format `{:02.0}`. -/
structure LiveLabels (C S D E ε : Type) where
  content : C → Str
  source : S → Str
  openErr : E → Str
  readErr : Err ε → Str
  /-- main.rs:309-310, `distance * 99.0` -/
  score : D → Str

/-- `println!` -/
def println (s : Str) : Str := s ++ ['\n']

/-- model.rs:534-540 `debug_or_progress`, what goes to the standard output. -/
def progress (mode : OutputMode) (msg : Str) : List Str :=
  match mode with
  | .fastTerminal => ["\r\x1b[1;33m[+]\x1b[0m ".toList ++ msg]
  | .debug => []
  | .quiet => []

/-- main.rs:279-283 `print_context` from the index `idx`; the numbers are line numbers and do not
overflow. -/
def printContextFrom (pos : Nat) : Nat → List Str → List Str
  | _, [] => []
  | idx, line :: xs => println ("   ".toList ++ decimal (pos + idx) ++ " | ".toList ++ line) :: printContextFrom pos (idx + 1) xs

/-- main.rs:279-283 `print_context` -/
def printContext (pos : Nat) (xs : List Str) : List Str := printContextFrom pos 0 xs

/-- main.rs:296-300 -/
def startingPos (pos contextSize : Nat) : Nat := if pos > contextSize then pos - contextSize else 0

/-- main.rs:301-305 -/
def dashes (last : Option Nat) (start : Nat) : List Str :=
  match last with
  | some l => if l ≠ start then [println "--".toList] else []
  | none => []

/-- main.rs:293-317 `print_anomaly`: the texts printed and the new `last_pos`. -/
def printAnomaly (lb : LiveLabels C S D E ε) (last : Option Nat) (c : AnomalyContext D) : List Str × Nat :=
  let contextSize := 1 + c.before.length
  let start := startingPos c.anomaly.pos contextSize
  (dashes last start ++ printContext start c.before ++
    [println (lb.score c.anomaly.distance ++ " ".toList ++ decimal c.anomaly.pos ++ " | ".toList ++ c.anomaly.line)] ++
    printContext c.anomaly.pos c.after,
   c.anomaly.pos + c.after.length)

/-- main.rs:325, 332, the calls to `print_anomaly` for a source. -/
def printAnomalies (lb : LiveLabels C S D E ε) : Option Nat → List (AnomalyContext D) → List Str
  | _, [] => []
  | last, c :: cs =>
    let (out, last) := printAnomaly lb last c
    out ++ printAnomalies lb (some last) cs

/-- The variables of `process_live` and its output so far. -/
structure Live where
  out : List Str
  sepShown : Bool
  lineCount : Nat
  anomalyCount : Nat
deriving DecidableEq, Repr

/-- main.rs:326-330, the blank line before the first result of a source: printed when there is a
result, an anomaly or an error. -/
def progressSep (mode : OutputMode) (results : Bool) : List Str := if mode.inlined && results then [println []] else []

/-- main.rs:334 and 342 -/
def couldNotRead (lb : LiveLabels C S D E ε) (source : S) (err : Str) : Str :=
  println ("Could not read ".toList ++ lb.source source ++ ": ".toList ++ err)

/-- main.rs:333-336, the message for a read error, if any. -/
def readErrLines (lb : LiveLabels C S D E ε) (source : S) : Option (Err ε) → List Str
  | none => []
  | some e => [couldNotRead lb source (lb.readErr e)]

/-- main.rs:318-346, a source with an index.  The flag tells that the loop over the sources goes on; a
panic of the processor is `none`. -/
def liveSource (w : World C S N D E ε) (lb : LiveLabels C S D E ε) (mode : OutputMode) (index : Index S) (source : S) (st : Live) :
    Option (Bool × Live) :=
  let out := st.out ++ progress mode ("Inspecting ".toList ++ lb.source source)
  match w.openSource source with
  | .error e => some (false, { st with out := out ++ [couldNotRead lb source (lb.openErr e)], sepShown := false })
  | .ok reader =>
    match inspect w index source reader [] with
    | none => none
    | some (anomalies, err, p) =>
      let results := !anomalies.isEmpty || err.isSome
      some (true, {
        out := out ++ progressSep mode results ++ printAnomalies lb none anomalies ++ readErrLines lb source err
        sepShown := mode.inlined && results
        lineCount := st.lineCount + p.lineCount
        anomalyCount := st.anomalyCount + anomalies.length })

/-- main.rs:347-350, a source without index. -/
def noBaselines (lb : LiveLabels C S D E ε) (source : S) (st : Live) : Live :=
  { st with out := st.out ++ [println (" -> No baselines for ".toList ++ lb.source source)], sepShown := true }

/-- main.rs:289-351, one source. -/
def liveOne (w : World C S N D E ε) (lb : LiveLabels C S D E ε) (mode : OutputMode) (m : Model C S N) (source : S) (st : Live) :
    Option (Bool × Live) :=
  match lookupOrSingle m.indexes (w.nameOf source) with
  | some index => liveSource w lb mode index source st
  | none => some (true, noBaselines lb source st)

/-- main.rs:288-352, the loop over the sources. -/
def liveSources (w : World C S N D E ε) (lb : LiveLabels C S D E ε) (mode : OutputMode) (m : Model C S N) :
    List S → Live → Option Live
  | [], st => some st
  | source :: sources, st =>
    match liveOne w lb mode m source st with
    | none => none
    | some (false, st) => some st
    | some (true, st) => liveSources w lb mode m sources st

/-- main.rs:353-363, the end: erasing the progress, and the totals. -/
def liveEnd (lb : LiveLabels C S D E ε) (mode : OutputMode) (content : C) (st : Live) : List Str :=
  st.out ++ (if mode.inlined && !st.sepShown then ["\r\x1b[K".toList] else []) ++
    progress mode (lb.content content ++ ": Reduced from ".toList ++ decimal st.lineCount ++ " to ".toList ++ decimal st.anomalyCount)

/-- main.rs:278-365 `process_live`: the texts printed; a panic is `none`. -/
def processLive (w : World C S N D E ε) (lb : LiveLabels C S D E ε) (mode : OutputMode) (content : C) (m : Model C S N) :
    Option (Except (ListErr E C) (List Str)) :=
  match getSources w content with
  | .error e => some (.error e)
  | .ok sources =>
    match liveSources w lb mode m sources ⟨[], false, 0, 0⟩ with
    | none => none
    | some st => some (.ok (liveEnd lb mode content st))

end
end
end LJ.Output

/-
What the shown pages are supposed to contain, from the lines of the source and the windows around the
anomalies (`Verif/Process/Spec.lean`).
-/
import Verif.Output.Model
import Verif.Process.Spec
namespace LJ.Output.Spec
open LJ.Process (Str)
open LJ.Process.Spec (Line Window)

/-- What a reader of the page sees: separators, and lines with their numbers. -/
inductive Row where
  | separator
  | line (anomalous : Bool) (num : Nat) (text : Str)
deriving DecidableEq, Repr

/-- The lines of a window of the source. -/
def block (src : List Line) (w : Window) : List Line := (src.drop (w.i - w.b)).take (w.b + 1 + w.a)

/-- The rows of a window: each line with its own number; the anomaly comes after the `b` lines before it. -/
def rows (src : List Line) (w : Window) : List Row :=
  (block src w).zipIdx.map fun x => .line (x.2 == w.b) x.1.num x.1.text

/-- The second block starts with the line which follows the first block. -/
def Adjacent (x y : List Line) : Prop := x.getLast?.map (fun l => l.num + 1) = y.head?.map Line.num

instance (x y : List Line) : Decidable (Adjacent x y) := by unfold Adjacent; infer_instance

/-- A separator between two blocks, unless they are adjacent. -/
def gap (prev : Option (List Line)) (next : List Line) : List Row :=
  match prev with
  | none => []
  | some x => if Adjacent x next then [] else [.separator]

/-- The page after the block `prev`. -/
def pageFrom (src : List Line) : Option (List Line) → List Window → List Row
  | _, [] => []
  | prev, w :: ws => gap prev (block src w) ++ rows src w ++ pageFrom src (some (block src w)) ws

/-- The page: the windows in order, with separators. -/
def page (src : List Line) (ws : List Window) : List Row := pageFrom src none ws

/-- The lines of a block have consecutive numbers: no blank line, no discarded line and no line cut in
pieces in the block. -/
def Numbered (b : List Line) : Prop := ∃ n, b.map Line.num = List.range' n b.length

/-- A text aligned to the right. -/
def right (fill : Char) (width : Nat) (s : Str) : Str := List.replicate (width - s.length) fill ++ s

/-- A row as a node of the HTML report: `dist` gives the distance of a line. -/
def html {D : Type} (sc : Scale D) (dist : Str → D) : Row → Node
  | .separator => .elem "hr" ["class=\"ls\"".toList] []
  | .line false n t => .elem "pre" [] [.text ("   ".toList ++ right ' ' 4 (Nat.toDigits 10 n) ++ " | ".toList ++ t)]
  | .line true n t =>
    .elem "pre" ["style=\"color: #".toList ++ right ' ' 2 ((Nat.toDigits 16 (sc.color (dist t))).map Char.toUpper) ++ "0000\"".toList]
      [.text (right '0' 2 (Nat.toDigits 10 (sc.score (dist t))) ++ " ".toList ++ right ' ' 4 (Nat.toDigits 10 n) ++ " | ".toList ++ t)]

/-- A row as a line of the live output: `score` gives the score of a line. -/
def console (score : Str → Str) : Row → Str
  | .separator => "--\n".toList
  | .line false n t => "   ".toList ++ Nat.toDigits 10 n ++ " | ".toList ++ t ++ ['\n']
  | .line true n t => score t ++ " ".toList ++ Nat.toDigits 10 n ++ " | ".toList ++ t ++ ['\n']

/-- The row with the number of a context line decreased by one. -/
def shifted : Row → Row
  | .line false n t => .line false (n - 1) t
  | r => r

end LJ.Output.Spec

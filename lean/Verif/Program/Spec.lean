/-
What a user expects of the commands.
-/
import Verif.Program.Model
import Verif.Report.Spec
import Verif.Report.Runs
namespace LJ.Program.Spec
open LJ.Process (Str Bytes)
open LJ.Cli (Fs)
variable {C S N D E ε : Type} [DecidableEq N]

/-- Nothing the program uses panics. -/
structure Calm (T : Tool C S N D E ε) : Prop where
  input : ∀ i, T.fromInput i ≠ .panic
  discover : ∀ c, T.discover c ≠ .panic
  search : LJ.Report.SearchOk T.logs
  page : ∀ r, T.page r ≠ none
  test : ∀ ds, (T.test ds).2 ≠ none

/-- The orders of the hash maps are orders of their entries. -/
structure Orders (T : Tool C S N D E ε) : Prop where
  train : ∀ g, (T.trainOrder g).Perm g
  report : ∀ g, (T.reportOrder g).Perm g
  group : ∀ g, (T.groupOrder g).Perm g

/-- `le` is a linear order. -/
structure LinearLe (le : N → N → Bool) : Prop where
  total : ∀ a b, le a b = true ∨ le b a = true
  trans : ∀ a b c, le a b = true → le b c = true → le a c = true
  antisymm : ∀ a b, le a b = true → le b a = true → a = b

/-- The sources of a content which are not ignored. -/
def sourcesOf (T : Tool C S N D E ε) (content : C) : List S := LJ.Report.Spec.validSources T.logs.valid (T.logs.list content)

/-- The commands which compare a target with baselines. -/
def Compares : Command → Prop
  | .diff _ _ => True
  | .path _ => True
  | .url _ => True
  | _ => False

/-- The commands which are not implemented (`todo!()`). -/
def Missing : Command → Prop
  | .journald _ _ => True
  | .currentBuild => True
  | _ => False

/-- No model file is used: none is given, or there is no such file. -/
def NoModelFile (fs : Fs Str) (model : Option Str) : Prop := ∀ p, model = some p → ¬ (fs.denied p = false ∧ ∃ b, fs.files p = some b)

/-- What a message of progress prints: on a terminal, a text written over the current line; otherwise nothing. -/
def onTerminal (mode : LJ.Output.OutputMode) (msg : Str) : List Str :=
  if mode = .fastTerminal then ["\r\x1b[1;33m[+]\x1b[0m ".toList ++ msg] else []

/-- The message printed before a report is written. -/
def announce (T : Tool C S N D E ε) (file : Str) : Str := T.quote file ++ ": Writing report...\n".toList

end LJ.Program.Spec

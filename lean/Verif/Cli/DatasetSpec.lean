/-
What the evaluation of a dataset is supposed to decide.
-/
import Verif.Tokenizer.Spec
import Verif.Cli.Dataset
namespace LJ.Dataset.Spec
open LJ.Process (Str)

/-- The text, without the white space around it, is in the line. -/
def Found (text line : Str) : Prop := ∃ t, LJ.Tokenizer.Spec.Trimmed text t ∧ t <:+: line

/-- The lines are the expected ones: as many, and the i-th one has the i-th text. -/
def Passes (expected lines : List Str) : Prop :=
  lines.length = expected.length ∧ ∀ i (h : i < expected.length) (h' : i < lines.length), Found expected[i] lines[i]

/-- The first path with this extension. -/
def FirstWith (ext : Str) (paths : List Str) (p : Str) : Prop :=
  ∃ before after, paths = before ++ p :: after ∧ LJ.Paths.extension p = some ext ∧ ∀ q ∈ before, LJ.Paths.extension q ≠ some ext

end LJ.Dataset.Spec

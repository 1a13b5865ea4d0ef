/-
What a user expects of the comparison of two local files: which lines are shown.
-/
import Verif.Program.LocalModel
import Verif.Whole.Spec
import Verif.Output.Spec
namespace LJ.Program.Spec
open LJ.Process (Str Bytes)
open LJ.Process.Spec (Line Window Consecutive)
open LJ.Paths (Outside)
open LJ.Whole (Machine)

/-- The lines of a text, numbered from 1. -/
def lineList (ls : List Str) : List Line := (ls.zipIdx 1).map fun x => ⟨x.1, x.2⟩

/-- A local log: a text file which is not ignored, is not JSON and is not taken for a URL. -/
structure Log (M : Machine) (X : Outside Empty) (path : Str) (ls : List Str) : Prop where
  dir : X.isDir path = false
  file : X.isFile path = true
  bytes : M.files path = some (LJ.Whole.Spec.textFile ls)
  lines : ∀ l ∈ ls, LJ.Whole.Spec.PlainLine l
  valid : LJ.Paths.isValid path = true
  json : ¬ ".json".toList <:+ path
  url : ¬ "http".toList <+: path

/-- The line at the position `k` (from 0) is new: no line before it has the same tokens, and its distance is over the threshold. -/
def New (tok : Str → Str) (dist : Str → ℝ) (ls : List Str) (k : Nat) : Prop :=
  ∃ l, ls[k]? = some l ∧ (∀ j, j < k → ∀ l', ls[j]? = some l' → tok l' ≠ tok l) ∧ dist (tok l) > LJ.Process.THRESHOLD

/-- The windows around the new lines, in a text of `n` lines: three lines before and after, without the lines of the previous window
and without the next new line. -/
structure Contexts (n : Nat) (ws : List Window) : Prop where
  first : ∀ w ∈ ws.head?, w.b = min 3 w.i
  next : Consecutive (fun w w' => w.a = min 3 (w'.i - w.i - 1) ∧ w'.b = min 3 (w'.i - (w.i + w.a + 1))) ws
  last : ∀ w ∈ ws.getLast?, w.a = min 3 (n - w.i - 1)

/-- The same for a long text: contexts of at most three lines, complete except the last one, where the one before a new line may have lines of the
previous window (but not its new line). -/
structure LongContexts (n : Nat) (ws : List Window) : Prop where
  size : ∀ w ∈ ws, w.b ≤ 3 ∧ w.a ≤ 3 ∧ w.b ≤ w.i ∧ w.i + w.a + 1 ≤ n
  first : ∀ w ∈ ws.head?, w.b = min 3 w.i
  next : Consecutive (fun w w' => w.a = min 3 (w'.i - w.i - 1) ∧ min 3 (w'.i - (w.i + w.a + 1)) ≤ w'.b ∧ w.i + w'.b < w'.i) ws

end LJ.Program.Spec

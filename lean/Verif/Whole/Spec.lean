/-
What a user expects of a comparison of files: which lines are reported.
-/
import Verif.Whole.Model
import Verif.Process.Spec
import Verif.Report.Spec
namespace LJ.Whole.Spec
open LJ.Process (Str Bytes)
open LJ.Process.Spec (Line)
open LJ.Paths (Source)

/-- The bytes of a string. -/
def utf8 (s : Str) : Bytes := LJ.Codec.stringBytes (String.ofList s)

/-- A text file: lines which end with a line return. -/
def textFile (ls : List Str) : Bytes := utf8 (ls.flatMap fun l => l ++ ['\n'])

/-- A line of an ordinary log file: not empty, of less than 6000 bytes, without a line return or a backslash. -/
def PlainLine (l : Str) : Prop := l ≠ [] ∧ '\n' ∉ l ∧ '\\' ∉ l ∧ (utf8 l).length < 6000

/-- The arithmetic has the rounding errors of `f32`, and a file is read in blocks of at most 8192 bytes. -/
structure Ordinary (M : Machine) : Prop where
  fp : M.fp.Standard
  blocks : ∀ p d, LJ.Iterator.Spec.Blocks (M.cut p d)
  whole : ∀ p d, (M.cut p d).flatten = d

/-- A local file, not JSON, which can be read and whose lines (the pieces of `LJ.Iterator.Spec`, when they are
not empty) are these texts. -/
structure HasLines (M : Machine) (s : Source) (ls : List Line) : Prop where
  data : ∃ n path bytes, s = .loc n (some path) ∧ M.files path = some bytes ∧
    (∀ p ∈ LJ.Iterator.Spec.pieces false bytes, p.1.length < 6000) ∧
    List.Forall₂ (fun (p : Bytes × Nat) l => p.1 = utf8 l.text ∧ p.2 = l.num) (LJ.Iterator.Spec.lines false 6000 bytes) ls
  relative : ∃ rel, s.getRelative = some rel ∧ ¬ ".json".toList <:+ rel

/-- The files of a content which are not ignored, all of them text files. -/
structure HasTexts (M : Machine) (c : Local) (ss : List Source) (text : Source → List Line) : Prop where
  listed : ∀ e, .error e ∉ M.list c
  sources : ss = LJ.Report.Spec.validSources (fun s => LJ.Paths.isValid s.asStr) (M.list c)
  some : ss ≠ []
  lines : ∀ s ∈ ss, HasLines M s (text s)

/-- The baseline files used for a name: those with this name, or all of them when they all have one other name. -/
def baseFor (bs : List Source) (n : Str) : List Source :=
  let same := bs.filter fun b => b.indexName = some n
  if same ≠ [] then same
  else if ∀ b ∈ bs, ∀ b' ∈ bs, b.indexName = b'.indexName then bs
  else []

/-- The position and the text of the reported lines. -/
def reported {C S N E ε : Type} (r : LJ.Report.Report C S N ℝ E ε) : List (Nat × Str) :=
  (r.logReports.flatMap fun l => l.anomalies.map (·.anomaly)).map fun a => (a.pos, a.line)

/-- The distances `dist` are those of an index which knows the token lines `known`, up to the rounding errors:
less than `(12 + 4 N) / 2^24` for a line of `N` words, and never more than 0.07. -/
def Near (hash : Str → Nat) (known : List Str) (dist : Str → ℝ) : Prop :=
  ∀ t d, LJ.Index.Spec.IsDistance hash known t d → |dist t - d| ≤ 0.07 ∧
    ∀ N : ℕ, (t.splitOn ' ').length ≤ N → |dist t - d| ≤ (12 + 4 * N) / 2 ^ 24

end LJ.Whole.Spec

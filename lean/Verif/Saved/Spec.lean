/-
Which models can be saved.
-/
import Verif.Saved.Model
import Verif.Codec.Props
namespace LJ.Saved.Spec
open LJ.Codec (Texts Source Content)
variable {t : Texts}

/-- The local paths of the baselines and of the sources of the indexes. -/
def paths (m : LJ.Report.Model (Content t) (Source t) String) : List LJ.Codec.Bytes :=
  m.baselines.flatMap (LJ.Codec.Content.paths t) ++ m.indexes.flatMap fun x => x.2.sources.flatMap (LJ.Codec.Source.paths t)

/-- What is counted in the file: the baselines and the length of their strings, the indexes and the length of their names, the sources of an index and
the length of their paths, the chunks of an index. -/
def counts (m : LJ.Report.Model (Content t) (Source t) String) : List Nat :=
  (m.baselines.length :: m.baselines.flatMap (LJ.Codec.Content.sizes t)) ++
    m.indexes.length :: m.indexes.flatMap fun x =>
      (LJ.Codec.stringBytes x.1).length :: x.2.chunks.length :: x.2.sources.length :: x.2.sources.flatMap (LJ.Codec.Source.sizes t)

/-- The paths are UTF-8, and the counts are less than 2^64, as they are in a memory with 64-bit addresses. -/
structure Saveable (m : LJ.Report.Model (Content t) (Source t) String) : Prop where
  utf8 : ∀ p ∈ paths m, (LJ.Codec.bytesString p).isSome = true
  fits : ∀ n ∈ counts m, n < 2 ^ 64

end LJ.Saved.Spec

/-
Specification for paths: what the properties are about, without the functions of the program.
-/
import Verif.Paths.Model
namespace LJ.Paths.Spec

/-- A name of a file or directory. -/
def Normal (name : Str) : Prop := '/' ∉ name ∧ name ≠ [] ∧ name ≠ ['.'] ∧ name ≠ ['.', '.']

/-- The part of a path before a file name: nothing, or something ending with a slash. -/
def Dir (dir : Str) : Prop := dir = [] ∨ ∃ a, dir = a ++ ['/']

/-- Seven hexadecimal digits: the abbreviated hash of a commit. -/
def SmallHash (name : Str) : Prop := name.length = 7 ∧ ∀ c ∈ name, c ∈ "0123456789abcdef".toList

/-- The characters which matter in a name. -/
def Kept (c : Char) : Prop := c ∈ "abcdefghijklmnopqrstuvwxyzABCDEFGHIJKLMNOPQRSTUVWXYZ/._-".toList

instance (c : Char) : Decidable (Kept c) := inferInstanceAs (Decidable (c ∈ _))
instance (n : Str) : Decidable (Normal n) := inferInstanceAs (Decidable (_ ∧ _))
instance (n : Str) : Decidable (SmallHash n) := inferInstanceAs (Decidable (_ ∧ _))

/-- A letter. -/
def Letter (c : Char) : Prop := c ∈ "abcdefghijklmnopqrstuvwxyzABCDEFGHIJKLMNOPQRSTUVWXYZ".toList

instance (c : Char) : Decidable (Letter c) := inferInstanceAs (Decidable (c ∈ _))

/-- Not one of the names with their own rules: instances, pods, services. -/
def Ordinary (dir name : Str) : Prop :=
  ¬ (dir = "qemu".toList ∧ "instance-".toList <+: name) ∧ dir ≠ "pod".toList ∧ ¬ "k8s_".toList <+: name ∧ ¬ "pvc-".toList <+: name

end LJ.Paths.Spec

/-
Specification for contents and reports.
-/
import Verif.Report.Model
namespace LJ.Report.Spec
open LJ.Process (Str Bytes Ev)

/-- The valid sources of a listing, without its errors. -/
def validSources {E S : Type} (valid : S → Bool) (xs : List (Except E S)) : List S :=
  xs.filterMap fun x => match x with | .ok s => if valid s then some s else none | .error _ => none

/-- A content is usable when its listing has no error and at least one valid source. -/
def Usable {E S : Type} (valid : S → Bool) (xs : List (Except E S)) : Prop :=
  (∀ e, .error e ∉ xs) ∧ validSources valid xs ≠ []

/-- `g` is the partition of `xs` by `name`, each class in the order of `xs`. -/
def IsPartition {S N : Type} [DecidableEq N] (name : S → N) (xs : List S) (g : List (N × List S)) : Prop :=
  (g.map Prod.fst).Nodup ∧ ∀ n ss, (n, ss) ∈ g ↔ ss ≠ [] ∧ ss = xs.filter fun s => name s = n

end LJ.Report.Spec

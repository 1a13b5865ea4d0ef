/-
What an index is supposed to compute: the cosine distance between bags of hashed words, in exact
arithmetic.
-/
import Mathlib.Analysis.Real.Sqrt
import Mathlib.Order.Bounds.Basic
namespace LJ.Index.Spec

abbrev Str := List Char

/-- the number of columns -/
def size : Nat := 260000

/-- The coefficient of column `k`: the sign of the first word hashed to this column, 0 when there is
none. -/
def coef (hash : Str → Nat) : List Str → Nat → Int
  | [], _ => 0
  | w :: ws, k => if hash w % size = k then (if 2 ^ 31 ≤ hash w then 1 else -1) else coef hash ws k

/-- The hashed words of a line (the fields between the blanks). -/
def vec (hash : Str → Nat) (line : Str) : Nat → Int := coef hash (line.splitOn ' ')

def dot (a b : Nat → Int) : ℝ := ∑ k ∈ Finset.range size, (a k : ℝ) * (b k : ℝ)

/-- the cosine of the angle between two vectors -/
noncomputable def cosine (a b : Nat → Int) : ℝ := dot a b / (√(dot a a) * √(dot b b))

/-- `d` is the distance of the line `t` to the baseline: the smallest `1 - cosine`, and at most 1. -/
def IsDistance (hash : Str → Nat) (baseline : List Str) (t : Str) (d : ℝ) : Prop :=
  IsLeast ({1} ∪ {x | ∃ b ∈ baseline, x = 1 - cosine (vec hash b) (vec hash t)}) d

end LJ.Index.Spec

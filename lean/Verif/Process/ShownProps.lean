/-
C128: exactly which contexts are shown, whatever the reader returns.
-/
import Verif.Process.Shown
import Verif.Process.ExactProps
namespace LJ.Process
open Spec (Display shown)
variable {D ε : Type} {env : Env D} {dist : Str → D}

/-- C128, for every sequence of results of the reader and every index which searches each target on its own: the reported anomalies with the lines
shown before and after them, how the report ends, the tokens known then and the totals are those of the specification. -/
theorem C128_exact (hs : Spec.Pointwise env.search dist) (skip : List Str) (r : List (Ev ε)) :
    let spec := Spec.shown env.tokenize dist env.over env.decode (Display.start skip) r
    (process env skip r).1 = spec.1 ∧ (process env skip r).2.1 = spec.2.1 ∧
    (∀ t, t ∈ (process env skip r).2.2.skipLines ↔ t ∈ spec.2.2.seen) ∧
    (process env skip r).2.2.lineCount = spec.2.2.read ∧ (process env skip r).2.2.byteCount = spec.2.2.bytes :=
  collect_shown hs r _ _ _ (Live.start skip) (by simp [pend, St.new])

/-! ### Non-vacuity -/

/-- The contexts of two anomalies: the lines between them are shown once, the repeated lines at the end are shown. -/
example : (shown (ε := Unit) toy.tokenize toyDist toy.over toy.decode (Display.start []) (["a", "b", "c", "d", "Xe", "f", "g", "Xh", "i", "b", "a"].map fun t => .ok (toyL t 1))).1 =
    [⟨["b".toList, "c".toList, "d".toList], ⟨1, 1, "Xe".toList⟩, ["f".toList, "g".toList]⟩,
     ⟨[], ⟨1, 1, "Xh".toList⟩, ["i".toList, "b".toList, "a".toList]⟩] := by decide +kernel

/-- A line waits when a chunk ends: it is shown after an anomaly, and before the next one. -/
example : (shown (ε := Unit) toy.tokenize toyDist toy.over toy.decode { Display.start [] with lines := 5117 }
      (["Xa", "b", "c", "b", "Xd"].map fun t => .ok (toyL t 1))).1 =
    [⟨[], ⟨1, 1, "Xa".toList⟩, ["b".toList, "c".toList, "b".toList]⟩, ⟨["b".toList], ⟨1, 1, "Xd".toList⟩, []⟩] := by decide +kernel

/-- The lines after the last anomaly are not shown when they are in a chunk without new line. -/
example : (shown (ε := Unit) toy.tokenize toyDist toy.over toy.decode { Display.start [] with lines := 5118 }
      (["b", "Xa", "b", "b", "b"].map fun t => .ok (toyL t 1))).1 =
    [⟨["b".toList], ⟨1, 1, "Xa".toList⟩, ["b".toList]⟩] := by decide +kernel

end LJ.Process

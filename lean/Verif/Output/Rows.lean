/-
C130: exactly which rows a release build renders, whatever the numbers of the lines are.
-/
import Verif.Output.Props
namespace LJ.Output
open LJ.Process (Str Anomaly AnomalyContext)
variable {D : Type}

namespace Spec

/-- A number of 64 bits. -/
def wrap (z : Int) : Nat := (z % 2 ^ 64).toNat

/-- The number of the first row of an anomaly: the lines before it are numbered back from its own number, whatever their own numbers are. -/
def firstRow (c : AnomalyContext D) : Int := c.anomaly.pos - c.before.length

/-- Lines around an anomaly, numbered from this one. -/
def aroundRows (first : Int) (ls : List Str) : List Row := ls.zipIdx.map fun x => .line false (wrap (first + x.2)) x.1

/-- The rows of an anomaly. -/
def anomalyRows (c : AnomalyContext D) : List Row :=
  aroundRows (firstRow c) c.before ++ [.line true c.anomaly.pos c.anomaly.line] ++ aroundRows (c.anomaly.pos + 1) c.after

/-- The nodes of the anomalies of a source, with a separator between two of them unless the number of the first row of the second follows the last one of
the first. -/
def anomalyNodes (sc : Scale D) : List (AnomalyContext D) → List Node
  | [] => []
  | [c] => (anomalyRows c).map (html sc fun _ => c.anomaly.distance)
  | c :: d :: cs => (anomalyRows c).map (html sc fun _ => c.anomaly.distance) ++
      (if wrap (c.anomaly.pos + c.after.length + 1) = wrap (firstRow d) then [] else [.elem "hr" ["class=\"ls\"".toList] []]) ++ anomalyNodes sc (d :: cs)

/-- The numbers fit in 64 bits. -/
def Fits (c : AnomalyContext D) : Prop := c.anomaly.pos < 2 ^ 64 ∧ c.before.length < 2 ^ 64 ∧ c.after.length < 2 ^ 64

end Spec
open Spec (wrap firstRow aroundRows anomalyRows anomalyNodes Fits)

theorem uadd_wrap {a b : Nat} (ha : a < 2 ^ 64) (hb : b < 2 ^ 64) : uadd false a b = some (wrap (a + b)) := by
  unfold uadd wrap
  split
  · exact congrArg some (by omega)
  · exact congrArg some (by omega)

theorem usub_wrap {a b : Nat} (ha : a < 2 ^ 64) (hb : b < 2 ^ 64) : usub false a b = some (wrap (a - b)) := by
  unfold usub wrap
  split
  · exact congrArg some (by omega)
  · exact congrArg some (by omega)

theorem wrap_lt (z : Int) : wrap z < 2 ^ 64 := by unfold wrap; omega

theorem wrap_congr {a b : Int} (h : a % 2 ^ 64 = b % 2 ^ 64) : wrap a = wrap b := by unfold wrap; rw [h]

theorem wrap_mod (z : Int) : (wrap z : Int) % 2 ^ 64 = z % 2 ^ 64 := by unfold wrap; omega

theorem renderContextFrom_wrap (pos : Nat) (hp : pos < 2 ^ 64) : ∀ (xs : List Str) (idx : Nat), idx + xs.length < 2 ^ 64 + 1 →
    renderContextFrom false pos idx xs = some ((xs.zipIdx idx).map fun x => contextNode (wrap (pos + 1 + x.2)) x.1)
  | [], _, _ => rfl
  | x :: xs, idx, h => by
    rw [List.length_cons] at h
    have h1 : uadd false pos 1 = some (wrap (pos + 1)) := uadd_wrap hp (by omega)
    have h2 : uadd false (wrap (pos + 1)) idx = some (wrap (pos + 1 + idx)) := by
      rw [uadd_wrap (wrap_lt _) (by omega)]
      refine congrArg some (wrap_congr ?_)
      have := wrap_mod (pos + 1)
      omega
    simp only [renderContextFrom, h1, h2, renderContextFrom_wrap pos hp xs (idx + 1) (by omega), Option.bind_eq_bind, Option.bind_some, List.zipIdx_cons, List.map_cons]

theorem aroundRows_nodes (sc : Scale D) (d : Str → D) (first : Int) (ls : List Str) :
    (aroundRows first ls).map (Spec.html sc d) = (ls.zipIdx 0).map fun x => contextNode (wrap (first + x.2)) x.1 := by
  unfold aroundRows
  rw [List.map_map]
  rfl

theorem renderAnomaly_wrap (sc : Scale D) (last : Option Nat) {c : AnomalyContext D} (h : Fits c) :
    renderAnomaly false sc last c = some (separator last (wrap (firstRow c - 1)) ++ (anomalyRows c).map (Spec.html sc fun _ => c.anomaly.distance),
      wrap (c.anomaly.pos + c.after.length)) := by
  obtain ⟨h1, h2, h3⟩ := h
  have e0 : usub false c.anomaly.pos 1 = some (wrap (c.anomaly.pos - 1)) := usub_wrap h1 (by omega)
  have e1 : usub false (wrap (c.anomaly.pos - 1)) c.before.length = some (wrap (firstRow c - 1)) := by
    rw [usub_wrap (wrap_lt _) h2]
    refine congrArg some (wrap_congr ?_)
    have := wrap_mod (c.anomaly.pos - 1)
    unfold firstRow
    omega
  have e2 : ∀ k : Nat, wrap (↑(wrap (firstRow c - 1)) + 1 + ↑k) = wrap (firstRow c + k) := by
    intro k
    apply wrap_congr
    have := wrap_mod (firstRow c - 1)
    omega
  simp only [renderAnomaly, renderContext, e0, e1, renderContextFrom_wrap _ (wrap_lt _) c.before 0 (by omega), renderContextFrom_wrap _ h1 c.after 0 (by omega),
    uadd_wrap h1 h3, Option.bind_eq_bind, Option.bind_some]
  unfold anomalyRows
  rw [List.map_append, List.map_append, aroundRows_nodes, aroundRows_nodes]
  simp only [e2, List.append_assoc]
  rfl

theorem renderFrom_wrap (sc : Scale D) : ∀ (cs : List (AnomalyContext D)) (last : Option Nat), (∀ c ∈ cs, Fits c) →
    renderFrom false sc last cs = some (match cs with | [] => [] | c :: _ => separator last (wrap (firstRow c - 1)) ++ anomalyNodes sc cs)
  | [], _, _ => rfl
  | c :: cs, last, h => by
    simp only [renderFrom, renderAnomaly_wrap sc last (h c (.head _)), Option.bind_eq_bind, Option.bind_some]
    rw [renderFrom_wrap sc cs _ fun d hd => h d (.tail _ hd)]
    simp only [Option.bind_some]
    cases cs with
    | nil => simp only [List.append_nil]; rfl
    | cons d cs =>
      simp only [anomalyNodes, List.append_assoc]
      congr 3
      unfold separator
      simp only
      have : (wrap (c.anomaly.pos + c.after.length) = wrap (firstRow d - 1)) ↔ (wrap (c.anomaly.pos + c.after.length + 1) = wrap (firstRow d)) := by
        unfold wrap
        omega
      by_cases hw : wrap (c.anomaly.pos + c.after.length + 1) = wrap (firstRow d)
      · rw [if_pos hw, if_neg (by rw [not_not]; exact this.2 hw)]
      · rw [if_neg hw, if_pos fun e => hw (this.1 e)]
        rfl

/-- C130.  The rows of a release build are exactly these for any anomalies whose numbers fit in 64 bits: all the lines, in order, the anomalies with their own numbers, and
the lines around them numbered from those. -/
theorem C130_rows (sc : Scale D) (cs : List (AnomalyContext D)) (h : ∀ c ∈ cs, Fits c) : renderLines false sc cs = some (anomalyNodes sc cs) := by
  unfold renderLines
  rw [renderFrom_wrap sc cs none h]
  cases cs <;> rfl

/-- a line with two pieces: the first one has number 0 in the page, and a piece after a blank line -/
example : (∀ c ∈ [(⟨["a".toList], ⟨1, 1, "X".toList⟩, ["b".toList]⟩ : AnomalyContext Nat), ⟨[], ⟨1, 5, "Y".toList⟩, []⟩], Fits c) ∧
    (anomalyRows (⟨["p".toList, "a".toList], ⟨1, 1, "X".toList⟩, ["b".toList]⟩ : AnomalyContext Nat)) =
      [.line false (2 ^ 64 - 1) "p".toList, .line false 0 "a".toList, .line true 1 "X".toList, .line false 2 "b".toList] := by
  refine ⟨?_, by decide +kernel⟩
  intro c hc
  simp only [List.mem_cons, List.not_mem_nil, or_false] at hc
  rcases hc with rfl | rfl <;> simp [Fits]

end LJ.Output

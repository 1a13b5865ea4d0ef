/-
C133: a log which grows keeps its anomalies.
-/
import Verif.Process.ShownProps
namespace LJ.Process
open Spec (View Display shown)
variable {D ε : Type} {env : Env D} {dist : Str → D}

namespace Spec

/-- A context of the grown log: the same anomaly after the same lines, and possibly more lines after it. -/
def Longer (x y : AnomalyContext D) : Prop := x.before = y.before ∧ x.anomaly = y.anomaly ∧ x.after <+: y.after

/-- The contexts `xs` are still there, in front of what is new. -/
def Kept (xs ys : List (AnomalyContext D)) : Prop := ∃ old new, ys = old ++ new ∧ List.Forall₂ Longer xs old

end Spec
open Spec (Longer Kept)

theorem Spec.Longer.rfl {x : AnomalyContext D} : Longer x x := ⟨Eq.refl _, Eq.refl _, List.prefix_refl _⟩

theorem Spec.Longer.trans {x y z : AnomalyContext D} (h : Longer x y) (g : Longer y z) : Longer x z :=
  ⟨h.1.trans g.1, h.2.1.trans g.2.1, h.2.2.trans g.2.2⟩

theorem longer_refl : ∀ l : List (AnomalyContext D), List.Forall₂ Longer l l
  | [] => .nil
  | _ :: l => .cons Longer.rfl (longer_refl l)

theorem forall₂_app {R : AnomalyContext D → AnomalyContext D → Prop} : ∀ {a b c d : List (AnomalyContext D)}, List.Forall₂ R a b → List.Forall₂ R c d →
    List.Forall₂ R (a ++ c) (b ++ d)
  | [], _, _, _, .nil, h => h
  | _ :: _, _, _, _, .cons h t, g => .cons h (forall₂_app t g)

theorem forall₂_split {R : AnomalyContext D → AnomalyContext D → Prop} : ∀ {a b c : List (AnomalyContext D)}, List.Forall₂ R (a ++ b) c →
    ∃ c1 c2, c = c1 ++ c2 ∧ List.Forall₂ R a c1 ∧ List.Forall₂ R b c2
  | [], _, c, h => ⟨[], c, Eq.refl _, .nil, h⟩
  | _ :: _, _, _, .cons h t => by
    obtain ⟨c1, c2, e, h1, h2⟩ := forall₂_split t
    exact ⟨_ :: c1, c2, by rw [e]; rfl, .cons h h1, h2⟩

theorem forall₂_compose : ∀ {a b c : List (AnomalyContext D)}, List.Forall₂ Longer a b → List.Forall₂ Longer b c → List.Forall₂ Longer a c
  | [], _, _, .nil, .nil => .nil
  | _ :: _, _, _, .cons h t, .cons g u => .cons (h.trans g) (forall₂_compose t u)

theorem Spec.Kept.app (l : List (AnomalyContext D)) (m : List (AnomalyContext D)) : Kept l (l ++ m) := ⟨l, m, Eq.refl _, longer_refl l⟩

theorem Spec.Kept.rfl (l : List (AnomalyContext D)) : Kept l l := ⟨l, [], (List.append_nil l).symm, longer_refl l⟩

theorem Spec.Kept.nil (l : List (AnomalyContext D)) : Kept [] l := ⟨[], l, Eq.refl _, .nil⟩

theorem Spec.Kept.trans {a b c : List (AnomalyContext D)} (h : Kept a b) (g : Kept b c) : Kept a c := by
  obtain ⟨o, n, rfl, h⟩ := h
  obtain ⟨o', n', rfl, g⟩ := g
  obtain ⟨c1, c2, rfl, g1, g2⟩ := forall₂_split g
  exact ⟨c1, c2 ++ n', by simp, forall₂_compose h g1⟩

theorem Spec.Kept.after {a b : List (AnomalyContext D)} (l : List (AnomalyContext D)) (h : Kept a b) : Kept (l ++ a) (l ++ b) := by
  obtain ⟨o, n, rfl, h⟩ := h
  exact ⟨l ++ o, n, by simp, forall₂_app (longer_refl l) h⟩

/-- everything found -/
def View.found (v : View D) : List (AnomalyContext D) := v.done ++ v.last.toList

theorem kept_line (v : View D) (t : Str) : Kept (View.found v) (View.found (v.line t)) := by
  obtain ⟨done, last, left, unseen⟩ := v
  unfold View.line View.found
  cases last with
  | none => exact Kept.rfl _
  | some a =>
    simp only
    split
    · refine Kept.after _ ⟨[{ a with after := a.after ++ [t] }], [], rfl, .cons ⟨rfl, rfl, List.prefix_append _ _⟩ .nil⟩
    · simp only [Option.toList_none, List.append_nil]
      exact Kept.after _ ⟨[{ a with after := a.after ++ [t] }], [], rfl, .cons ⟨rfl, rfl, List.prefix_append _ _⟩ .nil⟩

theorem kept_anomaly (v : View D) (a : Anomaly D) : Kept (View.found v) (View.found (v.anomaly a)) := Kept.app _ _

theorem kept_lines : ∀ (ts : List Str) (v : View D), Kept (View.found v) (View.found (ts.foldl View.line v))
  | [], _ => Kept.rfl _
  | t :: ts, v => (kept_line v t).trans (kept_lines ts _)

/-- everything found, with the lines which wait -/
def Display.found (p : Display D) : List (AnomalyContext D) := View.found (p.waiting.foldl View.line p.view)

theorem all_eq (p : Display D) : p.all = if p.new = 0 then View.found p.view else Display.found p := by
  unfold Display.all Display.finish
  split <;> rfl

theorem all_found (p : Display D) : Kept p.all (Display.found p) := by
  rw [all_eq]
  split
  · exact kept_lines _ _
  · exact Kept.rfl _

variable {tok : Str → Str} {over : D → Bool} {decode : Bytes → Option Str}

theorem line_found (p : Display D) (l : Spec.Line) : Kept (Display.found p) (Display.found (p.line tok dist over l)) := by
  unfold Display.line
  split
  · unfold Display.found
    simp only [List.foldl_append, List.foldl_cons, List.foldl_nil]
    exact kept_line _ _
  · unfold Display.found
    simp only [List.foldl_nil]
    split
    · exact kept_anomaly _ _
    · exact kept_line _ _

theorem line_all (p : Display D) (l : Spec.Line) : Kept p.all (p.line tok dist over l).all := by
  by_cases h : (p.line tok dist over l).new = 0
  · have hk : tok l.text ∈ p.seen := by
      by_cases hk : tok l.text ∈ p.seen
      · exact hk
      · unfold Display.line at h
        rw [if_neg hk] at h
        cases h
    have e : p.line tok dist over l = { p with lines := p.lines + 1, waiting := p.waiting ++ [l.text] } := by
      unfold Display.line
      rw [if_pos hk]
    rw [e] at h ⊢
    rw [all_eq, all_eq, if_pos h, if_pos h]
    exact Kept.rfl _
  · rw [all_eq (p.line tok dist over l), if_neg h]
    exact (all_found p).trans (line_found p l)

/-- what was found is reported, unless the report fails -/
theorem shown_keeps : ∀ (r : List (Ev ε)) (p : Display D), (shown tok dist over decode p r).2.1 = .finished → Kept p.all (shown tok dist over decode p r).1
  | [], p, _ => Kept.rfl _
  | .error e :: _, p, h => by cases h
  | .ok l :: r, p, h => by
    rw [shown] at h ⊢
    cases hd : decode l.1 with
    | none => rw [hd] at h; cases h
    | some t =>
      rw [hd] at h
      simp only at h ⊢
      split at h
      · rename_i hm
        rw [if_pos hm]
        split
        · rename_i h0
          rw [h0]
          exact Kept.nil _
        · exact Kept.app _ _
      · rename_i hm
        rw [if_neg hm]
        have hc : (p.count l).all = p.all := by rw [all_eq, all_eq]; rfl
        split at h
        · rename_i he
          rw [if_pos he]
          have := shown_keeps r _ h
          have e1 : (((p.count l).line tok dist over ⟨t, l.2⟩).next.told).all = ((p.count l).line tok dist over ⟨t, l.2⟩).next.view.last.toList := rfl
          rw [e1] at this
          have e2 : ((p.count l).line tok dist over ⟨t, l.2⟩).next.view.done ++ ((p.count l).line tok dist over ⟨t, l.2⟩).next.view.last.toList =
              Display.found ((p.count l).line tok dist over ⟨t, l.2⟩) := rfl
          refine Kept.trans ?_ (Kept.after _ this)
          rw [e2, ← hc]
          exact (all_found _).trans (line_found _ _)
        · rename_i he
          rw [if_neg he]
          refine Kept.trans ?_ (shown_keeps r _ h)
          rw [← hc]
          exact line_all _ _

theorem shown_grown (r' : List (Ev ε)) : ∀ (r : List (Ev ε)) (p : Display D), (shown tok dist over decode p (r ++ r')).2.1 = .finished →
    Kept (shown tok dist over decode p r).1 (shown tok dist over decode p (r ++ r')).1
  | [], p, h => shown_keeps r' p h
  | .error e :: _, p, h => by cases h
  | .ok l :: r, p, h => by
    rw [List.cons_append, shown] at h ⊢
    rw [shown]
    cases hd : decode l.1 with
    | none => rw [hd] at h; cases h
    | some t =>
      rw [hd] at h
      simp only at h ⊢
      by_cases hm : "TASK [log-classify".toList <:+: t
      · rw [if_pos hm] at h ⊢
        rw [if_pos hm]
        by_cases h0 : p.all = []
        · rw [if_pos h0, if_pos h0]
          exact Kept.nil _
        · rw [if_neg h0] at h ⊢
          rw [if_neg h0]
          exact Kept.after _ (shown_grown r' r _ h)
      · rw [if_neg hm] at h ⊢
        rw [if_neg hm]
        by_cases he : p.ends tok ⟨t, l.2⟩ = true
        · rw [if_pos he] at h ⊢
          rw [if_pos he]
          exact Kept.after _ (shown_grown r' r _ h)
        · rw [if_neg he] at h ⊢
          rw [if_neg he]
          exact shown_grown r' r _ h

/-- C133, for every sequence of results of the reader: when more results follow and the whole is read without a failure, the contexts reported before are still reported first, with
the same lines before them, and the same lines after them, possibly followed by more. -/
theorem C133_source (hs : Spec.Pointwise env.search dist) (skip : List Str) (r more : List (Ev ε)) (h : (process env skip (r ++ more)).2.1 = .finished) :
    Kept (process env skip r).1 (process env skip (r ++ more)).1 := by
  obtain ⟨a1, _⟩ := C128_exact hs skip r
  obtain ⟨b1, b2, _⟩ := C128_exact hs skip (r ++ more)
  rw [a1, b1]
  rw [b2] at h
  exact shown_grown more r _ h

/-- The contexts of a log, and those of the same log with two more lines. -/
example : (process toy [] (["a", "b", "Xc", "d"].map fun t => (.ok (toyL t 1) : Ev Unit))).1 =
      [⟨["a".toList, "b".toList], ⟨1, 1, "Xc".toList⟩, ["d".toList]⟩] ∧
    (process toy [] ((["a", "b", "Xc", "d"].map fun t => (.ok (toyL t 1) : Ev Unit)) ++ [.ok (toyL "e" 1), .ok (toyL "Xf" 1)])).1 =
      [⟨["a".toList, "b".toList], ⟨1, 1, "Xc".toList⟩, ["d".toList, "e".toList]⟩, ⟨[], ⟨1, 1, "Xf".toList⟩, []⟩] ∧
    (process toy [] ((["a", "b", "Xc", "d"].map fun t => (.ok (toyL t 1) : Ev Unit)) ++ [.ok (toyL "e" 1), .ok (toyL "Xf" 1)])).2.1 = .finished := by
  obtain ⟨a1, _⟩ := C128_exact (ε := Unit) toy_pointwise [] (["a", "b", "Xc", "d"].map fun t => .ok (toyL t 1))
  obtain ⟨b1, b2, _⟩ := C128_exact (ε := Unit) toy_pointwise [] ((["a", "b", "Xc", "d"].map fun t => .ok (toyL t 1)) ++ [.ok (toyL "e" 1), .ok (toyL "Xf" 1)])
  rw [a1, b1, b2]
  decide +kernel

/-- C133 without the condition is false: a log which grows by one line which is not a text reports nothing any more. -/
theorem C133_false : ∃ (r more : List (Ev Unit)), (process toy [] r).1 ≠ [] ∧ (process toy [] (r ++ more)).1 = [] ∧ more.length = 1 ∧ ∀ e, .error e ∉ more := by
  refine ⟨[.ok (toyL "Xa" 1)], [.ok ([200], 2)], ?_, ?_, rfl, ?_⟩
  · obtain ⟨a1, _⟩ := C128_exact (ε := Unit) toy_pointwise [] [.ok (toyL "Xa" 1)]
    rw [a1]
    decide +kernel
  · obtain ⟨a1, _⟩ := C128_exact (ε := Unit) toy_pointwise [] ([.ok (toyL "Xa" 1)] ++ [.ok ([200], 2)])
    rw [a1]
    decide +kernel
  · intro e h
    simp at h

end LJ.Process

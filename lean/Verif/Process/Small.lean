/-
C128: the contexts have at most three lines before and after, and the anomalies are lines of the source, whatever the reader returns.
-/
import Verif.Process.ShownProps
namespace LJ.Process
open Spec (View Display shown last3 Line)
variable {D ε : Type} {tok : Str → Str} {dist : Str → D} {over : D → Bool} {decode : Bytes → Option Str}

/-- a context of at most three lines before and after an anomaly with this property -/
structure Small (Q : Anomaly D → Prop) (c : AnomalyContext D) : Prop where
  before : c.before.length ≤ 3
  after : c.after.length ≤ 3
  anomaly : Q c.anomaly

structure SmallView (Q : Anomaly D → Prop) (v : View D) : Prop where
  done : ∀ c ∈ v.done, Small Q c
  last : ∀ c, v.last = some c → Small Q c ∧ c.after.length < 3

variable {Q : Anomaly D → Prop}

theorem SmallView.line {v : View D} (h : SmallView Q v) (t : Str) : SmallView Q (v.line t) := by
  unfold View.line
  cases hv : v.last with
  | none => exact ⟨h.done, fun c hc => (by simp only at hc; cases hc)⟩
  | some a =>
    obtain ⟨h1, h2⟩ := h.last a hv
    simp only
    split
    · rename_i hlt
      refine ⟨h.done, fun c hc => ?_⟩
      cases hc
      exact ⟨⟨h1.before, by simp; omega, h1.anomaly⟩, by simpa using hlt⟩
    · refine ⟨fun c hc => ?_, fun c hc => (by cases hc)⟩
      rcases List.mem_append.1 hc with hc | hc
      · exact h.done c hc
      · rw [List.mem_singleton] at hc
        subst hc
        exact ⟨h1.before, by simp; omega, h1.anomaly⟩

theorem SmallView.lines {v : View D} (h : SmallView Q v) (ts : List Str) : SmallView Q (ts.foldl View.line v) := by
  induction ts generalizing v with
  | nil => exact h
  | cons t ts ih => exact ih (h.line t)

theorem SmallView.anomaly {v : View D} (h : SmallView Q v) {a : Anomaly D} (ha : Q a) : SmallView Q (v.anomaly a) := by
  refine ⟨fun c hc => ?_, fun c hc => ?_⟩
  · rcases List.mem_append.1 hc with hc | hc
    · exact h.done c hc
    · rw [Option.mem_toList] at hc
      exact (h.last c hc).1
  · cases hc
    refine ⟨⟨?_, by simp, ha⟩, by simp⟩
    unfold last3
    simp
    omega

theorem small_next {p : Display D} (h : SmallView Q p.view) : SmallView Q p.next.view :=
  ⟨(h.lines p.waiting).done, (h.lines p.waiting).last⟩

theorem small_finish {p : Display D} (h : SmallView Q p.view) : SmallView Q p.finish.view := by
  unfold Display.finish
  split
  · exact h
  · exact small_next h

theorem small_all {p : Display D} (h : SmallView Q p.view) : ∀ c ∈ p.all, Small Q c := by
  intro c hc
  rcases List.mem_append.1 hc with hc | hc
  · exact (small_finish h).done c hc
  · rw [Option.mem_toList] at hc
    exact ((small_finish h).last c hc).1

theorem small_marker {p : Display D} : SmallView Q p.marker.view :=
  ⟨fun c hc => (by cases hc), fun c hc => (by cases hc)⟩

theorem small_line {p : Display D} (h : SmallView Q p.view) {l : Line} (hl : over (dist (tok l.text)) = true → Q ⟨dist (tok l.text), l.num, l.text⟩) :
    SmallView Q (p.line tok dist over l).view := by
  unfold Display.line
  split
  · exact h
  · simp only
    split
    · rename_i ho
      exact (h.lines _).anomaly (hl ho)
    · exact (h.lines _).line _

theorem shown_small : ∀ (r : List (Ev ε)) (p : Display D), SmallView Q p.view →
    (∀ l t, .ok l ∈ r → decode l.1 = some t → over (dist (tok t)) = true → Q ⟨dist (tok t), l.2, t⟩) →
    ∀ c ∈ (shown tok dist over decode p r).1, Small Q c
  | [], p, h, _ => small_all h
  | .error e :: r, p, h, _ => by intro c hc; cases hc
  | .ok l :: r, p, h, hq => by
    have hq' : ∀ l t, .ok l ∈ r → decode l.1 = some t → over (dist (tok t)) = true → Q ⟨dist (tok t), l.2, t⟩ := fun l t hl => hq l t (.tail _ hl)
    rw [shown]
    cases hd : decode l.1 with
    | none => intro c hc; cases hc
    | some t =>
      simp only
      have hc' : SmallView Q (p.count l).view := h
      split
      · split
        · intro c hc; cases hc
        · intro c hc
          rcases List.mem_append.1 hc with hc | hc
          · exact small_all h c hc
          · exact shown_small r _ small_marker hq' c hc
      · have hl := small_line (tok := tok) (dist := dist) (over := over) hc' (l := ⟨t, l.2⟩) (hq l t (.head _) hd)
        split
        · intro c hc
          rcases List.mem_append.1 hc with hc | hc
          · exact (small_next hl).done c hc
          · have hn := small_next hl
            have ht : SmallView Q ((p.count l).line tok dist over ⟨t, l.2⟩).next.told.view := ⟨fun c hc => (by cases hc), hn.last⟩
            exact shown_small r _ ht hq' c hc
        · exact shown_small r _ hl hq'

/-- C128.  Whatever the reader returns, a context has at most three lines before and three after, and the anomaly is a line of the source with its number, which is a text and
whose distance is over the threshold. -/
theorem C128_small (seen : List Str) (r : List (Ev ε)) :
    ∀ c ∈ (shown tok dist over decode (.start seen) r).1, c.before.length ≤ 3 ∧ c.after.length ≤ 3 ∧
      ∃ l, .ok l ∈ r ∧ decode l.1 = some c.anomaly.line ∧ l.2 = c.anomaly.pos ∧ c.anomaly.distance = dist (tok c.anomaly.line) ∧
        over c.anomaly.distance = true := by
  intro c hc
  have h := shown_small (Q := fun a => ∃ l, .ok l ∈ r ∧ decode l.1 = some a.line ∧ l.2 = a.pos ∧ a.distance = dist (tok a.line) ∧ over a.distance = true)
    r (.start seen) ⟨fun c hc => (by cases hc), fun c hc => (by cases hc)⟩
    (fun l t h1 h2 h3 => ⟨l, h1, h2, rfl, rfl, h3⟩) c hc
  exact ⟨h.before, h.after, h.anomaly⟩

/-- two contexts with lines which are repeated -/
example : ((shown (ε := Unit) toy.tokenize toyDist toy.over toy.decode (.start []) (["a", "b", "c", "d", "Xe", "f", "g", "Xh", "i", "b", "a", "c"].map fun t => .ok (toyL t 1))).1.map
    fun c => (c.before.length, c.after.length)) = [(3, 2), (0, 3)] := by decide +kernel

end LJ.Process

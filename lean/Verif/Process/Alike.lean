/-
C135: only the normalised lines of a log decide what is reported of it.
-/
import Verif.Process.ShownProps
namespace LJ.Process
open Spec (View Display shown last3)
variable {D ε : Type} {env : Env D} {dist : Str → D} {tok : Str → Str} {over : D → Bool} {decode : Bytes → Option Str}

namespace Spec

/-- Two results of the reader which differ at most in what is removed by the normalisation: lines with the same number and the same normalised text, which are both
marker lines or both not; lines which are both no text; or the same error. -/
def Alike (tok : Str → Str) (decode : Bytes → Option Str) : Ev ε → Ev ε → Prop
  | .ok l, .ok l' => l.2 = l'.2 ∧
    match decode l.1, decode l'.1 with
    | some t, some t' => tok t = tok t' ∧ ("TASK [log-classify".toList <:+: t ↔ "TASK [log-classify".toList <:+: t')
    | none, none => True
    | _, _ => False
  | .error e, .error e' => e = e'
  | _, _ => False

/-- A context with all its lines normalised: the position and the distance of the anomaly stay. -/
def normal (tok : Str → Str) (c : AnomalyContext D) : AnomalyContext D :=
  ⟨c.before.map tok, ⟨c.anomaly.distance, c.anomaly.pos, tok c.anomaly.line⟩, c.after.map tok⟩

end Spec
open Spec (Alike normal)

/-- what is shown, with normalised lines -/
def normView (tok : Str → Str) (v : View D) : View D := ⟨v.done.map (normal tok), v.last.map (normal tok), v.left.map tok, v.unseen.map tok⟩

/-- how far a report is, with normalised lines and without the bytes -/
def normDisplay (tok : Str → Str) (p : Display D) : Display D := ⟨p.seen, p.new, p.lines, normView tok p.view, p.waiting.map tok, p.read, 0⟩

theorem norm_line (v : View D) (t : Str) : normView tok (v.line t) = (normView tok v).line (tok t) := by
  obtain ⟨done, last, left, unseen⟩ := v
  cases last with
  | none => simp [View.line, normView]
  | some a =>
    by_cases h : a.after.length + 1 < 3
    · simp [View.line, normView, normal, h]
    · simp [View.line, normView, normal, h]

theorem norm_last3 (l : List Str) : (last3 l).map tok = last3 (l.map tok) := by
  unfold last3
  rw [List.map_drop, List.length_map]

theorem norm_anomaly (v : View D) (d : D) (pos : Nat) (t : Str) : normView tok (v.anomaly ⟨d, pos, t⟩) = (normView tok v).anomaly ⟨d, pos, tok t⟩ := by
  obtain ⟨done, last, left, unseen⟩ := v
  cases last <;> simp [View.anomaly, normView, normal, norm_last3]

theorem norm_lines : ∀ (ts : List Str) (v : View D), normView tok (ts.foldl View.line v) = (ts.map tok).foldl View.line (normView tok v)
  | [], _ => rfl
  | t :: ts, v => by
    rw [List.foldl_cons, norm_lines ts, norm_line]
    rfl

theorem norm_next (p : Display D) : normDisplay tok p.next = (normDisplay tok p).next := by
  unfold Display.next normDisplay
  have h := norm_lines (tok := tok) p.waiting p.view
  simp only
  rw [← h]
  simp [normView, norm_last3]

theorem norm_finish (p : Display D) : normDisplay tok p.finish = (normDisplay tok p).finish := by
  unfold Display.finish
  have : (normDisplay tok p).new = p.new := rfl
  rw [this]
  split
  · rfl
  · exact norm_next p

theorem norm_all (p : Display D) : p.all.map (normal tok) = (normDisplay tok p).all := by
  unfold Display.all
  rw [← norm_finish, List.map_append]
  cases h : p.finish.view.last <;> simp [normDisplay, normView, h]

theorem norm_marker (p : Display D) : normDisplay tok p.marker = { (normDisplay tok p).marker with bytes := 0 } := by
  unfold Display.marker
  rw [← norm_finish]
  rfl

theorem norm_told (p : Display D) : normDisplay tok p.told = (normDisplay tok p).told := rfl

theorem norm_seen {p p' : Display D} (h : normDisplay tok p = normDisplay tok p') : p.seen = p'.seen ∧ p.new = p'.new ∧ p.lines = p'.lines ∧
    normView tok p.view = normView tok p'.view ∧ p.waiting.map tok = p'.waiting.map tok ∧ p.read = p'.read := by
  unfold normDisplay at h
  simp only [Display.mk.injEq] at h
  exact ⟨h.1, h.2.1, h.2.2.1, h.2.2.2.1, h.2.2.2.2.1, h.2.2.2.2.2.1⟩

theorem norm_ext {p p' : Display D} (h1 : p.seen = p'.seen) (h2 : p.new = p'.new) (h3 : p.lines = p'.lines) (h4 : normView tok p.view = normView tok p'.view)
    (h5 : p.waiting.map tok = p'.waiting.map tok) (h6 : p.read = p'.read) : normDisplay tok p = normDisplay tok p' := by
  unfold normDisplay
  rw [h1, h2, h3, h4, h5, h6]

theorem norm_step {p p' : Display D} (h : normDisplay tok p = normDisplay tok p') {t t' : Str} (ht : tok t = tok t') {n n' : Nat} (hn : n = n') :
    normDisplay tok (p.line tok dist over ⟨t, n⟩) = normDisplay tok (p'.line tok dist over ⟨t', n'⟩) := by
  obtain ⟨h1, h2, h3, h4, h5, h6⟩ := norm_seen h
  subst hn
  have hv : normView tok (p.waiting.foldl View.line p.view) = normView tok (p'.waiting.foldl View.line p'.view) := by
    rw [norm_lines, norm_lines, h4, h5]
  unfold Display.line
  simp only
  rw [ht, h1]
  by_cases hm : tok t' ∈ p'.seen
  · rw [if_pos hm, if_pos hm]
    exact norm_ext rfl h2 (by simp [h3]) h4 (by simp [h5, ht]) h6
  · rw [if_neg hm, if_neg hm]
    refine norm_ext (by simp only) (by simp [h2]) (by simp [h3]) ?_ rfl h6
    simp only
    by_cases ho : over (dist (tok t')) = true
    · rw [if_pos ho, if_pos ho, norm_anomaly, norm_anomaly, hv, ht]
    · rw [if_neg ho, if_neg ho, norm_line, norm_line, hv, ht]

theorem norm_count {p p' : Display D} (h : normDisplay tok p = normDisplay tok p') (l l' : LogLine) : normDisplay tok (p.count l) = normDisplay tok (p'.count l') := by
  obtain ⟨h1, h2, h3, h4, h5, h6⟩ := norm_seen h
  exact norm_ext h1 h2 h3 h4 h5 (by simp [Display.count, h6])

theorem norm_all_eq {p p' : Display D} (h : normDisplay tok p = normDisplay tok p') : p.all.map (normal tok) = p'.all.map (normal tok) := by
  rw [norm_all, norm_all, h]

theorem norm_marker_eq {p p' : Display D} (h : normDisplay tok p = normDisplay tok p') : normDisplay tok p.marker = normDisplay tok p'.marker := by
  rw [norm_marker, norm_marker, h]

theorem shown_alike : ∀ {r r' : List (Ev ε)} {p p' : Display D}, List.Forall₂ (Alike tok decode) r r' → normDisplay tok p = normDisplay tok p' →
    (shown tok dist over decode p r).1.map (normal tok) = (shown tok dist over decode p' r').1.map (normal tok) ∧
    (shown tok dist over decode p r).2.1 = (shown tok dist over decode p' r').2.1 ∧
    normDisplay tok (shown tok dist over decode p r).2.2 = normDisplay tok (shown tok dist over decode p' r').2.2
  | [], _, p, p', .nil, h => ⟨norm_all_eq h, rfl, norm_marker_eq h⟩
  | .error e :: r, .error e' :: r', p, p', .cons ha hr, h => by
    have : e = e' := ha
    subst this
    exact ⟨rfl, rfl, h⟩
  | .error e :: r, .ok l' :: r', p, p', .cons ha hr, h => ha.elim
  | .ok l :: r, .error e' :: r', p, p', .cons ha hr, h => ha.elim
  | .ok l :: r, .ok l' :: r', p, p', .cons ha hr, h => by
    obtain ⟨hn, ha⟩ := ha
    rw [shown, shown]
    cases hd : decode l.1 with
    | none =>
      rw [hd] at ha
      cases hd' : decode l'.1 with
      | none => exact ⟨rfl, rfl, h⟩
      | some t' => rw [hd'] at ha; exact ha.elim
    | some t =>
      rw [hd] at ha
      cases hd' : decode l'.1 with
      | none => rw [hd'] at ha; exact ha.elim
      | some t' =>
        rw [hd'] at ha
        obtain ⟨ht, hmk⟩ := ha
        simp only
        have hc := norm_count h l l'
        by_cases hm : "TASK [log-classify".toList <:+: t
        · rw [if_pos hm, if_pos (hmk.1 hm)]
          have hall := norm_all_eq h
          by_cases h0 : p.all = []
          · have h0' : p'.all = [] := by
              rw [h0] at hall
              exact List.map_eq_nil_iff.1 hall.symm
            rw [if_pos h0, if_pos h0']
            exact ⟨rfl, rfl, norm_marker_eq hc⟩
          · have h0' : ¬ p'.all = [] := by
              intro h0'
              rw [h0'] at hall
              exact h0 (List.map_eq_nil_iff.1 hall)
            rw [if_neg h0, if_neg h0']
            obtain ⟨a, b, c⟩ := shown_alike hr (norm_marker_eq hc)
            simp only [List.map_append]
            exact ⟨by rw [hall, a], b, c⟩
        · rw [if_neg hm, if_neg fun hm' => hm (hmk.2 hm')]
          have hl := norm_step (dist := dist) (over := over) hc ht hn
          have he : p.ends tok ⟨t, l.2⟩ = p'.ends tok ⟨t', l'.2⟩ := by
            obtain ⟨h1, h2, h3, _⟩ := norm_seen h
            unfold Display.ends
            simp only
            rw [ht, h1, h2, h3]
          rw [he]
          split
          · have hnx : normDisplay tok ((p.count l).line tok dist over ⟨t, l.2⟩).next = normDisplay tok ((p'.count l').line tok dist over ⟨t', l'.2⟩).next := by
              rw [norm_next, norm_next, hl]
            have htd : normDisplay tok ((p.count l).line tok dist over ⟨t, l.2⟩).next.told = normDisplay tok ((p'.count l').line tok dist over ⟨t', l'.2⟩).next.told := by
              rw [norm_told, norm_told, hnx]
            obtain ⟨a, b, c⟩ := shown_alike hr htd
            simp only [List.map_append]
            have hdone := congrArg (fun q => q.view.done) hnx
            simp only [normDisplay, normView] at hdone
            exact ⟨by rw [hdone, a], b, c⟩
          · exact shown_alike hr hl

/-- C135, for every sequence of results of the reader, and another one which differs at most in what is removed by the normalisation: the same contexts are reported, with the same
positions and distances and the same normalised lines; the report ends in the same way, with the same tokens known and the same number of lines. -/
theorem C135_source (hs : Spec.Pointwise env.search dist) (skip : List Str) {r r' : List (Ev ε)} (h : List.Forall₂ (Alike env.tokenize env.decode) r r') :
    (process env skip r).1.map (normal env.tokenize) = (process env skip r').1.map (normal env.tokenize) ∧
    (process env skip r).2.1 = (process env skip r').2.1 ∧
    (∀ t, t ∈ (process env skip r).2.2.skipLines ↔ t ∈ (process env skip r').2.2.skipLines) ∧
    (process env skip r).2.2.lineCount = (process env skip r').2.2.lineCount := by
  obtain ⟨a1, a2, a3, a4, _⟩ := C128_exact hs skip r
  obtain ⟨b1, b2, b3, b4, _⟩ := C128_exact hs skip r'
  obtain ⟨c1, c2, c3⟩ := shown_alike (dist := dist) (over := env.over) (p := Display.start skip) (p' := Display.start skip) h rfl
  obtain ⟨d1, _, _, _, _, d6⟩ := norm_seen c3
  refine ⟨by rw [a1, b1]; exact c1, by rw [a2, b2]; exact c2, fun t => by rw [a3, b3, d1], by rw [a4, b4, d6]⟩

theorem alike_of {t t' : Str} {l l' : LogLine} (h : decode l.1 = some t ∧ decode l'.1 = some t' ∧ l.2 = l'.2 ∧ tok t = tok t' ∧
    ("TASK [log-classify".toList <:+: t ↔ "TASK [log-classify".toList <:+: t')) : Alike tok decode (.ok l : Ev ε) (.ok l') := by
  refine ⟨h.2.2.1, ?_⟩
  rw [h.1, h.2.1]
  exact h.2.2.2

/-- an environment which normalises a line by removing its digits -/
def toyDigits : Env Nat := { toy with tokenize := fun t => t.filter fun c => !c.isDigit }

/-- The hypotheses are met, and an anomaly is reported at the same position in both. -/
example : List.Forall₂ (Alike toyDigits.tokenize toyDigits.decode) [(.ok (toyL "12 a" 1) : Ev Unit), .ok (toyL "Xb 3" 2), .ok (toyL "c" 3)]
      [.ok (toyL "4 a" 1), .ok (toyL "Xb 567" 2), .ok (toyL "c8" 3)] ∧
    (process toyDigits [] [(.ok (toyL "12 a" 1) : Ev Unit), .ok (toyL "Xb 3" 2), .ok (toyL "c" 3)]).1 =
      [⟨["12 a".toList], ⟨1, 2, "Xb 3".toList⟩, ["c".toList]⟩] ∧
    (process toyDigits [] [(.ok (toyL "4 a" 1) : Ev Unit), .ok (toyL "Xb 567" 2), .ok (toyL "c8" 3)]).1 =
      [⟨["4 a".toList], ⟨1, 2, "Xb 567".toList⟩, ["c8".toList]⟩] := by
  have hp : Spec.Pointwise toyDigits.search toyDist := toy_pointwise
  obtain ⟨a1, _⟩ := C128_exact (ε := Unit) (env := toyDigits) hp [] [(.ok (toyL "12 a" 1) : Ev Unit), .ok (toyL "Xb 3" 2), .ok (toyL "c" 3)]
  obtain ⟨b1, _⟩ := C128_exact (ε := Unit) (env := toyDigits) hp [] [(.ok (toyL "4 a" 1) : Ev Unit), .ok (toyL "Xb 567" 2), .ok (toyL "c8" 3)]
  rw [a1, b1]
  refine ⟨.cons (alike_of (t := "12 a".toList) (t' := "4 a".toList) ?_) (.cons (alike_of (t := "Xb 3".toList) (t' := "Xb 567".toList) ?_)
    (.cons (alike_of (t := "c".toList) (t' := "c8".toList) ?_) .nil)), by decide +kernel, by decide +kernel⟩ <;> decide +kernel

end LJ.Process

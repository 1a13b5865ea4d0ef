/-
C131: an index with smaller distances reports no other line, whatever the reader returns.
-/
import Verif.Process.ExactProps
namespace LJ.Process

namespace Spec
variable {D ε : Type}

/-- No line of the source is one of the job analysis. -/
def Unmarked (decode : Bytes → Option Str) (evs : List (Ev ε)) : Prop :=
  ∀ l t, .ok l ∈ evs → decode l.1 = some t → ¬ "TASK [log-classify".toList <:+: t

/-- Which line an anomaly is: its number and its text. -/
def lineOf (a : Anomaly D) : Nat × Str := (a.pos, a.line)

end Spec

open Spec (Progress reported Unmarked lineOf)
variable {D ε : Type}

theorem sublist_append_split {α : Type} : ∀ {A B C : List α}, (A ++ B).Sublist C → ∃ X Y, C = X ++ Y ∧ A.Sublist X ∧ B.Sublist Y
  | [], B, C, h => ⟨[], C, rfl, .slnil, h⟩
  | a :: A, B, C, h => by
    induction C with
    | nil => cases h
    | cons c C ih =>
      cases h with
      | cons _ h =>
        obtain ⟨X, Y, e, h1, h2⟩ := ih h
        exact ⟨c :: X, Y, by rw [e]; rfl, .cons _ h1, h2⟩
      | cons_cons _ h =>
        obtain ⟨X, Y, e, h1, h2⟩ := sublist_append_split h
        exact ⟨a :: X, Y, by rw [e]; rfl, .cons_cons _ h1, h2⟩

theorem dropLast_toList {α : Type} (l : List α) : l.dropLast ++ l.getLast?.toList = l := by
  cases hl : l.getLast? with
  | none => rw [List.getLast?_eq_none_iff.1 hl]; rfl
  | some x =>
    have := List.dropLast_append_getLast? x (by rw [hl]; rfl)
    simpa using this

/-- what was found with the smaller distances is among what was found and what was reported before (`lead`) with the larger ones -/
structure Less (lead : List (Nat × Str)) (p' p : Progress D) : Prop where
  seen : p'.seen = p.seen
  new : p'.new = p.new
  lines : p'.lines = p.lines
  read : p'.read = p.read
  bytes : p'.bytes = p.bytes
  live : p.held = [] → p'.held = []
  held : (p'.since = p.since ∧ (p'.held.map lineOf).Sublist (lead ++ p.held.map lineOf)) ∨
    (p.since < p'.since ∧ (p'.held.map lineOf).Sublist (lead ++ (p.held.map lineOf).dropLast))

theorem Less.sub {lead : List (Nat × Str)} {p' p : Progress D} (h : Less lead p' p) : (p'.held.map lineOf).Sublist (lead ++ p.held.map lineOf) := by
  rcases h.held with h | h
  · exact h.2
  · exact h.2.trans (List.Sublist.append (List.Sublist.refl _) (List.dropLast_sublist _))

variable {tok : Str → Str} {dist dist' : Str → D} {over : D → Bool}

theorem less_line (hle : ∀ t, over (dist' t) = true → over (dist t) = true) {lead : List (Nat × Str)} {p' p : Progress D} (h : Less lead p' p) (l : Spec.Line) :
    Less lead (p'.line tok dist' over l) (p.line tok dist over l) := by
  have hsub := h.sub
  obtain ⟨h1, h2, h3, h4, h5, hv, h6⟩ := h
  unfold Spec.Progress.line
  rw [h1]
  by_cases hs : tok l.text ∈ p.seen
  · simp only [if_pos hs]
    refine ⟨rfl, h2, by simp only; omega, h4, h5, hv, ?_⟩
    rcases h6 with h | h
    · exact .inl ⟨by simp only; omega, h.2⟩
    · exact .inr ⟨by simp only; omega, h.2⟩
  · simp only [if_neg hs]
    by_cases h' : over (dist' (tok l.text)) = true
    · simp only [if_pos h', if_pos (hle _ h')]
      refine ⟨rfl, by simp only; omega, by simp only; omega, h4, h5, by simp, .inl ⟨rfl, ?_⟩⟩
      simp only [List.map_append, List.map_cons, List.map_nil, ← List.append_assoc]
      exact hsub.append (List.Sublist.refl _)
    · rw [if_neg h']
      by_cases hd : over (dist (tok l.text)) = true
      · rw [if_pos hd]
        refine ⟨rfl, by simp only; omega, by simp only; omega, h4, h5, by simp, .inr ⟨by simp only; omega, ?_⟩⟩
        simp only [List.map_append, List.map_cons, List.map_nil, List.dropLast_concat]
        exact hsub
      · rw [if_neg hd]
        refine ⟨rfl, by simp only; omega, by simp only; omega, h4, h5, hv, ?_⟩
        rcases h6 with h | h
        · exact .inl ⟨by simp only; omega, h.2⟩
        · exact .inr ⟨by simp only; omega, h.2⟩

/-- at the end of a chunk -/
theorem less_next {lead : List (Nat × Str)} {p' p : Progress D} (h : Less lead p' p) : ∃ pre lead', lead ++ p.out.map lineOf = pre ++ lead' ∧
    (p'.out.map lineOf).Sublist pre ∧ Less lead' p'.next p.next := by
  have hsub := h.sub
  obtain ⟨h1, h2, h3, h4, h5, hv, h6⟩ := h
  unfold Progress.out Progress.next
  have hH' := dropLast_toList (p'.held.map lineOf)
  have hH := dropLast_toList (p.held.map lineOf)
  have hlast : ∀ l : List (Anomaly D), (l.map lineOf).getLast?.toList = l.getLast?.toList.map lineOf := by
    intro l; rw [List.getLast?_map]; cases l.getLast? <;> rfl
  have hv' : (if p.since < 3 then p.held.getLast?.toList else []) = [] → (if p'.since < 3 then p'.held.getLast?.toList else []) = [] := by
    by_cases h' : p'.since < 3
    · have h0 : p.since < 3 := by rcases h6 with h | h <;> omega
      rw [if_pos h', if_pos h0]
      cases hg : p.held.getLast? with
      | none => intro _; rw [hv (List.getLast?_eq_none_iff.1 hg)]; rfl
      | some a => intro h; cases h
    · rw [if_neg h']; exact fun _ => rfl
  by_cases h' : p'.since < 3
  · have h0 : p.since < 3 := by rcases h6 with h | h <;> omega
    simp only [if_pos h', if_pos h0, List.map_dropLast] at hv' ⊢
    rcases h6 with h | h
    · -- the same last anomaly, or one of those before
      rcases hemp : p'.held.getLast? with _ | a
      · have : p'.held = [] := List.getLast?_eq_none_iff.1 hemp
        refine ⟨lead ++ (p.held.map lineOf).dropLast, [], by simp, by rw [this]; exact List.nil_sublist _, ⟨h1, rfl, rfl, h4, h5, fun _ => rfl, .inl ⟨h.1, by simp⟩⟩⟩
      · rw [← hH', ← hH, ← List.append_assoc] at hsub
        obtain ⟨X, Y, e, s1, s2⟩ := sublist_append_split hsub
        rw [hlast, hemp] at s2
        rcases List.append_eq_append_iff.1 e with ⟨Z, e1, e2⟩ | ⟨Z, e1, e2⟩
        · -- X is longer: Y is a part of the last one
          rw [hlast] at e2
          rcases hp : p.held.getLast? with _ | b
          · rw [hp] at e2
            have : Y = [] := by
              have := congrArg List.length e2
              simp only [List.length_map, Option.toList, List.length_nil, List.length_append] at this
              exact List.length_eq_zero_iff.1 (by omega)
            rw [this] at s2
            cases s2
          · rw [hp] at e2
            cases Z with
            | nil =>
              simp only [List.append_nil] at e1
              refine ⟨X, [], by rw [e1]; simp, s1, ⟨h1, rfl, rfl, h4, h5, nofun, .inl ⟨h.1, ?_⟩⟩⟩
              simp only [Option.toList, List.nil_append] at e2 s2 ⊢
              rw [e2]; exact s2
            | cons z Z =>
              have : Y = [] := by
                have := congrArg List.length e2
                simp only [List.length_map, Option.toList, List.length_cons, List.length_nil, List.length_append] at this
                exact List.length_eq_zero_iff.1 (by omega)
              rw [this] at s2
              cases s2
        · refine ⟨X, Z, e1, s1, ⟨h1, rfl, rfl, h4, h5, by rw [hemp] at hv'; exact hv', .inl ⟨h.1, ?_⟩⟩⟩
          rw [hlast] at e2
          simp only
          rw [← e2]; exact s2
    · have hs2 := h.2
      rw [← hH'] at hs2
      obtain ⟨X, Y, e, s1, s2⟩ := sublist_append_split hs2
      refine ⟨X, Y, e, s1, ⟨h1, rfl, rfl, h4, h5, hv', .inr ⟨h.1, ?_⟩⟩⟩
      rw [hlast] at s2
      refine s2.trans ?_
      exact List.sublist_append_left _ _
  · simp only [if_neg h']
    by_cases h0 : p.since < 3
    · simp only [if_pos h0, List.map_dropLast]
      have h : p.since < p'.since ∧ (p'.held.map lineOf).Sublist (lead ++ (p.held.map lineOf).dropLast) := by
        rcases h6 with h | h
        · omega
        · exact h
      exact ⟨lead ++ (p.held.map lineOf).dropLast, [], by simp, h.2, ⟨h1, rfl, rfl, h4, h5, fun _ => rfl, .inr ⟨h.1, by simp⟩⟩⟩
    · simp only [if_neg h0]
      refine ⟨lead ++ p.held.map lineOf, [], by simp, hsub, ⟨h1, rfl, rfl, h4, h5, fun _ => rfl, ?_⟩⟩
      rcases h6 with h | h
      · exact .inl ⟨h.1, by simp⟩
      · exact .inr ⟨h.1, by simp⟩

theorem reported_less {decode : Bytes → Option Str} (hle : ∀ t, over (dist' t) = true → over (dist t) = true) : ∀ (evs : List (Ev ε)) (lead : List (Nat × Str)) (p' p : Progress D),
    Less lead p' p →
    let a' := reported tok dist' over decode p' evs
    let a := reported tok dist over decode p evs
    (a'.1.map lineOf).Sublist (lead ++ a.1.map lineOf) ∧
      (Unmarked decode evs → a'.2.1 = a.2.1 ∧ a'.2.2.seen = a.2.2.seen ∧ a'.2.2.read = a.2.2.read ∧ a'.2.2.bytes = a.2.2.bytes)
  | [], lead, p', p, h => by
    simp only [reported]
    exact ⟨h.sub, fun _ => ⟨trivial, h.seen, h.read, h.bytes⟩⟩
  | .error e :: r, lead, p', p, h => by
    simp only [reported]
    exact ⟨by simp, fun _ => ⟨trivial, h.seen, h.read, h.bytes⟩⟩
  | .ok l :: r, lead, p', p, h => by
    simp only [reported]
    cases hd : decode l.1 with
    | none => exact ⟨by simp, fun _ => ⟨rfl, h.seen, h.read, h.bytes⟩⟩
    | some t =>
      simp only
      have hu' : Unmarked decode (.ok l :: r) → Unmarked decode r := fun hu l t hl => hu l t (.tail _ hl)
      by_cases hm : "TASK [log-classify".toList <:+: t
      · simp only [if_pos hm]
        refine ⟨?_, fun hu => absurd hm (hu l t (.head _) hd)⟩
        by_cases h' : p'.held = []
        · rw [if_pos h']; simp
        · have h0 : ¬ p.held = [] := fun e => h' (h.live e)
          rw [if_neg h', if_neg h0]
          simp only [List.map_append]
          rw [← List.append_assoc]
          refine h.sub.append ?_
          have hn : Less [] (p'.count l).marker (p.count l).marker := by
            refine ⟨h.seen, rfl, ?_, by simp [Progress.count, Progress.marker, h.read], by simp [Progress.count, Progress.marker, h.bytes], fun _ => rfl, ?_⟩
            · show (if p'.new = 0 then p'.lines else 0) = if p.new = 0 then p.lines else 0
              rw [h.new, h.lines]
            · rcases h.held with g | g
              · exact .inl ⟨g.1, by simp [Progress.marker]⟩
              · exact .inr ⟨g.1, by simp [Progress.marker]⟩
          simpa using (reported_less hle r [] _ _ hn).1
      · simp only [if_neg hm]
        have hc : Less lead (p'.count l) (p.count l) :=
          ⟨h.seen, h.new, h.lines, by simp [Progress.count, h.read], by simp [Progress.count, h.bytes], h.live, h.held⟩
        have hl := less_line (tok := tok) hle hc ⟨t, l.2⟩
        have he : p'.ends tok ⟨t, l.2⟩ = p.ends tok ⟨t, l.2⟩ := by
          unfold Progress.ends
          rw [h.seen, h.lines, h.new]
        rw [he]
        cases p.ends tok ⟨t, l.2⟩ with
        | false =>
          simp only [Bool.false_eq_true, if_false]
          obtain ⟨g1, g2⟩ := reported_less hle r lead _ _ hl
          exact ⟨g1, fun hu => g2 (hu' hu)⟩
        | true =>
          simp only [if_true]
          obtain ⟨pre, lead', e, s1, hn⟩ := less_next hl
          obtain ⟨g1, g2⟩ := reported_less hle r lead' _ _ hn
          refine ⟨?_, fun hu => g2 (hu' hu)⟩
          simp only [List.map_append]
          rw [← List.append_assoc, e, List.append_assoc]
          exact s1.append g1

/-- C131 for one source: with smaller distances, whatever the reader returns, the lines reported are among those reported with the larger ones, in the same order.
Without a marker line the errors, the counts and the tokens which the next sources skip are the same. -/
theorem C131_source {env env' : Env D} (ht : env'.tokenize = env.tokenize) (hdec : env'.decode = env.decode) (ho : env'.over = env.over)
    (hs : Spec.Pointwise env.search dist) (hs' : Spec.Pointwise env'.search dist') (hle : ∀ t, env.over (dist' t) = true → env.over (dist t) = true)
    (skip : List Str) (r : List (Ev ε)) :
    ((process env' skip r).1.map fun c => lineOf c.anomaly).Sublist ((process env skip r).1.map fun c => lineOf c.anomaly) ∧
      (Unmarked env.decode r → (process env' skip r).2.1 = (process env skip r).2.1 ∧
        (∀ t, t ∈ (process env' skip r).2.2.skipLines ↔ t ∈ (process env skip r).2.2.skipLines) ∧
        (process env' skip r).2.2.lineCount = (process env skip r).2.2.lineCount ∧ (process env' skip r).2.2.byteCount = (process env skip r).2.2.byteCount) := by
  obtain ⟨a1, a2, a3, a4, a5⟩ := C126_exact hs skip r
  obtain ⟨b1, b2, b3, b4, b5⟩ := C126_exact hs' skip r
  rw [ht, hdec, ho] at b1 b2 b3 b4 b5
  obtain ⟨g1, g2⟩ := reported_less (tok := env.tokenize) (decode := env.decode) hle r [] (Progress.start skip) (Progress.start skip)
    ⟨rfl, rfl, rfl, rfl, rfl, fun _ => rfl, .inl ⟨rfl, by simp⟩⟩
  constructor
  · have e : ∀ l : List (AnomalyContext D), (l.map fun c => lineOf c.anomaly) = (l.map (·.anomaly)).map lineOf := fun l => by rw [List.map_map]; rfl
    rw [e, e, a1, b1]
    simpa using g1
  · intro hu
    obtain ⟨c2, c3, c4, c5⟩ := g2 hu
    exact ⟨by rw [a2, b2, c2], fun t => by rw [a3, b3, c3], by rw [a4, b4, c4], by rw [a5, b5, c5]⟩

/-- an index for which one more line is known -/
def toyMore : Env Nat := { toy with search := fun ts => ts.map fun t => if t = "X1".toList then 0 else toyDist t }

/-- With the larger distances two lines are reported, the second with a repeated one after it; with the smaller ones, the second line. -/
example : ((process toyMore [] (lines1.map (Except.ok (ε := Unit)))).1.map fun c => lineOf c.anomaly) = [(6, "X2".toList)] ∧
    ((process toy [] (lines1.map (Except.ok (ε := Unit)))).1.map fun c => lineOf c.anomaly) = [(3, "X1".toList), (6, "X2".toList)] ∧
    ((process toyMore [] (lines1.map (Except.ok (ε := Unit)))).1.map fun c => lineOf c.anomaly).Sublist
      ((process toy [] (lines1.map (Except.ok (ε := Unit)))).1.map fun c => lineOf c.anomaly) :=
  ⟨by decide +kernel, by decide +kernel, (C131_source (env := toy) (env' := toyMore) (dist := toyDist) (dist' := fun t => if t = "X1".toList then 0 else toyDist t)
    rfl rfl rfl toy_pointwise (fun _ => rfl) (fun t h => by
      by_cases e : t = "X1".toList
      · simp only [if_pos e] at h; cases h
      · simp only [if_neg e] at h; exact h) [] _).1⟩

end LJ.Process

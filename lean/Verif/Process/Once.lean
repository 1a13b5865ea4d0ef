/-
C33: a line is reported once, whatever the reader returns.
-/
import Verif.Process.ExactProps
namespace LJ.Process
open Spec (Progress reported)
variable {D ε : Type} {env : Env D} {dist : Str → D}

/-- the tokens of anomalies -/
def toks (tok : Str → Str) (as : List (Anomaly D)) : List Str := as.map fun a => tok a.line

/-- what is held was met, once -/
structure HeldOnce (tok : Str → Str) (p : Progress D) : Prop where
  once : (toks tok p.held).Nodup
  met : ∀ t ∈ toks tok p.held, t ∈ p.seen

theorem heldOnce_line {tok : Str → Str} {over : D → Bool} {p : Progress D} (h : HeldOnce tok p) (l : Spec.Line) :
    HeldOnce tok (p.line tok dist over l) ∧ (∀ t ∈ p.seen, t ∈ (p.line tok dist over l).seen) ∧
      ∀ t ∈ toks tok (p.line tok dist over l).held, t ∈ toks tok p.held ∨ t ∉ p.seen := by
  unfold Progress.line
  by_cases hs : tok l.text ∈ p.seen
  · simp only [if_pos hs]
    exact ⟨⟨h.once, h.met⟩, fun _ h => h, fun _ h => .inl h⟩
  · simp only [if_neg hs]
    by_cases ho : over (dist (tok l.text)) = true
    · simp only [if_pos ho]
      have e : toks tok (p.held ++ [⟨dist (tok l.text), l.num, l.text⟩]) = toks tok p.held ++ [tok l.text] := by simp [toks]
      refine ⟨⟨?_, ?_⟩, fun _ h => .tail _ h, ?_⟩
      · show (toks tok (p.held ++ _)).Nodup
        rw [e, List.nodup_append]
        refine ⟨h.once, by simp, ?_⟩
        intro a ha b hb
        rw [List.mem_singleton] at hb
        subst hb
        rintro rfl
        exact hs (h.met _ ha)
      · show ∀ t ∈ toks tok (p.held ++ _), _
        rw [e]
        intro t ht
        rcases List.mem_append.1 ht with ht | ht
        · exact .tail _ (h.met t ht)
        · rw [List.mem_singleton.1 ht]; exact .head _
      · show ∀ t ∈ toks tok (p.held ++ _), _
        rw [e]
        intro t ht
        rcases List.mem_append.1 ht with ht | ht
        · exact .inl ht
        · rw [List.mem_singleton.1 ht]; exact .inr hs
    · simp only [if_neg ho]
      exact ⟨⟨h.once, fun t ht => .tail _ (h.met t ht)⟩, fun _ h => .tail _ h, fun _ h => .inl h⟩

/-- at the end of a chunk, what is held is reported or stays -/
theorem out_next (p : Progress D) : p.out ++ p.next.held = p.held := by
  unfold Progress.out Progress.next
  by_cases h : p.since < 3
  · simp only [if_pos h]
    cases hh : p.held.getLast? with
    | none =>
      rw [List.getLast?_eq_none_iff] at hh
      rw [hh]
      rfl
    | some a =>
      obtain ⟨ys, hys⟩ := List.getLast?_eq_some_iff.1 hh
      rw [hys]
      simp
  · simp only [if_neg h, List.append_nil]

/-- what is reported was held or is new, and is then met -/
theorem reported_once {tok : Str → Str} {over : D → Bool} {decode : Bytes → Option Str} : ∀ (r : List (Ev ε)) (p : Progress D), HeldOnce tok p →
    (toks tok (reported tok dist over decode p r).1).Nodup ∧
    (∀ t ∈ toks tok (reported tok dist over decode p r).1, t ∈ toks tok p.held ∨ t ∉ p.seen) ∧
    (∀ t ∈ toks tok (reported tok dist over decode p r).1, t ∈ (reported tok dist over decode p r).2.2.seen) ∧
    ∀ t ∈ p.seen, t ∈ (reported tok dist over decode p r).2.2.seen
  | [], p, h => ⟨h.once, fun _ h => .inl h, h.met, fun _ h => h⟩
  | .error e :: _, p, h => ⟨by simp [reported, toks], by simp [reported, toks], by simp [reported, toks], fun _ h => h⟩
  | .ok l :: r, p, h => by
    rw [reported]
    cases hd : decode l.1 with
    | none => exact ⟨by simp [toks], by simp [toks], by simp [toks], fun _ h => h⟩
    | some t =>
      simp only
      by_cases hm : "TASK [log-classify".toList <:+: t
      · rw [if_pos hm]
        by_cases hh : p.held = []
        · rw [if_pos hh]
          exact ⟨by simp [toks], by simp [toks], by simp [toks], fun _ h => h⟩
        · rw [if_neg hh]
          have h' : HeldOnce tok (p.count l).marker := ⟨by simp [Progress.marker, toks], by simp [Progress.marker, toks]⟩
          obtain ⟨i1, i2, i3, i4⟩ := reported_once r (p.count l).marker h'
          have e : ∀ x : List (Anomaly D), toks tok (p.held ++ x) = toks tok p.held ++ toks tok x := by simp [toks]
          have hnew : ∀ t ∈ toks tok (reported tok dist over decode (p.count l).marker r).1, t ∉ p.seen := by
            intro t ht
            rcases i2 t ht with h0 | h0
            · simp [Progress.marker, toks] at h0
            · exact h0
          simp only [e]
          refine ⟨?_, ?_, ?_, i4⟩
          · rw [List.nodup_append]
            refine ⟨h.once, i1, ?_⟩
            rintro a ha b hb rfl
            exact hnew a hb (h.met a ha)
          · intro t ht
            rcases List.mem_append.1 ht with ht | ht
            · exact .inl ht
            · exact .inr (hnew t ht)
          · intro t ht
            rcases List.mem_append.1 ht with ht | ht
            · exact i4 t (h.met t ht)
            · exact i3 t ht
      · rw [if_neg hm]
        have hc : HeldOnce tok (p.count l) := ⟨h.once, h.met⟩
        obtain ⟨h', hsub, hheld⟩ := heldOnce_line (dist := dist) (over := over) hc ⟨t, l.2⟩
        by_cases he : p.ends tok ⟨t, l.2⟩ = true
        · rw [if_pos he]
          generalize (p.count l).line tok dist over ⟨t, l.2⟩ = p' at h' hsub hheld
          have hon := out_next p'
          have e : toks tok p'.held = toks tok p'.out ++ toks tok p'.next.held := by rw [← hon]; simp [toks]
          have hnd := h'.once
          rw [e, List.nodup_append] at hnd
          have h'' : HeldOnce tok p'.next := ⟨hnd.2.1, fun t ht => h'.met t (by rw [e]; exact List.mem_append_right _ ht)⟩
          obtain ⟨i1, i2, i3, i4⟩ := reported_once r p'.next h''
          have e' : ∀ x : List (Anomaly D), toks tok (p'.out ++ x) = toks tok p'.out ++ toks tok x := by simp [toks]
          simp only [e']
          have hout : ∀ t ∈ toks tok p'.out, t ∈ toks tok p'.held := fun t ht => by rw [e]; exact List.mem_append_left _ ht
          refine ⟨?_, ?_, ?_, fun t ht => i4 t (hsub t ht)⟩
          · rw [List.nodup_append]
            refine ⟨hnd.1, i1, ?_⟩
            rintro a ha b hb rfl
            rcases i2 a hb with h0 | h0
            · exact hnd.2.2 a ha a h0 rfl
            · exact h0 (h'.met a (hout a ha))
          · intro t ht
            rcases List.mem_append.1 ht with ht | ht
            · exact hheld t (hout t ht)
            · rcases i2 t ht with h0 | h0
              · exact hheld t (by rw [e]; exact List.mem_append_right _ h0)
              · exact .inr fun hx => h0 (hsub t hx)
          · intro t ht
            rcases List.mem_append.1 ht with ht | ht
            · exact i4 t (h'.met t (hout t ht))
            · exact i3 t ht
        · rw [if_neg he]
          obtain ⟨i1, i2, i3, i4⟩ := reported_once r _ h'
          refine ⟨i1, ?_, i3, fun t ht => i4 t (hsub t ht)⟩
          intro t ht
          rcases i2 t ht with h0 | h0
          · exact hheld t h0
          · exact .inr fun hx => h0 (hsub t hx)

/-- C33, whatever the reader returns (failures, lines which are not UTF-8, markers): the tokens of the lines reported for a source are distinct, were not
met before, and are not reported by the next sources, which start with what was met. -/
theorem C33_any (hs : Spec.Pointwise env.search dist) (skip : List Str) (r : List (Ev ε)) :
    ((process env skip r).1.map fun c => env.tokenize c.anomaly.line).Nodup ∧
    (∀ c ∈ (process env skip r).1, env.tokenize c.anomaly.line ∉ skip ∧ env.tokenize c.anomaly.line ∈ (process env skip r).2.2.skipLines) ∧
    ∀ t ∈ skip, t ∈ (process env skip r).2.2.skipLines := by
  obtain ⟨e1, _, e2, _⟩ := C126_exact hs skip r
  obtain ⟨h1, h2, h3, h4⟩ := reported_once (tok := env.tokenize) (dist := dist) (over := env.over) (decode := env.decode) r (Progress.start skip)
    ⟨by simp [Progress.start, toks], by simp [Progress.start, toks]⟩
  have e : toks env.tokenize (reported env.tokenize dist env.over env.decode (Progress.start skip) r).1 =
      (process env skip r).1.map fun c => env.tokenize c.anomaly.line := by
    rw [← e1]
    simp [toks]
  rw [e] at h1 h2 h3
  refine ⟨h1, fun c hc => ?_, fun t ht => (e2 t).2 (h4 t ht)⟩
  have hm := List.mem_map_of_mem (f := fun c => env.tokenize c.anomaly.line) hc
  refine ⟨?_, (e2 _).2 (h3 _ hm)⟩
  rcases h2 _ hm with h0 | h0
  · simp [Progress.start, toks] at h0
  · exact h0

end LJ.Process

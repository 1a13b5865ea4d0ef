/-
Exactly which lines are reported, whatever the reader returns: the processor against a description of its
progress which knows nothing of buffers, targets and contexts.
-/
import Verif.Process.General
import Verif.Process.Full
namespace LJ.Process

/-! ### The specification -/
namespace Spec
variable {D ε : Type}

/-- How far the report of a source is. -/
structure Progress (D : Type) where
  /-- the tokens met so far, in this source and the previous ones -/
  seen : List Str
  /-- the lines with new tokens, since the last chunk ended -/
  new : Nat
  /-- all the lines, since the last chunk ended -/
  lines : Nat
  /-- the anomalies found and not yet reported -/
  held : List (Anomaly D)
  /-- the lines after the last anomaly found -/
  since : Nat
  /-- the lines and the bytes counted -/
  read : Nat
  bytes : Nat

/-- Before the first line, when `seen` are the tokens of the previous sources. -/
def Progress.start (seen : List Str) : Progress D := ⟨seen, 0, 0, [], 0, 0, 0⟩

/-- One more line: it is an anomaly when its tokens are new and their distance is over the threshold. -/
def Progress.line (tok : Str → Str) (dist : Str → D) (over : D → Bool) (p : Progress D) (l : Line) : Progress D :=
  if tok l.text ∈ p.seen then { p with lines := p.lines + 1, since := p.since + 1 }
  else if over (dist (tok l.text)) then
    { p with seen := tok l.text :: p.seen, new := p.new + 1, lines := p.lines + 1, since := 0,
             held := p.held ++ [⟨dist (tok l.text), l.num, l.text⟩] }
  else { p with seen := tok l.text :: p.seen, new := p.new + 1, lines := p.lines + 1, since := p.since + 1 }

/-- The line ends a chunk: it is the 512th new line, or a repeated line after 5120 lines. -/
def Progress.ends (tok : Str → Str) (p : Progress D) (l : Line) : Bool :=
  if tok l.text ∈ p.seen then decide (5120 < p.lines + 1) else decide (p.new + 1 = 512)

/-- What is reported at the end of a chunk: everything held, but for the last anomaly when it has not yet three lines after it. -/
def Progress.out (p : Progress D) : List (Anomaly D) := if p.since < 3 then p.held.dropLast else p.held

/-- What remains. -/
def Progress.next (p : Progress D) : Progress D :=
  { p with new := 0, lines := 0, held := if p.since < 3 then p.held.getLast?.toList else [] }

/-- At the marker, everything held is reported. The chunk ends as well, if it has a new line. -/
def Progress.marker (p : Progress D) : Progress D :=
  { p with new := 0, lines := if p.new = 0 then p.lines else 0, held := [] }

/-- A line was read. -/
def Progress.count (p : Progress D) (l : LogLine) : Progress D := { p with read := p.read + 1, bytes := p.bytes + l.1.length }

/-- The anomalies reported for the results `r` of the reader, how the report ends, and the progress then: it ends at the end of the source, at
a failure, and at a marker line when nothing is held. -/
def reported (tok : Str → Str) (dist : Str → D) (over : D → Bool) (decode : Bytes → Option Str) :
    Progress D → List (Ev ε) → List (Anomaly D) × Stop ε × Progress D
  | p, [] => (p.held, .finished, p)
  | p, .error e :: _ => ([], .failed (.io e), p)
  | p, .ok l :: r =>
    match decode l.1 with
    | none => ([], .failed .utf8, p)
    | some t =>
      if "TASK [log-classify".toList <:+: t then
        if p.held = [] then ([], .finished, p.count l)
        else
          let rest := reported tok dist over decode (p.count l).marker r
          (p.held ++ rest.1, rest.2)
      else
        let p' := (p.count l).line tok dist over ⟨t, l.2⟩
        if p.ends tok ⟨t, l.2⟩ then
          let rest := reported tok dist over decode p'.next r
          (p'.out ++ rest.1, rest.2)
        else reported tok dist over decode p' r

end Spec

open Spec (firsts cuts Progress reported)
variable {D ε : Type} {env : Env D} {dist : Str → D}

/-! ### A context without a successor is complete -/

/-- the last context which was finished has all its lines, when none is open -/
def Closed (f : Flush D) : Prop := f.currentAnomaly = none → ∀ a ∈ f.anomalies.getLast?, 3 ≤ a.after.length

theorem feed_closed {f f' : Flush D} {bytes : Bytes} (h : Closed f) (he : f.feed env bytes = some f') : Closed f' := by
  unfold Flush.feed at he
  cases hc : f.currentAnomaly with
  | none => rw [hc] at he; cases he; exact h
  | some a =>
    rw [hc] at he
    cases hd : env.decode bytes with
    | none => simp [hd] at he
    | some raw =>
      simp only [hd, Option.bind_eq_bind, Option.bind_some] at he
      split at he
      · rename_i h3
        cases he
        intro _ b hb
        simp only [List.getLast?_append, List.getLast?_singleton, Option.some_or, Option.mem_some_iff] at hb
        subst hb; exact h3
      · cases he; intro hn; cases hn

theorem scan_closed (isAnomaly : Bool) (coord : Nat) : ∀ (B : List Entry) (f f' : Flush D) (t : Option (Str × Nat)), Closed f →
    scan env isAnomaly coord B f = some (f', t) → Closed f' := by
  intro B
  induction B with
  | nil => intro f f' t h he; cases he; exact h
  | cons e B ih =>
    intro f f' t h he
    obtain ⟨⟨bytes, num⟩, c⟩ := e
    unfold scan at he
    simp only at he
    have h1 : Closed { f with bufferPos := f.bufferPos + 1 } := h
    split at he
    · cases hd : env.decode bytes with
      | none => simp [hd] at he
      | some raw => simp only [hd, Option.bind_eq_bind, Option.bind_some] at he; cases he; exact h1
    · cases hf : Flush.feed env { f with bufferPos := f.bufferPos + 1 } bytes with
      | none => simp [hf] at he
      | some f1 =>
        simp only [hf, Option.bind_eq_bind, Option.bind_some] at he
        have h2 := feed_closed h1 hf
        split at he
        · cases he; exact h2
        · exact ih _ _ _ h2 he

theorem onTarget_closed {buffer : List Entry} {left : List Str} {x : D × Nat} {f f' : Flush D} (h : Closed f)
    (he : onTarget env buffer left f x = some f') : Closed f' := by
  unfold onTarget at he
  cases hs : sliceFrom buffer f.bufferPos with
  | none => simp [hs] at he
  | some B =>
    simp only [hs, Option.bind_eq_bind, Option.bind_some] at he
    cases hsc : scan env (env.over x.1) x.2 B f with
    | none => simp [hsc] at he
    | some y =>
      obtain ⟨f1, t⟩ := y
      simp only [hsc, Option.bind_some] at he
      have h1 := scan_closed _ _ _ _ _ _ h hsc
      cases t with
      | none =>
        simp only at he
        split at he
        · cases he
        · cases he; exact h1
      | some y =>
        obtain ⟨a, b⟩ := y
        simp only at he
        cases hcur : f1.currentAnomaly
        all_goals
          rw [hcur] at he
          simp only at he
          split at he
          · cases he
          · obtain ⟨before, _, he⟩ := Option.bind_eq_some_iff.1 he
            cases he; intro hn; cases hn

theorem targets_closed {buffer : List Entry} {left : List Str} : ∀ (xs : List (D × Nat)) (f f' : Flush D), Closed f →
    xs.foldlM (onTarget env buffer left) f = some f' → Closed f' := by
  intro xs
  induction xs with
  | nil => intro f f' h he; cases he; exact h
  | cons x xs ih =>
    intro f f' h he
    rw [List.foldlM_cons] at he
    cases h1 : onTarget env buffer left f x with
    | none => simp [h1] at he
    | some f1 =>
      simp only [h1, Option.bind_eq_bind, Option.bind_some] at he
      exact ih _ _ (onTarget_closed h h1) he

theorem tail_closed : ∀ (B : List Entry) (f f' : Flush D), Closed f → tail env B f = some f' → Closed f' := by
  intro B
  induction B with
  | nil => intro f f' h he; unfold tail at he; cases he; exact h
  | cons e B ih =>
    intro f f' h he
    obtain ⟨⟨bytes, num⟩, c⟩ := e
    unfold tail at he
    cases hc : f.currentAnomaly with
    | none => rw [hc] at he; cases he; exact h
    | some a =>
      rw [hc] at he
      cases hd : env.decode bytes with
      | none => simp [hd] at he
      | some raw =>
        simp only [hd, Option.bind_eq_bind, Option.bind_some] at he
        split at he
        · rename_i h3
          cases he
          intro _ b hb
          simp only [List.getLast?_append, List.getLast?_singleton, Option.some_or, Option.mem_some_iff] at hb
          subst hb; exact h3
        · exact ih _ _ (by intro hn; cases hn) he

theorem doSearch_closed {s s' : St D} (ha : s.anomalies = []) (he : s.doSearch env = some s') :
    s'.buffer = [] ∧ (s'.currentAnomaly = none → ∀ a ∈ s'.anomalies.getLast?, 3 ≤ a.after.length) := by
  unfold St.doSearch at he
  simp only [Option.bind_eq_bind] at he
  cases h1 : ((env.search s.targets).zip s.targetsCoord).foldlM (onTarget env s.buffer s.leftOvers) ⟨0, 0, s.currentAnomaly, s.anomalies⟩ with
  | none => simp [h1] at he
  | some f1 =>
    simp only [h1, Option.bind_some] at he
    have c1 : Closed f1 := targets_closed _ _ _ (by intro _ a h; rw [ha] at h; cases h) h1
    cases h2 : lastAfter env s.buffer f1 with
    | none => simp [h2] at he
    | some f2 =>
      simp only [h2, Option.bind_some] at he
      have c2 : Closed f2 := by
        unfold lastAfter at h2
        split at h2
        · exact tail_closed _ _ _ c1 h2
        · cases h2; exact c1
      unfold St.reset at he
      simp only [Option.bind_eq_bind] at he
      generalize sliceFrom _ _ = q at he
      cases q with
      | none => cases he
      | some rest =>
        simp only [Option.bind_some] at he
        cases h3 : texts env rest with
        | none => simp [h3] at he
        | some left =>
          simp only [h3, Option.bind_some] at he
          cases he
          exact ⟨rfl, c2⟩

/-! ### The simulation -/

/-- all the contexts are returned -/
theorem Inv.popAll {full : Prop} {cut : Nat → Prop} {skip0 : List Str} {m mb : Nat} {L : List Entry} {base k : Nat} {F P : List Entry}
    {V : List Win} : ∀ (as : List (AnomalyContext D)) (em : List (AnomalyContext D)) (s : St D), s.anomalies = as →
    Inv env dist full cut skip0 m mb em L base k F P V s →
    Inv env dist full cut skip0 m mb (as.reverse ++ em) L base k F P V { s with anomalies := [] } := by
  intro as
  induction as with
  | nil =>
    intro em s ha h
    obtain ⟨_, _, _, _, _, _, _, _, _, _⟩ := s
    simp only at ha; subst ha; exact h
  | cons a as ih =>
    intro em s ha h
    have := ih (a :: em) _ rfl (h.pop ha)
    simpa using this

theorem collect_popAll : ∀ (as : List (AnomalyContext D)) (n : Nat) (r : List (Ev ε)) (s : St D), s.anomalies = as →
    collect env (n + as.length) r s =
      (as ++ (collect env n r { s with anomalies := [] }).1, (collect env n r { s with anomalies := [] }).2) := by
  intro as
  induction as with
  | nil =>
    intro n r s ha
    obtain ⟨_, _, _, _, _, _, _, _, _, _⟩ := s
    simp only at ha; subst ha; rfl
  | cons a as ih =>
    intro n r s ha
    have e : n + (a :: as).length = (n + as.length) + 1 := by simp; omega
    rw [e, collect_pop _ r ha, ih n r _ rfl]
    rfl

/-- The progress `p` describes the state `s`. -/
def Sim (env : Env D) (dist : Str → D) (p : Progress D) (s : St D) : Prop :=
  ∃ skip0 m mb em L base k F P V, Inv env dist False (fun _ => True) skip0 m mb em L base k F P V s ∧ s.anomalies = [] ∧
    (∀ x, x ∈ p.seen ↔ x ∈ s.skipLines) ∧ p.new = s.targets.length ∧ p.lines = s.buffer.length ∧
    p.held = s.currentAnomaly.toList.map (·.anomaly) ++ (P.filter (overE env dist)).map (anomE env dist) ∧
    (p.held ≠ [] → ∃ i e, L[i]? = some e ∧ ((F ++ P).filter (overE env dist)).getLast? = some e ∧ p.since + i + 1 = L.length) ∧
    p.read = s.lineCount ∧ p.bytes = s.byteCount

theorem Sim.start (skip : List Str) : Sim env dist (Progress.start skip) (St.new skip) :=
  ⟨skip, 0, 0, [], [], 0, 0, [], [], [], Inv.start skip, rfl, fun _ => Iff.rfl, rfl, rfl, rfl, fun h => absurd rfl h, rfl, rfl⟩

/-- what is held, from the invariant before and after -/
theorem held_eq {skip0 : List Str} {m mb m' mb' : Nat} {em : List (AnomalyContext D)} {L L' : List Entry} {base k base' k' : Nat}
    {F P N : List Entry} {V V' : List Win} {s s' : St D} (h : Inv env dist False (fun _ => True) skip0 m mb em L base k F P V s)
    (ha : s.anomalies = []) (h' : Inv env dist False (fun _ => True) skip0 m' mb' em L' base' k' (F ++ N) [] V' s') :
    (s'.anomalies ++ s'.currentAnomaly.toList).map (·.anomaly) =
      s.currentAnomaly.toList.map (·.anomaly) ++ (N.filter (overE env dist)).map (anomE env dist) := by
  have e1 := shows_anomaly h.idle.shows_ h.idle.idx
  have e2 := shows_anomaly h'.idle.shows_ h'.idle.idx
  simp only [ha, List.reverse_nil, List.append_nil] at e1
  have e1 := congrArg List.reverse e1
  have e2 := congrArg List.reverse e2
  simp only [List.map_append, List.reverse_append, ← List.map_reverse, List.reverse_reverse, List.filter_append] at e1 e2
  rw [← e1] at e2
  have hr : ∀ o : Option (AnomalyContext D), o.toList.reverse = o.toList := by intro o; cases o <;> rfl
  rw [hr, hr, List.append_assoc, List.append_cancel_left_eq] at e2
  rw [List.map_append]
  exact e2

theorem entry_unique {L : List Entry} (hc : (L.map Prod.snd).Pairwise (· < ·)) {i j : Nat} {e : Entry} (hi : L[i]? = some e)
    (hj : L[j]? = some e) : i = j := by
  have key : ∀ a b : Nat, a < b → L[a]? = some e → L[b]? = some e → False := by
    intro a b hab h1 h2
    obtain ⟨ha, h1⟩ := List.getElem?_eq_some_iff.1 h1
    obtain ⟨hb, h2⟩ := List.getElem?_eq_some_iff.1 h2
    have := (List.pairwise_iff_getElem.1 hc) a b (by simpa using ha) (by simpa using hb) hab
    simp only [List.getElem_map, h1, h2] at this
    exact Nat.lt_irrefl _ this
  rcases Nat.lt_trichotomy i j with h | h | h
  · exact (key _ _ h hi hj).elim
  · exact h
  · exact (key _ _ h hj hi).elim

section
variable (tok : Str → Str) (over : D → Bool) (p : Progress D) (l : Spec.Line)
theorem line_read : (p.line tok dist over l).read = p.read := by
  by_cases h1 : tok l.text ∈ p.seen <;> by_cases h2 : over (dist (tok l.text)) = true <;> simp [Progress.line, h1, h2]
theorem line_bytes : (p.line tok dist over l).bytes = p.bytes := by
  by_cases h1 : tok l.text ∈ p.seen <;> by_cases h2 : over (dist (tok l.text)) = true <;> simp [Progress.line, h1, h2]
theorem line_lines : (p.line tok dist over l).lines = p.lines + 1 := by
  by_cases h1 : tok l.text ∈ p.seen <;> by_cases h2 : over (dist (tok l.text)) = true <;> simp [Progress.line, h1, h2]
theorem line_new : (p.line tok dist over l).new = p.new + if tok l.text ∈ p.seen then 0 else 1 := by
  by_cases h1 : tok l.text ∈ p.seen <;> by_cases h2 : over (dist (tok l.text)) = true <;> simp [Progress.line, h1, h2]
theorem line_seen (x : Str) : x ∈ (p.line tok dist over l).seen ↔ x = tok l.text ∨ x ∈ p.seen := by
  by_cases h1 : tok l.text ∈ p.seen
  · simp only [Progress.line, h1, if_true]
    exact ⟨.inr, fun h => h.elim (fun e => e ▸ h1) id⟩
  · by_cases h2 : over (dist (tok l.text)) = true <;> simp [Progress.line, h1, h2]
end

/-- the new lines among the pushed one -/
theorem firsts_push {skip0 : List Str} {L : List Entry} {skip : List Str} (hs : ∀ x, x ∈ skip ↔ x ∈ skip0 ∨ ∃ e ∈ L, tokE env e = x)
    (x : Entry) : firsts (tokE env) skip0 (L ++ [x]) = firsts (tokE env) skip0 L ++ if tokE env x ∈ skip then [] else [x] := by
  rw [firsts_append, firsts_cons]
  congr 1
  have : tokE env x ∈ skip0 ++ L.map (tokE env) ↔ tokE env x ∈ skip := by
    rw [hs, List.mem_append, List.mem_map]
  by_cases hx : tokE env x ∈ skip
  · rw [if_pos hx, if_pos (this.2 hx)]; rfl
  · rw [if_neg hx, if_neg (fun h => hx (this.1 h))]; rfl

theorem Sim.line (hsearch : ∀ ts, env.search ts = ts.map dist) {p : Progress D} {s : St D} (h : Sim env dist p s) (l : LogLine) (raw : Str)
    (hd : env.decode l.1 = some raw) :
    ∃ s', s.line env l raw = some s' ∧ pend s' ≤ pend s + 1 ∧
      s'.anomalies.map (·.anomaly) = (if p.ends env.tokenize ⟨raw, l.2⟩ then
        ((p.count l).line env.tokenize dist env.over ⟨raw, l.2⟩).out else []) ∧
      Sim env dist (if p.ends env.tokenize ⟨raw, l.2⟩ then ((p.count l).line env.tokenize dist env.over ⟨raw, l.2⟩).next
        else (p.count l).line env.tokenize dist env.over ⟨raw, l.2⟩) { s' with anomalies := [] } := by
  obtain ⟨skip0, m, mb, em, L, base, k, F, P, V, h, ha, hseen, hnew, hlines, hheld, hsince, hread, hbytes⟩ := h
  obtain ⟨s', base', k', F', P', V', e1, h1, hpend, hco, hsk, hst⟩ := h.line hsearch l raw hd (fun _ => trivial)
  have htok : tokE env (l, s.coord + 1) = env.tokenize raw := by simp [tokE, txt, hd]
  have htxt : txt env (l, s.coord + 1) = raw := by simp [txt, hd]
  generalize hN : (if env.tokenize raw ∈ s.skipLines then [] else [((l, s.coord + 1) : Entry)]) = N at *
  have hnews : F' ++ P' = (F ++ P) ++ N := by
    rw [← h1.news, firsts_push h.skip, h.news, htok, hN]
  generalize hL' : L ++ [((l, s.coord + 1) : Entry)] = L' at *
  have hlen' : L'.length = L.length + 1 := by rw [← hL']; simp
  -- the progress after the line
  generalize hp' : (p.count l).line env.tokenize dist env.over ⟨raw, l.2⟩ = p' at *
  have q1 : ∀ x, x ∈ p'.seen ↔ x ∈ s'.skipLines := by
    intro x
    rw [hsk, List.mem_cons, ← hseen, ← hp', line_seen]; rfl
  have q2 : p'.held = s.currentAnomaly.toList.map (·.anomaly) ++ ((P ++ N).filter (overE env dist)).map (anomE env dist) := by
    rw [List.filter_append, List.map_append, ← List.append_assoc, ← hheld, ← hp', ← hN]
    unfold Progress.line
    simp only [Progress.count, hseen]
    split
    · simp
    · have ho : overE env dist (l, s.coord + 1) = env.over (dist (env.tokenize raw)) := by unfold overE; rw [htok]
      have hx : anomE env dist (l, s.coord + 1) = ⟨dist (env.tokenize raw), l.2, raw⟩ := by unfold anomE; rw [htok, htxt]
      by_cases hov : env.over (dist (env.tokenize raw)) = true
      · simp [hov, ho, hx]
      · simp [hov, ho]
  have q3 : p'.held ≠ [] → ∃ i e, L'[i]? = some e ∧ ((F' ++ P').filter (overE env dist)).getLast? = some e ∧ p'.since + i + 1 = L'.length := by
    have ho : overE env dist (l, s.coord + 1) = env.over (dist (env.tokenize raw)) := by unfold overE; rw [htok]
    have old : N.filter (overE env dist) = [] → p'.since = p.since + 1 → p'.held = p.held → p'.held ≠ [] →
        ∃ i e, L'[i]? = some e ∧ ((F' ++ P').filter (overE env dist)).getLast? = some e ∧ p'.since + i + 1 = L'.length := by
      intro o1 o2 o3 o4
      obtain ⟨i, e, g1, g2, g3⟩ := hsince (o3 ▸ o4)
      refine ⟨i, e, ?_, ?_, by omega⟩
      · rw [← hL', List.getElem?_append_left (by omega)]; exact g1
      · rw [hnews, List.filter_append, o1, List.append_nil]; exact g2
    by_cases hm : env.tokenize raw ∈ s.skipLines
    · refine old (by rw [← hN, if_pos hm]; rfl) ?_ ?_
      · rw [← hp']; unfold Progress.line; simp only [Progress.count, hseen, if_pos hm]
      · rw [← hp']; unfold Progress.line; simp only [Progress.count, hseen, if_pos hm]
    · by_cases hov : env.over (dist (env.tokenize raw)) = true
      · intro _
        refine ⟨L.length, (l, s.coord + 1), by rw [← hL']; simp, ?_, ?_⟩
        · rw [hnews, List.filter_append, ← hN, if_neg hm]
          simp [ho, hov]
        · rw [← hp']; unfold Progress.line; simp only [Progress.count, hseen, if_neg hm, if_pos hov]; omega
      · refine old (by rw [← hN, if_neg hm]; simp [ho, hov]) ?_ ?_
        · rw [← hp']; unfold Progress.line; simp only [Progress.count, hseen, if_neg hm, if_neg hov]
        · rw [← hp']; unfold Progress.line; simp only [Progress.count, hseen, if_neg hm, if_neg hov]
  have q4 : p'.read = s'.lineCount := by
    have e : p'.read = p.read + 1 := by rw [← hp', line_read]; rfl
    rw [e, h1.cntL, hco, hread, h.cntL]
  have q5 : p'.bytes = s'.byteCount := by
    have e : p'.bytes = p.bytes + l.1.length := by rw [← hp', line_bytes]; rfl
    rw [e, h1.cntB, hbytes, h.cntB, ← hL']
    simp; omega
  -- the size of the chunk
  have hNlen : N.length = if env.tokenize raw ∈ s.skipLines then 0 else 1 := by rw [← hN]; split <;> rfl
  have hpt : ((s.count l).push env l raw).targets.length = s.targets.length + N.length := by
    rw [hNlen]
    unfold St.push
    have e : (s.count l).skipLines = s.skipLines := rfl
    simp only [e]
    split <;> simp [St.count]
  have hpb : ((s.count l).push env l raw).buffer.length = s.buffer.length + 1 := by
    unfold St.push; simp only; split <;> simp [St.count]
  have hends : p.ends env.tokenize ⟨raw, l.2⟩ = ((s.count l).push env l raw).full (!decide (env.tokenize raw ∈ s.skipLines)) := by
    unfold Progress.ends St.full
    rw [hpt, hpb, hNlen]
    simp only [hseen, hnew, hlines]
    by_cases hm : env.tokenize raw ∈ s.skipLines
    · simp [hm, CHUNK_SIZE]
    · simp only [hm, CHUNK_SIZE, if_false, decide_false, Bool.not_false, if_true]
      rfl
  have q6 : p'.new = s.targets.length + N.length := by
    rw [hNlen, ← hnew, ← hp', line_new]
    simp only [Progress.count, hseen]
  have q7 : p'.lines = s.buffer.length + 1 := by
    rw [← hlines, ← hp', line_lines]; rfl
  rw [hends]
  refine ⟨s', e1, by unfold pend; omega, ?_⟩
  have htl : s.targets.length = P.length := by rw [h.tgt, List.length_map]
  by_cases hfull : ((s.count l).push env l raw).full (!decide (env.tokenize raw ∈ s.skipLines)) = true
  · rw [hfull] at hst ⊢
    simp only [if_true] at hst ⊢
    obtain ⟨ht, hb⟩ := hst
    have hP' : P' = [] := by have := h1.tgt; rw [ht] at this; simpa using this.symm
    subst hP'
    rw [List.append_nil, List.append_assoc] at hnews
    subst hnews
    have hheld' := held_eq h ha h1
    rw [← q2] at hheld'
    have hdone : s'.currentAnomaly = none → ∀ a ∈ s'.anomalies.getLast?, 3 ≤ a.after.length := by
      have he : s.line env l raw = ((s.count l).push env l raw).doSearch env := by
        unfold St.line
        have e : (s.count l).skipLines = s.skipLines := rfl
        simp only [e]
        rw [if_pos hfull]
      rw [he] at e1
      have ha' : ((s.count l).push env l raw).anomalies = [] := by
        rw [← ha]; unfold St.push; simp only; split <;> rfl
      exact (doSearch_closed ha' e1).2
    have hbase : base' = L'.length := by
      have g1 := h1.buf
      rw [hb] at g1
      have g2 := congrArg List.length g1
      rw [List.length_nil, List.length_drop] at g2
      have := h1.base_le; omega
    -- the last anomaly and the last window
    have hwin : p'.held ≠ [] → ∃ w V0, V' = w :: V0 ∧ p'.since + w.i + 1 = L'.length := by
      intro hne
      obtain ⟨i, e, g1, g2, g3⟩ := q3 hne
      rw [List.append_nil] at g2
      have hidx := h1.idle.idx
      cases hV : V' with
      | nil =>
        rw [hV] at hidx
        have : (F ++ (P ++ N)).filter (overE env dist) = [] := by
          have := congrArg List.length hidx
          rw [List.map_nil, List.length_nil, List.length_map, List.length_reverse] at this
          exact List.length_eq_zero_iff.1 this.symm
        rw [this] at g2; cases g2
      | cons w V0 =>
        refine ⟨w, V0, rfl, ?_⟩
        have hg : ((F ++ (P ++ N)).filter (overE env dist)).reverse.head? = some e := by rw [List.head?_reverse]; exact g2
        rw [hV] at hidx
        cases hG : ((F ++ (P ++ N)).filter (overE env dist)).reverse with
        | nil => rw [hG] at hg; cases hg
        | cons e' G =>
          rw [hG] at hidx hg
          cases hg
          simp only [List.map_cons, List.cons.injEq] at hidx
          have := entry_unique h1.coords hidx.1 g1
          omega
    have hout : s'.anomalies.map (·.anomaly) = p'.out ∧ s'.currentAnomaly.toList.map (·.anomaly) = p'.next.held := by
      rw [List.map_append] at hheld'
      unfold Progress.out Progress.next
      cases hcur : s'.currentAnomaly with
      | some c =>
        rw [hcur] at hheld'
        have hne : p'.held ≠ [] := by rw [← hheld']; simp
        obtain ⟨w, V0, hV, hw⟩ := hwin hne
        obtain ⟨_, c2, c3⟩ := h1.idle.cur (by simp [hcur])
        rw [hV] at c2 c3
        have c3 := c3 w (by simp)
        simp only [lastEnd] at c2
        rw [if_pos (by omega), if_pos (by omega), ← hheld']
        simp
      | none =>
        rw [hcur] at hheld'
        simp only [Option.toList_none, List.map_nil, List.append_nil] at hheld' ⊢
        by_cases hne : p'.held = []
        · rw [hheld', hne]; simp
        · obtain ⟨w, V0, hV, hw⟩ := hwin hne
          have hs := h1.idle.shows_
          rw [hcur, hV] at hs
          have hne' : s'.anomalies ≠ [] := by intro h0; rw [h0] at hheld'; exact hne hheld'.symm
          have hl := List.dropLast_append_getLast hne'
          have hr : s'.anomalies.reverse = s'.anomalies.getLast hne' :: s'.anomalies.dropLast.reverse := by
            conv => lhs; rw [← hl]
            simp
          simp only [Option.toList_none, List.nil_append, hr, List.cons_append] at hs
          cases hs with
          | cons hc _ =>
            have g1 := shows_after env dist L' hc
            have g2 := hdone hcur (s'.anomalies.getLast hne') (by rw [List.getLast?_eq_getLast_of_ne_nil hne']; rfl)
            obtain ⟨_, _, _, g3, _⟩ := hc
            rw [if_neg (by omega), if_neg (by omega)]
            exact ⟨hheld', rfl⟩
    refine ⟨hout.1, skip0, m, mb, s'.anomalies.reverse ++ em, L', base', k', F ++ (P ++ N), [], V', Inv.popAll _ _ _ rfl h1, rfl, q1, ?_, ?_, ?_, ?_, q4, q5⟩
    · show 0 = s'.targets.length
      rw [ht]; rfl
    · show 0 = s'.buffer.length
      rw [hb]; rfl
    · rw [← hout.2]; simp
    · intro hne
      apply q3
      intro h0
      apply hne
      unfold Progress.next
      rw [h0]; simp
  · rw [if_neg hfull] at hst
    rw [Bool.not_eq_true] at hfull
    rw [hfull]
    simp only [Bool.false_eq_true, if_false]
    have hP : F' = F ∧ P' = P ++ N := by
      have g1 : s'.targets.length = P'.length := by rw [h1.tgt, List.length_map]
      rw [hst, hpt, htl] at g1
      rw [List.append_assoc] at hnews
      have g2 := congrArg List.length hnews
      simp only [List.length_append] at g2
      exact List.append_inj hnews (by omega)
    obtain ⟨rfl, rfl⟩ := hP
    have ha' : s'.anomalies = [] := by
      rw [hst, ← ha]; unfold St.push; simp only; split <;> rfl
    have hcur : s'.currentAnomaly = s.currentAnomaly := by
      rw [hst]; unfold St.push; simp only; split <;> rfl
    refine ⟨by rw [ha']; rfl, skip0, m, mb, s'.anomalies.reverse ++ em, L', base', k', F', P ++ N, V', Inv.popAll _ _ _ rfl h1, rfl, q1, ?_, ?_, ?_, q3, q4, q5⟩
    · show p'.new = s'.targets.length
      rw [hst, hpt, q6]
    · show p'.lines = s'.buffer.length
      rw [hst, hpb, q7]
    · show p'.held = s'.currentAnomaly.toList.map _ ++ _
      rw [hcur]; exact q2

theorem Sim.count {p : Progress D} {s : St D} (h : Sim env dist p s) (l : LogLine) : Sim env dist (p.count l) (s.count l) := by
  obtain ⟨skip0, m, mb, em, L, base, k, F, P, V, h, ha, hseen, hnew, hlines, hheld, hsince, hread, hbytes⟩ := h
  exact ⟨skip0, m + 1, mb + l.1.length, em, L, base, k, F, P, V, h.count l, ha, hseen, hnew, hlines, hheld, hsince,
    congrArg (· + 1) hread, congrArg (· + l.1.length) hbytes⟩

theorem Sim.finish (hsearch : ∀ ts, env.search ts = ts.map dist) {p : Progress D} {s : St D} (h : Sim env dist p s) :
    ∃ s', s.finish env = some s' ∧ pend s' ≤ pend s ∧ s'.targets = [] ∧ s'.currentAnomaly = none ∧
      s'.anomalies.map (·.anomaly) = p.held ∧ Sim env dist p.marker { s' with anomalies := [] } := by
  obtain ⟨skip0, m, mb, em, L, base, k, F, P, V, h, ha, hseen, hnew, hlines, hheld, hsince, hread, hbytes⟩ := h
  obtain ⟨s', b', k', V', f1, f2, f3, _, _, f6, f7, f8, f9, f10, f11⟩ := finish_spec hsearch h
  have hh := held_eq h ha f2
  rw [← hheld, f3] at hh
  simp only [Option.toList_none, List.append_nil] at hh
  refine ⟨s', f1, ?_, f6, f3, hh, skip0, m, mb, s'.anomalies.reverse ++ em, L, b', k', F ++ P, [], V', Inv.popAll _ _ _ rfl f2, rfl, ?_, ?_, ?_, ?_, ?_, ?_, ?_⟩
  · unfold pend; rw [f6, f3]; simp; omega
  · intro x
    show x ∈ p.seen ↔ x ∈ s'.skipLines
    rw [f8]; exact hseen x
  · show 0 = s'.targets.length
    rw [f6]; rfl
  · show (if p.new = 0 then p.lines else 0) = s'.buffer.length
    unfold St.finish St.flushTargets at f1
    rw [hnew]
    by_cases ht : s.targets = []
    · rw [if_pos ht] at f1
      simp only [Option.bind_eq_bind, Option.bind_some] at f1
      rw [ht, List.length_nil, if_pos rfl, hlines]
      cases hc : s.currentAnomaly with
      | none => rw [hc] at f1; cases f1; rfl
      | some a => rw [hc] at f1; cases f1; rfl
    · rw [if_neg ht] at f1
      rw [if_neg (fun h0 => ht (List.length_eq_zero_iff.1 h0))]
      cases hs : s.doSearch env with
      | none => simp [hs] at f1
      | some s1 =>
        have := (doSearch_closed ha hs).1
        simp only [hs, Option.bind_eq_bind, Option.bind_some] at f1
        cases hc : s1.currentAnomaly with
        | none => rw [hc] at f1; cases f1; rw [this]; rfl
        | some a => rw [hc] at f1; cases f1; simp only [this]; rfl
  · show [] = s'.currentAnomaly.toList.map _ ++ _
    rw [f3]; rfl
  · intro h0; exact absurd rfl h0
  · show p.read = s'.lineCount
    rw [f10]; exact hread
  · show p.bytes = s'.byteCount
    rw [f11]; exact hbytes

/-- the outcome `x` of the processor is the outcome `y` of the specification -/
def Agree (x : List (AnomalyContext D) × Stop ε × St D) (y : List (Anomaly D) × Stop ε × Progress D) : Prop :=
  x.1.map (·.anomaly) = y.1 ∧ x.2.1 = y.2.1 ∧ (∀ t, t ∈ x.2.2.skipLines ↔ t ∈ y.2.2.seen) ∧ x.2.2.lineCount = y.2.2.read ∧
    x.2.2.byteCount = y.2.2.bytes

theorem Sim.agree {p : Progress D} {s : St D} (h : Sim env dist p s) (stop : Stop ε) :
    Agree (([] : List (AnomalyContext D)), stop, s) ([], stop, p) := by
  obtain ⟨skip0, m, mb, em, L, base, k, F, P, V, h, ha, hseen, hnew, hlines, hheld, hsince, hread, hbytes⟩ := h
  exact ⟨rfl, rfl, fun t => (hseen t).symm, hread.symm, hbytes.symm⟩

theorem sim_anomalies {p : Progress D} {s : St D} (h : Sim env dist p s) : s.anomalies = [] := by
  obtain ⟨skip0, m, mb, em, L, base, k, F, P, V, h, ha, _⟩ := h
  exact ha

theorem collect_line {s s' : St D} {r : List (Ev ε)} {l : LogLine} {raw : Str} (n : Nat) (h0 : s.anomalies = [])
    (hd : env.decode l.1 = some raw) (hm : contains MARKER raw = false) (hl : s.line env l raw = some s') :
    collect env (n + 1) (.ok l :: r) s = collect env (n + 1) r s' := by
  have hrd := readAnomalies_line r s l raw hd hm
  rw [hl] at hrd
  simp only [Option.bind_some] at hrd
  by_cases hearly : ((s.count l).push env l raw).full (!decide (env.tokenize raw ∈ s.skipLines)) = true ∧ s'.anomalies ≠ []
  · rw [if_pos hearly] at hrd
    cases ha : s'.anomalies with
    | nil => exact absurd ha hearly.2
    | cons a as => rw [collect_read n _ _ h0 hrd ha, collect_pop n r ha]
  · rw [if_neg hearly] at hrd
    refine collect_congr n _ _ h0 ?_ hrd
    by_cases hf : ((s.count l).push env l raw).full (!decide (env.tokenize raw ∈ s.skipLines)) = true
    · by_contra hne; exact hearly ⟨hf, hne⟩
    · unfold St.line at hl
      have e : (s.count l).skipLines = s.skipLines := rfl
      simp only [e] at hl
      rw [if_neg hf] at hl
      rw [← Option.some.inj hl, ← h0]
      unfold St.push; simp only; split <;> rfl

theorem collect_reported (hsearch : ∀ ts, env.search ts = ts.map dist) :
    ∀ (r : List (Ev ε)) (n : Nat) (p : Progress D) (s : St D), Sim env dist p s → r.length + pend s < n →
      Agree (collect env n r s) (reported env.tokenize dist env.over env.decode p r) := by
  intro r
  induction r with
  | nil =>
    intro n p s h hn
    obtain ⟨s', f1, f2, f3, f4, f5, f6⟩ := h.finish hsearch
    have hlen : s'.anomalies.length < n := by simp at hn; unfold pend at f2 hn; omega
    rw [collect_eof n (sim_anomalies h) f1 f3 f4 hlen]
    obtain ⟨_, _, g1, g2, g3⟩ := f6.agree (ε := ε) .finished
    exact ⟨f5, rfl, g1, g2, g3⟩
  | cons ev r ih =>
    intro n p s h hn
    have h0 := sim_anomalies h
    obtain ⟨n, rfl⟩ : ∃ n', n = n' + 1 := ⟨n - 1, by omega⟩
    rw [List.length_cons] at hn
    cases ev with
    | error e =>
      rw [collect_fail n (.error e :: r) r h0 (by unfold readAnomalies; rfl)]
      exact h.agree _
    | ok l =>
      unfold reported
      cases hd : env.decode l.1 with
      | none =>
        have hr : readAnomalies env (.ok l :: r) s = some (.error .utf8, r, s) := by unfold readAnomalies; simp only [hd]
        rw [collect_fail n (.ok l :: r) r h0 hr]
        exact h.agree _
      | some raw =>
        simp only
        -- the contexts of a step, and what follows
        have go : ∀ (s' : St D) (p' : Progress D) (out : List (Anomaly D)), pend s' ≤ pend s + 1 → s'.anomalies.map (·.anomaly) = out →
            Sim env dist p' { s' with anomalies := [] } →
            Agree (collect env (n + 1) r s') (out ++ (reported env.tokenize dist env.over env.decode p' r).1,
              (reported env.tokenize dist env.over env.decode p' r).2) := by
          intro s' p' out h1 h2 h3
          have hp : pend s' = pend { s' with anomalies := [] } + s'.anomalies.length := by unfold pend; simp
          have e : n + 1 = (n + 1 - s'.anomalies.length) + s'.anomalies.length := by omega
          rw [e, collect_popAll _ _ r s' rfl]
          obtain ⟨g1, g2, g3⟩ := ih (n + 1 - s'.anomalies.length) p' _ h3 (by omega)
          exact ⟨by simp only; rw [List.map_append, h2, g1], g2, g3⟩
        by_cases hm : contains MARKER raw = true
        · have hm' : "TASK [log-classify".toList <:+: raw := (contains_iff _ _).1 hm
          rw [if_pos hm']
          obtain ⟨s', f1, f2, f3, f4, f5, f6⟩ := (h.count l).finish hsearch
          have hr : readAnomalies env (.ok l :: r) s = some (.ok (), r, s') := by
            unfold readAnomalies; simp only [hd, hm, if_true, f1]; rfl
          cases ha : s'.anomalies with
          | nil =>
            rw [ha] at f5
            have hh : p.held = [] := f5.symm
            rw [if_pos hh, collect_done n _ _ h0 hr ha]
            have e : s' = { s' with anomalies := [] } := by rw [← ha]
            rw [e]
            exact f6.agree _
          | cons a as =>
            have hh : p.held ≠ [] := by
              have : p.held = s'.anomalies.map (·.anomaly) := f5.symm
              rw [this, ha]; simp
            rw [if_neg hh, collect_read n _ _ h0 hr ha, ← collect_pop n r ha]
            exact go s' _ _ (Nat.le_succ_of_le f2) f5 f6
        · have hm' : ¬ "TASK [log-classify".toList <:+: raw := fun h => hm ((contains_iff _ _).2 h)
          rw [if_neg hm']
          rw [Bool.not_eq_true] at hm
          obtain ⟨s', f1, f2, f3, f4⟩ := h.line hsearch l raw hd
          rw [collect_line n h0 hd hm f1]
          by_cases he : p.ends env.tokenize ⟨raw, l.2⟩ = true
          · rw [if_pos he] at f3 f4 ⊢
            exact go s' _ _ f2 f3 f4
          · rw [if_neg he] at f3 f4 ⊢
            exact go s' _ _ f2 f3 f4

/-! ### Sources of less than one chunk -/

theorem line_seen_held (tok : Str → Str) (over : D → Bool) (p : Progress D) (x : Spec.Line) (xs : List Spec.Line) :
    firsts (fun l => tok l.text) p.seen (x :: xs) =
      (if tok x.text ∈ p.seen then [] else [x]) ++ firsts (fun l => tok l.text) (p.line tok dist over x).seen xs ∧
    (p.line tok dist over x).held = p.held ++ Spec.anomalies tok dist over p.seen [x] := by
  rw [firsts_cons]
  by_cases h1 : tok x.text ∈ p.seen <;> by_cases h2 : over (dist (tok x.text)) = true <;>
    simp [Progress.line, h1, h2, Spec.anomalies, firsts]

/-- lines which do not end a chunk -/
theorem reported_plain {tok : Str → Str} {over : D → Bool} {decode : Bytes → Option Str} (tl : List (Ev ε)) :
    ∀ (lines : List LogLine) (src : List Spec.Line), Spec.Reads decode lines src → Spec.NoMarker src → ∀ p : Progress D,
      p.new + src.length < 512 → p.lines + src.length ≤ 5120 →
      ∃ q, reported tok dist over decode p (lines.map .ok ++ tl) = reported tok dist over decode q tl ∧
        q.held = p.held ++ Spec.anomalies tok dist over p.seen src ∧ (∀ t, t ∈ q.seen ↔ t ∈ p.seen ∨ ∃ l ∈ src, tok l.text = t) ∧
        q.new = p.new + (firsts (fun l => tok l.text) p.seen src).length := by
  intro lines src hr
  induction hr with
  | nil => intro _ p _ _; exact ⟨p, rfl, by simp [Spec.anomalies, firsts], by simp, by simp [firsts]⟩
  | @cons l x lines src hx hr ih =>
    intro hm p hn hl
    rw [List.length_cons] at hn hl
    have hends : p.ends tok ⟨x.text, l.2⟩ = false := by
      unfold Progress.ends
      split
      · simp; omega
      · simp; omega
    have hstep : reported tok dist over decode p ((l :: lines).map .ok ++ tl) =
        reported tok dist over decode ((p.count l).line tok dist over ⟨x.text, l.2⟩) (lines.map .ok ++ tl) := by
      rw [List.map_cons, List.cons_append, reported]
      simp only [hx.1]
      have := hm x (by simp)
      rw [if_neg this, hends]
      rfl
    have hxe : (⟨x.text, l.2⟩ : Spec.Line) = x := by rw [hx.2]
    rw [hxe] at hstep
    have hnew := line_new (dist := dist) tok over (p.count l) x
    have hlines := line_lines (dist := dist) tok over (p.count l) x
    obtain ⟨e1, e2⟩ := line_seen_held (dist := dist) tok over (p.count l) x src
    have hc1 : (p.count l).new = p.new := rfl
    have hc2 : (p.count l).lines = p.lines := rfl
    have hc3 : (p.count l).seen = p.seen := rfl
    have hc4 : (p.count l).held = p.held := rfl
    rw [hc1, hc3] at hnew
    rw [hc2] at hlines
    rw [hc3] at e1 e2
    rw [hc4] at e2
    have hle : (if tok x.text ∈ p.seen then 0 else 1) ≤ 1 := by split <;> omega
    obtain ⟨q, h1, h2, h3, h4⟩ := ih (fun y hy => hm y (by simp [hy])) ((p.count l).line tok dist over x) (by omega) (by omega)
    refine ⟨q, by rw [hstep, h1], ?_, ?_, ?_⟩
    · rw [h2, e2, List.append_assoc]
      congr 1
      unfold Spec.anomalies
      rw [e1, List.filter_append, List.map_append]
      rfl
    · intro t
      rw [h3, line_seen]
      simp only [List.mem_cons, exists_eq_or_imp, Progress.count]
      constructor
      · rintro ((h | h) | h)
        · exact .inr (.inl h.symm)
        · exact .inl h
        · exact .inr (.inr h)
      · rintro (h | h | h)
        · exact .inl (.inr h)
        · exact .inl (.inl h.symm)
        · exact .inr h
    · rw [h4, hnew, e1, List.length_append, Nat.add_assoc]
      congr 2
      split <;> rfl

/-- the progress which reports the same from now on -/
def Same (p q : Progress D) : Prop :=
  (∀ t, t ∈ p.seen ↔ t ∈ q.seen) ∧ p.new = q.new ∧ p.lines = q.lines ∧ p.held = q.held ∧ (p.held ≠ [] → p.since = q.since)

theorem reported_same {tok : Str → Str} {over : D → Bool} {decode : Bytes → Option Str} :
    ∀ (r : List (Ev ε)) (p q : Progress D), Same p q →
      (reported tok dist over decode p r).1 = (reported tok dist over decode q r).1 ∧
      (reported tok dist over decode p r).2.1 = (reported tok dist over decode q r).2.1 := by
  intro r
  induction r with
  | nil => intro p q h; exact ⟨h.2.2.2.1, rfl⟩
  | cons ev r ih =>
    intro p q ⟨h1, h2, h3, h4, h5⟩
    cases ev with
    | error e => exact ⟨rfl, rfl⟩
    | ok l =>
      unfold reported
      cases hd : decode l.1 with
      | none => exact ⟨rfl, rfl⟩
      | some t =>
        simp only
        by_cases hm : "TASK [log-classify".toList <:+: t
        · rw [if_pos hm, if_pos hm, h4]
          by_cases hh : q.held = []
          · rw [if_pos hh, if_pos hh]; exact ⟨rfl, rfl⟩
          · rw [if_neg hh, if_neg hh]
            obtain ⟨g1, g2⟩ := ih (p.count l).marker (q.count l).marker
              ⟨h1, rfl, by show (if p.new = 0 then p.lines else 0) = if q.new = 0 then q.lines else 0; rw [h2, h3], rfl, fun h => absurd rfl h⟩
            exact ⟨by simp only; rw [g1], g2⟩
        · rw [if_neg hm, if_neg hm]
          have he : p.ends tok ⟨t, l.2⟩ = q.ends tok ⟨t, l.2⟩ := by unfold Progress.ends; simp only [h1, h2, h3]
          have hsame : Same ((p.count l).line tok dist over ⟨t, l.2⟩) ((q.count l).line tok dist over ⟨t, l.2⟩) := by
            refine ⟨?_, ?_, ?_, ?_, ?_⟩
            · intro x; rw [line_seen, line_seen]; simp only [Progress.count, h1]
            · rw [line_new, line_new]
              by_cases a1 : tok t ∈ q.seen <;> simp [Progress.count, h1, h2, a1]
            · rw [line_lines, line_lines]; simp only [Progress.count, h3]
            · by_cases a1 : tok t ∈ q.seen <;> by_cases a2 : over (dist (tok t)) = true <;>
                simp [Progress.line, Progress.count, h1, h4, a1, a2]
            · by_cases a1 : tok t ∈ q.seen <;> by_cases a2 : over (dist (tok t)) = true <;>
                simp [Progress.line, Progress.count, h1, a1, a2]
              all_goals exact h5
          rw [he]
          by_cases hq : q.ends tok ⟨t, l.2⟩ = true
          · rw [if_pos hq, if_pos hq]
            obtain ⟨s1, s2, s3, s4, s5⟩ := hsame
            have ho : ((p.count l).line tok dist over ⟨t, l.2⟩).out = ((q.count l).line tok dist over ⟨t, l.2⟩).out ∧
                ((p.count l).line tok dist over ⟨t, l.2⟩).next.held = ((q.count l).line tok dist over ⟨t, l.2⟩).next.held := by
              unfold Progress.out Progress.next
              by_cases hne : ((p.count l).line tok dist over ⟨t, l.2⟩).held = []
              · simp only [← s4, hne]; simp
              · simp only [← s4, s5 hne]; exact ⟨trivial, trivial⟩
            obtain ⟨g1, g2⟩ := ih _ _ (show Same ((p.count l).line tok dist over ⟨t, l.2⟩).next ((q.count l).line tok dist over ⟨t, l.2⟩).next from
              ⟨s1, rfl, rfl, ho.2, fun hne => s5 fun h0 => hne (by simp [Progress.next, h0])⟩)
            exact ⟨by simp only; rw [g1, ho.1], g2⟩
          · rw [if_neg hq, if_neg hq]
            exact ih _ _ hsame

end LJ.Process

/-
Runs over any sequence of results of the reader: read errors, invalid UTF-8, and the marker at any
place.
-/
import Verif.Process.Runs
namespace LJ.Process
open Spec (firsts cuts)
variable {D ε : Type} {env : Env D} {dist : Str → D}

/-- the lines the processor looks at: text, not the marker, and before the first failure -/
def plainOf (env : Env D) : List (Ev ε) → List LogLine
  | [] => []
  | .error _ :: _ => []
  | .ok l :: r =>
    match env.decode l.1 with
    | none => []
    | some raw => if contains MARKER raw then plainOf env r else l :: plainOf env r

/-- the lines the processor may look at after a call -/
def plainRest (env : Env D) (res : Except (Err ε) Unit) (r : List (Ev ε)) : List LogLine :=
  match res with
  | .ok _ => plainOf env r
  | .error _ => []

variable {skip0 : List Str} {m mb : Nat} {em : List (AnomalyContext D)} {L : List Entry} {base k : Nat} {F P : List Entry}
  {V : List Win} {s : St D}

theorem Inv.count {full : Prop} {cut : Nat → Prop} (h : Inv env dist full cut skip0 m mb em L base k F P V s) (l : LogLine) :
    Inv env dist full cut skip0 (m + 1) (mb + l.1.length) em L base k F P V (s.count l) :=
  ⟨h.dec, h.coords, fun e he => Nat.le_succ_of_le (h.coordLe e he), h.cut_base, h.buf, h.sub, h.tgt, h.tgtc, h.left, h.idle,
    h.news, h.fsub, h.skip, h.ulen, h.blen, by show s.coord + 1 = _; rw [h.cntC]; omega,
    by show s.lineCount + 1 = s.coord + 1; rw [h.cntL], by show s.byteCount + _ = _; rw [h.cntB]; omega⟩

theorem pend_count (l : LogLine) : pend (s.count l) = pend s := rfl

theorem read_total (hsearch : ∀ ts, env.search ts = ts.map dist) :
    ∀ (r : List (Ev ε)) (m mb : Nat) (L : List Entry) (base k : Nat) (F P : List Entry) (V : List Win) (s : St D),
      Inv env dist False (fun _ => True) skip0 m mb em L base k F P V s → s.anomalies = [] →
      ∃ res r' m' mb' X base' k' F' P' V' s', readAnomalies env r s = some (res, r', s') ∧
        Inv env dist False (fun _ => True) skip0 m' mb' em (L ++ X) base' k' F' P' V' s' ∧
        (X.map Prod.fst ++ plainRest env res r') = plainOf env r ∧ r'.length + pend s' ≤ r.length + pend s := by
  intro r
  induction r with
  | nil =>
    intro m mb L base k F P V s h ha
    obtain ⟨s', b', k', V', f1, f2, f3, _, _, f6, f7, _⟩ := finish_spec hsearch h
    refine ⟨.ok (), [], m, mb, [], b', k', F ++ P, [], V', s', ?_, by rw [List.append_nil]; exact f2, rfl, ?_⟩
    · unfold readAnomalies; rw [f1]; rfl
    · unfold pend; rw [f6, f3]; simp; omega
  | cons ev r ih =>
    intro m mb L base k F P V s h ha
    cases ev with
    | error e =>
      exact ⟨.error (.io e), r, m, mb, [], base, k, F, P, V, s, by unfold readAnomalies; rfl, by rw [List.append_nil]; exact h, rfl, by simp⟩
    | ok l =>
      cases hd : env.decode l.1 with
      | none =>
        refine ⟨.error .utf8, r, m, mb, [], base, k, F, P, V, s, ?_, by rw [List.append_nil]; exact h, ?_, by simp⟩
        · unfold readAnomalies; simp only [hd]
        · simp [plainOf, plainRest, hd]
      | some raw =>
        cases hm : contains MARKER raw with
        | true =>
          obtain ⟨s', b', k', V', f1, f2, f3, _, _, f6, f7, _⟩ := finish_spec hsearch (h.count l)
          refine ⟨.ok (), r, m + 1, _, [], b', k', F ++ P, [], V', s', ?_, by rw [List.append_nil]; exact f2, ?_, ?_⟩
          · unfold readAnomalies; simp only [hd, hm, if_true, f1]; rfl
          · simp [plainOf, plainRest, hd, hm]
          · have f7' : s'.anomalies.length ≤ pend s := f7
            have e : pend s' = s'.anomalies.length := by unfold pend; rw [f6, f3]; simp
            rw [e, List.length_cons]; omega
        | false =>
          obtain ⟨s1, b1, k1, F1, P1, V1, e1, h1, hw, hco, hsk, hst⟩ := h.line hsearch l raw hd (fun _ => trivial)
          have hrd := readAnomalies_line r s l raw hd hm
          rw [e1] at hrd
          simp only [Option.bind_some] at hrd
          have hpl : plainOf env (.ok l :: r) = l :: plainOf env r := by simp [plainOf, hd, hm]
          have hpend : pend s1 ≤ pend s + 1 := hw
          by_cases hearly : ((s.count l).push env l raw).full (!decide (env.tokenize raw ∈ s.skipLines)) = true ∧ s1.anomalies ≠ []
          · rw [if_pos hearly] at hrd
            refine ⟨.ok (), r, m, mb, [(l, s.coord + 1)], b1, k1, F1, P1, V1, s1, hrd, h1, by rw [hpl]; rfl, ?_⟩
            rw [List.length_cons]; omega
          · rw [if_neg hearly] at hrd
            have ha' : s1.anomalies = [] := by
              by_cases hf : ((s.count l).push env l raw).full (!decide (env.tokenize raw ∈ s.skipLines)) = true
              · by_contra hne; exact hearly ⟨hf, hne⟩
              · rw [if_neg hf] at hst
                rw [hst]
                have : ((s.count l).push env l raw).anomalies = s.anomalies := by unfold St.push; simp only; split <;> rfl
                rw [this]; exact ha
            obtain ⟨res, r', m', mb', X, b', k', F', P', V', s', g1, g2, g3, g4⟩ := ih m mb _ b1 k1 F1 P1 V1 s1 h1 ha'
            refine ⟨res, r', m', mb', (l, s.coord + 1) :: X, b', k', F', P', V', s', by rw [hrd, g1], ?_, ?_, ?_⟩
            · rw [List.append_assoc] at g2; exact g2
            · rw [hpl, ← g3]; rfl
            · rw [List.length_cons]; omega

theorem collect_total (hsearch : ∀ ts, env.search ts = ts.map dist) :
    ∀ (n : Nat) (r : List (Ev ε)) (m mb : Nat) (em : List (AnomalyContext D)) (L : List Entry) (base k : Nat) (F P : List Entry)
      (V : List Win) (s : St D),
      Inv env dist False (fun _ => True) skip0 m mb em L base k F P V s → r.length + pend s < n →
      ∃ outs stop m' mb' X base' k' F' P' V' s', collect env n r s = (outs, stop, s') ∧ stop ≠ .panicked ∧ stop ≠ .timeout ∧
        Inv env dist False (fun _ => True) skip0 m' mb' (outs.reverse ++ em) (L ++ X) base' k' F' P' V' s' ∧
        s'.anomalies = [] ∧ X.map Prod.fst <+: plainOf env r := by
  intro n
  induction n with
  | zero => intro r m mb em L base k F P V s _ hw; omega
  | succ n ih =>
    intro r m mb em L base k F P V s h hw
    cases ha : s.anomalies with
    | cons a as =>
      have hpend : pend s = pend { s with anomalies := as } + 1 := by unfold pend; rw [ha]; simp; omega
      obtain ⟨outs, stop, m', mb', X, b', k', F', P', V', s', g1, g2, g3, g4, g5, g6⟩ := ih r m mb _ L base k F P V _ (h.pop ha) (by omega)
      refine ⟨a :: outs, stop, m', mb', X, b', k', F', P', V', s', ?_, g2, g3, by simpa using g4, g5, g6⟩
      rw [collect_pop n r ha, g1]
    | nil =>
      obtain ⟨res, r', m', mb', X, b1, k1, F1, P1, V1, s1, e1, e2, e3, e4⟩ := read_total hsearch r m mb L base k F P V s h ha
      cases res with
      | error e =>
        have ha1 : s1.anomalies = [] := by
          clear ih e2 e3 e4 h hw
          induction r generalizing s with
          | nil => unfold readAnomalies at e1; cases hf : s.finish env <;> simp [hf] at e1
          | cons ev r ihr =>
            cases ev with
            | error => unfold readAnomalies at e1; simp at e1; rw [← e1.2.2]; exact ha
            | ok l =>
              cases hd : env.decode l.1 with
              | none => unfold readAnomalies at e1; simp [hd] at e1; rw [← e1.2.2]; exact ha
              | some raw =>
                cases hm : contains MARKER raw with
                | true =>
                  unfold readAnomalies at e1
                  simp only [hd, hm, if_true] at e1
                  cases hf : (s.count l).finish env <;> simp [hf] at e1
                | false =>
                  rw [readAnomalies_line r s l raw hd hm] at e1
                  cases hl : s.line env l raw with
                  | none => simp [hl] at e1
                  | some s2 =>
                    simp only [hl, Option.bind_some] at e1
                    split at e1
                    · cases e1
                    · rename_i hne
                      refine ihr _ ?_ e1
                      unfold St.line at hl
                      simp only at hl
                      split at hl
                      · rename_i hfull
                        by_contra hne'
                        exact hne ⟨hfull, hne'⟩
                      · have := Option.some.inj hl
                        rw [← this]
                        have : ((s.count l).push env l raw).anomalies = s.anomalies := by unfold St.push; simp only; split <;> rfl
                        rw [this]; exact ha
        exact ⟨[], .failed e, m', mb', X, b1, k1, F1, P1, V1, s1, collect_fail n r r' ha e1, by simp, by simp, e2, ha1, ⟨_, e3⟩⟩
      | ok =>
        cases ha1 : s1.anomalies with
        | nil => exact ⟨[], .finished, m', mb', X, b1, k1, F1, P1, V1, s1, collect_done n r r' ha e1 ha1, by simp, by simp, e2, ha1, ⟨_, e3⟩⟩
        | cons a as =>
          have hpend : pend s1 = pend { s1 with anomalies := as } + 1 := by unfold pend; rw [ha1]; simp; omega
          obtain ⟨outs, stop, m2, mb2, X2, b', k', F', P', V', s', g1, g2, g3, g4, g5, g6⟩ :=
            ih r' m' mb' _ _ b1 k1 F1 P1 V1 _ (e2.pop ha1) (by omega)
          refine ⟨a :: outs, stop, m2, mb2, X ++ X2, b', k', F', P', V', s', ?_, g2, g3, ?_, g5, ?_⟩
          · rw [collect_read n r r' ha e1 ha1, g1]
          · rw [← List.append_assoc]; simpa using g4
          · rw [List.map_append, ← e3]
            exact List.prefix_append_right_inj _ |>.2 g6

/-! ### The states on the way -/

/-- the invariant with everything about contexts left out -/
def WInv (env : Env D) (dist : Str → D) (s : St D) : Prop :=
  ∃ skip0 m mb em L base k F P V, Inv env dist False (fun _ => True) skip0 m mb em L base k F P V s

/-- between two actions, and when a search is due -/
def RInv (env : Env D) (dist : Str → D) (s : St D) : Bool → Prop
  | false => WInv env dist s ∧ s.currentAnomaly.toList.length + s.anomalies.length ≤ 513
  | true => s.anomalies = [] ∧ ∃ s0 line raw, WInv env dist s0 ∧ env.decode line.1 = some raw ∧
      s = (s0.count line).push env line raw ∧ s.full (!decide (env.tokenize raw ∈ s0.skipLines)) = true

theorem reach_inv (hsearch : ∀ ts, env.search ts = ts.map dist) {b : Bool} {s : St D} (h : Reach env b s) :
    RInv env dist s b := by
  have hcur1 : ∀ o : Option (AnomalyContext D), o.toList.length ≤ 1 := by intro o; cases o <;> simp
  have hfin : ∀ (s s' : St D), WInv env dist s → s.anomalies = [] → s.finish env = some s' →
      WInv env dist s' ∧ s'.currentAnomaly.toList.length + s'.anomalies.length ≤ 513 := by
    intro s s' ⟨skip0, m, mb, em, L, base, k, F, P, V, hi⟩ ha hf
    obtain ⟨s2, b', k', V', f1, f2, f3, _, _, f6, f7, _⟩ := finish_spec hsearch hi
    rw [f1] at hf
    cases hf
    refine ⟨⟨_, _, _, _, _, _, _, _, _, _, f2⟩, ?_⟩
    have h1 := hi.ulen
    have h2 := hcur1 s.currentAnomaly
    have h3 : s.targets.length = P.length := by rw [hi.tgt, List.length_map]
    rw [ha] at f7
    rw [f3]
    simp at f7 ⊢
    omega
  induction h with
  | start skip => exact ⟨⟨_, _, _, _, _, _, _, _, _, _, Inv.start skip⟩, by simp [St.new]⟩
  | pop _ ha ih =>
    obtain ⟨⟨skip0, m, mb, em, L, base, k, F, P, V, hi⟩, hb⟩ := ih
    refine ⟨⟨_, _, _, _, _, _, _, _, _, _, hi.pop ha⟩, ?_⟩
    rw [ha] at hb
    simp at hb ⊢
    omega
  | @line s l raw _ ha hd hm ih =>
    obtain ⟨⟨skip0, m, mb, em, L, base, k, F, P, V, hi⟩, hb⟩ := ih
    cases hfull : ((s.count l).push env l raw).full (!decide (env.tokenize raw ∈ s.skipLines)) with
    | true =>
      refine ⟨?_, s, l, raw, ⟨_, _, _, _, _, _, _, _, _, _, hi⟩, hd, rfl, hfull⟩
      have : ((s.count l).push env l raw).anomalies = s.anomalies := by unfold St.push; simp only; split <;> rfl
      rw [this]; exact ha
    | false =>
      obtain ⟨s1, b1, k1, F1, P1, V1, e1, h1, hw, hco, hsk, hst⟩ := hi.line hsearch l raw hd (fun _ => trivial)
      rw [hfull] at hst
      simp only [Bool.false_eq_true, if_false] at hst
      rw [← hst]
      refine ⟨⟨_, _, _, _, _, _, _, _, _, _, h1⟩, ?_⟩
      have h1 := hi.ulen
      have h2 := hcur1 s.currentAnomaly
      have h3 : s.targets.length = P.length := by rw [hi.tgt, List.length_map]
      rw [ha] at hw
      simp at hw
      omega
  | search _ hs ih =>
    obtain ⟨ha, s0, l, raw, ⟨skip0, m, mb, em, L, base, k, F, P, V, hi⟩, hd, rfl, hfull⟩ := ih
    obtain ⟨s1, b1, k1, F1, P1, V1, e1, h1, hw, hco, hsk, hst⟩ := hi.line hsearch l raw hd (fun _ => trivial)
    have hl : s0.line env l raw = ((s0.count l).push env l raw).doSearch env := by
      unfold St.line
      simp only
      have : (s0.count l).skipLines = s0.skipLines := rfl
      rw [this, if_pos hfull]
    rw [hl, hs] at e1
    cases e1
    refine ⟨⟨_, _, _, _, _, _, _, _, _, _, h1⟩, ?_⟩
    have h1 := hi.ulen
    have h2 := hcur1 s0.currentAnomaly
    have h3 : s0.targets.length = P.length := by rw [hi.tgt, List.length_map]
    have : ((s0.count l).push env l raw).anomalies = s0.anomalies := by unfold St.push; simp only; split <;> rfl
    rw [this] at ha
    rw [ha] at hw
    simp at hw
    omega
  | marker _ ha hf ih =>
    obtain ⟨⟨skip0, m, mb, em, L, base, k, F, P, V, hi⟩, hb⟩ := ih
    exact hfin _ _ ⟨_, _, _, _, _, _, _, _, _, _, hi.count _⟩ ha hf
  | eof _ ha hf ih => exact hfin _ _ ih.1 ha hf

theorem reach_read {s s' : St D} {r r' : List (Ev ε)} {res : Except (Err ε) Unit} (h : Reach env false s) (ha : s.anomalies = [])
    (hr : readAnomalies env r s = some (res, r', s')) : Reach env false s' := by
  induction r generalizing s with
  | nil =>
    unfold readAnomalies at hr
    cases hf : s.finish env with
    | none => simp [hf] at hr
    | some s2 => simp [hf] at hr; rw [← hr.2.2]; exact .eof h ha hf
  | cons ev r ih =>
    cases ev with
    | error => unfold readAnomalies at hr; simp at hr; rw [← hr.2.2]; exact h
    | ok l =>
      cases hd : env.decode l.1 with
      | none => unfold readAnomalies at hr; simp [hd] at hr; rw [← hr.2.2]; exact h
      | some raw =>
        cases hm : contains MARKER raw with
        | true =>
          unfold readAnomalies at hr
          simp only [hd, hm, if_true] at hr
          cases hf : (s.count l).finish env with
          | none => simp [hf] at hr
          | some s2 => simp [hf] at hr; rw [← hr.2.2]; exact .marker h ha hf
        | false =>
          rw [readAnomalies_line r s l raw hd hm] at hr
          have hl1 := Reach.line h ha hd hm
          cases hl : s.line env l raw with
          | none => simp [hl] at hr
          | some s2 =>
            simp only [hl, Option.bind_some] at hr
            have h2 : Reach env false s2 ∧ (((s.count l).push env l raw).full (!decide (env.tokenize raw ∈ s.skipLines)) = true ∨ s2.anomalies = []) := by
              unfold St.line at hl
              have e : (s.count l).skipLines = s.skipLines := rfl
              simp only [e] at hl
              split at hl
              · rename_i hfull
                rw [hfull] at hl1
                exact ⟨.search hl1 hl, .inl hfull⟩
              · rename_i hfull
                rw [Bool.not_eq_true] at hfull
                rw [hfull] at hl1
                have := Option.some.inj hl
                rw [← this]
                refine ⟨hl1, .inr ?_⟩
                have : ((s.count l).push env l raw).anomalies = s.anomalies := by unfold St.push; simp only; split <;> rfl
                rw [this]; exact ha
            split at hr
            · cases hr; exact h2.1
            · rename_i hne
              apply ih h2.1 _ hr
              rcases h2.2 with hf | ha'
              · by_contra hc; exact hne ⟨hf, hc⟩
              · exact ha'

end LJ.Process

/-
Whole runs of the processor, in terms of the specification.
-/
import Verif.Process.Read
namespace LJ.Process
open Spec (firsts cuts)
variable {D ε : Type} {env : Env D} {dist : Str → D}

/-! ### From entries to the lines of the specification -/

/-- a line as the user sees it -/
def lineL (env : Env D) (l : LogLine) : Spec.Line := ⟨(env.decode l.1).getD [], l.2⟩
def lineE (env : Env D) (e : Entry) : Spec.Line := lineL env e.1

theorem lineE_text (e : Entry) : (lineE env e).text = txt env e := rfl

theorem ents_fst (c : Nat) (ls : List LogLine) : (ents c ls).map Prod.fst = ls := by
  induction ls generalizing c with
  | nil => rfl
  | cons l ls ih => simp [ents, ih]

theorem ents_length (c : Nat) (ls : List LogLine) : (ents c ls).length = ls.length := by
  rw [← List.length_map (f := Prod.fst), ents_fst]

theorem ents_get (c : Nat) (ls : List LogLine) (i : Nat) (e : Entry) (h : (ents c ls)[i]? = some e) : e.2 = c + i + 1 := by
  induction ls generalizing c i with
  | nil => cases h
  | cons l ls ih =>
    cases i with
    | zero => simp [ents] at h; subst h; rfl
    | succ i => simp [ents] at h; have := ih _ _ h; omega

theorem ents_zipIdx (c : Nat) (ls : List LogLine) :
    (ents c ls).map (fun e => (lineE env e, e.2 - 1)) = (ls.map (lineL env)).zipIdx c := by
  induction ls generalizing c with
  | nil => rfl
  | cons l ls ih =>
    rw [ents, List.map_cons, ih, List.map_cons, List.zipIdx_cons]
    rfl

theorem ents_lines (c : Nat) (ls : List LogLine) : (ents c ls).map (lineE env) = ls.map (lineL env) := by
  have : (ents c ls).map (lineE env) = ((ents c ls).map Prod.fst).map (lineL env) := by rw [List.map_map]; rfl
  rw [this, ents_fst]

theorem txt_map (X : List Entry) : X.map (txt env) = (X.map (lineE env)).map Spec.Line.text := by
  rw [List.map_map]; rfl

/-- the anomaly of a line -/
def anomE (env : Env D) (dist : Str → D) (e : Entry) : Anomaly D := ⟨dist (tokE env e), e.1.2, txt env e⟩

theorem anomalies_eq (skip : List Str) (ls : List LogLine) :
    Spec.anomalies env.tokenize dist env.over skip (ls.map (lineL env)) =
      ((firsts (tokE env) skip (ents 0 ls)).filter (overE env dist)).map (anomE env dist) := by
  unfold Spec.anomalies
  rw [← ents_lines 0 ls, ← firsts_map (lineE env), List.filter_map, List.map_map]
  rfl

theorem positions_eq (skip : List Str) (ls : List LogLine) :
    Spec.positions env.tokenize dist env.over skip (ls.map (lineL env)) =
      ((firsts (tokE env) skip (ents 0 ls)).filter (overE env dist)).map (fun e => e.2 - 1) := by
  unfold Spec.positions
  rw [← ents_zipIdx 0 ls, ← firsts_map (fun e => (lineE env e, e.2 - 1)), List.filter_map, List.map_map]
  rfl

theorem shows_anomaly {L : List Entry} {cs : List (AnomalyContext D)} {V : List Win} (h : List.Forall₂ (Shows env dist L) cs V)
    {G : List Entry} (hi : V.map (fun w => L[w.i]?) = G.map some) : cs.map (·.anomaly) = G.map (anomE env dist) := by
  induction h generalizing G with
  | nil =>
    cases G with
    | nil => rfl
    | cons => cases hi
  | cons hc _ ih =>
    cases G with
    | nil => cases hi
    | cons g G =>
      simp only [List.map_cons, List.cons.injEq] at hi ⊢
      obtain ⟨e, h1, h2, h3, h4, h5, h6⟩ := hc
      rw [h1] at hi
      have : e = g := Option.some.inj hi.1
      subst this
      exact ⟨h5, ih hi.2⟩

theorem idx_positions {c : Nat} {ls : List LogLine} {V : List Win} {G : List Entry}
    (hi : V.map (fun w => (ents c ls)[w.i]?) = G.map some) : V.map (fun w => c + w.i) = G.map (fun e => e.2 - 1) := by
  induction V generalizing G with
  | nil =>
    cases G with
    | nil => rfl
    | cons => cases hi
  | cons w V ih =>
    cases G with
    | nil => cases hi
    | cons g G =>
      simp only [List.map_cons, List.cons.injEq] at hi ⊢
      have := ents_get _ _ _ _ hi.1
      exact ⟨by omega, ih hi.2⟩

/-- the window of the specification -/
def winS (w : Win) : Spec.Window := ⟨w.i, w.b, w.a⟩

theorem shows_spec {L : List Entry} {c : AnomalyContext D} {w : Win} (h : Shows env dist L c w) :
    Spec.Shows env.tokenize dist (L.map (lineE env)) c (winS w) := by
  obtain ⟨e, h1, h2, h3, h4, h5, h6⟩ := h
  have hlt : w.i < L.length := by omega
  have hd : L.drop w.i = e :: L.drop (w.i + 1) := by
    rw [List.drop_eq_getElem_cons hlt]
    rw [List.getElem?_eq_getElem hlt] at h1
    rw [Option.some.inj h1]
  have hsplit : L = L.take (w.i - w.b) ++ (L.drop (w.i - w.b)).take w.b ++
      e :: ((L.drop (w.i + 1)).take w.a ++ (L.drop (w.i + 1)).drop w.a) := by
    rw [List.take_append_drop, ← hd]
    conv => lhs; rw [← List.take_append_drop (w.i - w.b) L, ← List.take_append_drop w.b (L.drop (w.i - w.b))]
    rw [List.drop_drop, List.append_assoc]
    congr 3
    omega
  refine ⟨(L.take (w.i - w.b)).map (lineE env), ((L.drop (w.i - w.b)).take w.b).map (lineE env), lineE env e,
    ((L.drop (w.i + 1)).take w.a).map (lineE env), ((L.drop (w.i + 1)).drop w.a).map (lineE env), ?_, ?_, ?_, ?_, ?_, ?_, ?_⟩
  · conv => lhs; rw [hsplit]
    simp only [List.map_append, List.map_cons]
  · simp [winS]; omega
  · simp [winS]; omega
  · simp [winS]; omega
  · rw [h4, txt_map]
  · rw [h6, txt_map]
  · rw [h5]; rfl

theorem good_consecutive {full : Prop} {cut : Nat → Prop} {V : List Win} (h : Good full cut V) :
    Spec.Consecutive (Rel full cut) V.reverse := by
  intro pre x y post he
  have he' : V = post.reverse ++ y :: x :: pre.reverse := by
    have := congrArg List.reverse he
    simpa using this
  rw [he'] at h
  clear he he'
  generalize post.reverse = Q at h
  induction Q with
  | nil => exact h.1
  | cons w Q ih =>
    apply ih
    cases Q with
    | nil => exact h.2
    | cons => exact h.2

theorem good_first {full : Prop} {cut : Nat → Prop} {V : List Win} (h : Good full cut V) :
    ∀ w ∈ V.reverse.head?, w.b ≤ 3 ∧ w.b ≤ w.i ∧ (full → w.b = min 3 w.i) := by
  induction V with
  | nil => simp
  | cons v V ih =>
    cases V with
    | nil => intro w hw; simp at hw; subst hw; exact h
    | cons v' V =>
      intro w hw
      apply ih h.2
      simpa using hw

theorem good_b3 {full : Prop} {cut : Nat → Prop} {V : List Win} (h : Good full cut V) : ∀ w ∈ V, w.b ≤ 3 := by
  induction V with
  | nil => simp
  | cons v V ih =>
    intro w hw
    cases V with
    | nil => simp at hw; subst hw; exact h.1
    | cons v' V =>
      rcases List.mem_cons.1 hw with rfl | hw
      · exact h.1.2.2.1
      · exact ih h.2 w hw

/-! ### The run to the end of plain lines -/

theorem finish_idle {s : St D} (h1 : s.targets = []) (h2 : s.currentAnomaly = none) : s.finish env = some s := by
  unfold St.finish St.flushTargets
  rw [if_pos h1]
  simp only [Option.bind_eq_bind, Option.bind_some, h2]

theorem collect_eof {s s' : St D} (n : Nat) (h0 : s.anomalies = []) (hf : s.finish env = some s') (ht : s'.targets = [])
    (hc : s'.currentAnomaly = none) (hn : s'.anomalies.length < n) :
    collect env n ([] : List (Ev ε)) s = (s'.anomalies, .finished, { s' with anomalies := [] }) := by
  have hr : readAnomalies env ([] : List (Ev ε)) s = some (.ok (), [], s') := by
    unfold readAnomalies; rw [hf]; rfl
  obtain ⟨n, rfl⟩ : ∃ n', n = n' + 1 := ⟨n - 1, by omega⟩
  cases ha : s'.anomalies with
  | nil =>
    rw [collect_done n _ _ h0 hr ha]
    obtain ⟨_, _, _, _, _, _, _, _, _, _⟩ := s'
    simp only at ha
    subst ha
    rfl
  | cons a as =>
    rw [ha, List.length_cons] at hn
    rw [collect_read n _ _ h0 hr ha, collect_end n _ _ (by show as.length ≤ n; omega)]
    simp only
    obtain ⟨k, hk⟩ : ∃ k, n - as.length = k + 1 := ⟨n - as.length - 1, by omega⟩
    have hr2 : readAnomalies env ([] : List (Ev ε)) { s' with anomalies := [] } =
        some (.ok (), [], { s' with anomalies := [] }) := by
      unfold readAnomalies; rw [finish_idle (s := { s' with anomalies := [] }) ht hc]; rfl
    rw [hk, collect_done k _ _ rfl hr2 rfl]
    simp

/-- The state of a new processor after plain lines, and what was returned until then. -/
theorem start_spec (hsearch : ∀ ts, env.search ts = ts.map dist) (skip : List Str) (ls : List LogLine) (hp : Plain env ls) :
    ∃ outs base k F P V s, outs.length + pend s ≤ ls.length ∧
      (∀ (ε : Type) (n : Nat) (tl : List (Ev ε)), ls.length < n →
        collect env n (ls.map Except.ok ++ tl) (St.new skip) =
          (outs ++ (collect env (n - outs.length) tl s).1, (collect env (n - outs.length) tl s).2)) ∧
      s.anomalies = [] ∧
      Inv env dist True (· ∈ cuts (keyL env) skip 0 0 0 ls) skip 0 0 outs.reverse (ents 0 ls) base k F P V s := by
  obtain ⟨outs, b, k, F, P, V, s, h1, h2, h3, h4, h5⟩ := collect_spec (env := env) (dist := dist) (full := True)
    (cut := (· ∈ cuts (keyL env) skip 0 0 0 ls)) hsearch ls.length ls [] [] 0 0 [] [] [] (St.new skip) (Inv.start skip) hp
    (fun c hc => hc) (by simp [pend, St.new])
  have hp0 : pend (St.new (D := D) skip) = 0 := rfl
  rw [hp0] at h1 h2
  refine ⟨outs, b, k, F, P, V, s, h1, ?_, h3, ?_⟩
  · intro ε n tl hn
    exact h2 ε n tl (by omega) (by omega)
  · simpa [St.new] using h5

theorem firsts_nil {α : Type} {key : α → Str} {skip : List Str} {X : List α} (h : firsts key skip X = []) : ∀ x ∈ X, key x ∈ skip := by
  induction X with
  | nil => simp
  | cons x X ih =>
    rw [firsts_cons] at h
    split at h
    · rename_i hx
      intro y hy
      rcases List.mem_cons.1 hy with rfl | hy
      · exact hx
      · exact ih h y hy
    · cases h

/-- Nothing is new after the last search. -/
theorem repeats_of_inv {full : Prop} {cut : Nat → Prop} {skip0 : List Str} {m mb : Nat}
    {em : List (AnomalyContext D)} {L : List Entry} {base k : Nat} {F : List Entry} {V : List Win} {s : St D}
    (h : Inv env dist full cut skip0 m mb em L base k F [] V s) :
    ∀ e ∈ L.drop base, tokE env e ∈ skip0 ∨ ∃ e' ∈ L.take base, tokE env e' = tokE env e := by
  have hn := h.news
  rw [List.append_nil] at hn
  conv at hn => lhs; rw [← List.take_append_drop base L, firsts_append]
  have hnil : firsts (tokE env) (skip0 ++ (L.take base).map (tokE env)) (L.drop base) = [] := by
    rw [List.eq_nil_iff_forall_not_mem]
    intro e he
    have h1 : e ∈ L.take base := h.fsub.subset (by rw [← hn]; exact List.mem_append_right _ he)
    have h2 : e ∈ L.drop base := (firsts_sublist _ _).subset he
    have hc := h.coords
    rw [← List.take_append_drop base L, List.map_append, List.pairwise_append] at hc
    have := hc.2.2 e.2 (List.mem_map_of_mem h1) e.2 (List.mem_map_of_mem h2)
    omega
  intro e he
  have := firsts_nil hnil e he
  rw [List.mem_append, List.mem_map] at this
  exact this

/-- The run over a source of plain lines. -/
theorem run_spec (ε : Type) (hsearch : ∀ ts, env.search ts = ts.map dist) (skip : List Str) (ls : List LogLine) (hp : Plain env ls) :
    ∃ outs V s, process env skip (ls.map (Except.ok (ε := ε))) = (outs, .finished, s) ∧
      List.Forall₂ (Shows env dist (ents 0 ls)) outs V.reverse ∧
      V.map (fun w => (ents 0 ls)[w.i]?) = ((firsts (tokE env) skip (ents 0 ls)).filter (overE env dist)).reverse.map some ∧
      Good True (· ∈ cuts (keyL env) skip 0 0 0 ls) V ∧ (∀ w ∈ V, w.a ≤ 3) ∧
      (∀ w ∈ V.head?, w.a = 3 ∨ ∃ E, w.i + w.a + 1 = E ∧ (E = ls.length ∨ (E ∈ cuts (keyL env) skip 0 0 0 ls ∧
        ∀ e ∈ (ents 0 ls).drop E, tokE env e ∈ skip ∨ ∃ e' ∈ (ents 0 ls).take E, tokE env e' = tokE env e))) ∧
      (∀ x, x ∈ s.skipLines ↔ x ∈ skip ∨ ∃ e ∈ ents 0 ls, tokE env e = x) ∧
      s.lineCount = ls.length ∧ s.byteCount = (ls.map fun l => l.1.length).sum := by
  obtain ⟨outs, base, k, F, P, V, s, h1, h2, h3, h4⟩ := start_spec (env := env) (dist := dist) hsearch skip ls hp
  obtain ⟨s', b', k', V', f1, f2, f3, f4, f5, f6, f7, f8, f9, f10, f11⟩ := finish_spec hsearch h4
  have hlen : s'.anomalies.length < ls.length + 2 - outs.length := by unfold pend at h1; omega
  have hrun := h2 ε (ls.length + 2) [] (by omega)
  rw [List.append_nil, collect_eof _ h3 f1 f6 f3 hlen] at hrun
  refine ⟨outs ++ s'.anomalies, V', { s' with anomalies := [] }, ?_, ?_, ?_, f4, f2.idle.a3, ?_, ?_, ?_, ?_⟩
  · unfold process
    rw [List.length_map]
    exact hrun
  · have := f2.idle.shows_
    rw [f3] at this
    simp only [Option.toList_none, List.nil_append, ← List.reverse_append] at this
    rw [← List.forall₂_reverse_iff, List.reverse_reverse]
    exact this
  · rw [f2.idle.idx, h4.news]
  · intro w hw
    rcases f5 trivial w hw with h | h
    · exact .inl h
    · right
      have hw' : lastEnd V' = w.i + w.a + 1 := by
        cases V' with
        | nil => cases hw
        | cons v V' => simp only [List.head?_cons, Option.mem_some_iff] at hw; subst hw; rfl
      refine ⟨_, rfl, ?_⟩
      rw [← hw', h]
      by_cases hP : P = []
      · subst hP
        rw [if_pos rfl]
        right
        refine ⟨h4.cut_base ?_, repeats_of_inv h4⟩
        rw [if_pos rfl] at h; omega
      · rw [if_neg hP, ents_length]; exact .inl rfl
  · intro x
    show x ∈ s'.skipLines ↔ _
    rw [f8]; exact h4.skip x
  · show s'.lineCount = _
    rw [f10, h4.cntL, h4.cntC, ents_length]; omega
  · show s'.byteCount = _
    rw [f11, h4.cntB, Nat.zero_add]
    conv => rhs; rw [← ents_fst 0 ls, List.map_map]
    rfl

end LJ.Process

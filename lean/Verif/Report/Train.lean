/-
The training as a function of the readers, and the runs over the sources of a group.
-/
import Verif.Report.Runs
namespace LJ.Report
open LJ.Process (Str Bytes Ev Env Err AnomalyContext Trainer Stop)
set_option linter.unusedSectionVars false
variable {C S N D E ε : Type} [DecidableEq N] {w : World C S N D E ε}

/-! ### Training -/

/-- the sources opened -/
def opened (w : World C S N D E ε) (json : Bool) (ss : List S) : List (List (Ev ε)) :=
  ss.filterMap fun s => match w.openSource s with | .ok reader => some (reader json) | .error _ => none

theorem trainSources_ok (json : Bool) (ss : List S) (t : Trainer) (h : ∀ s ∈ ss, ∃ reader, w.openSource s = .ok reader) :
    trainSources w json ss t = .ok (t.addAll (envOf w []) (opened w json ss)) := by
  induction ss generalizing t with
  | nil => rfl
  | cons s ss ih =>
    obtain ⟨reader, hr⟩ := h s (by simp)
    unfold trainSources
    rw [hr]
    simp only
    rw [ih _ (fun s hs => h s (by simp [hs]))]
    simp [opened, hr, Trainer.addAll]

theorem trainSources_err (json : Bool) (ss : List S) (t : Trainer) {s : S} {e : E} (hs : s ∈ ss) (h : w.openSource s = .error e) :
    ∃ s' ∈ ss, ∃ e', w.openSource s' = .error e' ∧ trainSources w json ss t = .error e' := by
  induction ss generalizing t with
  | nil => cases hs
  | cons x ss ih =>
    unfold trainSources
    cases hx : w.openSource x with
    | error e' => exact ⟨x, by simp, e', hx, rfl⟩
    | ok reader =>
      rcases List.mem_cons.1 hs with rfl | hs
      · rw [h] at hx; cases hx
      · obtain ⟨s', h1, e', h2, h3⟩ := ih (t.add (envOf w []) (reader json)).2 hs
        exact ⟨s', by simp [h1], e', h2, h3⟩

/-- the kind of the sources of a group -/
def groupJson (w : World C S N D E ε) (ss : List S) : Bool := match ss with | s :: _ => w.isJson s | [] => false

theorem trainIndex_ok (ss : List S) (h : ∀ s ∈ ss, ∃ reader, w.openSource s = .ok reader) :
    trainIndex w ss = .ok ⟨ss, (LJ.Process.trained (envOf w []) (opened w (groupJson w ss) ss)).chunks,
      (LJ.Process.trained (envOf w []) (opened w (groupJson w ss) ss)).lineCount,
      (LJ.Process.trained (envOf w []) (opened w (groupJson w ss) ss)).byteCount⟩ := by
  unfold trainIndex
  show (match trainSources w (groupJson w ss) ss Trainer.new with | .error e => _ | .ok t => _) = _
  rw [trainSources_ok _ _ _ h]
  rfl

theorem trainIndex_err (ss : List S) {s : S} {e : E} (hs : s ∈ ss) (h : w.openSource s = .error e) :
    ∃ s' ∈ ss, ∃ e', w.openSource s' = .error e' ∧ trainIndex w ss = .error e' := by
  obtain ⟨s', h1, e', h2, h3⟩ := trainSources_err (groupJson w ss) ss Trainer.new hs h
  refine ⟨s', h1, e', h2, ?_⟩
  unfold trainIndex
  show (match trainSources w (groupJson w ss) ss Trainer.new with | .error e => _ | .ok t => _) = _
  rw [h3]

/-- the index of a group, if its training succeeds -/
def trainedIndex (w : World C S N D E ε) (g : N × List S) : Option (N × Index S) :=
  match trainIndex w g.2 with
  | .ok i => some (g.1, i)
  | .error _ => none

theorem trainGroups_spec (gs : List (N × List S)) :
    ((∀ g ∈ gs, ∃ i, trainIndex w g.2 = .ok i) ∧ trainGroups w gs = .ok (gs.filterMap (trainedIndex w))) ∨
    (∃ g ∈ gs, ∃ e, trainIndex w g.2 = .error e ∧ trainGroups w gs = .error e) := by
  induction gs with
  | nil => exact .inl ⟨by simp, rfl⟩
  | cons g gs ih =>
    obtain ⟨n, ss⟩ := g
    unfold trainGroups
    cases hi : trainIndex w ss with
    | error e => exact .inr ⟨(n, ss), by simp, e, hi, rfl⟩
    | ok i =>
      rcases ih with ⟨h1, h2⟩ | ⟨g, h1, e, h2, h3⟩
      · refine .inl ⟨?_, ?_⟩
        · intro g hg
          rcases List.mem_cons.1 hg with rfl | hg
          · exact ⟨i, hi⟩
          · exact h1 g hg
        · simp [h2, trainedIndex, hi]
      · exact .inr ⟨g, by simp [h1], e, h2, by simp [h3]⟩

theorem trainedIndex_keys (gs : List (N × List S)) (h : ∀ g ∈ gs, ∃ i, trainIndex w g.2 = .ok i) :
    (gs.filterMap (trainedIndex w)).map Prod.fst = gs.map Prod.fst := by
  induction gs with
  | nil => rfl
  | cons g gs ih =>
    obtain ⟨i, hi⟩ := h g (by simp)
    rw [List.filterMap_cons_some (b := (g.1, i)) (by simp [trainedIndex, hi]), List.map_cons, List.map_cons,
      ih (fun g hg => h g (by simp [hg]))]

/-! ### Runs -/

theorem process_skip {env : Env D} {dist : Str → D} (hs : LJ.Process.Spec.Pointwise env.search dist) (skip : List Str) (r : List (Ev ε)) (x : Str)
    (h : x ∈ (LJ.Process.process env skip r).2.2.skipLines) :
    x ∈ skip ∨ ∃ l ∈ LJ.Process.Spec.visible env.decode r, env.tokenize l.text = x := by
  obtain ⟨outs, stop, m', mb', X, b', k', F', P', V', s', h1, h2, h3, h4, h5, h6⟩ :=
    LJ.Process.collect_total hs (r.length + 2) r 0 0 [] [] 0 0 [] [] [] (LJ.Process.St.new skip) (LJ.Process.Inv.start skip)
      (by simp [LJ.Process.pend, LJ.Process.St.new])
  unfold LJ.Process.process at h
  rw [h1] at h
  rcases (h4.skip x).1 h with h | ⟨e, he, hx⟩
  · exact .inl h
  · right
    obtain ⟨Y, hY⟩ := h6
    refine ⟨LJ.Process.lineE env e, ?_, hx⟩
    rw [LJ.Process.visible_eq, ← hY, List.map_append, List.map_map]
    exact List.mem_append_left _ (List.mem_map_of_mem (by simpa using he))

/-- what happens with an occurrence of a source in a group -/
theorem runs_cases (hs : SearchOk w) (index : Index S) (pre : List S) (s : S) (post : List S) (skip : List Str) :
    (∃ t ∈ pre, ∃ e, w.openSource t = .error e ∧ Run.noOpen t e ∈ runs w index (pre ++ s :: post) skip) ∨
    (∃ e, w.openSource s = .error e ∧ Run.noOpen s e ∈ runs w index (pre ++ s :: post) skip) ∨
    (∃ reader skip', w.openSource s = .ok reader ∧
      Run.done s (LJ.Process.process (envOf w index.chunks) skip' (reader (w.isJson s))) ∈ runs w index (pre ++ s :: post) skip ∧
      ∀ x ∈ skip', x ∈ skip ∨ ∃ t ∈ pre, ∃ r, w.openSource t = .ok r ∧
        ∃ l ∈ LJ.Process.Spec.visible w.decode (r (w.isJson t)), w.tokenize l.text = x) := by
  induction pre generalizing skip with
  | nil =>
    right
    rw [List.nil_append]
    unfold runs
    cases ho : w.openSource s with
    | error e => exact .inl ⟨e, rfl, by simp⟩
    | ok reader => exact .inr ⟨reader, skip, rfl, by simp, fun x hx => .inl hx⟩
  | cons t pre ih =>
    rw [List.cons_append]
    unfold runs
    cases ho : w.openSource t with
    | error e => exact .inl ⟨t, by simp, e, ho, by simp⟩
    | ok reader =>
      simp only
      rcases ih (LJ.Process.process (envOf w index.chunks) skip (reader (w.isJson t))).2.2.skipLines with
        ⟨t', h1, e, h2, h3⟩ | ⟨e, h2, h3⟩ | ⟨rd, skip', h2, h3, h4⟩
      · exact .inl ⟨t', by simp [h1], e, h2, by simp [h3]⟩
      · exact .inr (.inl ⟨e, h2, by simp [h3]⟩)
      · refine .inr (.inr ⟨rd, skip', h2, by simp [h3], ?_⟩)
        intro x hx
        rcases h4 x hx with h | ⟨t', g1, r, g2, g3⟩
        · obtain ⟨dist, hd⟩ := hs index.chunks
          rcases process_skip (env := envOf w index.chunks) hd skip _ x h with h | h
          · exact .inl h
          · exact .inr ⟨t, by simp, reader, ho, h⟩
        · exact .inr ⟨t', by simp [g1], r, g2, g3⟩

theorem runs_mem {index : Index S} {ss : List S} {skip : List Str} {r : Run S D E ε} (h : r ∈ runs w index ss skip) :
    r.source ∈ ss ∧ ((∃ e, w.openSource r.source = .error e ∧ r = .noOpen r.source e) ∨
      ∃ reader skip', w.openSource r.source = .ok reader ∧
        r = .done r.source (LJ.Process.process (envOf w index.chunks) skip' (reader (w.isJson r.source)))) := by
  induction ss generalizing skip with
  | nil => cases h
  | cons s ss ih =>
    unfold runs at h
    cases ho : w.openSource s with
    | error e =>
      rw [ho] at h
      rw [List.mem_singleton] at h
      subst h
      exact ⟨by simp [Run.source], .inl ⟨e, ho, rfl⟩⟩
    | ok reader =>
      rw [ho] at h
      rcases List.mem_cons.1 h with rfl | h
      · exact ⟨by simp [Run.source], .inr ⟨reader, skip, ho, rfl⟩⟩
      · obtain ⟨h1, h2⟩ := ih h
        exact ⟨by simp [h1], h2⟩

/-- the runs over sources which can be read -/
theorem runs_good {index : Index S} {dist : Str → D} (hd : LJ.Process.Spec.Pointwise (w.search index.chunks) dist)
    (ss : List S) (text : S → List LJ.Process.Spec.Line)
    (h : ∀ s ∈ ss, ∃ reader lines, w.openSource s = .ok reader ∧ reader (w.isJson s) = lines.map Except.ok ∧
      LJ.Process.Spec.Reads w.decode lines (text s) ∧ LJ.Process.Spec.NoMarker (text s)) (name : N) (skip : List Str) :
    (((runs w index ss skip).filterMap (Run.log name)).flatMap fun l => l.anomalies.map (·.anomaly)) =
      LJ.Process.Spec.anomalies w.tokenize dist w.over skip (ss.flatMap text) ∧
    (runs w index ss skip).filterMap Run.err = [] ∧
    ((runs w index ss skip).map Run.lines).sum = (ss.flatMap text).length := by
  induction ss generalizing skip with
  | nil => simp [runs, LJ.Process.Spec.anomalies, LJ.Process.Spec.firsts]
  | cons s ss ih =>
    obtain ⟨reader, lines, ho, hl, hr, hm⟩ := h s (by simp)
    unfold runs
    rw [ho]
    simp only
    rw [hl]
    have hd' : LJ.Process.Spec.Pointwise (envOf w index.chunks).search dist := hd
    obtain ⟨outs, ws, st, e1, e2, e3, e4, e5, e6, e7, e8, e9, e10, e11⟩ :=
      LJ.Process.run_full (env := envOf w index.chunks) ε hd' skip hr hm
    rw [e1]
    obtain ⟨i1, i2, i3⟩ := ih (fun s hs => h s (by simp [hs])) st.skipLines
    refine ⟨?_, ?_, ?_⟩
    · have hlog : ((Run.done s (outs, Stop.finished, st) :: runs w index ss st.skipLines).filterMap (Run.log (D := D) (E := E) (ε := ε) name)).flatMap
          (fun l => l.anomalies.map (·.anomaly)) = outs.map (·.anomaly) ++
          ((runs w index ss st.skipLines).filterMap (Run.log name)).flatMap (fun l => l.anomalies.map (·.anomaly)) := by
        rw [List.filterMap_cons]
        cases outs <;> simp [Run.log]
      show ((Run.done s (outs, Stop.finished, st) :: runs w index ss st.skipLines).filterMap _).flatMap _ = _
      rw [hlog, i1, e4, List.flatMap_cons]
      unfold LJ.Process.Spec.anomalies
      rw [LJ.Process.firsts_append, List.filter_append, List.map_append]
      show _ = _ ++ (List.map _ (List.filter _ (LJ.Process.Spec.firsts _ _ _)))
      congr 3
      apply LJ.Process.firsts_congr
      intro x
      rw [e10, List.mem_append, List.mem_map]
      rfl
    · rw [List.filterMap_cons]
      simpa [Run.err, stopErr] using i2
    · simp [Run.lines, e11.1, i3]

end LJ.Report

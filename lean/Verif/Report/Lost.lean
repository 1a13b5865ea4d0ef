/-
C142, C143: a failure while the target is read.

The files of the target may be impossible to open, or their reading may fail after some of their lines (a network error, a truncated cache entry, a disk error):
model.rs:462-530 `report`, process.rs:107-117 `next`.
-/
import Verif.Report.Once
import Verif.Report.Broken
import Verif.Process.ExactProps
namespace LJ.Report
open LJ.Process (Str Bytes Ev Env Err AnomalyContext Stop LogLine toyL)
set_option linter.unusedSectionVars false
variable {C S N D E ε : Type} [DecidableEq N] {w : World C S N D E ε}

/-! ### Specification -/

/-- Each file of the target is read as before, or can't be opened, or its reading fails somewhere. -/
def Spec.Lossy (w : World C S N D E ε) (target : C) (o : S → Except E (Bool → List (Ev ε))) : Prop :=
  ∀ s ∈ Spec.validSources w.valid (w.list target), ∀ reader, w.openSource s = .ok reader →
    (∃ e, o s = .error e) ∨ ∃ reader', o s = .ok reader' ∧ ∀ json, Spec.Interrupted (reader json) (reader' json)

/-- C143, as it should be: when all the files are opened, a line of a file which is read whole is found as it is found without the failures of the other files. -/
def Spec.C143 (w : World C S N D E ε) : Prop :=
  ∀ (m : Model C S N) (target : C) (text : S → List LJ.Process.Spec.Line) (o : S → Except E (Bool → List (Ev ε))) (r r' : Report C S N D E ε),
    Spec.AllRead w text target → Spec.Lossy w target o → (∀ s ∈ Spec.validSources w.valid (w.list target), ∃ reader, o s = .ok reader) →
    report w m id target = some (.ok r) → report { w with openSource := o } m id target = some (.ok r') →
    ∀ s ∈ Spec.validSources w.valid (w.list target), (∀ e, (s, e) ∉ r'.readErrors) →
      ∀ l ∈ text s, ∀ d, (w.tokenize l.text, d) ∈ found w r (w.nameOf s) → (w.tokenize l.text, d) ∈ found w r' (w.nameOf s)

open Spec (Lossy Interrupted)

/-! ### One source -/

omit [DecidableEq N] in
theorem visible_take {decode : Bytes → Option Str} {lines : List LogLine} {src : List LJ.Process.Spec.Line} (hr : LJ.Process.Spec.Reads decode lines src)
    (hm : LJ.Process.Spec.NoMarker src) (k : Nat) (rest : List (Ev ε)) (hrest : LJ.Process.Spec.visible decode rest = []) :
    LJ.Process.Spec.visible decode ((lines.map Except.ok).take k ++ rest) <+: src := by
  induction hr generalizing k with
  | nil => rw [List.map_nil, List.take_nil, List.nil_append, hrest]
  | @cons l s lines src h _ ih =>
    cases k with
    | zero => rw [List.take_zero, List.nil_append, hrest]; exact List.nil_prefix
    | succ k =>
      rw [List.map_cons, List.take_succ_cons, List.cons_append]
      unfold LJ.Process.Spec.visible
      simp only [h.1]
      rw [if_neg (hm s (by simp))]
      obtain ⟨text, num⟩ := s
      simp only at h
      rw [h.2]
      exact List.cons_prefix_cons.2 ⟨rfl, ih (fun x hx => hm x (by simp [hx])) k⟩

theorem visible_interrupted {decode : Bytes → Option Str} {lines : List LogLine} {src : List LJ.Process.Spec.Line} (hr : LJ.Process.Spec.Reads decode lines src)
    (hm : LJ.Process.Spec.NoMarker src) {r' : List (Ev ε)} (h : Interrupted (lines.map Except.ok) r') : LJ.Process.Spec.visible decode r' <+: src := by
  rcases h with rfl | ⟨k, e, rfl⟩
  · have := visible_take (ε := ε) hr hm lines.length [] rfl
    rwa [List.take_of_length_le (by simp), List.append_nil] at this
  · exact visible_take hr hm k [.error e] rfl

theorem reported_error {tok : Str → Str} {dist : Str → D} {over : D → Bool} {decode : Bytes → Option Str} {lines : List LogLine} {src : List LJ.Process.Spec.Line}
    (hr : LJ.Process.Spec.Reads decode lines src) (hm : LJ.Process.Spec.NoMarker src) (k : Nat) (e : ε) (p : LJ.Process.Spec.Progress D) :
    (LJ.Process.Spec.reported tok dist over decode p ((lines.map Except.ok).take k ++ [.error e])).2.1 = .failed (.io e) := by
  induction hr generalizing k p with
  | nil => rw [List.map_nil, List.take_nil]; rfl
  | @cons l s lines src h _ ih =>
    cases k with
    | zero => rfl
    | succ k =>
      rw [List.map_cons, List.take_succ_cons, List.cons_append]
      unfold LJ.Process.Spec.reported
      simp only [h.1]
      rw [if_neg (hm s (by simp))]
      split
      · exact ih (fun x hx => hm x (by simp [hx])) k _
      · exact ih (fun x hx => hm x (by simp [hx])) k _

theorem shows_prefix {tok : Str → Str} {dist : Str → D} {ls ls' : List LJ.Process.Spec.Line} (h : ls <+: ls') {c : AnomalyContext D}
    {x : LJ.Process.Spec.Window} (hx : LJ.Process.Spec.Shows tok dist ls c x) : LJ.Process.Spec.Shows tok dist ls' c x := by
  obtain ⟨more, rfl⟩ := h
  obtain ⟨pre, bef, l, aft, post, rfl, rest⟩ := hx
  exact ⟨pre, bef, l, aft, post ++ more, by simp, rest⟩

/-! ### The sources of a group -/

theorem runs_log_mem {index : Index S} {name : N} {ss : List S} {skip : List Str} {l : LogReport S N D}
    (h : l ∈ (runs w index ss skip).filterMap (Run.log name)) :
    l.source ∈ ss ∧ ∃ reader known, w.openSource l.source = .ok reader ∧
      l.anomalies = (LJ.Process.process (envOf w index.chunks) known (reader (w.isJson l.source))).1 := by
  induction ss generalizing skip with
  | nil => simp [runs] at h
  | cons s ss ih =>
    unfold runs at h
    cases ho : w.openSource s with
    | error e => rw [ho] at h; simp [Run.log] at h
    | ok reader =>
      rw [ho] at h
      simp only at h
      obtain ⟨x, hx, hl⟩ := List.mem_filterMap.1 h
      rcases List.mem_cons.1 hx with rfl | hx
      · simp only [Run.log] at hl
        split at hl
        · cases hl
        · cases hl
          exact ⟨by simp, reader, skip, ho, rfl⟩
      · obtain ⟨h1, h2⟩ := ih (List.mem_filterMap.2 ⟨x, hx, hl⟩)
        exact ⟨List.mem_cons_of_mem _ h1, h2⟩

theorem runs_err_source {index : Index S} {ss : List S} {skip : List Str} {x : S × ReadErr E ε}
    (h : x ∈ (runs w index ss skip).filterMap Run.err) : x.1 ∈ ss := by
  induction ss generalizing skip with
  | nil => simp [runs] at h
  | cons s ss ih =>
    unfold runs at h
    cases ho : w.openSource s with
    | error e =>
      rw [ho] at h
      simp [Run.err] at h
      rw [h]; simp
    | ok reader =>
      rw [ho] at h
      simp only at h
      obtain ⟨y, hy, he⟩ := List.mem_filterMap.1 h
      rcases List.mem_cons.1 hy with rfl | hy
      · simp only [Run.err, Option.map_eq_some_iff] at he
        obtain ⟨_, _, rfl⟩ := he
        simp
      · exact List.mem_cons_of_mem _ (ih (List.mem_filterMap.2 ⟨y, hy, he⟩))

/-- without an error, the runs are those of the whole files -/
theorem runs_lossless {o : S → Except E (Bool → List (Ev ε))} {index : Index S} {dist : Str → D}
    (hd : LJ.Process.Spec.Pointwise (w.search index.chunks) dist) {text : S → List LJ.Process.Spec.Line} (ss : List S)
    (hgood : ∀ s ∈ ss, ∃ reader lines, w.openSource s = .ok reader ∧ reader (w.isJson s) = lines.map Except.ok ∧
      LJ.Process.Spec.Reads w.decode lines (text s) ∧ LJ.Process.Spec.NoMarker (text s))
    (hl : ∀ s ∈ ss, ∀ reader, w.openSource s = .ok reader →
      (∃ e, o s = .error e) ∨ ∃ reader', o s = .ok reader' ∧ ∀ json, Interrupted (reader json) (reader' json)) (skip : List Str)
    (h : (runs { w with openSource := o } index ss skip).filterMap Run.err = []) : runs { w with openSource := o } index ss skip = runs w index ss skip := by
  induction ss generalizing skip with
  | nil => rfl
  | cons s ss ih =>
    obtain ⟨reader, lines, h1, h2, h3, h4⟩ := hgood s (by simp)
    rcases hl s (by simp) reader h1 with ⟨e, he⟩ | ⟨reader', he, hi⟩
    · unfold runs at h
      simp only [he, List.filterMap_cons, Run.err] at h
      cases h
    · have hi := hi (w.isJson s)
      rw [h2] at hi
      unfold runs at h ⊢
      simp only [he, h1, List.filterMap_cons] at h ⊢
      rcases hi with hi | ⟨k, e, hi⟩
      · rw [hi] at h ⊢
        rw [h2]
        have henv : envOf { w with openSource := o } index.chunks = envOf w index.chunks := rfl
        rw [henv] at h ⊢
        refine congrArg _ (ih (fun s hs => hgood s (by simp [hs])) (fun s hs => hl s (by simp [hs])) _ ?_)
        split at h
        · exact h
        · cases h
      · exfalso
        rw [hi] at h
        have hf := (LJ.Process.C126_exact (env := envOf { w with openSource := o } index.chunks) hd skip ((lines.map Except.ok).take k ++ [.error e])).2.1
        rw [reported_error (by exact h3) h4 k e] at hf
        simp only [Run.err, hf, stopErr, Option.map_some] at h
        cases h

/-- the tokens which are known after a reading are those known before and those of the file -/
theorem reported_seen {tok : Str → Str} {dist : Str → D} {over : D → Bool} {decode : Bytes → Option Str} {lines : List LogLine} {src : List LJ.Process.Spec.Line}
    (hr : LJ.Process.Spec.Reads decode lines src) (hm : LJ.Process.Spec.NoMarker src) (k : Nat) (e : ε) (p : LJ.Process.Spec.Progress D) :
    ∀ t ∈ (LJ.Process.Spec.reported tok dist over decode p ((lines.map Except.ok).take k ++ [.error e])).2.2.seen, t ∈ p.seen ∨ t ∈ src.map fun l => tok l.text := by
  induction hr generalizing k p with
  | nil => rw [List.map_nil, List.take_nil]; exact fun t h => .inl h
  | @cons l s lines src h _ ih =>
    cases k with
    | zero => exact fun t h => .inl h
    | succ k =>
      rw [List.map_cons, List.take_succ_cons, List.cons_append]
      unfold LJ.Process.Spec.reported
      simp only [h.1]
      rw [if_neg (hm s (by simp))]
      have hline : ∀ t ∈ ((p.count l).line tok dist over ⟨s.text, l.2⟩).seen, t ∈ p.seen ∨ t = tok s.text := by
        intro t ht
        unfold LJ.Process.Spec.Progress.line LJ.Process.Spec.Progress.count at ht
        simp only at ht
        split at ht
        · exact .inl ht
        · split at ht <;> (rcases List.mem_cons.1 ht with rfl | ht; exacts [.inr rfl, .inl ht])
      have hm' : LJ.Process.Spec.NoMarker src := fun x hx => hm x (by simp [hx])
      have fin : ∀ t, t ∈ ((p.count l).line tok dist over ⟨s.text, l.2⟩).seen ∨ t ∈ src.map (fun l => tok l.text) →
          t ∈ p.seen ∨ t ∈ (s :: src).map fun l => tok l.text := by
        intro t ht
        rcases ht with ht | ht
        · rcases hline t ht with h | rfl
          · exact .inl h
          · exact .inr (by simp)
        · exact .inr (List.mem_cons_of_mem _ ht)
      intro t ht
      split at ht
      · exact fin t (ih hm' k (LJ.Process.Spec.Progress.next ((p.count l).line tok dist over ⟨s.text, l.2⟩)) t ht)
      · exact fin t (ih hm' k _ t ht)

/-- what is not found is in a file whose failure is told, or after a file which is not opened -/
theorem runs_explained {o : S → Except E (Bool → List (Ev ε))} {index : Index S} {dist : Str → D}
    (hd : LJ.Process.Spec.Pointwise (w.search index.chunks) dist) {text : S → List LJ.Process.Spec.Line} (name : N) (ss : List S)
    (hgood : ∀ s ∈ ss, ∃ reader lines, w.openSource s = .ok reader ∧ reader (w.isJson s) = lines.map Except.ok ∧
      LJ.Process.Spec.Reads w.decode lines (text s) ∧ LJ.Process.Spec.NoMarker (text s))
    (hl : ∀ s ∈ ss, ∀ reader, w.openSource s = .ok reader →
      (∃ e, o s = .error e) ∨ ∃ reader', o s = .ok reader' ∧ ∀ json, Interrupted (reader json) (reader' json)) (skip : List Str) (t : Str)
    (ht : t ∈ ss.flatMap fun s => (text s).map fun l => w.tokenize l.text) (hover : w.over (dist t) = true) (hskip : t ∉ skip) :
    (t, dist t) ∈ runsFound { w with openSource := o } name (runs { w with openSource := o } index ss skip) ∨
    ∃ s e, (s, e) ∈ (runs { w with openSource := o } index ss skip).filterMap Run.err ∧ ((∃ l ∈ text s, w.tokenize l.text = t) ∨ ∃ e', o s = .error e') := by
  induction ss generalizing skip with
  | nil => cases ht
  | cons s ss ih =>
    obtain ⟨reader, lines, h1, h2, h3, h4⟩ := hgood s (by simp)
    rcases hl s (by simp) reader h1 with ⟨e, he⟩ | ⟨reader', he, hi⟩
    · refine .inr ⟨s, .opening e, ?_, .inr ⟨e, he⟩⟩
      unfold runs
      simp [he, Run.err]
    · have hi := hi (w.isJson s)
      rw [h2] at hi
      have ih := ih (fun s hs => hgood s (by simp [hs])) (fun s hs => hl s (by simp [hs]))
      have hd' : LJ.Process.Spec.Pointwise (envOf { w with openSource := o } index.chunks).search dist := hd
      have later : ∀ (p : List (AnomalyContext D) × Stop ε × LJ.Process.St D), t ∉ p.2.2.skipLines → t ∉ (text s).map (fun l => w.tokenize l.text) →
          (t, dist t) ∈ runsFound { w with openSource := o } name (.done s p :: runs { w with openSource := o } index ss p.2.2.skipLines) ∨
          ∃ s' e, (s', e) ∈ (Run.done s p :: runs { w with openSource := o } index ss p.2.2.skipLines).filterMap Run.err ∧
            ((∃ l ∈ text s', w.tokenize l.text = t) ∨ ∃ e', o s' = .error e') := by
        intro p hp hn
        rw [List.flatMap_cons, List.mem_append] at ht
        rcases ih p.2.2.skipLines (ht.resolve_left hn) hp with h | ⟨s', e, h, h'⟩
        · refine .inl ?_
          rw [runsFound_done]
          exact List.mem_append_right _ h
        · refine .inr ⟨s', e, ?_, h'⟩
          obtain ⟨x, hx, hx'⟩ := List.mem_filterMap.1 h
          exact List.mem_filterMap.2 ⟨x, List.mem_cons_of_mem _ hx, hx'⟩
      unfold runs
      simp only [he]
      rcases hi with hi | ⟨k, e, hi⟩
      · rw [hi]
        obtain ⟨outs, ws, st, e1, e2, e3, e4, e5, e6, e7, e8, e9, e10, e11⟩ :=
          LJ.Process.run_full (env := envOf { w with openSource := o } index.chunks) ε hd' skip h3 h4
        rw [e1]
        by_cases hmem : t ∈ (text s).map fun l => w.tokenize l.text
        · refine .inl ?_
          rw [runsFound_done]
          refine List.mem_append_left _ ?_
          have hk : (outs.map fun a => (w.tokenize a.anomaly.line, a.anomaly.distance)) =
              (outs.map (·.anomaly)).map fun a => (w.tokenize a.line, a.distance) := by rw [List.map_map]; rfl
          show _ ∈ outs.map fun a => (w.tokenize a.anomaly.line, a.anomaly.distance)
          rw [hk, e4]
          unfold LJ.Process.Spec.anomalies
          rw [List.map_map]
          have hf : t ∈ LJ.Process.Spec.firsts id skip ((text s).map fun l => w.tokenize l.text) := by
            rw [LJ.Process.firsts_id_mem]; exact ⟨hmem, hskip⟩
          rw [← firsts_map (fun l : LJ.Process.Spec.Line => w.tokenize l.text)] at hf
          obtain ⟨l, hl1, hl2⟩ := List.mem_map.1 hf
          have hl2 : w.tokenize l.text = t := hl2
          refine List.mem_map.2 ⟨l, List.mem_filter.2 ⟨hl1, ?_⟩, ?_⟩
          · show w.over (dist (w.tokenize l.text)) = true
            rw [hl2]; exact hover
          · show (w.tokenize l.text, dist (w.tokenize l.text)) = _
            rw [hl2]
        · refine later (outs, .finished, st) ?_ hmem
          intro hin
          rcases (e10 t).1 hin with h | ⟨l, hl, h⟩
          · exact hskip h
          · exact hmem (List.mem_map.2 ⟨l, hl, h⟩)
      · rw [hi]
        obtain ⟨_, hf, hseen, _⟩ := LJ.Process.C126_exact (env := envOf { w with openSource := o } index.chunks) hd skip ((lines.map Except.ok).take k ++ [.error e])
        rw [reported_error (by exact h3) h4 k e] at hf
        by_cases hmem : t ∈ (text s).map fun l => w.tokenize l.text
        · obtain ⟨l, hl, h⟩ := List.mem_map.1 hmem
          refine .inr ⟨s, .reading (.io e), ?_, .inl ⟨l, hl, h⟩⟩
          refine List.mem_filterMap.2 ⟨_, List.mem_cons_self, ?_⟩
          simp only [Run.err, hf, stopErr, Option.map_some]
        · refine later _ ?_ hmem
          intro hin
          rcases reported_seen (by exact h3) h4 k e _ t ((hseen t).1 hin) with h | h
          · exact hskip h
          · exact hmem h

/-! ### Theorems -/

theorem log_group {m : Model C S N} (hs : SearchOk w) {o : List (N × List S) → List (N × List S)} (ho : ∀ g, (o g).Perm g) {target : C}
    {r : Report C S N D E ε} (hr : report w m o target = some (.ok r)) (n : N) :
    (r.logReports.filter fun l => decide (l.indexName = n)) = (match lookupOrSingle m.indexes n with
      | none => []
      | some i => (runs w i ((Spec.validSources w.valid (w.list target)).filter fun s => decide (w.nameOf s = n)) []).filterMap (Run.log n)) ∧
    ∀ i, lookupOrSingle m.indexes n = some i →
      ∀ x ∈ (runs w i ((Spec.validSources w.valid (w.list target)).filter fun s => decide (w.nameOf s = n)) []).filterMap Run.err, x ∈ r.readErrors := by
  obtain ⟨gs, hp, rfl⟩ := report_ok hs ho hr
  simp only [total, emptyReport, List.nil_append]
  have hg := partition_group hp n
  constructor
  · rw [filter_flatMap_logs, hg]
    split
    · rename_i hnil
      rw [hnil]
      cases lookupOrSingle m.indexes n <;> rfl
    · rw [List.flatMap_singleton]
      unfold groupLogs groupRuns indexFor
      simp only
      cases lookupOrSingle m.indexes n <;> rfl
  · intro i hi x hx
    by_cases hnil : (Spec.validSources w.valid (w.list target)).filter (fun s => decide (w.nameOf s = n)) = []
    · rw [hnil] at hx; cases hx
    · rw [if_neg hnil] at hg
      have : (n, (Spec.validSources w.valid (w.list target)).filter fun s => decide (w.nameOf s = n)) ∈ gs := by
        have : (n, (Spec.validSources w.valid (w.list target)).filter fun s => decide (w.nameOf s = n)) ∈ gs.filter fun g => decide (g.1 = n) := by
          rw [hg]; simp
        exact (List.mem_filter.1 this).1
      refine List.mem_flatMap.2 ⟨_, this, ?_⟩
      unfold groupRuns indexFor
      simp only [hi]
      exact hx

/-- C142.  Take a target whose files can be read, and let the opening or the reading of any of them fail, anywhere.  The report is still made.
Nothing wrong is in it: what is found for a name is found without the failures, with the same distance; each reported line, and each line shown around it, is at
its place in the whole file.
Nothing is lost silently: when no file of a name is in the errors of the report, what is reported for this name is what is reported without the failures. -/
theorem C142_failures (hs : SearchOk w) {m : Model C S N} {o1 o2 : List (N × List S) → List (N × List S)} (h1 : ∀ g, (o1 g).Perm g) (h2 : ∀ g, (o2 g).Perm g)
    {target : C} {r : Report C S N D E ε} (hr : report w m o1 target = some (.ok r)) {text : S → List LJ.Process.Spec.Line}
    (hgood : Spec.AllRead w text target) {o : S → Except E (Bool → List (Ev ε))} (hl : Lossy w target o) :
    ∃ r', report { w with openSource := o } m o2 target = some (.ok r') ∧
      (∀ n, ∀ x ∈ found w r' n, x ∈ found w r n) ∧
      (∀ l ∈ r'.logReports, l.source ∈ Spec.validSources w.valid (w.list target) ∧ ∃ i, lookupOrSingle m.indexes l.indexName = some i ∧ ∀ dist, LJ.Process.Spec.Pointwise (w.search i.chunks) dist →
        ∃ ws, List.Forall₂ (LJ.Process.Spec.Shows w.tokenize dist (text l.source)) l.anomalies ws ∧ (ws.map (·.i)).Pairwise (· < ·)) ∧
      ∀ n, (∀ s e, w.nameOf s = n → (s, e) ∉ r'.readErrors) →
        (r'.logReports.filter fun l => decide (l.indexName = n)) = r.logReports.filter fun l => decide (l.indexName = n) := by
  have hs' : SearchOk { w with openSource := o } := hs
  obtain ⟨res, e1, e2⟩ := report_total hs m o1 h1 target
  rw [hr] at e1
  cases e1
  obtain ⟨res', f1, f2⟩ := report_total hs' m o2 h2 target
  obtain ⟨r', rfl⟩ := f2.2 (e2.1 ⟨r, rfl⟩)
  -- the lines which a source of the failing world shows
  have hvis : ∀ s ∈ Spec.validSources w.valid (w.list target), ∀ reader', o s = .ok reader' →
      LJ.Process.Spec.visible w.decode (reader' (w.isJson s)) <+: text s := by
    intro s hmem reader' ho
    obtain ⟨reader, lines, g1, g2, g3, g4⟩ := hgood s hmem
    rcases hl s hmem reader g1 with ⟨e, he⟩ | ⟨reader'', he, hi⟩
    · rw [ho] at he; cases he
    · rw [ho] at he
      cases he
      have := hi (w.isJson s)
      rw [g2] at this
      exact visible_interrupted g3 g4 this
  refine ⟨r', f1, ?_, ?_, ?_⟩
  · intro n x hx
    choose dist hd using fun i : Index S => hs i.chunks
    rw [found_normals (n := n) hs hd h1 hr hgood]
    have hx' : x ∈ found { w with openSource := o } r' n := hx
    rw [found_runs hs' h2 f1] at hx'
    cases hi : lookupOrSingle m.indexes n with
    | none => rw [hi] at hx'; cases hx'
    | some i =>
      rw [hi] at hx'
      simp only at hx' ⊢
      obtain ⟨_, h⟩ := runs_once (w := { w with openSource := o }) (hd i) n
        ((Spec.validSources w.valid (w.list target)).filter fun s => decide (w.nameOf s = n)) []
      obtain ⟨_, a2, a3⟩ := h x hx'
      unfold runsFound at hx'
      obtain ⟨l, hlm, hxa⟩ := List.mem_flatMap.1 hx'
      obtain ⟨c, hc, rfl⟩ := List.mem_map.1 hxa
      obtain ⟨b1, reader', known, b2, b3⟩ := runs_log_mem hlm
      obtain ⟨ws, g1, _, _, _⟩ := LJ.Process.C26_any (env := envOf { w with openSource := o } i.chunks) (hd i) known (reader' (w.isJson l.source))
      rw [b3] at hc
      have hline : ∃ y ∈ text l.source, y.text = c.anomaly.line := by
        have key : ∀ {cs : List (AnomalyContext D)} {ws : List LJ.Process.Spec.Window} {ls : List LJ.Process.Spec.Line},
            List.Forall₂ (LJ.Process.Spec.Shows w.tokenize (dist i) ls) cs ws → c ∈ cs → ∃ y ∈ ls, y.text = c.anomaly.line := by
          intro cs ws ls h hc
          induction h with
          | nil => cases hc
          | cons hh _ ih =>
            rcases List.mem_cons.1 hc with rfl | hc
            · obtain ⟨_, _, y, _, _, rfl, _, _, _, _, _, e⟩ := hh
              exact ⟨y, by simp, by rw [e]⟩
            · exact ih hc
        obtain ⟨y, hy, e⟩ := key g1 hc
        exact ⟨y, (hvis l.source (List.mem_filter.1 b1).1 reader' b2).subset hy, e⟩
      obtain ⟨y, hy, e⟩ := hline
      refine List.mem_map.2 ⟨w.tokenize c.anomaly.line, List.mem_filter.2 ⟨?_, ?_⟩, ?_⟩
      · rw [LJ.Process.firsts_id_mem]
        refine ⟨?_, by simp⟩
        unfold Spec.normals
        exact List.mem_flatMap.2 ⟨l.source, b1, List.mem_map.2 ⟨y, hy, by rw [e]⟩⟩
      · rw [← a2]; exact a3
      · rw [← a2]
  · intro l hlm
    have hmem : l ∈ r'.logReports.filter fun x => decide (x.indexName = l.indexName) := List.mem_filter.2 ⟨hlm, by simp⟩
    rw [(log_group hs' h2 f1 l.indexName).1] at hmem
    cases hi : lookupOrSingle m.indexes l.indexName with
    | none => rw [hi] at hmem; cases hmem
    | some i =>
      rw [hi] at hmem
      obtain ⟨b1, reader', known, b2, b3⟩ := runs_log_mem hmem
      refine ⟨(List.mem_filter.1 b1).1, i, rfl, fun dist hd => ?_⟩
      obtain ⟨ws, g1, _, g3, _⟩ := LJ.Process.C26_any (env := envOf { w with openSource := o } i.chunks) hd known (reader' (w.isJson l.source))
      refine ⟨ws, ?_, g3⟩
      rw [b3]
      exact g1.imp fun _ _ h => shows_prefix (hvis l.source (List.mem_filter.1 b1).1 reader' b2) h
  · intro n hno
    rw [(log_group hs' h2 f1 n).1, (log_group hs h1 hr n).1]
    cases hi : lookupOrSingle m.indexes n with
    | none => rfl
    | some i =>
      simp only
      obtain ⟨dist, hd⟩ := hs i.chunks
      refine congrArg _ (runs_lossless (text := text) hd _ (fun s hm => hgood s (List.mem_filter.1 hm).1) (fun s hm => hl s (List.mem_filter.1 hm).1) [] ?_)
      rw [List.eq_nil_iff_forall_not_mem]
      rintro ⟨s, e⟩ hx
      have hsrc := runs_err_source hx
      refine hno s e ?_ ((log_group hs' h2 f1 n).2 i hi _ hx)
      simpa using (List.mem_filter.1 hsrc).2

/-- C143, in part.  What is found without the failures and not with them is in a file of the same name whose failure is told, unless a file of the name
can't be opened, which is told too. -/
theorem C143_partial (hs : SearchOk w) {m : Model C S N} {o1 o2 : List (N × List S) → List (N × List S)} (h1 : ∀ g, (o1 g).Perm g) (h2 : ∀ g, (o2 g).Perm g)
    {target : C} {r r' : Report C S N D E ε} (hr : report w m o1 target = some (.ok r)) {text : S → List LJ.Process.Spec.Line}
    (hgood : Spec.AllRead w text target) {o : S → Except E (Bool → List (Ev ε))} (hl : Lossy w target o)
    (hr' : report { w with openSource := o } m o2 target = some (.ok r')) (n : N) :
    ∀ x ∈ found w r n, x ∉ found w r' n →
      ∃ s ∈ Spec.validSources w.valid (w.list target), ∃ e, (s, e) ∈ r'.readErrors ∧ w.nameOf s = n ∧ ((∃ l ∈ text s, w.tokenize l.text = x.1) ∨ ∃ e', o s = .error e') := by
  intro x hx hn
  have hs' : SearchOk { w with openSource := o } := hs
  choose dist hd using fun i : Index S => hs i.chunks
  rw [found_normals (n := n) hs hd h1 hr hgood] at hx
  have hn : x ∉ found { w with openSource := o } r' n := hn
  rw [found_runs hs' h2 hr'] at hn
  cases hi : lookupOrSingle m.indexes n with
  | none => rw [hi] at hx; cases hx
  | some i =>
    rw [hi] at hx hn
    simp only at hx hn
    obtain ⟨t, ht, rfl⟩ := List.mem_map.1 hx
    rw [List.mem_filter, LJ.Process.firsts_id_mem] at ht
    rcases runs_explained (o := o) (hd i) (text := text) n ((Spec.validSources w.valid (w.list target)).filter fun s => decide (w.nameOf s = n))
      (fun s hm => hgood s (List.mem_filter.1 hm).1) (fun s hm => hl s (List.mem_filter.1 hm).1) [] t ht.1.1 ht.2 (by simp) with h | ⟨s, e, h, h'⟩
    · exact absurd h hn
    · refine ⟨s, (List.mem_filter.1 (runs_err_source h)).1, e, (log_group hs' h2 hr' n).2 i hi _ h, ?_, h'⟩
      simpa using (List.mem_filter.1 (runs_err_source h)).2

/-! ### Cases -/

/-- the reading of the first file of `a` fails after its first line, which is also in its second file -/
def hides : String → Except Unit (Bool → List (Ev Unit)) := fun s =>
  if s = "a2" then .ok fun _ => [.ok (toyL "q" 1), .error ()] else (small log2 open2).openSource s

theorem open2_cases : ∀ s ∈ Spec.validSources (small log2 open2).valid ((small log2 open2).list 0), s = "b1" ∨ s = "a2" ∨ s = "a3" := by
  have e : Spec.validSources (small log2 open2).valid ((small log2 open2).list 0) = ["b1", "a2", "a3"] := by decide +kernel
  intro s hs
  rw [e] at hs
  simpa using hs

theorem open2_read : Spec.AllRead (small log2 open2) (textOf open2) 0 := by
  intro s hs
  rcases open2_cases s hs with rfl | rfl | rfl
  · exact ⟨_, [toyL "z" 1], rfl, rfl, by decide +kernel, by unfold LJ.Process.Spec.NoMarker; decide +kernel⟩
  · exact ⟨_, [toyL "q" 1, toyL "r" 2], rfl, rfl, by decide +kernel, by unfold LJ.Process.Spec.NoMarker; decide +kernel⟩
  · exact ⟨_, [toyL "p" 1, toyL "q" 2], rfl, rfl, by decide +kernel, by unfold LJ.Process.Spec.NoMarker; decide +kernel⟩

theorem hides_lossy : Lossy (small log2 open2) 0 hides := by
  intro s hs reader h
  rcases open2_cases s hs with rfl | rfl | rfl
  · exact .inr ⟨reader, h, fun _ => .inl rfl⟩
  · cases h
    exact .inr ⟨_, rfl, fun _ => .inr ⟨1, (), rfl⟩⟩
  · exact .inr ⟨reader, h, fun _ => .inl rfl⟩

/-- C143 does not hold: the line `q` of the file `a3`, which is read whole, is not reported, as `q` was also read in the file `a2`, whose reading failed before
anything of it was reported. -/
theorem C143_false : ¬ Spec.C143 (small log2 open2) := by
  intro h
  have t1 : (match report (small log2 open2) ⟨[], [("a", ⟨[], [[['r']]], 0, 0⟩)]⟩ id 0,
      report { small log2 open2 with openSource := hides } ⟨[], [("a", ⟨[], [[['r']]], 0, 0⟩)]⟩ id 0 with
    | some (.ok r), some (.ok r') => decide ((['q'], 1) ∈ found (small log2 open2) r "a" ∧ (['q'], 1) ∉ found (small log2 open2) r' "a" ∧ "a3" ∉ r'.readErrors.map (·.1))
    | _, _ => false) = true := by decide +kernel
  cases hr : report (small log2 open2) ⟨[], [("a", ⟨[], [[['r']]], 0, 0⟩)]⟩ id 0 with
  | none => rw [hr] at t1; cases t1
  | some x =>
    cases x with
    | error e => rw [hr] at t1; cases t1
    | ok r =>
      cases hr' : report { small log2 open2 with openSource := hides } ⟨[], [("a", ⟨[], [[['r']]], 0, 0⟩)]⟩ id 0 with
      | none => rw [hr, hr'] at t1; cases t1
      | some x =>
        cases x with
        | error e => rw [hr, hr'] at t1; cases t1
        | ok r' =>
          rw [hr, hr'] at t1
          simp only [decide_eq_true_eq] at t1
          obtain ⟨a1, a2, a3⟩ := t1
          refine a2 (h _ 0 (textOf open2) hides r r' open2_read hides_lossy ?_ hr hr' "a3" (by decide +kernel) ?_ ⟨['q'], 2⟩ (by decide +kernel) 1 a1)
          · intro s hs
            rcases open2_cases s hs with rfl | rfl | rfl
            · exact ⟨_, rfl⟩
            · exact ⟨_, rfl⟩
            · exact ⟨_, rfl⟩
          · intro e he
            exact a3 (List.mem_map.2 ⟨_, he, rfl⟩)

/-- the reading of the second file of `a` fails before its second line (its first line, which was to be reported, is then lost), the file of `b` can't be opened -/
def lossy : String → Except Unit (Bool → List (Ev Unit)) := fun s =>
  if s = "a3" then .ok fun _ => [.ok (toyL "p" 1), .error ()] else if s = "b1" then .error () else (small log2 open2).openSource s

/-- The hypotheses of `C143_partial` are met, by the case which refutes C143. -/
example : Spec.AllRead (small log2 open2) (textOf open2) 0 ∧ Lossy (small log2 open2) 0 hides := ⟨open2_read, hides_lossy⟩

/-- The hypotheses of C142 are met, and its parts are not empty: what is reported for `a` without and with the failures, and the errors. -/
example : Spec.AllRead (small log2 open2) (textOf open2) 0 ∧ Lossy (small log2 open2) 0 lossy ∧
    shown (report (small log2 open2) ⟨[], [("a", ⟨[], [[['r']]], 0, 0⟩), ("b", ⟨[], [[['r']]], 0, 0⟩)]⟩ id 0) = [("b1", ["z"]), ("a2", ["q"]), ("a3", ["p"])] ∧
    shown (report { small log2 open2 with openSource := lossy } ⟨[], [("a", ⟨[], [[['r']]], 0, 0⟩), ("b", ⟨[], [[['r']]], 0, 0⟩)]⟩ id 0) = [("a2", ["q"])] ∧
    (match report { small log2 open2 with openSource := lossy } ⟨[], [("a", ⟨[], [[['r']]], 0, 0⟩), ("b", ⟨[], [[['r']]], 0, 0⟩)]⟩ id 0 with
      | some (.ok r) => r.readErrors.map (·.1)
      | _ => []) = ["b1", "a3"] := by
  refine ⟨open2_read, ?_, by decide +kernel, by decide +kernel, by decide +kernel⟩
  · intro s hs reader h
    rcases open2_cases s hs with rfl | rfl | rfl
    · exact .inl ⟨(), rfl⟩
    · exact .inr ⟨reader, h, fun _ => .inl rfl⟩
    · cases h
      exact .inr ⟨_, rfl, fun _ => .inr ⟨1, (), rfl⟩⟩

end LJ.Report

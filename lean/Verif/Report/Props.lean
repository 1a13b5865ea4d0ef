/-
C35-C39 and C74-C75: contents, models and reports.
-/
import Verif.Report.Train
import Verif.Process.Indexes
namespace LJ.Report
open LJ.Process (Str Bytes Ev Env Err AnomalyContext Trainer Stop)
set_option linter.unusedSectionVars false
variable {C S N D E ε : Type} [DecidableEq N] {w : World C S N D E ε}

/-! ### C35: grouping -/

/-- The groups of usable contents are the partition by name of all their valid sources, in order. -/
theorem C35_groups {cs : List C} (h : ∀ c ∈ cs, Spec.Usable w.valid (w.list c)) :
    ∃ g, groupSources w cs = .ok g ∧ Spec.IsPartition w.nameOf (cs.flatMap fun c => Spec.validSources w.valid (w.list c)) g := by
  obtain ⟨g, h1, h2⟩ := groupInto_ok (w := w) (xs := []) (g := []) h ⟨by simp, by intro n ss; simp⟩
  exact ⟨g, h1, by simpa using h2⟩

/-- The classes of the partition of a list are together a permutation of the list. -/
theorem C35_perm {name : S → N} {xs : List S} {g : List (N × List S)} (h : Spec.IsPartition name xs g) :
    (g.flatMap Prod.snd).Perm xs := by
  induction g generalizing xs with
  | nil =>
    cases xs with
    | nil => exact .refl _
    | cons x xs =>
      have := (h.2 (name x) ((x :: xs).filter fun s => name s = name x)).2 ⟨by simp, rfl⟩
      cases this
  | cons p g ih =>
    obtain ⟨n, ss⟩ := p
    have hn := h.1
    rw [List.map_cons, List.nodup_cons] at hn
    have hss : ss = xs.filter fun s => name s = n := ((h.2 n ss).1 (by simp)).2
    have hrest : Spec.IsPartition name (xs.filter fun s => !decide (name s = n)) g := by
      refine ⟨hn.2, ?_⟩
      intro m ts
      by_cases hm : m = n
      · subst hm
        refine iff_of_false (fun hmem => hn.1 (List.mem_map.2 ⟨_, hmem, rfl⟩)) ?_
        rintro ⟨hne, he⟩
        apply hne
        rw [he, List.filter_filter, List.filter_eq_nil_iff]
        intro s _
        simp
      · have e : (xs.filter fun s => !decide (name s = n)).filter (fun s => decide (name s = m)) = xs.filter fun s => decide (name s = m) := by
          rw [List.filter_filter]
          apply List.filter_congr
          intro s _
          by_cases hs : name s = m
          · simp [hs, hm]
          · simp [hs]
        rw [e, ← h.2 m ts, List.mem_cons]
        constructor
        · exact .inr
        · rintro (hx | hx)
          · cases hx; exact absurd rfl hm
          · exact hx
    rw [List.flatMap_cons]
    refine ((List.Perm.append_left ss (ih hrest))).trans ?_
    show (ss ++ _).Perm xs
    rw [hss]
    exact List.filter_append_perm _ xs

/-- In the partition of a list, each element is in exactly one class, the one of its name, as often as
in the list, and the class is in the order of the list. -/
theorem C35_once [DecidableEq S] {xs : List S} {name : S → N} {g : List (N × List S)} (h : Spec.IsPartition name xs g) (s : S) (hs : s ∈ xs) :
    (∃! p, p ∈ g ∧ s ∈ p.2) ∧ ∀ p ∈ g, s ∈ p.2 → p.1 = name s ∧ p.2.count s = xs.count s ∧ p.2.Sublist xs := by
  have hmem : ∀ p ∈ g, s ∈ p.2 → p = (name s, xs.filter fun x => name x = name s) := by
    rintro ⟨n, ss⟩ hp hsp
    obtain ⟨_, e⟩ := (h.2 n ss).1 hp
    simp only at hsp
    rw [e, List.mem_filter, decide_eq_true_eq] at hsp
    rw [← hsp.2] at e
    rw [e, hsp.2]
  constructor
  · refine ⟨(name s, xs.filter fun x => name x = name s), ⟨(h.2 _ _).2 ⟨?_, rfl⟩, by simp [hs]⟩, ?_⟩
    · intro he
      have : s ∈ xs.filter fun x => name x = name s := by simp [hs]
      rw [he] at this
      cases this
    · rintro p ⟨h1, h2⟩
      exact hmem p h1 h2
  · intro p h1 h2
    rw [hmem p h1 h2]
    exact ⟨rfl, by simp [List.count_filter], List.filter_sublist⟩

/-- The first content which is not usable gives its error: an error of its listing, or no valid
source. -/
theorem C35_fail {cs ds : List C} {c : C} (hcs : ∀ c ∈ cs, Spec.Usable w.valid (w.list c)) (hc : ¬ Spec.Usable w.valid (w.list c)) :
    (∃ e, .error e ∈ w.list c ∧ groupSources w (cs ++ c :: ds) = .error (.failed e)) ∨
    ((∀ e, .error e ∉ w.list c) ∧ Spec.validSources w.valid (w.list c) = [] ∧ groupSources w (cs ++ c :: ds) = .error (.empty c)) := by
  obtain ⟨e, h1, h2⟩ := groupInto_err (ds := ds) hcs hc []
  rcases getSources_err hc with ⟨e', g1, g2⟩ | ⟨g1, g2, g3⟩
  · left
    rw [g2] at h2
    cases h2
    exact ⟨e', g1, h1⟩
  · right
    rw [g3] at h2
    cases h2
    exact ⟨g1, g2, h1⟩

theorem usable_or_first (cs : List C) : (∀ c ∈ cs, Spec.Usable w.valid (w.list c)) ∨
    ∃ ps c ds, cs = ps ++ c :: ds ∧ (∀ c ∈ ps, Spec.Usable w.valid (w.list c)) ∧ ¬ Spec.Usable w.valid (w.list c) := by
  classical
  induction cs with
  | nil => exact .inl (by simp)
  | cons c cs ih =>
    by_cases hc : Spec.Usable w.valid (w.list c)
    · rcases ih with h | ⟨ps, c', ds, e, h1, h2⟩
      · refine .inl ?_
        intro x hx
        rcases List.mem_cons.1 hx with rfl | hx
        · exact hc
        · exact h x hx
      · refine .inr ⟨c :: ps, c', ds, by rw [e]; rfl, ?_, h2⟩
        intro x hx
        rcases List.mem_cons.1 hx with rfl | hx
        · exact hc
        · exact h1 x hx
    · exact .inr ⟨[], c, cs, rfl, by simp, hc⟩

theorem groupSources_ok_iff {cs : List C} {g : List (N × List S)} (h : groupSources w cs = .ok g) :
    (∀ c ∈ cs, Spec.Usable w.valid (w.list c)) ∧
    Spec.IsPartition w.nameOf (cs.flatMap fun c => Spec.validSources w.valid (w.list c)) g := by
  rcases usable_or_first (w := w) cs with hu | ⟨ps, c, ds, rfl, h1, h2⟩
  · obtain ⟨g', e, hp⟩ := C35_groups hu
    rw [h] at e
    cases e
    exact ⟨hu, hp⟩
  · rcases C35_fail (ds := ds) h1 h2 with ⟨e, _, h3⟩ | ⟨_, _, h3⟩ <;> (rw [h] at h3; cases h3)

/-! ### C36: index lookup -/

/-- `get_index` finds the value of the key; without it, the only value of the map. -/
theorem C36_lookup {V : Type} (hm : List (N × V)) (hn : (hm.map Prod.fst).Nodup) (k : N) (v : V) :
    lookupOrSingle hm k = some v ↔ (k, v) ∈ hm ∨ (k ∉ hm.map Prod.fst ∧ ∃ k', hm = [(k', v)]) := by
  unfold lookupOrSingle
  cases hl : hm.lookup k with
  | some u =>
    have hmem := lookup_mem hl
    constructor
    · intro h
      cases h
      exact .inl hmem
    · rintro (h | ⟨h, _⟩)
      · rw [lookup_of_mem hn h] at hl
        simpa using hl.symm
      · exact absurd (List.mem_map_of_mem (f := Prod.fst) hmem) h
  | none =>
    rw [lookup_none] at hl
    simp only
    constructor
    · intro h
      split at h
      · rename_i h1
        obtain ⟨⟨k', x⟩, rfl⟩ := List.length_eq_one_iff.1 h1
        simp only [List.head?_cons, Option.map_some, Option.some.injEq] at h
        subst h
        exact .inr ⟨hl, k', rfl⟩
      · cases h
    · rintro (h | ⟨_, k', rfl⟩)
      · exact absurd (List.mem_map_of_mem (f := Prod.fst) h) hl
      · rfl

/-- The lookup does not depend on the order of the map. -/
theorem C36_order {V : Type} {hm hm' : List (N × V)} (hn : (hm.map Prod.fst).Nodup) (hp : hm.Perm hm') (k : N) :
    lookupOrSingle hm k = lookupOrSingle hm' k := lookupOrSingle_perm hn hp k

example : lookupOrSingle [("a", 1), ("b", 2)] "b" = some 2 ∧ lookupOrSingle [("a", 1)] "b" = some 1 ∧
    lookupOrSingle [("a", 1), ("b", 2)] "c" = none := by decide

/-! ### The report -/

/-- A report never panics; it fails exactly when the target is not usable. -/
theorem report_total (hs : SearchOk w) (m : Model C S N) (order : List (N × List S) → List (N × List S)) (ho : ∀ g, (order g).Perm g)
    (target : C) : ∃ res, report w m order target = some res ∧ ((∃ r, res = .ok r) ↔ Spec.Usable w.valid (w.list target)) := by
  classical
  by_cases hu : Spec.Usable w.valid (w.list target)
  · obtain ⟨gs, h1, h2⟩ := report_eq hs m order ho hu
    exact ⟨_, h2, by simp [hu]⟩
  · unfold report
    rcases C35_fail (w := w) (cs := []) (ds := []) (by simp) hu with ⟨e, _, h⟩ | ⟨_, _, h⟩ <;>
    · rw [List.nil_append] at h
      rw [h]
      exact ⟨_, rfl, by simp [hu]⟩

theorem report_ok (hs : SearchOk w) {m : Model C S N} {order : List (N × List S) → List (N × List S)} (ho : ∀ g, (order g).Perm g)
    {target : C} {r : Report C S N D E ε} (h : report w m order target = some (.ok r)) :
    ∃ gs, Spec.IsPartition w.nameOf (Spec.validSources w.valid (w.list target)) gs ∧ r = total w m gs (emptyReport m target) := by
  obtain ⟨res, h1, h2⟩ := report_total hs m order ho target
  rw [h] at h1
  cases h1
  obtain ⟨gs, g1, g2⟩ := report_eq hs m order ho (h2.1 ⟨r, rfl⟩)
  rw [h] at g2
  refine ⟨order gs, ⟨((ho gs).map Prod.fst).nodup_iff.2 g1.1, fun n ss => by rw [(ho gs).mem_iff]; exact g1.2 n ss⟩, ?_⟩
  cases g2
  rfl

theorem sum_flatMap {α β : Type} (f : α → List β) (g : β → Nat) (l : List α) :
    ((l.flatMap f).map g).sum = (l.map fun x => ((f x).map g).sum).sum := by
  induction l with
  | nil => rfl
  | cons x l ih => simp [ih]

theorem sum_mono {α : Type} (f g : α → Nat) (l : List α) (h : ∀ x, f x ≤ g x) : (l.map f).sum ≤ (l.map g).sum := by
  induction l with
  | nil => simp
  | cons x l ih => simp only [List.map_cons, List.sum_cons]; exact Nat.add_le_add (h x) ih

theorem groupLogs_spec {m : Model C S N} {g : N × List S} {l : LogReport S N D} (h : l ∈ groupLogs w m g) :
    l.indexName = g.1 ∧ l.source ∈ g.2 ∧ l.anomalies ≠ [] ∧ ∃ index, indexFor m g = some index := by
  unfold groupLogs groupRuns at h
  cases hi : indexFor m g with
  | none => rw [hi] at h; simp at h
  | some index =>
    rw [hi] at h
    obtain ⟨x, hx, hl⟩ := List.mem_filterMap.1 h
    obtain ⟨h1, _⟩ := runs_mem hx
    cases x with
    | noOpen => cases hl
    | done s p =>
      simp only [Run.log] at hl
      split at hl
      · cases hl
      · rename_i hne
        cases hl
        exact ⟨rfl, h1, by simpa using hne, index, rfl⟩

theorem groupLogs_count (w : World C S N D E ε) (m : Model C S N) (g : N × List S) :
    ((groupLogs w m g).map fun l => l.anomalies.length).sum = ((groupRuns w m g).map Run.count).sum ∧
    ((groupLogs w m g).map fun l => l.lineCount).sum ≤ ((groupRuns w m g).map Run.lines).sum := by
  unfold groupLogs
  induction groupRuns w m g with
  | nil => simp
  | cons x xs ih =>
    rw [List.filterMap_cons]
    cases x with
    | noOpen => simpa [Run.log, Run.count, Run.lines] using ih
    | done s p =>
      obtain ⟨as, st, p⟩ := p
      cases as with
      | nil => exact ⟨by simpa [Run.log, Run.count] using ih.1, by simp only [Run.log, List.isEmpty_nil, if_true, List.map_cons, List.sum_cons]; exact Nat.le_trans ih.2 (Nat.le_add_left ..)⟩
      | cons a as => exact ⟨by simpa [Run.log, Run.count] using ih.1, by simpa [Run.log, Run.lines] using ih.2⟩

/-- The totals of a report, and its index reports. -/
theorem C37_totals (hs : SearchOk w) {m : Model C S N} {order : List (N × List S) → List (N × List S)} (ho : ∀ g, (order g).Perm g)
    {target : C} {r : Report C S N D E ε} (h : report w m order target = some (.ok r)) :
    r.totalAnomalyCount = (r.logReports.map fun l => l.anomalies.length).sum ∧
    (r.logReports.map fun l => l.lineCount).sum ≤ r.totalLineCount ∧
    r.target = target ∧ r.baselines = m.baselines := by
  obtain ⟨gs, _, rfl⟩ := report_ok hs ho h
  simp only [total, emptyReport, List.nil_append, Nat.zero_add, sum_flatMap]
  refine ⟨?_, ?_, trivial, trivial⟩
  · congr 1
    exact List.map_congr_left fun g _ => (groupLogs_count w m g).1.symm
  · exact sum_mono _ _ _ fun g => (groupLogs_count w m g).2

/-- The log reports are not empty; each is about a valid source of the target and has the index report
of the index that was used. -/
theorem C37_logs (hs : SearchOk w) {m : Model C S N} {order : List (N × List S) → List (N × List S)} (ho : ∀ g, (order g).Perm g)
    {target : C} {r : Report C S N D E ε} (h : report w m order target = some (.ok r)) :
    (r.indexReports.map Prod.fst).Nodup ∧
    (∀ l ∈ r.logReports, l.anomalies ≠ [] ∧ l.source ∈ Spec.validSources w.valid (w.list target) ∧ l.indexName = w.nameOf l.source ∧
      ∃ index, lookupOrSingle m.indexes l.indexName = some index ∧ (l.indexName, index.sources) ∈ r.indexReports) ∧
    ∀ n ss, (n, ss) ∈ r.indexReports → ∃ l ∈ r.logReports, l.indexName = n := by
  obtain ⟨gs, hp, rfl⟩ := report_ok hs ho h
  simp only [total, emptyReport, List.nil_append]
  refine ⟨?_, ?_, ?_⟩
  · have key : ∀ gs : List (N × List S), ((gs.filterMap (groupIndexReport w m)).map Prod.fst).Sublist (gs.map Prod.fst) := by
      intro gs
      induction gs with
      | nil => exact .slnil
      | cons g gs ih =>
        rw [List.filterMap_cons]
        cases hg : groupIndexReport w m g with
        | none => exact ih.cons _
        | some p =>
          have : p.1 = g.1 := by
            unfold groupIndexReport at hg
            split at hg
            · split at hg
              · cases hg
              · cases hg; rfl
            · cases hg
          rw [List.map_cons, List.map_cons, this]
          exact ih.cons_cons _
    exact (key gs).nodup hp.1
  · intro l hl
    obtain ⟨g, hg, hl⟩ := List.mem_flatMap.1 hl
    obtain ⟨h1, h2, h3, index, h4⟩ := groupLogs_spec hl
    obtain ⟨n, ss⟩ := g
    obtain ⟨_, e⟩ := (hp.2 n ss).1 hg
    simp only at h1 h2
    have h2' := h2
    rw [e, List.mem_filter, decide_eq_true_eq] at h2'
    refine ⟨h3, h2'.1, by rw [h1, h2'.2], index, by rw [h1]; exact h4, List.mem_filterMap.2 ⟨(n, ss), hg, ?_⟩⟩
    unfold groupIndexReport
    rw [h4]
    simp only
    rw [if_neg, h1]
    intro he
    rw [List.isEmpty_iff] at he
    rw [he] at hl
    cases hl
  · intro n ss hns
    obtain ⟨g, hg, hx⟩ := List.mem_filterMap.1 hns
    unfold groupIndexReport at hx
    split at hx
    · split at hx
      · cases hx
      · rename_i hne
        cases hx
        rw [List.isEmpty_iff] at hne
        obtain ⟨l, hl⟩ := List.exists_mem_of_ne_nil _ hne
        exact ⟨l, List.mem_flatMap.2 ⟨g, hg, hl⟩, (groupLogs_spec hl).1⟩
    · cases hx

/-! ### C38: no source is silently ignored -/

/-- Every valid source of the target (in its group, `pre` before it) is listed in the index errors or
in the read errors, or is processed to its end with the index of its name and all that is found is in
the log reports, the lines already known being those of the previous sources of the group.  What is
missing: this is not so after a source of the same group which can't be opened. -/
theorem C38_partial (hs : SearchOk w) {m : Model C S N} {order : List (N × List S) → List (N × List S)} (ho : ∀ g, (order g).Perm g)
    {target : C} {r : Report C S N D E ε} (h : report w m order target = some (.ok r))
    {pre post : List S} {s : S}
    (hg : (Spec.validSources w.valid (w.list target)).filter (fun t => w.nameOf t = w.nameOf s) = pre ++ s :: post) :
    (∃ ss ∈ r.indexErrors, s ∈ ss) ∨ (∃ e, (s, e) ∈ r.readErrors) ∨
    (∃ t ∈ pre, ∃ e, w.openSource t = .error e ∧ (t, .opening e) ∈ r.readErrors) ∨
    ∃ index reader known, lookupOrSingle m.indexes (w.nameOf s) = some index ∧ w.openSource s = .ok reader ∧
      (∀ x ∈ known, ∃ t ∈ pre, ∃ rd, w.openSource t = .ok rd ∧
        ∃ l ∈ LJ.Process.Spec.visible w.decode (rd (w.isJson t)), w.tokenize l.text = x) ∧
      (LJ.Process.process (envOf w index.chunks) known (reader (w.isJson s))).2.1 = .finished ∧
      ((LJ.Process.process (envOf w index.chunks) known (reader (w.isJson s))).1 = [] ∨
        ∃ l ∈ r.logReports, l.source = s ∧ l.anomalies = (LJ.Process.process (envOf w index.chunks) known (reader (w.isJson s))).1) := by
  obtain ⟨gs, hp, rfl⟩ := report_ok hs ho h
  simp only [total, emptyReport, List.nil_append]
  have hmem : (w.nameOf s, pre ++ s :: post) ∈ gs := (hp.2 _ _).2 ⟨by simp, hg.symm⟩
  cases hi : indexFor m (w.nameOf s, pre ++ s :: post) with
  | none => exact .inl ⟨pre ++ s :: post, List.mem_filterMap.2 ⟨_, hmem, by unfold groupError; rw [hi]⟩, by simp⟩
  | some index =>
    right
    have hruns : groupRuns w m (w.nameOf s, pre ++ s :: post) = runs w index (pre ++ s :: post) [] := by
      unfold groupRuns; rw [hi]
    have herr : ∀ x ∈ runs w index (pre ++ s :: post) [], ∀ e, Run.err x = some e →
        e ∈ gs.flatMap fun g => (groupRuns w m g).filterMap Run.err := by
      intro x hx e he
      exact List.mem_flatMap.2 ⟨_, hmem, by rw [hruns]; exact List.mem_filterMap.2 ⟨x, hx, he⟩⟩
    rcases runs_cases hs index pre s post [] with ⟨t, h1, e, h2, h3⟩ | ⟨e, h2, h3⟩ | ⟨reader, known, h2, h3, h4⟩
    · exact .inr (.inl ⟨t, h1, e, h2, herr _ h3 _ rfl⟩)
    · exact .inl ⟨_, herr _ h3 _ rfl⟩
    · obtain ⟨dist, hd⟩ := hs index.chunks
      rcases LJ.Process.C30_no_panic (env := envOf w index.chunks) hd known (reader (w.isJson s)) with hf | ⟨e, hf⟩
      · refine .inr (.inr ⟨index, reader, known, hi, h2, ?_, hf, ?_⟩)
        · intro x hx
          rcases h4 x hx with h | h
          · cases h
          · exact h
        · by_cases he : (LJ.Process.process (envOf w index.chunks) known (reader (w.isJson s))).1.isEmpty = true
          · exact .inl (List.isEmpty_iff.1 he)
          · right
            obtain ⟨l, hl, hl1, hl2⟩ : ∃ l, Run.log (w.nameOf s) (Run.done (E := E) s
                (LJ.Process.process (envOf w index.chunks) known (reader (w.isJson s)))) = some l ∧ l.source = s ∧
                l.anomalies = (LJ.Process.process (envOf w index.chunks) known (reader (w.isJson s))).1 := by
              exact ⟨_, if_neg he, rfl, rfl⟩
            exact ⟨l, List.mem_flatMap.2 ⟨_, hmem, List.mem_filterMap.2 ⟨_, by rw [hruns]; exact h3, hl⟩⟩, hl1, hl2⟩
      · refine .inl ⟨.reading e, herr _ h3 _ ?_⟩
        simp [Run.err, hf, stopErr]

/-- When all the sources of a group are text and can be read, the report of the group is exactly the
anomalies of its lines, and no error. -/
theorem C38_group (hs : SearchOk w) {m : Model C S N} {order : List (N × List S) → List (N × List S)} (ho : ∀ g, (order g).Perm g)
    {target : C} {r : Report C S N D E ε} (h : report w m order target = some (.ok r)) (n : N) {index : Index S}
    (hi : lookupOrSingle m.indexes n = some index) (text : S → List LJ.Process.Spec.Line)
    (hgood : ∀ s ∈ Spec.validSources w.valid (w.list target), w.nameOf s = n → ∃ reader lines, w.openSource s = .ok reader ∧
      reader (w.isJson s) = lines.map Except.ok ∧ LJ.Process.Spec.Reads w.decode lines (text s) ∧ LJ.Process.Spec.NoMarker (text s))
    {dist : Str → D} (hd : LJ.Process.Spec.Pointwise (w.search index.chunks) dist) :
    ((r.logReports.filter fun l => l.indexName = n).flatMap fun l => l.anomalies.map (·.anomaly)) =
      LJ.Process.Spec.anomalies w.tokenize dist w.over []
        (((Spec.validSources w.valid (w.list target)).filter fun s => w.nameOf s = n).flatMap text) := by
  obtain ⟨gs, hp, rfl⟩ := report_ok hs ho h
  simp only [total, emptyReport, List.nil_append]
  have hkeep : ∀ g : N × List S, g.1 = n → (groupLogs w m g).filter (fun l => decide (l.indexName = n)) = groupLogs w m g := by
    intro g hg
    rw [List.filter_eq_self]
    intro l hl
    rw [(groupLogs_spec hl).1, hg]; simp
  have hdrop : ∀ g : N × List S, g.1 ≠ n → (groupLogs w m g).filter (fun l => decide (l.indexName = n)) = [] := by
    intro g hg
    rw [List.filter_eq_nil_iff]
    intro l hl
    rw [(groupLogs_spec hl).1]; simpa using hg
  have key : ∀ gs : List (N × List S), (gs.map Prod.fst).Nodup →
      (gs.flatMap (groupLogs w m)).filter (fun l => decide (l.indexName = n)) =
        match gs.lookup n with | some ss => groupLogs w m (n, ss) | none => [] := by
    intro gs hn
    induction gs with
    | nil => rfl
    | cons g gs ih =>
      obtain ⟨k, ss⟩ := g
      rw [List.map_cons, List.nodup_cons] at hn
      rw [List.flatMap_cons, List.filter_append, ih hn.2, List.lookup_cons]
      by_cases hk : k = n
      · subst hk
        rw [hkeep _ rfl, beq_self_eq_true]
        have : gs.lookup k = none := lookup_none.2 hn.1
        rw [this]; simp
      · rw [hdrop _ hk]
        have : (n == k) = false := by simpa using fun h => hk h.symm
        rw [this]; rfl
  rw [key gs hp.1]
  cases hl : gs.lookup n with
  | none =>
    have : (Spec.validSources w.valid (w.list target)).filter (fun s => decide (w.nameOf s = n)) = [] := by
      by_contra hne
      exact lookup_none.1 hl (List.mem_map_of_mem (f := Prod.fst) ((hp.2 n _).2 ⟨hne, rfl⟩))
    rw [this]
    rfl
  | some ss =>
    obtain ⟨_, e⟩ := (hp.2 n ss).1 (lookup_mem hl)
    have hi' : indexFor m (n, ss) = some index := hi
    simp only [groupLogs, groupRuns, hi']
    rw [← e]
    exact (runs_good hd ss text (by
      intro s hs
      rw [e, List.mem_filter, decide_eq_true_eq] at hs
      exact hgood s hs.1 hs.2) n []).1

/-- When all the valid sources of the target are text, can be read and have an index, there is no
error, and all their lines are counted. -/
theorem C37_lines (hs : SearchOk w) {m : Model C S N} {order : List (N × List S) → List (N × List S)} (ho : ∀ g, (order g).Perm g)
    {target : C} {r : Report C S N D E ε} (h : report w m order target = some (.ok r)) (text : S → List LJ.Process.Spec.Line)
    (hidx : ∀ s ∈ Spec.validSources w.valid (w.list target), ∃ index, lookupOrSingle m.indexes (w.nameOf s) = some index)
    (hgood : ∀ s ∈ Spec.validSources w.valid (w.list target), ∃ reader lines, w.openSource s = .ok reader ∧
      reader (w.isJson s) = lines.map Except.ok ∧ LJ.Process.Spec.Reads w.decode lines (text s) ∧ LJ.Process.Spec.NoMarker (text s)) :
    r.totalLineCount = ((Spec.validSources w.valid (w.list target)).flatMap text).length ∧ r.readErrors = [] ∧ r.indexErrors = [] := by
  obtain ⟨gs, hp, rfl⟩ := report_ok hs ho h
  simp only [total, emptyReport, List.nil_append, Nat.zero_add]
  have hg : ∀ g ∈ gs, (groupRuns w m g).filterMap Run.err = [] ∧ ((groupRuns w m g).map Run.lines).sum = (g.2.flatMap text).length ∧
      groupError m g = none := by
    rintro ⟨n, ss⟩ hmem
    obtain ⟨hne, e⟩ := (hp.2 n ss).1 hmem
    have hin : ∀ s ∈ ss, s ∈ Spec.validSources w.valid (w.list target) ∧ w.nameOf s = n := by
      intro s hs
      rw [e, List.mem_filter, decide_eq_true_eq] at hs
      exact hs
    obtain ⟨s, hsm⟩ := List.exists_mem_of_ne_nil _ hne
    obtain ⟨index, hi⟩ := hidx s (hin s hsm).1
    rw [(hin s hsm).2] at hi
    have hi' : indexFor m (n, ss) = some index := hi
    obtain ⟨dist, hd⟩ := hs index.chunks
    obtain ⟨_, h2, h3⟩ := runs_good hd ss text (fun s hs => hgood s (hin s hs).1) n []
    unfold groupRuns groupError
    rw [hi']
    exact ⟨h2, h3, rfl⟩
  refine ⟨?_, ?_, ?_⟩
  · have e1 : gs.map (fun g => ((groupRuns w m g).map Run.lines).sum) = gs.map fun g => (g.2.flatMap text).length :=
      List.map_congr_left fun g hmem => (hg g hmem).2.1
    have e2 : ∀ gs : List (N × List S), (gs.map fun g => (g.2.flatMap text).length).sum = ((gs.flatMap Prod.snd).flatMap text).length := by
      intro gs
      induction gs with
      | nil => rfl
      | cons g gs ih => simp only [List.map_cons, List.sum_cons, List.flatMap_cons, List.flatMap_append, List.length_append, ih]
    rw [e1, e2]
    exact ((C35_perm hp).flatMap_right text).length_eq
  · rw [List.flatMap_eq_nil_iff]
    exact fun g hmem => (hg g hmem).1
  · rw [List.filterMap_eq_nil_iff]
    exact fun g hmem => (hg g hmem).2.2

/-! ### C39: the order of the groups does not matter -/

/-- Two orders of the groups give reports with the same contents. -/
theorem C39_report (hs : SearchOk w) {m : Model C S N} {o1 o2 : List (N × List S) → List (N × List S)} (h1 : ∀ g, (o1 g).Perm g)
    (h2 : ∀ g, (o2 g).Perm g) {target : C} {r1 : Report C S N D E ε} (hr : report w m o1 target = some (.ok r1)) :
    ∃ r2, report w m o2 target = some (.ok r2) ∧ r1.logReports.Perm r2.logReports ∧ r1.indexReports.Perm r2.indexReports ∧
      r1.indexErrors.Perm r2.indexErrors ∧ r1.readErrors.Perm r2.readErrors ∧ r1.totalLineCount = r2.totalLineCount ∧
      r1.totalAnomalyCount = r2.totalAnomalyCount ∧ r1.target = r2.target ∧ r1.baselines = r2.baselines := by
  have hr' := hr
  unfold report at hr ⊢
  cases hg : groupSources w [target] with
  | error e => rw [hg] at hr; cases hr
  | ok gs =>
    have hp := (groupSources_ok_iff hg).2
    rw [hg] at hr
    simp only at hr ⊢
    have hn : ∀ o : List (N × List S) → List (N × List S), (∀ g, (o g).Perm g) → ((o gs).map Prod.fst).Nodup :=
      fun o ho => ((ho gs).map Prod.fst).nodup_iff.2 hp.1
    rw [reportGroups_eq hs m (o1 gs) _ (hn o1 h1) (by simp)] at hr
    rw [reportGroups_eq hs m (o2 gs) _ (hn o2 h2) (by simp)]
    have hperm : (o1 gs).Perm (o2 gs) := (h1 gs).trans (h2 gs).symm
    cases hr
    refine ⟨_, rfl, ?_⟩
    simp only [total, List.nil_append, Nat.zero_add]
    exact ⟨hperm.flatMap_right _, hperm.filterMap _, hperm.filterMap _, hperm.flatMap_right _, (hperm.map _).sum_eq, (hperm.map _).sum_eq, trivial, trivial⟩

/-- Two orders of the groups both fail to train, or give the same indexes. -/
theorem C39_train {o1 o2 : List (N × List S) → List (N × List S)} (h1 : ∀ g, (o1 g).Perm g) (h2 : ∀ g, (o2 g).Perm g) (cs : List C) :
    (∃ e1 e2, train w o1 cs = .error e1 ∧ train w o2 cs = .error e2) ∨
    ∃ m1 m2, train w o1 cs = .ok m1 ∧ train w o2 cs = .ok m2 ∧ m1.baselines = m2.baselines ∧ m1.indexes.Perm m2.indexes ∧
      (m1.indexes.map Prod.fst).Nodup := by
  unfold train
  cases hg : groupSources w cs with
  | error e => exact .inl ⟨_, _, rfl, rfl⟩
  | ok gs =>
    have hp := (groupSources_ok_iff hg).2
    simp only
    rcases trainGroups_spec (w := w) (o1 gs) with ⟨a1, a2⟩ | ⟨g, a1, e, a2, a3⟩
    · rcases trainGroups_spec (w := w) (o2 gs) with ⟨b1, b2⟩ | ⟨g, b1, e, b2, b3⟩
      · rw [a2, b2]
        refine .inr ⟨_, _, rfl, rfl, rfl, ((h1 gs).trans (h2 gs).symm).filterMap _, ?_⟩
        simp only
        rw [trainedIndex_keys _ a1]
        exact ((h1 gs).map Prod.fst).nodup_iff.2 hp.1
      · obtain ⟨i, hi⟩ := a1 g ((h1 gs).mem_iff.2 ((h2 gs).mem_iff.1 b1))
        rw [b2] at hi; cases hi
    · rcases trainGroups_spec (w := w) (o2 gs) with ⟨b1, b2⟩ | ⟨g', b1, e', b2, b3⟩
      · obtain ⟨i, hi⟩ := b1 g ((h2 gs).mem_iff.2 ((h1 gs).mem_iff.1 a1))
        rw [a2] at hi; cases hi
      · rw [a3, b3]
        exact .inl ⟨_, _, rfl, rfl⟩

/-- The report does not depend on the order of the indexes of the model either. -/
theorem C39_model {m1 m2 : Model C S N} (hb : m1.baselines = m2.baselines) (hn : (m1.indexes.map Prod.fst).Nodup)
    (hp : m1.indexes.Perm m2.indexes) (order : List (N × List S) → List (N × List S)) (target : C) :
    report w m1 order target = report w m2 order target := by
  have hl : ∀ k, lookupOrSingle m1.indexes k = lookupOrSingle m2.indexes k := lookupOrSingle_perm hn hp
  have hg : ∀ gs r, reportGroups w m1 gs r = reportGroups w m2 gs r := by
    intro gs
    induction gs with
    | nil => intro r; rfl
    | cons g gs ih =>
      intro r
      unfold reportGroups reportGroup
      rw [hl]
      simp only [ih]
  unfold report
  simp only [hg, hb]

/-! ### C75: what a model is trained on -/

/-- Training succeeds exactly when the baselines are usable and all their valid sources can be opened.
The model then has one index per name of a valid source; it has seen exactly the tokens of the lines
these sources return, all read as the first of them. -/
theorem C75_train {order : List (N × List S) → List (N × List S)} (ho : ∀ g, (order g).Perm g) (cs : List C) :
    ((∃ m, train w order cs = .ok m) ↔ (∀ c ∈ cs, Spec.Usable w.valid (w.list c)) ∧
      ∀ c ∈ cs, ∀ s ∈ Spec.validSources w.valid (w.list c), ∃ reader, w.openSource s = .ok reader) ∧
    ∀ m, train w order cs = .ok m → m.baselines = cs ∧ (m.indexes.map Prod.fst).Nodup ∧
      ∀ n i, (n, i) ∈ m.indexes ↔ i.sources ≠ [] ∧
        i.sources = (cs.flatMap fun c => Spec.validSources w.valid (w.list c)).filter (fun s => w.nameOf s = n) ∧
        trainIndex w i.sources = .ok i := by
  have hopen : ∀ g, groupSources w cs = .ok g → ((∀ p ∈ g, ∃ i, trainIndex w p.2 = .ok i) ↔
      ∀ c ∈ cs, ∀ s ∈ Spec.validSources w.valid (w.list c), ∃ reader, w.openSource s = .ok reader) := by
    intro g hg
    have hp := (groupSources_ok_iff hg).2
    constructor
    · intro h c hc s hs
      have hsx : s ∈ cs.flatMap fun c => Spec.validSources w.valid (w.list c) := List.mem_flatMap.2 ⟨c, hc, hs⟩
      have hsf : s ∈ (cs.flatMap fun c => Spec.validSources w.valid (w.list c)).filter (fun t => w.nameOf t = w.nameOf s) := by
        rw [List.mem_filter]; exact ⟨hsx, by simp⟩
      cases hop : w.openSource s with
      | ok reader => exact ⟨reader, rfl⟩
      | error e =>
        exfalso
        obtain ⟨i, hi⟩ := h _ ((hp.2 (w.nameOf s) _).2 ⟨List.ne_nil_of_mem hsf, rfl⟩)
        obtain ⟨s', _, e', _, h3⟩ := trainIndex_err _ hsf hop
        simp only at hi
        rw [hi] at h3
        cases h3
    · rintro h ⟨n, ss⟩ hps
      obtain ⟨_, e⟩ := (hp.2 n ss).1 hps
      refine ⟨_, trainIndex_ok ss ?_⟩
      intro s hs
      rw [e, List.mem_filter] at hs
      obtain ⟨c, hc, hs⟩ := List.mem_flatMap.1 hs.1
      exact h c hc s hs
  constructor
  · unfold train
    cases hg : groupSources w cs with
    | error e =>
      refine iff_of_false (by simp) ?_
      rintro ⟨hu, _⟩
      obtain ⟨g, h, _⟩ := C35_groups hu
      rw [hg] at h; cases h
    | ok gs =>
      simp only
      rw [← hopen gs hg]
      rcases trainGroups_spec (w := w) (order gs) with ⟨a1, a2⟩ | ⟨g, a1, e, a2, a3⟩
      · rw [a2]
        simp only [Except.ok.injEq, exists_eq', true_iff]
        exact ⟨(groupSources_ok_iff hg).1, fun p hp => a1 p ((ho gs).mem_iff.2 hp)⟩
      · rw [a3]
        refine iff_of_false (by simp) ?_
        rintro ⟨_, h⟩
        obtain ⟨i, hi⟩ := h g ((ho gs).mem_iff.1 a1)
        rw [a2] at hi; cases hi
  · intro m hm
    unfold train at hm
    cases hg : groupSources w cs with
    | error e => rw [hg] at hm; cases hm
    | ok gs =>
      have hp := (groupSources_ok_iff hg).2
      rw [hg] at hm
      simp only at hm
      rcases trainGroups_spec (w := w) (order gs) with ⟨a1, a2⟩ | ⟨g, a1, e, a2, a3⟩
      · rw [a2] at hm
        cases hm
        refine ⟨rfl, ?_, ?_⟩
        · simp only
          rw [trainedIndex_keys _ a1]
          exact ((ho gs).map Prod.fst).nodup_iff.2 hp.1
        · have hsrc : ∀ ss i, trainIndex w ss = .ok i → i.sources = ss := by
            intro ss i hi
            unfold trainIndex at hi
            simp only at hi
            split at hi
            · cases hi
            · cases hi; rfl
          intro n i
          simp only [List.mem_filterMap]
          constructor
          · rintro ⟨⟨k, ss⟩, hk, hx⟩
            unfold trainedIndex at hx
            split at hx
            · rename_i j hj
              cases hx
              rw [hsrc _ _ hj]
              obtain ⟨b1, b2⟩ := (hp.2 k ss).1 ((ho gs).mem_iff.1 hk)
              exact ⟨b1, b2, hj⟩
            · cases hx
          · rintro ⟨b1, b2, b3⟩
            refine ⟨(n, i.sources), (ho gs).mem_iff.2 ((hp.2 n _).2 ⟨b1, b2⟩), ?_⟩
            unfold trainedIndex
            simp only [b3]
      · rw [a3] at hm; cases hm

/-- The tokens an index was trained with are those of the lines its sources return, once each. -/
theorem C75_tokens (ss : List S) {i : Index S} (h : trainIndex w ss = .ok i) :
    i.sources = ss ∧ i.chunks.flatten.Nodup ∧
    (∀ x, x ∈ i.chunks.flatten ↔ ∃ s ∈ ss, ∃ reader, w.openSource s = .ok reader ∧
      ∃ y ∈ LJ.Process.Spec.readable w.decode (reader (groupJson w ss)), w.tokenize y.2 = x) := by
  have hopen : ∀ s ∈ ss, ∃ reader, w.openSource s = .ok reader := by
    intro s hs
    cases ho : w.openSource s with
    | ok reader => exact ⟨reader, rfl⟩
    | error e =>
      obtain ⟨s', _, e', _, h3⟩ := trainIndex_err ss hs ho
      rw [h] at h3; cases h3
  rw [trainIndex_ok ss hopen] at h
  cases h
  obtain ⟨h1, h2⟩ := LJ.Process.C24_once (env := envOf w []) (opened w (groupJson w ss) ss)
  refine ⟨rfl, h1, ?_⟩
  intro x
  rw [h2]
  unfold LJ.Process.trainedTokens opened
  rw [List.mem_map]
  constructor
  · rintro ⟨y, hy, rfl⟩
    obtain ⟨l, hl, hy⟩ := List.mem_flatten.1 hy
    obtain ⟨r, hr, rfl⟩ := List.mem_map.1 hl
    obtain ⟨s, hs, hx⟩ := List.mem_filterMap.1 hr
    split at hx
    · rename_i reader ho
      cases hx
      exact ⟨s, hs, reader, ho, y, hy, rfl⟩
    · cases hx
  · rintro ⟨s, hs, reader, ho, y, hy, rfl⟩
    refine ⟨y, List.mem_flatten.2 ⟨_, List.mem_map_of_mem (List.mem_filterMap.2 ⟨s, hs, ?_⟩), hy⟩, rfl⟩
    rw [ho]

/-! ### C74: a content against itself -/

/-- The index knows what it was trained with (C18, `known_world`). -/
def Knows (w : World C S N D E ε) : Prop :=
  ∀ chunks dist, LJ.Process.Spec.Pointwise (w.search chunks) dist → ∀ t ∈ chunks.flatten, w.over (dist t) = false

/-- A target whose every line was in the baselines, in a source of the same name, has no anomaly: the
report of a content against itself, or against more, is empty.  What is missing: the sources of a name
must be all JSON or all not. -/
theorem C74_partial (hs : SearchOk w) (hk : Knows w) {o1 o2 : List (N × List S) → List (N × List S)} (h1 : ∀ g, (o1 g).Perm g)
    (h2 : ∀ g, (o2 g).Perm g) {cs : List C} {target : C} (ht : target ∈ cs)
    (hj : ∀ s ∈ cs.flatMap (fun c => Spec.validSources w.valid (w.list c)),
      ∀ t ∈ cs.flatMap (fun c => Spec.validSources w.valid (w.list c)), w.nameOf s = w.nameOf t → w.isJson s = w.isJson t)
    {m : Model C S N} (hm : train w o1 cs = .ok m) :
    ∃ r, report w m o2 target = some (.ok r) ∧ r.logReports = [] ∧ r.indexErrors = [] ∧ r.totalAnomalyCount = 0 ∧
      ∀ s e, (s, e) ∈ r.readErrors → ∃ err, e = .reading err := by
  obtain ⟨ht1, ht2⟩ := C75_train (w := w) h1 cs
  obtain ⟨hu, hopen⟩ := ht1.1 ⟨m, hm⟩
  obtain ⟨_, hnd, hidx⟩ := ht2 m hm
  obtain ⟨gs, hp, hrep⟩ := report_eq hs m o2 h2 (hu target ht)
  refine ⟨_, hrep, ?_⟩
  -- the index of a group of the target
  have hfor : ∀ g ∈ gs, ∃ i, indexFor m g = some i ∧ (g.1, i) ∈ m.indexes := by
    rintro ⟨n, ss⟩ hg
    obtain ⟨hne, e⟩ := (hp.2 n ss).1 hg
    have hne' : (cs.flatMap fun c => Spec.validSources w.valid (w.list c)).filter (fun s => decide (w.nameOf s = n)) ≠ [] := by
      obtain ⟨s, hs⟩ := List.exists_mem_of_ne_nil _ hne
      rw [e, List.mem_filter] at hs
      exact List.ne_nil_of_mem (List.mem_filter.2 ⟨List.mem_flatMap.2 ⟨target, ht, hs.1⟩, hs.2⟩)
    have hop : ∀ s ∈ (cs.flatMap fun c => Spec.validSources w.valid (w.list c)).filter (fun s => decide (w.nameOf s = n)),
        ∃ reader, w.openSource s = .ok reader := by
      intro s hs
      rw [List.mem_filter] at hs
      obtain ⟨c, hc, hs⟩ := List.mem_flatMap.1 hs.1
      exact hopen c hc s hs
    obtain ⟨i, hti⟩ : ∃ i, trainIndex w ((cs.flatMap fun c => Spec.validSources w.valid (w.list c)).filter
        (fun s => decide (w.nameOf s = n))) = .ok i := ⟨_, trainIndex_ok _ hop⟩
    have hsrc := (C75_tokens _ hti).1
    have hmem := (hidx n i).2 ⟨by rw [hsrc]; exact hne', hsrc, by rw [hsrc]; exact hti⟩
    refine ⟨i, ?_, hmem⟩
    exact (C36_lookup m.indexes hnd n _).2 (.inl hmem)
  -- no run of a group finds anything
  have hnone : ∀ g ∈ gs, ∀ x ∈ groupRuns w m g, ∃ s p, x = .done s p ∧ p.1 = [] := by
    rintro ⟨n, ss⟩ hg x hx
    obtain ⟨_, e⟩ := (hp.2 n ss).1 hg
    obtain ⟨i, hi, hmem⟩ := hfor _ hg
    unfold groupRuns at hx
    rw [hi] at hx
    simp only at hx hmem
    obtain ⟨b1, b2⟩ := runs_mem hx
    rw [e, List.mem_filter, decide_eq_true_eq] at b1
    obtain ⟨reader', hr'⟩ := hopen target ht _ b1.1
    rcases b2 with ⟨e, b2, _⟩ | ⟨reader, skip, b2, b3⟩
    · rw [hr'] at b2; cases b2
    · refine ⟨_, _, b3, ?_⟩
      obtain ⟨c1, c2, c3⟩ := (hidx n i).1 hmem
      obtain ⟨_, _, d3⟩ := C75_tokens _ c3
      obtain ⟨dist, hd⟩ := hs i.chunks
      have hd' : LJ.Process.Spec.Pointwise (envOf w i.chunks).search dist := hd
      obtain ⟨ws, g1, _, _, g4⟩ := LJ.Process.C26_any hd' skip (reader (w.isJson x.source))
      rcases hcs : (LJ.Process.process (envOf w i.chunks) skip (reader (w.isJson x.source))).1 with _ | ⟨c, cs'⟩
      · rfl
      · exfalso
        rw [hcs] at g1 g4
        have hov := g4 c (by simp)
        cases g1 with
        | cons hc _ =>
          obtain ⟨pre, bef, l, aft, post, e1, _, _, _, _, _, e7⟩ := hc
          have hl : l ∈ LJ.Process.Spec.visible w.decode (reader (w.isJson x.source)) := by
            have : l ∈ LJ.Process.Spec.visible (envOf w i.chunks).decode (reader (w.isJson x.source)) := by rw [e1]; simp
            exact this
          obtain ⟨y, hy1, hy2⟩ := LJ.Process.readable_visible _ hl
          have hxin : x.source ∈ i.sources := by
            rw [c2, List.mem_filter, decide_eq_true_eq]
            exact ⟨List.mem_flatMap.2 ⟨target, ht, b1.1⟩, b1.2⟩
          have hjson : groupJson w i.sources = w.isJson x.source := by
            cases hsr : i.sources with
            | nil => exact absurd hsr c1
            | cons s0 rest =>
              show w.isJson s0 = _
              have : s0 ∈ i.sources := by rw [hsr]; simp
              rw [c2, List.mem_filter, decide_eq_true_eq] at this
              exact hj _ this.1 _ (List.mem_flatMap.2 ⟨target, ht, b1.1⟩) (by rw [this.2, b1.2])
          have htok : w.tokenize l.text ∈ i.chunks.flatten :=
            (d3 _).2 ⟨x.source, hxin, reader, b2, y, by rw [hjson]; exact hy1, by rw [hy2]⟩
          have := hk i.chunks dist hd _ htok
          rw [e7] at hov
          have hov : w.over (dist (w.tokenize l.text)) = true := hov
          rw [this] at hov
          cases hov
  have hin : ∀ g, g ∈ o2 gs ↔ g ∈ gs := fun g => (h2 gs).mem_iff
  have hlogs : ∀ g ∈ o2 gs, groupLogs w m g = [] := by
    intro g hg
    unfold groupLogs
    rw [List.filterMap_eq_nil_iff]
    intro x hx
    obtain ⟨s, p, rfl, hp0⟩ := hnone g ((hin g).1 hg) x hx
    simp [Run.log, hp0]
  simp only [total, emptyReport, List.nil_append, Nat.zero_add]
  refine ⟨?_, ?_, ?_, ?_⟩
  · rw [List.flatMap_eq_nil_iff]; exact hlogs
  · rw [List.filterMap_eq_nil_iff]
    intro g hg
    obtain ⟨i, hi, _⟩ := hfor g ((hin g).1 hg)
    unfold groupError
    rw [hi]
  · have : (o2 gs).map (fun g => ((groupRuns w m g).map Run.count).sum) = (o2 gs).map fun _ => 0 := by
      apply List.map_congr_left
      intro g hg
      rw [← (groupLogs_count w m g).1, hlogs g hg]
      rfl
    rw [this]
    simp
  · intro s e he
    obtain ⟨g, hg, hx⟩ := List.mem_flatMap.1 he
    obtain ⟨x, hx, hxe⟩ := List.mem_filterMap.1 hx
    obtain ⟨s', p, rfl, _⟩ := hnone g ((hin g).1 hg) x hx
    unfold Run.err at hxe
    rw [Option.map_eq_some_iff] at hxe
    obtain ⟨err, _, h⟩ := hxe
    cases h
    exact ⟨err, rfl⟩

end LJ.Report

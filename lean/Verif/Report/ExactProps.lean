/-
C127: exactly what a report says of every source, whatever the readers return.
-/
import Verif.Report.Exact
import Verif.Report.Witness
namespace LJ.Report
open LJ.Process (Str Bytes Ev Env Err Anomaly AnomalyContext Stop)
variable {C S N D E ε : Type} [DecidableEq N] {w : World C S N D E ε}

/-- C127, for every listing, every result of the opening and reading of the sources, and every model: when the target can be listed, the report is
made; for each name it has the anomalies with their contexts, the line and byte counts and the errors which the specification gives for the sources of this name in
the order of the listing; and the lines counted are those of all the names. -/
theorem C127_report (m : Model C S N) {order : List (N × List S) → List (N × List S)} (ho : ∀ g, (order g).Perm g) (target : C)
    (hs : SearchOk w) (hu : Spec.Usable w.valid (w.list target)) {dist : N → Option (Str → D)}
    (hd : ∀ n, match lookupOrSingle m.indexes n with
      | some i => ∃ f, dist n = some f ∧ LJ.Process.Spec.Pointwise (w.search i.chunks) f
      | none => dist n = none) :
    ∃ r, report w m order target = some (.ok r) ∧
      let said := Spec.saidOf w (Spec.validSources w.valid (w.list target)) dist
      (∀ n, (r.logReports.filter fun l => l.indexName = n).map (fun l => (l.source, l.anomalies, l.lineCount, l.byteCount)) =
        ((said n).filter fun x => !x.anomalies.isEmpty).map fun x => (x.source, x.anomalies, x.lines, x.bytes)) ∧
      (∀ n, r.readErrors.filter (fun x => w.nameOf x.1 = n) = (said n).filterMap fun x => x.error.map fun e => (x.source, e)) ∧
      (∀ names : List N, names.Nodup → (∀ n, n ∈ names ↔ ∃ s ∈ Spec.validSources w.valid (w.list target), w.nameOf s = n) →
        r.totalLineCount = (names.map fun n => ((said n).map (·.lines)).sum).sum) ∧
      (∀ ss, ss ∈ r.indexErrors ↔ ∃ n, dist n = none ∧ ss ≠ [] ∧ ss = (Spec.validSources w.valid (w.list target)).filter fun s => w.nameOf s = n) := by
  obtain ⟨gs0, hp0, hr⟩ := report_eq hs m order ho hu
  have hp : Spec.IsPartition w.nameOf (Spec.validSources w.valid (w.list target)) (order gs0) :=
    ⟨((ho gs0).map Prod.fst).nodup_iff.2 hp0.1, fun n ss => by rw [(ho gs0).mem_iff]; exact hp0.2 n ss⟩
  generalize hV : Spec.validSources w.valid (w.list target) = V at hp
  generalize order gs0 = gs at hp hr
  refine ⟨_, hr, ?_⟩
  simp only [total, emptyReport, List.nil_append, Nat.zero_add]
  have hempty : ∀ n, gs.lookup n = none → Spec.saidOf w V dist n = [] := by
    intro n hl
    have : V.filter (fun s => decide (w.nameOf s = n)) = [] := by
      by_contra hne
      exact lookup_none.1 hl (List.mem_map_of_mem (f := Prod.fst) ((hp.2 n _).2 ⟨hne, rfl⟩))
    unfold Spec.saidOf
    rw [this]
    cases dist n <;> rfl
  refine ⟨?_, ?_, ?_, ?_⟩
  · intro n
    rw [filter_logs m n gs hp.1]
    cases hl : gs.lookup n with
    | none => rw [hempty n hl]; rfl
    | some ss =>
      rw [← groupRuns_said hp hd (lookup_mem hl)]
      exact logs_told n _
  · intro n
    have key : ∀ gs' : List (N × List S), (∀ g ∈ gs', g ∈ gs) → (gs'.map Prod.fst).Nodup →
        (gs'.flatMap fun g => (groupRuns w m g).filterMap Run.err).filter (fun x => decide (w.nameOf x.1 = n)) =
          match gs'.lookup n with | some _ => (Spec.saidOf w V dist n).filterMap (fun x => x.error.map fun e => (x.source, e)) | none => [] := by
      intro gs' hsub hn
      induction gs' with
      | nil => rfl
      | cons g gs' ih =>
        obtain ⟨k, ss⟩ := g
        rw [List.map_cons, List.nodup_cons] at hn
        have hname : ∀ x ∈ (groupRuns w m (k, ss)).filterMap Run.err, w.nameOf x.1 = k := by
          intro x hx
          rw [errs_said, groupRuns_said hp hd (hsub _ (by simp))] at hx
          obtain ⟨y, hy, hx⟩ := List.mem_filterMap.1 hx
          obtain ⟨e, _, rfl⟩ := Option.map_eq_some_iff.1 hx
          exact saidOf_source y hy
        rw [List.flatMap_cons, List.filter_append, ih (fun g hg => hsub g (by simp [hg])) hn.2, List.lookup_cons]
        by_cases hk : k = n
        · subst hk
          have : gs'.lookup k = none := lookup_none.2 hn.1
          rw [this, beq_self_eq_true]
          simp only [List.append_nil]
          rw [List.filter_eq_self.2 (fun x hx => by simpa using hname x hx), errs_said, groupRuns_said hp hd (hsub _ (by simp))]
        · have : (n == k) = false := by simpa using fun h => hk h.symm
          rw [this, List.filter_eq_nil_iff.2 (fun x hx => by rw [hname x hx]; simpa using hk)]
          rfl
    rw [key gs (fun _ h => h) hp.1]
    cases hl : gs.lookup n with
    | none => rw [hempty n hl]; rfl
    | some ss => rfl
  · intro names hnd hmem
    have hperm : names.Perm (gs.map Prod.fst) := by
      rw [List.perm_ext_iff_of_nodup hnd hp.1]
      intro n
      rw [hmem, List.mem_map]
      constructor
      · rintro ⟨s, hs, rfl⟩
        exact ⟨(w.nameOf s, _), (hp.2 _ _).2 ⟨List.ne_nil_of_mem (List.mem_filter.2 ⟨hs, by simp⟩), rfl⟩, rfl⟩
      · rintro ⟨⟨k, ss⟩, hg, rfl⟩
        obtain ⟨h1, h2⟩ := (hp.2 _ _).1 hg
        obtain ⟨s, hs⟩ := List.exists_mem_of_ne_nil _ h1
        rw [h2, List.mem_filter, decide_eq_true_eq] at hs
        exact ⟨s, hs⟩
    rw [(hperm.map _).sum_nat, List.map_map]
    congr 1
    apply List.map_congr_left
    intro g hg
    rw [lines_said, groupRuns_said hp hd hg]
    rfl
  · intro ss
    rw [List.mem_filterMap]
    constructor
    · rintro ⟨⟨n, xs⟩, hg, he⟩
      have hdn := hd n
      unfold groupError indexFor at he
      simp only at he
      cases hi : lookupOrSingle m.indexes n with
      | some i => rw [hi] at he; cases he
      | none =>
        rw [hi] at he hdn
        cases he
        exact ⟨n, hdn, (hp.2 n _).1 hg⟩
    · rintro ⟨n, hn, h1⟩
      refine ⟨(n, ss), (hp.2 n ss).2 h1, ?_⟩
      have hdn := hd n
      unfold groupError indexFor
      simp only
      cases hi : lookupOrSingle m.indexes n with
      | some i =>
        rw [hi] at hdn
        obtain ⟨f, h, _⟩ := hdn
        rw [hn] at h; cases h
      | none => rfl

/-- the target 1 of `world1`: what is said of the name `a` -/
example : ∃ r, report world1 model1 List.reverse 1 = some (.ok r) ∧
    (r.logReports.filter fun l => l.indexName = "a").map (fun l => (l.source, l.anomalies, l.lineCount, l.byteCount)) =
      [("a2", [⟨["p".toList], ⟨1, 2, "q".toList⟩, []⟩], 2, 2), ("a3", [⟨[], ⟨1, 1, "r".toList⟩, ["q".toList]⟩], 2, 2)] := by
  obtain ⟨r, h, h1, _⟩ := C127_report (w := world1) model1 (order := List.reverse) (fun g => List.reverse_perm g) 1 (small_search _ _)
    (by constructor
        · intro e he; simp [world1, small, list1] at he
        · decide +kernel)
    (dist := fun n => (lookupOrSingle model1.indexes n).map fun (i : Index String) (t : Str) => if t ∈ i.chunks.flatten then 0 else 1)
    (by intro n
        cases hl : lookupOrSingle model1.indexes n with
        | none => rfl
        | some i => exact ⟨_, rfl, fun _ => rfl⟩)
  refine ⟨r, h, (h1 "a").trans ?_⟩
  rfl

end LJ.Report

/-
The report as a function of the runs over the sources.
-/
import Verif.Report.Lemmas
import Verif.Process.Props
namespace LJ.Report
open LJ.Process (Str Bytes Ev Env Err AnomalyContext Trainer Stop)
set_option linter.unusedSectionVars false
variable {C S N D E ε : Type} [DecidableEq N] {w : World C S N D E ε}

/-- every index gives each target its own distance (C20, `LJ.Process.C34_search`) -/
def SearchOk (w : World C S N D E ε) : Prop := ∀ chunks, ∃ dist, LJ.Process.Spec.Pointwise (w.search chunks) dist

/-- what happened with a source: it could not be opened, or it was processed -/
inductive Run (S D E ε : Type) where
  | noOpen (source : S) (e : E)
  | done (source : S) (p : List (AnomalyContext D) × Stop ε × LJ.Process.St D)

def Run.source : Run S D E ε → S
  | .noOpen s _ => s
  | .done s _ => s

def stopErr : Stop ε → Option (Err ε)
  | .failed e => some e
  | _ => none

def Run.err : Run S D E ε → Option (S × ReadErr E ε)
  | .noOpen s e => some (s, .opening e)
  | .done s p => (stopErr p.2.1).map fun e => (s, .reading e)

def Run.log (name : N) : Run S D E ε → Option (LogReport S N D)
  | .noOpen _ _ => none
  | .done s p => if p.1.isEmpty then none else some ⟨p.2.2.lineCount, p.2.2.byteCount, p.1, s, name⟩

def Run.lines : Run S D E ε → Nat
  | .noOpen _ _ => 0
  | .done _ p => p.2.2.lineCount

def Run.count : Run S D E ε → Nat
  | .noOpen _ _ => 0
  | .done _ p => p.1.length

/-- the runs over the sources of a group -/
def runs (w : World C S N D E ε) (index : Index S) : List S → List Str → List (Run S D E ε)
  | [], _ => []
  | s :: ss, skip =>
    match w.openSource s with
    | .error e => [.noOpen s e]
    | .ok reader =>
      let p := LJ.Process.process (envOf w index.chunks) skip (reader (w.isJson s))
      .done s p :: runs w index ss p.2.2.skipLines

theorem inspect_some (hs : SearchOk w) (index : Index S) (s : S) (reader : Bool → List (Ev ε)) (skip : List Str) :
    inspect w index s reader skip =
      some ((LJ.Process.process (envOf w index.chunks) skip (reader (w.isJson s))).1,
        stopErr (LJ.Process.process (envOf w index.chunks) skip (reader (w.isJson s))).2.1,
        (LJ.Process.process (envOf w index.chunks) skip (reader (w.isJson s))).2.2) := by
  obtain ⟨dist, hd⟩ := hs index.chunks
  have h := LJ.Process.C30_no_panic (env := envOf w index.chunks) hd skip (reader (w.isJson s))
  unfold inspect
  rcases hp : LJ.Process.process (envOf w index.chunks) skip (reader (w.isJson s)) with ⟨as, stop, s'⟩
  rw [hp] at h
  rcases h with h | ⟨e, h⟩ <;> (simp only at h; subst h; rfl)

/-- the additions to the report -/
def addRuns (name : N) (index : Index S) (rs : List (Run S D E ε)) (r : Report C S N D E ε) : Report C S N D E ε :=
  { r with
    logReports := r.logReports ++ rs.filterMap (Run.log name)
    indexReports := if (rs.filterMap (Run.log name)).isEmpty || (r.indexReports.lookup name).isSome then r.indexReports
      else r.indexReports ++ [(name, index.sources)]
    readErrors := r.readErrors ++ rs.filterMap Run.err
    totalLineCount := r.totalLineCount + (rs.map Run.lines).sum
    totalAnomalyCount := r.totalAnomalyCount + (rs.map Run.count).sum }

theorem addRuns_cons (name : N) (index : Index S) (s : S) (p : List (AnomalyContext D) × Stop ε × LJ.Process.St D)
    (rs : List (Run S D E ε)) (r : Report C S N D E ε) :
    addRuns name index rs (record name index s p.1 (stopErr p.2.1) p.2.2 r) = addRuns name index (.done s p :: rs) r := by
  obtain ⟨as, stop, st⟩ := p
  cases as with
  | nil =>
    have hl : (Run.done s ([], stop, st) :: rs).filterMap (Run.log name) = rs.filterMap (Run.log name) := rfl
    unfold addRuns
    rw [hl]
    cases he : stopErr stop <;> simp [record, recordErr, he, Run.err, Run.lines, Run.count, Nat.add_assoc] <;> rfl
  | cons a as =>
    have hl' : ∀ l : List (N × List S), ((l ++ [(name, index.sources)]).lookup name).isSome = true := by
      intro l; simp [List.lookup_append]
    by_cases hl : (r.indexReports.lookup name).isSome = true
    · cases he : stopErr stop <;>
        simp [record, recordErr, recordIndex, addRuns, he, hl, Run.log, Run.err, Run.lines, Run.count, Nat.add_assoc]
    · cases he : stopErr stop <;>
        simp [record, recordErr, recordIndex, addRuns, he, hl, hl', Run.log, Run.err, Run.lines, Run.count, Nat.add_assoc]

theorem reportSources_eq (hs : SearchOk w) (name : N) (index : Index S) (ss : List S) (skip : List Str) (r : Report C S N D E ε) :
    reportSources w name index ss skip r = some (addRuns name index (runs w index ss skip) r) := by
  induction ss generalizing skip r with
  | nil => simp [reportSources, runs, addRuns]
  | cons s ss ih =>
    unfold reportSources runs
    cases ho : w.openSource s with
    | error e => simp [addRuns, Run.log, Run.err, Run.lines, Run.count]
    | ok reader =>
      simp only [inspect_some hs]
      rw [ih, addRuns_cons]

/-- the index of a group -/
def indexFor (m : Model C S N) (g : N × List S) : Option (Index S) := lookupOrSingle m.indexes g.1

/-- the runs over a group -/
def groupRuns (w : World C S N D E ε) (m : Model C S N) (g : N × List S) : List (Run S D E ε) :=
  match indexFor m g with
  | some index => runs w index g.2 []
  | none => []

def groupLogs (w : World C S N D E ε) (m : Model C S N) (g : N × List S) : List (LogReport S N D) :=
  (groupRuns w m g).filterMap (Run.log g.1)

def groupIndexReport (w : World C S N D E ε) (m : Model C S N) (g : N × List S) : Option (N × List S) :=
  match indexFor m g with
  | some index => if (groupLogs w m g).isEmpty then none else some (g.1, index.sources)
  | none => none

def groupError (m : Model C S N) (g : N × List S) : Option (List S) :=
  match indexFor m g with
  | some _ => none
  | none => some g.2

/-- the report on groups -/
def total (w : World C S N D E ε) (m : Model C S N) (gs : List (N × List S)) (r : Report C S N D E ε) : Report C S N D E ε :=
  { r with
    logReports := r.logReports ++ gs.flatMap (groupLogs w m)
    indexReports := r.indexReports ++ gs.filterMap (groupIndexReport w m)
    indexErrors := r.indexErrors ++ gs.filterMap (groupError m)
    readErrors := r.readErrors ++ gs.flatMap fun g => (groupRuns w m g).filterMap Run.err
    totalLineCount := r.totalLineCount + (gs.map fun g => ((groupRuns w m g).map Run.lines).sum).sum
    totalAnomalyCount := r.totalAnomalyCount + (gs.map fun g => ((groupRuns w m g).map Run.count).sum).sum }

theorem reportGroups_eq (hs : SearchOk w) (m : Model C S N) (gs : List (N × List S)) (r : Report C S N D E ε)
    (hn : (gs.map Prod.fst).Nodup) (hd : ∀ n ∈ gs.map Prod.fst, n ∉ r.indexReports.map Prod.fst) :
    reportGroups w m gs r = some (total w m gs r) := by
  induction gs generalizing r with
  | nil => simp [reportGroups, total]
  | cons g gs ih =>
    obtain ⟨n, ss⟩ := g
    rw [List.map_cons, List.nodup_cons] at hn
    unfold reportGroups reportGroup
    cases hi : lookupOrSingle m.indexes n with
    | none =>
      simp only
      rw [ih _ hn.2 (by intro x hx; exact hd x (by rw [List.map_cons]; exact List.mem_cons_of_mem _ hx))]
      simp [total, groupLogs, groupRuns, groupIndexReport, groupError, indexFor, hi]
    | some index =>
      simp only [reportSources_eq hs]
      have hno : (r.indexReports.lookup n).isSome = false := by
        have : r.indexReports.lookup n = none := lookup_none.2 (hd n (by simp))
        rw [this]; rfl
      rw [ih _ hn.2]
      · cases hl : ((runs w index ss []).filterMap (Run.log n)).isEmpty
        · simp [total, addRuns, groupLogs, groupRuns, groupIndexReport, groupError, indexFor, hi, hl, hno, Nat.add_assoc]
        · simp [total, addRuns, groupLogs, groupRuns, groupIndexReport, groupError, indexFor, hi, hl, Nat.add_assoc]
      · intro x hx hx'
        simp only [addRuns] at hx'
        split at hx'
        · exact hd x (by rw [List.map_cons]; exact List.mem_cons_of_mem _ hx) hx'
        · rw [List.map_append, List.mem_append] at hx'
          rcases hx' with hx' | hx'
          · exact hd x (by rw [List.map_cons]; exact List.mem_cons_of_mem _ hx) hx'
          · simp only [List.map_cons, List.map_nil, List.mem_singleton] at hx'
            subst hx'
            exact hn.1 hx

/-- the report on nothing -/
def emptyReport (m : Model C S N) (target : C) : Report C S N D E ε := ⟨target, m.baselines, [], [], [], [], 0, 0⟩

/-- the report in closed form, for any order of the groups -/
theorem report_eq (hs : SearchOk w) (m : Model C S N) (order : List (N × List S) → List (N × List S))
    (ho : ∀ g, (order g).Perm g) {target : C} (hc : Spec.Usable w.valid (w.list target)) :
    ∃ gs, Spec.IsPartition w.nameOf (Spec.validSources w.valid (w.list target)) gs ∧
      report w m order target = some (.ok (total w m (order gs) (emptyReport m target))) := by
  obtain ⟨gs, h1, h2⟩ := groupInto_ok (w := w) (cs := [target]) (xs := []) (g := []) (by simpa using hc)
    ⟨by simp, by intro n ss; simp⟩
  refine ⟨gs, by simpa using h2, ?_⟩
  unfold report groupSources
  rw [h1]
  simp only
  rw [reportGroups_eq hs m (order gs) _ (((ho gs).map Prod.fst).nodup_iff.2 h2.1) (by simp)]
  rfl

end LJ.Report

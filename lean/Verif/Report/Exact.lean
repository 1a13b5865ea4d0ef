/-
Exactly what a report says of every source, whatever the readers return.
-/
import Verif.Report.Props
import Verif.Process.ShownProps
namespace LJ.Report
open LJ.Process (Str Bytes Ev Env Err Anomaly AnomalyContext Stop)

namespace Spec
variable {S D E ε : Type}

/-- What a report says of a source. -/
structure Said (S D E ε : Type) where
  source : S
  anomalies : List (AnomalyContext D)
  lines : Nat
  bytes : Nat
  error : Option (ReadErr E ε)

/-- The sources of one name are reported one after the other, each knowing the tokens of the previous ones, until one which can't be opened. -/
def said (tok : Str → Str) (dist : Str → D) (over : D → Bool) (decode : Bytes → Option Str) (content : S → Except E (List (Ev ε))) :
    List Str → List S → List (Said S D E ε)
  | _, [] => []
  | seen, s :: ss =>
    match content s with
    | .error e => [⟨s, [], 0, 0, some (.opening e)⟩]
    | .ok evs =>
      let spec := LJ.Process.Spec.shown tok dist over decode (.start seen) evs
      ⟨s, spec.1, spec.2.2.read, spec.2.2.bytes, match spec.2.1 with | .failed e => some (.reading e) | _ => none⟩ ::
        said tok dist over decode content spec.2.2.seen ss

end Spec

set_option linter.unusedSectionVars false
variable {C S N D E ε : Type} [DecidableEq N] {w : World C S N D E ε}

/-- the reading of a source, by its own name -/
def content (w : World C S N D E ε) (s : S) : Except E (List (Ev ε)) :=
  match w.openSource s with
  | .error e => .error e
  | .ok reader => .ok (reader (w.isJson s))

/-- what a run says -/
def Run.said : Run S D E ε → Spec.Said S D E ε
  | .noOpen s e => ⟨s, [], 0, 0, some (.opening e)⟩
  | .done s p => ⟨s, p.1, p.2.2.lineCount, p.2.2.byteCount, (stopErr p.2.1).map .reading⟩

theorem process_congr {env : Env D} {dist : Str → D} (hs : LJ.Process.Spec.Pointwise env.search dist) (a b : List Str) (h : ∀ t, t ∈ a ↔ t ∈ b)
    (r : List (Ev ε)) :
    let p := LJ.Process.process env a r
    let q := LJ.Process.Spec.shown env.tokenize dist env.over env.decode (.start b) r
    p.1 = q.1 ∧ p.2.1 = q.2.1 ∧ (∀ t, t ∈ p.2.2.skipLines ↔ t ∈ q.2.2.seen) ∧ p.2.2.lineCount = q.2.2.read ∧ p.2.2.byteCount = q.2.2.bytes :=
  LJ.Process.collect_shown hs r _ _ _
    ⟨[], rfl, by simp [LJ.Process.St.new], by simp [LJ.Process.St.new], by simp [LJ.Process.St.new], rfl, rfl, rfl, fun x => (h x).symm, rfl, rfl, rfl, rfl, rfl⟩
    (by simp [LJ.Process.pend, LJ.Process.St.new])

theorem stopErr_match (x : Stop ε) : (stopErr x).map (ReadErr.reading (E := E)) = match x with | .failed e => some (.reading e) | _ => none := by
  cases x <;> rfl

/-- the runs over the sources of a group say what the specification says -/
theorem runs_said {index : Index S} {dist : Str → D} (hd : LJ.Process.Spec.Pointwise (w.search index.chunks) dist) :
    ∀ (ss : List S) (a b : List Str), (∀ t, t ∈ a ↔ t ∈ b) →
      (runs w index ss a).map Run.said = Spec.said w.tokenize dist w.over w.decode (content w) b ss := by
  intro ss
  induction ss with
  | nil => intro a b _; rfl
  | cons s ss ih =>
    intro a b h
    unfold runs Spec.said content
    cases ho : w.openSource s with
    | error e => rfl
    | ok reader =>
      obtain ⟨h1, h2, h3, h4, h5⟩ := process_congr (env := envOf w index.chunks) hd a b h (reader (w.isJson s))
      simp only [List.map_cons]
      rw [ih _ _ h3]
      have e : Run.said (E := E) (.done s (LJ.Process.process (envOf w index.chunks) a (reader (w.isJson s)))) =
          ⟨s, _, _, _, (stopErr (LJ.Process.process (envOf w index.chunks) a (reader (w.isJson s))).2.1).map .reading⟩ := rfl
      rw [e, h1, h2, h4, h5]
      congr 2
      exact stopErr_match _

namespace Spec

/-- What a report of sources says of a name which has an index with the distance `dist`. -/
def saidOf (w : World C S N D E ε) (ss : List S) (dist : N → Option (Str → D)) (n : N) : List (Said S D E ε) :=
  match dist n with
  | some dist => said w.tokenize dist w.over w.decode (content w) [] (ss.filter fun s => w.nameOf s = n)
  | none => []

end Spec

theorem filter_logs (m : Model C S N) (n : N) : ∀ gs : List (N × List S), (gs.map Prod.fst).Nodup →
    (gs.flatMap (groupLogs w m)).filter (fun l => decide (l.indexName = n)) =
      match gs.lookup n with | some ss => groupLogs w m (n, ss) | none => [] := by
  have hkeep : ∀ g : N × List S, g.1 = n → (groupLogs w m g).filter (fun l => decide (l.indexName = n)) = groupLogs w m g := by
    intro g hg
    rw [List.filter_eq_self]
    intro l hl
    rw [(groupLogs_spec hl).1, hg]; simp
  have hdrop : ∀ g : N × List S, g.1 ≠ n → (groupLogs w m g).filter (fun l => decide (l.indexName = n)) = [] := by
    intro g hg
    rw [List.filter_eq_nil_iff]
    intro l hl
    rw [(groupLogs_spec hl).1]; simpa using hg
  intro gs hn
  induction gs with
  | nil => rfl
  | cons g gs ih =>
    obtain ⟨k, ss⟩ := g
    rw [List.map_cons, List.nodup_cons] at hn
    rw [List.flatMap_cons, List.filter_append, ih hn.2, List.lookup_cons]
    by_cases hk : k = n
    · subst hk
      rw [hkeep _ rfl, beq_self_eq_true]
      have : gs.lookup k = none := lookup_none.2 hn.1
      rw [this]; simp
    · rw [hdrop _ hk]
      have : (n == k) = false := by simpa using fun h => hk h.symm
      rw [this]; rfl

theorem lookup_single {V : Type} (k n : N) (v : V) : lookupOrSingle [(k, v)] n = some v := by
  unfold lookupOrSingle
  rw [List.lookup_cons]
  cases n == k <;> rfl

/-- what a log report says -/
def LogReport.told (l : LogReport S N D) : S × List (AnomalyContext D) × Nat × Nat := (l.source, l.anomalies, l.lineCount, l.byteCount)

theorem logs_told (n : N) (rs : List (Run S D E ε)) :
    (rs.filterMap (Run.log n)).map LogReport.told =
      ((rs.map Run.said).filter fun x => !x.anomalies.isEmpty).map fun x => (x.source, x.anomalies, x.lines, x.bytes) := by
  induction rs with
  | nil => rfl
  | cons r rs ih =>
    rw [List.filterMap_cons, List.map_cons, List.filter_cons]
    cases r with
    | noOpen s e => simpa [Run.log, Run.said] using ih
    | done s p =>
      obtain ⟨as, st, p⟩ := p
      cases as with
      | nil => simpa [Run.log, Run.said] using ih
      | cons a as => simpa [Run.log, Run.said, LogReport.told] using ih

theorem errs_said (rs : List (Run S D E ε)) :
    rs.filterMap Run.err = (rs.map Run.said).filterMap fun x => x.error.map fun e => (x.source, e) := by
  induction rs with
  | nil => rfl
  | cons r rs ih =>
    rw [List.filterMap_cons, List.map_cons, List.filterMap_cons, ih]
    cases r with
    | noOpen s e => rfl
    | done s p => cases h : stopErr p.2.1 <;> simp [Run.err, Run.said, h]

theorem lines_said (rs : List (Run S D E ε)) : (rs.map Run.lines).sum = ((rs.map Run.said).map (·.lines)).sum := by
  rw [List.map_map]
  congr 1
  apply List.map_congr_left
  intro r _
  cases r <;> rfl

theorem said_source {tok : Str → Str} {dist : Str → D} {over : D → Bool} {decode : Bytes → Option Str} {ct : S → Except E (List (Ev ε))} :
    ∀ (ss : List S) (seen : List Str), ∀ x ∈ Spec.said tok dist over decode ct seen ss, x.source ∈ ss := by
  intro ss
  induction ss with
  | nil => intro seen x hx; cases hx
  | cons s ss ih =>
    intro seen x hx
    unfold Spec.said at hx
    split at hx
    · rw [List.mem_singleton] at hx; subst hx; simp
    · rcases List.mem_cons.1 hx with rfl | hx
      · simp
      · exact List.mem_cons_of_mem _ (ih _ x hx)

theorem groupRuns_said {m : Model C S N} {ss : List S} {gs : List (N × List S)} (hp : Spec.IsPartition w.nameOf ss gs)
    {dist : N → Option (Str → D)}
    (hd : ∀ n, match lookupOrSingle m.indexes n with
      | some i => ∃ f, dist n = some f ∧ LJ.Process.Spec.Pointwise (w.search i.chunks) f
      | none => dist n = none) {g : N × List S} (hg : g ∈ gs) :
    (groupRuns w m g).map Run.said = Spec.saidOf w ss dist g.1 := by
  obtain ⟨n, xs⟩ := g
  have hx := ((hp.2 n xs).1 hg).2
  have hdn := hd n
  unfold groupRuns Spec.saidOf indexFor
  cases hi : lookupOrSingle m.indexes n with
  | none => rw [hi] at hdn; simp only at hdn; simp [hdn]
  | some i =>
    rw [hi] at hdn
    obtain ⟨f, h1, h2⟩ := hdn
    simp only [h1]
    rw [runs_said h2 xs [] [] (fun _ => Iff.rfl), ← hx]

theorem saidOf_source {ss : List S} {dist : N → Option (Str → D)} {n : N} : ∀ x ∈ Spec.saidOf w ss dist n, w.nameOf x.source = n := by
  intro x hx
  unfold Spec.saidOf at hx
  split at hx
  · have := said_source _ _ x hx
    rw [List.mem_filter, decide_eq_true_eq] at this
    exact this.2
  · cases hx

end LJ.Report

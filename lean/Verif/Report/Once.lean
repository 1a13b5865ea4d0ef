/-
C33, for reports: a line is reported once for a name, whatever the files are.
-/
import Verif.Process.Once
import Verif.Report.Rotated
namespace LJ.Report
open LJ.Process (Str Bytes Ev Env Err AnomalyContext Stop)
set_option linter.unusedSectionVars false
variable {C S N D E ε : Type} [DecidableEq N] {w : World C S N D E ε}

/-- what is found in runs -/
def runsFound (w : World C S N D E ε) (name : N) (rs : List (Run S D E ε)) : List (Str × D) :=
  (rs.filterMap (Run.log name)).flatMap fun l => l.anomalies.map fun a => (w.tokenize a.anomaly.line, a.anomaly.distance)

theorem runsFound_done (name : N) (s : S) (p : List (AnomalyContext D) × Stop ε × LJ.Process.St D) (rs : List (Run S D E ε)) :
    runsFound w name (.done s p :: rs) = p.1.map (fun a => (w.tokenize a.anomaly.line, a.anomaly.distance)) ++ runsFound w name rs := by
  unfold runsFound
  cases h : p.1 with
  | nil => rw [List.filterMap_cons_none (by simp [Run.log, h])]; rfl
  | cons a as => rw [List.filterMap_cons_some (b := ⟨p.2.2.lineCount, p.2.2.byteCount, p.1, s, name⟩) (by simp [Run.log, h]), List.flatMap_cons, h]

theorem runs_once {index : Index S} {dist : Str → D} (hd : LJ.Process.Spec.Pointwise (w.search index.chunks) dist) (name : N) (ss : List S) (skip : List Str) :
    ((runsFound w name (runs w index ss skip)).map Prod.fst).Nodup ∧
    ∀ x ∈ runsFound w name (runs w index ss skip), x.1 ∉ skip ∧ x.2 = dist x.1 ∧ w.over x.2 = true := by
  induction ss generalizing skip with
  | nil => simp [runs, runsFound]
  | cons s ss ih =>
    unfold runs
    cases ho : w.openSource s with
    | error e =>
      have e0 : runsFound w name [(Run.noOpen s e : Run S D E ε)] = [] := rfl
      simp only [e0]
      exact ⟨List.nodup_nil, fun _ h => nomatch h⟩
    | ok reader =>
      simp only
      rw [runsFound_done]
      obtain ⟨h1, h2, h3⟩ := LJ.Process.C33_any (env := envOf w index.chunks) hd skip (reader (w.isJson s))
      obtain ⟨ws, g1, _, _, g4⟩ := LJ.Process.C26_any (env := envOf w index.chunks) hd skip (reader (w.isJson s))
      have hdist : ∀ c ∈ (LJ.Process.process (envOf w index.chunks) skip (reader (w.isJson s))).1,
          c.anomaly.distance = dist (w.tokenize c.anomaly.line) := by
        intro c hc
        have key : ∀ {cs : List (AnomalyContext D)} {ws : List LJ.Process.Spec.Window} {ls : List LJ.Process.Spec.Line},
            List.Forall₂ (LJ.Process.Spec.Shows w.tokenize dist ls) cs ws → c ∈ cs → c.anomaly.distance = dist (w.tokenize c.anomaly.line) := by
          intro cs ws ls h hc
          induction h with
          | nil => cases hc
          | cons hh _ ih =>
            rcases List.mem_cons.1 hc with rfl | hc
            · obtain ⟨_, _, l, _, _, _, _, _, _, _, _, e⟩ := hh
              rw [e]
            · exact ih hc
        exact key g1 hc
      generalize LJ.Process.process (envOf w index.chunks) skip (reader (w.isJson s)) = p at h1 h2 h3 g4 hdist
      obtain ⟨i1, i2⟩ := ih p.2.2.skipLines
      constructor
      · rw [List.map_append, List.map_map, List.nodup_append]
        refine ⟨h1, i1, ?_⟩
        rintro a ha b hb rfl
        obtain ⟨c, hc, rfl⟩ := List.mem_map.1 ha
        obtain ⟨x, hx, hxe⟩ := List.mem_map.1 hb
        exact (i2 x hx).1 (hxe ▸ (h2 c hc).2)
      · intro x hx
        rcases List.mem_append.1 hx with hx | hx
        · obtain ⟨c, hc, rfl⟩ := List.mem_map.1 hx
          exact ⟨(h2 c hc).1, hdist c hc, g4 c hc⟩
        · exact ⟨fun hs => (i2 x hx).1 (h3 _ hs), (i2 x hx).2⟩

/-- what is found for a name comes from the runs over its sources -/
theorem found_runs {m : Model C S N} {n : N} (hs : SearchOk w) {o : List (N × List S) → List (N × List S)}
    (ho : ∀ g, (o g).Perm g) {target : C} {r : Report C S N D E ε} (hr : report w m o target = some (.ok r)) :
    found w r n = match lookupOrSingle m.indexes n with
      | none => []
      | some i => runsFound w n (runs w i ((Spec.validSources w.valid (w.list target)).filter fun s => decide (w.nameOf s = n)) []) := by
  obtain ⟨gs, hp, rfl⟩ := report_ok hs ho hr
  unfold found
  simp only [total, emptyReport, List.nil_append]
  rw [filter_flatMap_logs, partition_group hp, List.flatMap_assoc]
  split
  · rename_i hnil
    rw [hnil]
    cases lookupOrSingle m.indexes n <;> rfl
  · rw [List.flatMap_singleton]
    unfold groupLogs groupRuns indexFor
    simp only
    cases lookupOrSingle m.indexes n <;> rfl

/-- C33.  In a report, the normalised lines reported for a name are distinct, whatever the files are and however they are read; they are over the
threshold, at their distance to what the index of the name knows. -/
theorem C33_report (hs : SearchOk w) {m : Model C S N} {o : List (N × List S) → List (N × List S)} (ho : ∀ g, (o g).Perm g) {target : C}
    {r : Report C S N D E ε} (hr : report w m o target = some (.ok r)) (n : N) :
    ((found w r n).map Prod.fst).Nodup ∧
    (found w r n ≠ [] → ∃ i dist, lookupOrSingle m.indexes n = some i ∧ LJ.Process.Spec.Pointwise (w.search i.chunks) dist ∧
      ∀ x ∈ found w r n, x.2 = dist x.1 ∧ w.over x.2 = true) := by
  rw [found_runs hs ho hr]
  cases lookupOrSingle m.indexes n with
  | none => simp
  | some i =>
    obtain ⟨dist, hd⟩ := hs i.chunks
    obtain ⟨h1, h2⟩ := runs_once hd n ((Spec.validSources w.valid (w.list target)).filter fun s => decide (w.nameOf s = n)) []
    exact ⟨h1, fun _ => ⟨i, dist, rfl, hd, fun x hx => (h2 x hx).2⟩⟩

/-- files with a read error and a marker -/
def open3 : List (String × (Bool → List (Ev Unit))) :=
  [("a2", fun _ => [.ok (LJ.Process.toyL "q" 1), .ok (LJ.Process.toyL "r" 2)]),
    ("a3", fun _ => [.ok (LJ.Process.toyL "p" 1), .ok (LJ.Process.toyL "q" 2), .ok (LJ.Process.toyL "p" 3), .ok (LJ.Process.toyL "TASK [log-classify" 4), .error ()]),
    ("b1", fun _ => [.ok (LJ.Process.toyL "z" 1), .error ()])]

/-- The files of a name with a marker, a read error and repeated lines: each line is reported once. -/
example : shown (report (small log2 open3) ⟨[], [("a", ⟨[], [[['r']]], 0, 0⟩)]⟩ id 0) = [("a2", ["q"]), ("a3", ["p"])] := by decide +kernel

end LJ.Report

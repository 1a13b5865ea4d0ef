/-
C120: the order in which the files of directories are listed does not change what is found in them.
-/
import Verif.Whole.Trees
import Verif.Report.Listing
namespace LJ.Whole
open LJ.Process (Str Bytes Ev)
open LJ.Paths (Source)
open LJ.Report (train report AnyOrder)

/-- the same machine, whose file system lists the directories in another way -/
def Machine.rewalked (M : Machine) (walk : Str → List (Except Unit LJ.Paths.Entry)) : Machine := { M with walk := walk }

namespace Spec

/-- What a report found for a name: the tokens of each anomaly, and its distance. -/
def found (M : Machine) (r : LJ.Report.Report Local Source Str ℝ Unit Unit) (n : Str) : List (Str × ℝ) :=
  (r.logReports.filter fun l => l.indexName = n).flatMap fun l => l.anomalies.map fun a => (M.tok a.anomaly.line, a.anomaly.distance)

/-- The files of the same name are all JSON or all not. -/
def OneFormat (M : Machine) (cs : List Local) : Prop :=
  ∀ s ∈ cs.flatMap (sourcesOf M), ∀ t ∈ cs.flatMap (sourcesOf M), nameOf s = nameOf t → json s = json t

/-- A file can be read: it can be opened, and its lines are texts, without a marker of the program itself. -/
def Readable (M : Machine) (s : Source) : Prop :=
  ∃ evs, contentOf M s = .ok evs ∧ ∀ e ∈ evs, ∃ l t, e = .ok l ∧ decode l.1 = some t ∧ ¬ "TASK [log-classify".toList <:+: t

end Spec

theorem list_perm {M : Machine} {walk : Str → List (Except Unit LJ.Paths.Entry)} (hw : ∀ d, (M.walk d).Perm (walk d)) (c : Local) :
    (M.world.list c).Perm ((M.rewalked walk).world.list c) := by
  cases c with
  | file p => exact .rfl
  | directory d => exact ((hw d).filter _).map _

theorem reads_texts {evs : List (Ev Unit)} (h : ∀ e ∈ evs, ∃ l t, e = .ok l ∧ decode l.1 = some t ∧ ¬ "TASK [log-classify".toList <:+: t) :
    ∃ lines src, evs = lines.map Except.ok ∧ LJ.Process.Spec.Reads decode lines src ∧ LJ.Process.Spec.NoMarker src := by
  induction evs with
  | nil => exact ⟨[], [], rfl, .nil, fun _ h => by cases h⟩
  | cons e evs ih =>
    obtain ⟨lines, src, h1, h2, h3⟩ := ih fun e he => h e (.tail _ he)
    obtain ⟨l, t, rfl, ht, hm⟩ := h e (.head _)
    refine ⟨l :: lines, ⟨t, l.2⟩ :: src, by rw [h1]; rfl, .cons ⟨ht, rfl⟩ h2, ?_⟩
    intro x hx
    rcases List.mem_cons.1 hx with rfl | hx
    · exact hm
    · exact h3 x hx

/-- C120, for files and directories of any content, by a release build: when the directories of the baselines are listed in another order, or the baselines are given in another order,
the same is reported of every target, but for the order of the reports and of the sources of an index. -/
theorem C120_trees_baseline_partial {M : Machine} (hrel : M.checks = false) (hfp : M.fp.Standard) (hblocks : ∀ p d, LJ.Iterator.Spec.Blocks (M.cut p d))
    {walk : Str → List (Except Unit LJ.Paths.Entry)} (hw : ∀ d, (M.walk d).Perm (walk d)) {o o' o2 o2' : List (Str × List Source) → List (Str × List Source)}
    (ho : ∀ g, (o g).Perm g) (ho' : ∀ g, (o' g).Perm g) (ho2 : ∀ g, (o2 g).Perm g) (ho2' : ∀ g, (o2' g).Perm g) {baselines baselines' : List Local}
    (hc : baselines.Perm baselines') (hj : Spec.OneFormat M baselines) {target : Local} (hl : ∀ c ∈ baselines, Spec.CanList M c)
    (hf : ∀ c ∈ baselines, ∀ s ∈ Spec.sourcesOf M c, Spec.reads M s ≠ none) (ht : Spec.CanList M target) :
    ∃ m r m' r', train M.world o baselines = .ok m ∧ report M.world m o2 target = some (.ok r) ∧
      train (M.rewalked walk).world o' baselines' = .ok m' ∧ report M.world m' o2' target = some (.ok r') ∧
      r.logReports.Perm r'.logReports ∧ AnyOrder (fun a b => a.1 = b.1 ∧ a.2.Perm b.2) r.indexReports r'.indexReports ∧
      r.indexErrors.Perm r'.indexErrors ∧ r.readErrors.Perm r'.readErrors ∧ r.totalLineCount = r'.totalLineCount ∧
      r.totalAnomalyCount = r'.totalAnomalyCount := by
  have hs : LJ.Report.SearchOk M.world := LJ.Report.searchOk_indexWorld hfp
  obtain ⟨m, hm⟩ := train_contents hrel hblocks ho hl hf
  obtain ⟨res, hr, h⟩ := LJ.Report.report_total hs m o2 ho2 target
  obtain ⟨r, rfl⟩ := h.2 ht
  obtain ⟨m', r', hm', hr', p1, p2, p3, p4, p5, p6, _⟩ := LJ.Report.C120_baseline_partial hs LJ.Report.unordered_indexWorld ho ho' ho2 ho2'
    (list := (M.rewalked walk).world.list) (list_perm hw) hc hj hm hr
  exact ⟨m, r, m', r', hm, hr, hm', hr', p1, p2, p3, p4, p5, p6⟩

/-- C120, for files and directories, by a release build: when the directories of the baselines and of the target are listed in another order, the same tokens are found for each name,
with the same distances, and as many of them, among as many lines.  What is missing: `LJ.Report.C120_false`, `C120_open_false` and `C120_json_false`. -/
theorem C120_trees_partial {M : Machine} (hrel : M.checks = false) (hfp : M.fp.Standard) (hblocks : ∀ p d, LJ.Iterator.Spec.Blocks (M.cut p d))
    {walk : Str → List (Except Unit LJ.Paths.Entry)} (hw : ∀ d, (M.walk d).Perm (walk d)) {o o' o2 o2' : List (Str × List Source) → List (Str × List Source)}
    (ho : ∀ g, (o g).Perm g) (ho' : ∀ g, (o' g).Perm g) (ho2 : ∀ g, (o2 g).Perm g) (ho2' : ∀ g, (o2' g).Perm g) {baselines baselines' : List Local}
    (hc : baselines.Perm baselines') (hj : Spec.OneFormat M baselines) {target : Local} (hl : ∀ c ∈ baselines, Spec.CanList M c)
    (hf : ∀ c ∈ baselines, ∀ s ∈ Spec.sourcesOf M c, Spec.reads M s ≠ none) (ht : Spec.CanList M target) (hgood : ∀ s ∈ Spec.sourcesOf M target, Spec.Readable M s) :
    ∃ m r m' r', train M.world o baselines = .ok m ∧ report M.world m o2 target = some (.ok r) ∧
      train (M.rewalked walk).world o' baselines' = .ok m' ∧ report (M.rewalked walk).world m' o2' target = some (.ok r') ∧
      (∀ n, (Spec.found M r n).Perm (Spec.found M r' n)) ∧ r.totalAnomalyCount = r'.totalAnomalyCount ∧ r.totalLineCount = r'.totalLineCount ∧
      AnyOrder (fun a b => a.1 = b.1 ∧ a.2.Perm b.2) r.indexReports r'.indexReports ∧ AnyOrder List.Perm r.indexErrors r'.indexErrors ∧
      r.readErrors = [] ∧ r'.readErrors = [] := by
  have hs : LJ.Report.SearchOk M.world := LJ.Report.searchOk_indexWorld hfp
  obtain ⟨m, hm⟩ := train_contents hrel hblocks ho hl hf
  obtain ⟨res, hr, h⟩ := LJ.Report.report_total hs m o2 ho2 target
  obtain ⟨r, rfl⟩ := h.2 ht
  have hsrc : ∀ s, ∃ src : List LJ.Process.Spec.Line, s ∈ Spec.sourcesOf M target → ∃ reader lines, M.world.openSource s = .ok reader ∧
      reader (M.world.isJson s) = lines.map Except.ok ∧ LJ.Process.Spec.Reads decode lines src ∧ LJ.Process.Spec.NoMarker src := by
    intro s
    by_cases hmem : s ∈ Spec.sourcesOf M target
    · obtain ⟨evs, h1, h2⟩ := hgood s hmem
      obtain ⟨lines, src, g1, g2, g3⟩ := reads_texts h2
      refine ⟨src, fun _ => ?_⟩
      rw [← content_of hrel hblocks] at h1
      unfold LJ.Report.content at h1
      cases hopen : M.world.openSource s with
      | error e => rw [hopen] at h1; cases h1
      | ok reader =>
        rw [hopen] at h1
        exact ⟨reader, lines, rfl, (Except.ok.inj h1).trans g1, g2, g3⟩
    · exact ⟨[], fun h => absurd h hmem⟩
  choose text htext using hsrc
  obtain ⟨m', r', hm', hr', h⟩ := LJ.Report.C120_partial hs LJ.Report.unordered_indexWorld ho ho' ho2 ho2'
    (list := (M.rewalked walk).world.list) (list_perm hw) hc hj hm hr text htext
  exact ⟨m, r, m', r', hm, hr, hm', hr', h⟩

/-- a directory of two logs -/
noncomputable def twoLogs : Machine :=
  { toyMachine fun p =>
      if p = "logs/app1.log".toList then some (Spec.utf8 "disk vanished\nall lost\n".toList)
      else if p = "logs/app2.log".toList then some (Spec.utf8 "all lost\ntime out\n".toList) else none with
    checks := false
    walk := fun _ => [.ok ⟨false, true, .loc 4 (some "logs/app1.log".toList)⟩, .ok ⟨false, true, .loc 4 (some "logs/app2.log".toList)⟩] }

theorem twoLogs_sources (c : Local) (h : c = .directory "logs".toList) :
    Spec.sourcesOf twoLogs c = [.loc 4 (some "logs/app1.log".toList), .loc 4 (some "logs/app2.log".toList)] := by
  subst h
  decide +kernel

theorem texts_of {evs : List (Ev Unit)} (h : (evs.all fun e => match e with
    | .ok l => (match decode l.1 with | some t => !LJ.Process.contains "TASK [log-classify".toList t | none => false)
    | .error _ => false) = true) :
    ∀ e ∈ evs, ∃ l t, e = .ok l ∧ decode l.1 = some t ∧ ¬ "TASK [log-classify".toList <:+: t := by
  intro e he
  have := List.all_eq_true.1 h e he
  cases e with
  | error e => cases this
  | ok l =>
    simp only at this
    cases hd : decode l.1 with
    | none => rw [hd] at this; cases this
    | some t =>
      rw [hd] at this
      refine ⟨l, t, rfl, hd, fun hm => ?_⟩
      rw [← LJ.Process.contains_iff] at hm
      simp only at this
      rw [hm] at this
      cases this

/-- The hypotheses are met, with both logs of the same name, listed in the other order. -/
example : (∀ d, (twoLogs.walk d).Perm ((fun d => (twoLogs.walk d).reverse) d)) ∧ Spec.OneFormat twoLogs [.directory "logs".toList] ∧
    Spec.CanList twoLogs (.directory "logs".toList) ∧
    (∀ s ∈ Spec.sourcesOf twoLogs (.directory "logs".toList), Spec.reads twoLogs s ≠ none ∧ Spec.Readable twoLogs s) ∧
    Spec.nameOf (.loc 4 (some "logs/app1.log".toList)) = Spec.nameOf (.loc 4 (some "logs/app2.log".toList)) := by
  refine ⟨fun d => (List.reverse_perm _).symm, ?_, ⟨?_, ?_⟩, ?_, by decide +kernel⟩
  · intro s hs t ht _
    rw [List.flatMap_singleton, twoLogs_sources _ rfl] at hs ht
    have : ∀ x ∈ [Source.loc 4 (some "logs/app1.log".toList), .loc 4 (some "logs/app2.log".toList)], Spec.json x = false := by decide +kernel
    rw [this s hs, this t ht]
  · intro e he
    have : (Except.error e : Except Unit Source) ∈ [.ok (.loc 4 (some "logs/app1.log".toList)), .ok (.loc 4 (some "logs/app2.log".toList))] := he
    simp at this
  · decide +kernel
  · intro s hs
    rw [twoLogs_sources _ rfl] at hs
    have h : ∀ x ∈ [Source.loc 4 (some "logs/app1.log".toList), .loc 4 (some "logs/app2.log".toList)], Spec.reads twoLogs x ≠ none ∧
        (match Spec.contentOf twoLogs x with
        | .ok evs => evs.all fun e => match e with
          | .ok l => (match decode l.1 with | some t => !LJ.Process.contains "TASK [log-classify".toList t | none => false)
          | .error _ => false
        | .error _ => false) = true := by decide +kernel
    obtain ⟨h1, h2⟩ := h s hs
    refine ⟨h1, ?_⟩
    unfold Spec.Readable
    cases hc : Spec.contentOf twoLogs s with
    | error e => rw [hc] at h2; cases h2
    | ok evs => rw [hc] at h2; exact ⟨evs, rfl, texts_of h2⟩

end LJ.Whole

/-
C132: the files of other kinds have no effect on what is reported of a kind, for files and directories.
-/
import Verif.Whole.More
import Verif.Report.Kinds
namespace LJ.Whole
open LJ.Process (Str Bytes)
open LJ.Paths (Source)
open LJ.Report (train report)

/-- C132, for files and directories of any content, read in any way, by a release build: `M'` has other files and directories than `M`.  When the baselines have the same
files of a name, at least one, and the targets as well, and the content of these files is the same, the same is reported of this name. -/
theorem C132_trees {M : Machine} {files' : Str → Option Bytes} {walk' : Str → List (Except Unit LJ.Paths.Entry)} (hrel : M.checks = false) (hfp : M.fp.Standard)
    (hblocks : ∀ p d, LJ.Iterator.Spec.Blocks (M.cut p d))
    {o1 o2 o3 o4 : List (Str × List Source) → List (Str × List Source)} (h1 : ∀ g, (o1 g).Perm g) (h2 : ∀ g, (o2 g).Perm g) (h3 : ∀ g, (o3 g).Perm g)
    (h4 : ∀ g, (o4 g).Perm g) {baselines baselines' : List Local} {target target' : Local} :
    let M' := { M with files := files', walk := walk' }
    (∀ c ∈ baselines, Spec.CanList M c) → (∀ c ∈ baselines, ∀ s ∈ Spec.sourcesOf M c, Spec.reads M s ≠ none) → Spec.CanList M target →
    (∀ c ∈ baselines', Spec.CanList M' c) → (∀ c ∈ baselines', ∀ s ∈ Spec.sourcesOf M' c, Spec.reads M' s ≠ none) → Spec.CanList M' target' →
    ∃ m r m' r', train M.world o1 baselines = .ok m ∧ report M.world m o3 target = some (.ok r) ∧
      train M'.world o2 baselines' = .ok m' ∧ report M'.world m' o4 target' = some (.ok r') ∧
      ∀ n, (∀ c ∈ target :: baselines, ∀ base path, .loc base (some path) ∈ Spec.sourcesOf M c → Spec.nameOf (.loc base (some path)) = n → files' path = M.files path) →
        ((baselines'.flatMap (Spec.sourcesOf M')).filter fun s => Spec.nameOf s = n) = ((baselines.flatMap (Spec.sourcesOf M)).filter fun s => Spec.nameOf s = n) →
        (∃ c ∈ baselines, ∃ s ∈ Spec.sourcesOf M c, Spec.nameOf s = n) →
        ((Spec.sourcesOf M' target').filter fun s => Spec.nameOf s = n) = ((Spec.sourcesOf M target).filter fun s => Spec.nameOf s = n) →
        (r'.logReports.filter fun l => l.indexName = n) = (r.logReports.filter fun l => l.indexName = n) ∧
          (r'.readErrors.filter fun x => Spec.nameOf x.1 = n) = r.readErrors.filter fun x => Spec.nameOf x.1 = n := by
  intro M' hl hf ht hl' hf' ht'
  have hs : LJ.Report.SearchOk M.world := LJ.Report.searchOk_indexWorld hfp
  have hs' : LJ.Report.SearchOk M'.world := LJ.Report.searchOk_indexWorld hfp
  obtain ⟨m, hm⟩ := train_contents hrel hblocks h1 hl hf
  obtain ⟨m', hm'⟩ := train_contents (M := M') hrel hblocks h2 hl' hf'
  have made : ∀ {w : LJ.Report.World Local Source Str ℝ Unit Unit} {o t} (_ : LJ.Report.SearchOk w) (_ : ∀ g : List (Str × List Source), (o g).Perm g)
      (m : LJ.Report.Model Local Source Str), LJ.Report.Spec.Usable w.valid (w.list t) → ∃ r, report w m o t = some (.ok r) := by
    intro w o t hs ho m ht
    obtain ⟨res, e, h⟩ := LJ.Report.report_total hs m o ho t
    obtain ⟨r, rfl⟩ := h.2 ht
    exact ⟨r, e⟩
  obtain ⟨r, hr⟩ := made hs h3 m ht
  obtain ⟨r', hr'⟩ := made hs' h4 m' ht'
  refine ⟨m, r, m', r', hm, hr, hm', hr', fun n hsame hb hne htt => ?_⟩
  refine LJ.Report.C132_kind (w := M.world) (w' := M'.world) rfl hs h1 h2 h3 h4 hm hm' hr hr' ?_ hb hne htt
  intro c hc s hmem hn
  rw [world_open, world_open]
  cases s with
  | loc base path =>
    cases path with
    | none => rfl
    | some path =>
      rw [openSource_eq, openSource_eq]
      have := hsame c hc base path hmem hn
      show (match files' path with | none => _ | some data => _) = _
      rw [this]
      rfl
  | _ => rfl

/-- the files of `rawTree`, with another content of `old/db.json` -/
noncomputable def otherFiles : Str → Option Bytes := fun p => if p = "old/db.json".toList then some (Spec.utf8 "disk vanished".toList) else rawTree.files p

/-- The hypotheses are met, for the name of `app.log`. -/
example : let M' := { rawTree with files := otherFiles }
    (∀ c ∈ [Local.directory "old".toList], Spec.CanList rawTree c ∧ Spec.CanList M' c) ∧
    (∀ c ∈ [Local.directory "old".toList], ∀ s ∈ Spec.sourcesOf rawTree c, Spec.reads rawTree s ≠ none) ∧
    (∀ c ∈ [Local.directory "old".toList], ∀ s ∈ Spec.sourcesOf M' c, Spec.reads M' s ≠ none) ∧
    Spec.CanList rawTree (.directory "new".toList) ∧ Spec.CanList M' (.directory "new".toList) ∧
    (∀ c ∈ [Local.directory "new".toList, .directory "old".toList], ∀ base path, .loc base (some path) ∈ Spec.sourcesOf rawTree c →
      Spec.nameOf (.loc base (some path)) = LJ.Paths.indexName "app.log".toList → otherFiles path = rawTree.files path) ∧
    (∃ c ∈ [Local.directory "old".toList], ∃ s ∈ Spec.sourcesOf rawTree c, Spec.nameOf s = LJ.Paths.indexName "app.log".toList) ∧
    otherFiles ≠ rawTree.files := by
  intro M'
  have hold : Spec.sourcesOf rawTree (.directory "old".toList) = [.loc 3 (some "old/app.log".toList), .loc 3 (some "old/db.json".toList)] := by decide +kernel
  have hold' : Spec.sourcesOf M' (.directory "old".toList) = [.loc 3 (some "old/app.log".toList), .loc 3 (some "old/db.json".toList)] := by decide +kernel
  have hnew : Spec.sourcesOf rawTree (.directory "new".toList) ≠ [] := by decide +kernel
  have hnew' : Spec.sourcesOf M' (.directory "new".toList) ≠ [] := by decide +kernel
  have can : ∀ (M : Machine) c, (∀ x ∈ M.list c, x.isOk = true) → Spec.sourcesOf M c ≠ [] → Spec.CanList M c := by
    intro M c h hne
    exact ⟨fun e he => absurd (h _ he) (by simp [Except.isOk, Except.toBool]), hne⟩
  refine ⟨?_, ?_, ?_, can _ _ (by decide +kernel) hnew, can _ _ (by decide +kernel) hnew', ?_, ?_, ?_⟩
  · intro c hc
    simp only [List.mem_cons, List.not_mem_nil, or_false] at hc
    subst hc
    exact ⟨can _ _ (by decide +kernel) (by rw [hold]; simp), can _ _ (by decide +kernel) (by rw [hold']; simp)⟩
  · intro c hc s hs
    simp only [List.mem_cons, List.not_mem_nil, or_false] at hc
    subst hc
    rw [hold] at hs
    simp only [List.mem_cons, List.not_mem_nil, or_false] at hs
    rcases hs with rfl | rfl <;> exact nofun
  · intro c hc s hs
    simp only [List.mem_cons, List.not_mem_nil, or_false] at hc
    subst hc
    rw [hold'] at hs
    simp only [List.mem_cons, List.not_mem_nil, or_false] at hs
    rcases hs with rfl | rfl <;> exact nofun
  · intro c hc base path hs hn
    simp only [List.mem_cons, List.not_mem_nil, or_false] at hc
    have hs : Source.loc base (some path) ∈ Spec.sourcesOf rawTree (.directory "new".toList) ++ Spec.sourcesOf rawTree (.directory "old".toList) := by
      rcases hc with rfl | rfl
      · exact List.mem_append.2 (.inl hs)
      · exact List.mem_append.2 (.inr hs)
    have e : Spec.sourcesOf rawTree (.directory "new".toList) ++ Spec.sourcesOf rawTree (.directory "old".toList) =
        [.loc 3 (some "new/app.log".toList), .loc 3 (some "new/gone.log".toList), .loc 3 (some "old/app.log".toList), .loc 3 (some "old/db.json".toList)] := by
      decide +kernel
    rw [e] at hs
    show (if path = "old/db.json".toList then _ else _) = _
    split
    · rename_i e
      subst e
      have hb : base = 3 := by
        simp only [List.mem_cons, List.not_mem_nil, or_false, Source.loc.injEq] at hs
        rcases hs with h | h | h | h <;> exact h.1
      subst hb
      exact absurd hn (by decide +kernel)
    · rfl
  · exact ⟨_, .head _, .loc 3 (some "old/app.log".toList), by rw [hold]; exact .head _, by decide +kernel⟩
  · intro h
    have := congrFun h "old/db.json".toList
    revert this
    decide +kernel

end LJ.Whole

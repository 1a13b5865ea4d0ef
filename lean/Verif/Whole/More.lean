/-
C131: more baselines never report more lines, for files and directories.
-/
import Verif.Whole.Trees
import Verif.Report.More
namespace LJ.Whole
open LJ.Process (Str Bytes Ev)
open LJ.Paths (Source)
open LJ.Report (train report)
open LJ.Process.Spec (Unmarked)

/-- C131, for files and directories of any content, read in any way, by a release build: for a name which has a file in the baselines, when no file of this name in the target
has a marker line, the lines reported against these baselines and more are among those reported against these baselines, in the same order, and the files which can't be
read are the same.  What is missing: as for `LJ.Report.C131_partial`. -/
theorem C131_trees_partial {M : Machine} (hrel : M.checks = false) (hfp : M.fp.Standard) (hblocks : ∀ p d, LJ.Iterator.Spec.Blocks (M.cut p d))
    {o1 o2 o3 o4 : List (Str × List Source) → List (Str × List Source)} (h1 : ∀ g, (o1 g).Perm g) (h2 : ∀ g, (o2 g).Perm g) (h3 : ∀ g, (o3 g).Perm g)
    (h4 : ∀ g, (o4 g).Perm g) {baselines more : List Local} {target : Local} (hl : ∀ c ∈ baselines ++ more, Spec.CanList M c)
    (hf : ∀ c ∈ baselines ++ more, ∀ s ∈ Spec.sourcesOf M c, Spec.reads M s ≠ none) (ht : Spec.CanList M target) :
    ∃ m r m' r', train M.world o1 baselines = .ok m ∧ report M.world m o3 target = some (.ok r) ∧
      train M.world o2 (baselines ++ more) = .ok m' ∧ report M.world m' o4 target = some (.ok r') ∧
      ∀ n, (∃ c ∈ baselines, ∃ s ∈ Spec.sourcesOf M c, Spec.nameOf s = n) →
        (∀ s ∈ Spec.sourcesOf M target, Spec.nameOf s = n → ∀ evs, Spec.contentOf M s = .ok evs → Unmarked decode evs) →
        (LJ.Report.Spec.linesOf r' n).Sublist (LJ.Report.Spec.linesOf r n) ∧
          r'.readErrors.filter (fun x => Spec.nameOf x.1 = n) = r.readErrors.filter fun x => Spec.nameOf x.1 = n := by
  have hs : LJ.Report.SearchOk M.world := LJ.Report.searchOk_indexWorld hfp
  obtain ⟨m, hm⟩ := train_contents hrel hblocks h1 (fun c hc => hl c (List.mem_append_left _ hc)) (fun c hc => hf c (List.mem_append_left _ hc))
  obtain ⟨m', hm'⟩ := train_contents hrel hblocks h2 hl hf
  have made : ∀ {o} (_ : ∀ g : List (Str × List Source), (o g).Perm g) (m : LJ.Report.Model Local Source Str), ∃ r, report M.world m o target = some (.ok r) := by
    intro o ho m
    obtain ⟨res, e, h⟩ := LJ.Report.report_total hs m o ho target
    obtain ⟨r, rfl⟩ := h.2 ht
    exact ⟨r, e⟩
  obtain ⟨r, hr⟩ := made h3 m
  obtain ⟨r', hr'⟩ := made h4 m'
  refine ⟨m, r, m', r', hm, hr, hm', hr', fun n hn hu => ?_⟩
  refine LJ.Report.C131_partial hs LJ.Report.shrinks_indexWorld h1 h2 h3 h4 hm hm' hr hr' hn ?_
  intro s hsrc hsn reader ho
  refine hu s hsrc hsn _ ?_
  rw [← content_of hrel hblocks]
  unfold LJ.Report.content
  rw [ho]

/-- the directories of `rawTree`, and one more baseline with the other line of the target -/
noncomputable def rawMore : Machine :=
  { rawTree with
    files := fun p => if p = "older/app.log".toList then some (Spec.utf8 "disk vanished".toList) else rawTree.files p }

/-- The hypotheses are met, for the name of `app.log`. -/
example : (∀ c ∈ [Local.directory "old".toList] ++ [Local.file "older/app.log".toList], Spec.CanList rawMore c) ∧
    (∀ c ∈ [Local.directory "old".toList] ++ [Local.file "older/app.log".toList], ∀ s ∈ Spec.sourcesOf rawMore c, Spec.reads rawMore s ≠ none) ∧
    Spec.CanList rawMore (.directory "new".toList) ∧
    (∃ c ∈ [Local.directory "old".toList], ∃ s ∈ Spec.sourcesOf rawMore c, Spec.nameOf s = LJ.Paths.indexName "app.log".toList) ∧
    ∀ s ∈ Spec.sourcesOf rawMore (.directory "new".toList), ∀ evs, Spec.contentOf rawMore s = .ok evs → Unmarked decode evs := by
  have hnew : Spec.sourcesOf rawMore (.directory "new".toList) = [.loc 3 (some "new/app.log".toList), .loc 3 (some "new/gone.log".toList)] := by decide +kernel
  have hold : Spec.sourcesOf rawMore (.directory "old".toList) = [.loc 3 (some "old/app.log".toList), .loc 3 (some "old/db.json".toList)] := by decide +kernel
  have holder : Spec.sourcesOf rawMore (.file "older/app.log".toList) = [.loc 0 (some "older/app.log".toList)] := by decide +kernel
  have can : ∀ c, (∀ x ∈ rawMore.list c, x.isOk = true) → Spec.sourcesOf rawMore c ≠ [] → Spec.CanList rawMore c := by
    intro c h hne
    refine ⟨fun e he => absurd (h _ he) (by simp [Except.isOk, Except.toBool]), hne⟩
  refine ⟨?_, ?_, can _ (by decide +kernel) (by rw [hnew]; simp), ?_, ?_⟩
  · intro c hc
    simp only [List.cons_append, List.nil_append, List.mem_cons, List.not_mem_nil, or_false] at hc
    rcases hc with rfl | rfl
    · exact can _ (by decide +kernel) (by rw [hold]; simp)
    · exact can _ (by decide +kernel) (by rw [holder]; simp)
  · intro c hc s hs
    simp only [List.cons_append, List.nil_append, List.mem_cons, List.not_mem_nil, or_false] at hc
    rcases hc with rfl | rfl
    · rw [hold] at hs
      simp only [List.mem_cons, List.not_mem_nil, or_false] at hs
      rcases hs with rfl | rfl <;> exact nofun
    · rw [holder] at hs
      simp only [List.mem_cons, List.not_mem_nil, or_false] at hs
      subst hs
      exact nofun
  · exact ⟨_, .head _, .loc 3 (some "old/app.log".toList), by rw [hold]; exact .head _, by decide +kernel⟩
  · intro s hs evs he l t hm hd
    rw [hnew] at hs
    simp only [List.mem_cons, List.not_mem_nil, or_false] at hs
    rcases hs with rfl | rfl
    · have e : Spec.contentOf rawMore (.loc 3 (some "new/app.log".toList)) = .ok [.ok ([255], 1), .ok ("disk vanished".toList.flatMap fun c => [c.toNat.toUInt8], 2)] := by
        decide +kernel
      rw [e] at he
      cases he
      simp only [List.mem_cons, List.not_mem_nil, or_false, Except.ok.injEq] at hm
      rcases hm with rfl | rfl
      · have : decode [255] = none := by decide +kernel
        rw [this] at hd
        cases hd
      · have : decode ("disk vanished".toList.flatMap fun c => [c.toNat.toUInt8]) = some "disk vanished".toList := by decide +kernel
        rw [this] at hd
        cases hd
        decide +kernel
    · have e : Spec.contentOf rawMore (.loc 3 (some "new/gone.log".toList)) = .error () := by decide +kernel
      rw [e] at he
      cases he

end LJ.Whole

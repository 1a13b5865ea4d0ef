/-
C134: only the normalised lines of the baselines matter, for files and directories.
-/
import Verif.Whole.Trees
import Verif.Report.Known
namespace LJ.Whole
open LJ.Process (Str Bytes Ev)
open LJ.Paths (Source)
open LJ.Report (train report)
open LJ.Report.Spec (SameKnown)

theorem known_of {M : Machine} (hrel : M.checks = false) (hb : ∀ p d, LJ.Iterator.Spec.Blocks (M.cut p d)) (cs : List Local) (n : Str) :
    LJ.Report.Spec.knownFor M.world cs n = Spec.known M cs n := by
  unfold LJ.Report.Spec.knownFor Spec.known
  rw [lines_of hrel hb]
  rfl

/-- C134, for files and directories of any content, read in any way, by a release build: when other baselines have the same normalised lines for a name, in any order and number, and
in any files, the same is reported of this name. -/
theorem C134_trees {M : Machine} (hrel : M.checks = false) (hfp : M.fp.Standard) (hblocks : ∀ p d, LJ.Iterator.Spec.Blocks (M.cut p d))
    {o1 o2 o3 o4 : List (Str × List Source) → List (Str × List Source)} (h1 : ∀ g, (o1 g).Perm g) (h2 : ∀ g, (o2 g).Perm g) (h3 : ∀ g, (o3 g).Perm g)
    (h4 : ∀ g, (o4 g).Perm g) {baselines baselines' : List Local} {target : Local} (hl : ∀ c ∈ baselines ++ baselines', Spec.CanList M c)
    (hf : ∀ c ∈ baselines ++ baselines', ∀ s ∈ Spec.sourcesOf M c, Spec.reads M s ≠ none) (ht : Spec.CanList M target) :
    ∃ m r m' r', train M.world o1 baselines = .ok m ∧ report M.world m o3 target = some (.ok r) ∧
      train M.world o2 baselines' = .ok m' ∧ report M.world m' o4 target = some (.ok r') ∧
      (∀ n, SameKnown (Spec.known M baselines n) (Spec.known M baselines' n) →
        (r'.logReports.filter fun l => l.indexName = n) = (r.logReports.filter fun l => l.indexName = n) ∧
          (r'.readErrors.filter fun x => Spec.nameOf x.1 = n) = r.readErrors.filter fun x => Spec.nameOf x.1 = n) ∧
      ((∀ n, SameKnown (Spec.known M baselines n) (Spec.known M baselines' n)) →
        r'.totalLineCount = r.totalLineCount ∧ ∀ ss, ss ∈ r'.indexErrors ↔ ss ∈ r.indexErrors) := by
  have hs : LJ.Report.SearchOk M.world := LJ.Report.searchOk_indexWorld hfp
  obtain ⟨m, hm⟩ := train_contents hrel hblocks h1 (fun c hc => hl c (List.mem_append_left _ hc)) (fun c hc => hf c (List.mem_append_left _ hc))
  obtain ⟨m', hm'⟩ := train_contents hrel hblocks h2 (fun c hc => hl c (List.mem_append_right _ hc)) (fun c hc => hf c (List.mem_append_right _ hc))
  have made : ∀ {o} (_ : ∀ g : List (Str × List Source), (o g).Perm g) (m : LJ.Report.Model Local Source Str), ∃ r, report M.world m o target = some (.ok r) := by
    intro o ho m
    obtain ⟨res, e, h⟩ := LJ.Report.report_total hs m o ho target
    obtain ⟨r, rfl⟩ := h.2 ht
    exact ⟨r, e⟩
  obtain ⟨r, hr⟩ := made h3 m
  obtain ⟨r', hr'⟩ := made h4 m'
  have h := LJ.Report.C134_known hs LJ.Report.unordered_indexWorld h1 h2 h3 h4 hm hm' hr hr'
  simp only [known_of hrel hblocks] at h
  exact ⟨m, r, m', r', hm, hr, hm', hr', h⟩

/-- the same log on two days -/
noncomputable def twoDays : Machine :=
  { toyMachine fun p =>
      if p = "old/app.log".toList then some (Spec.utf8 "Monday disk 1 vanished\nTuesday all lost\n".toList)
      else if p = "older/app.log".toList then some (Spec.utf8 "Sunday all lost\nFriday disk 23 vanished\nSaturday all lost".toList) else none with
    checks := false }

example : SameKnown (Spec.known twoDays [.file "old/app.log".toList] (LJ.Paths.indexName "old/app.log".toList))
      (Spec.known twoDays [.file "older/app.log".toList] (LJ.Paths.indexName "old/app.log".toList)) ∧
    (Spec.known twoDays [.file "old/app.log".toList] (LJ.Paths.indexName "old/app.log".toList)).map List.length = some 2 := by
  have e : (match Spec.known twoDays [.file "old/app.log".toList] (LJ.Paths.indexName "old/app.log".toList),
      Spec.known twoDays [.file "older/app.log".toList] (LJ.Paths.indexName "old/app.log".toList) with
    | some a, some b => decide ((∀ t ∈ a, t ∈ b) ∧ (∀ t ∈ b, t ∈ a) ∧ a.length = 2)
    | _, _ => false) = true := by decide +kernel
  generalize Spec.known twoDays [.file "old/app.log".toList] _ = x at e
  generalize Spec.known twoDays [.file "older/app.log".toList] _ = y at e
  cases x with
  | none => cases e
  | some a =>
    cases y with
    | none => cases e
    | some b =>
      obtain ⟨h1, h2, h3⟩ := of_decide_eq_true e
      exact ⟨fun t => ⟨h1 t, h2 t⟩, congrArg some h3⟩

end LJ.Whole

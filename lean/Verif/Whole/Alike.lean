/-
C135: only the normalised lines of the target decide what is reported of it, for the bytes of files.
-/
import Verif.Whole.Trees
import Verif.Report.Alike
namespace LJ.Whole
open LJ.Process (Str Bytes Ev)
open LJ.Paths (Source)
open LJ.Report (train report)
open LJ.Process.Spec (Alike normal)
open LJ.Report.Spec (AlikeContent)

namespace Spec

/-- Two files of the same name, on two machines, whose lines differ at most in what is removed by the normalisation. -/
def AlikeFile (M M' : Machine) (s s' : Source) : Prop := nameOf s = nameOf s' ∧ AlikeContent M.tok decode (contentOf M s) (contentOf M' s')

end Spec
open Spec (AlikeFile)

/-- the same machine, with other files, read in other ways -/
def Machine.replaced (M : Machine) (files : Str → Option Bytes) (cut : Str → Bytes → List Bytes) : Machine := { M with files := files, cut := cut }

/-- C135, for files and directories of any content, by a release build, with any model: a target, and another one, on the same machine or on one with other files,
which has pairwise files of the same names, whose lines differ at most in what is removed by the normalisation.  For each name, the same is reported of the files at the same places:
anomalies at the same positions with the same distances, contexts with the same normalised lines, the same numbers of lines, and the same errors.  The totals of the lines are the
same and the same names are without a baseline. -/
theorem C135_trees {M : Machine} (hrel : M.checks = false) (hfp : M.fp.Standard) (hblocks : ∀ p d, LJ.Iterator.Spec.Blocks (M.cut p d))
    {files : Str → Option Bytes} {cut : Str → Bytes → List Bytes} (hblocks' : ∀ p d, LJ.Iterator.Spec.Blocks (cut p d)) (m : LJ.Report.Model Local Source Str)
    {o1 o2 : List (Str × List Source) → List (Str × List Source)} (h1 : ∀ g, (o1 g).Perm g) (h2 : ∀ g, (o2 g).Perm g) {target target' : Local}
    (ht : Spec.CanList M target) (ht' : Spec.CanList M target')
    (ha : List.Forall₂ (AlikeFile M (M.replaced files cut)) (Spec.sourcesOf M target) (Spec.sourcesOf M target')) :
    ∃ r r', report M.world m o1 target = some (.ok r) ∧ report (M.replaced files cut).world m o2 target' = some (.ok r') ∧
      (∀ n, List.Forall₂ (fun l l' => AlikeFile M (M.replaced files cut) l.source l'.source ∧
          l.anomalies.map (normal M.tok) = l'.anomalies.map (normal M.tok) ∧ l.lineCount = l'.lineCount)
        (r.logReports.filter fun l => l.indexName = n) (r'.logReports.filter fun l => l.indexName = n)) ∧
      (∀ n, List.Forall₂ (fun x x' => AlikeFile M (M.replaced files cut) x.1 x'.1 ∧ x.2 = x'.2)
        (r.readErrors.filter fun x => Spec.nameOf x.1 = n) (r'.readErrors.filter fun x => Spec.nameOf x.1 = n)) ∧
      r.totalLineCount = r'.totalLineCount ∧
      ∀ n, ((∃ s, Spec.nameOf s = n ∧ ∃ ss ∈ r.indexErrors, s ∈ ss) ↔ ∃ s, Spec.nameOf s = n ∧ ∃ ss ∈ r'.indexErrors, s ∈ ss) := by
  have hs : LJ.Report.SearchOk M.world := LJ.Report.searchOk_indexWorld hfp
  have hs' : LJ.Report.SearchOk (M.replaced files cut).world := LJ.Report.searchOk_indexWorld hfp
  have made : ∀ {w : LJ.Report.World Local Source Str ℝ Unit Unit} {o t} (_ : LJ.Report.SearchOk w) (_ : ∀ g : List (Str × List Source), (o g).Perm g)
      (m : LJ.Report.Model Local Source Str), LJ.Report.Spec.Usable w.valid (w.list t) → ∃ r, report w m o t = some (.ok r) := by
    intro w o t hs ho m ht
    obtain ⟨res, e, h⟩ := LJ.Report.report_total hs m o ho t
    obtain ⟨r, rfl⟩ := h.2 ht
    exact ⟨r, e⟩
  obtain ⟨r, hr⟩ := made hs h1 m ht
  obtain ⟨r', hr'⟩ := made (w := (M.replaced files cut).world) (t := target') hs' h2 m ht'
  have e : LJ.Report.Spec.AlikeSource M.world { M.world with openSource := (M.replaced files cut).world.openSource } = AlikeFile M (M.replaced files cut) := by
    funext s s'
    unfold LJ.Report.Spec.AlikeSource AlikeFile
    rw [content_of hrel hblocks, ← content_of (M := M.replaced files cut) hrel hblocks']
    rfl
  have h := LJ.Report.C135_report (w := M.world) (o := (M.replaced files cut).world.openSource) hs m h1 h2 hr hr' (by rw [e]; exact ha)
  rw [e] at h
  exact ⟨r, r', hr, hr', h⟩

/-- a log, and the same one on another day -/
noncomputable def otherDay : Machine :=
  { toyMachine fun p =>
      if p = "day1/app.log".toList then some (Spec.utf8 "Monday disk 1 vanished\nTuesday all lost\n".toList)
      else if p = "day2/app.log".toList then some (Spec.utf8 "Friday disk 23 vanished\nSaturday all lost\n".toList) else none with
    checks := false }

/-- The hypotheses are met. -/
example : List.Forall₂ (AlikeFile otherDay (otherDay.replaced otherDay.files otherDay.cut)) (Spec.sourcesOf otherDay (.file "day1/app.log".toList))
    (Spec.sourcesOf otherDay (.file "day2/app.log".toList)) := by
  have e1 : Spec.sourcesOf otherDay (.file "day1/app.log".toList) = [.loc 0 (some "day1/app.log".toList)] := by decide +kernel
  have e2 : Spec.sourcesOf otherDay (.file "day2/app.log".toList) = [.loc 0 (some "day2/app.log".toList)] := by decide +kernel
  rw [e1, e2]
  refine .cons ⟨by decide +kernel, ?_⟩ .nil
  have c1 : Spec.contentOf otherDay (.loc 0 (some "day1/app.log".toList)) =
      .ok [.ok (Spec.utf8 "Monday disk 1 vanished".toList, 1), .ok (Spec.utf8 "Tuesday all lost".toList, 2)] := by
    have : (match Spec.contentOf otherDay (.loc 0 (some "day1/app.log".toList)) with
      | .ok [.ok a, .ok b] => decide (a = (Spec.utf8 "Monday disk 1 vanished".toList, 1) ∧ b = (Spec.utf8 "Tuesday all lost".toList, 2))
      | _ => false) = true := by decide +kernel
    split at this
    · rename_i a b h
      obtain ⟨rfl, rfl⟩ := of_decide_eq_true this
      exact h
    · cases this
  have c2 : Spec.contentOf (otherDay.replaced otherDay.files otherDay.cut) (.loc 0 (some "day2/app.log".toList)) =
      .ok [.ok (Spec.utf8 "Friday disk 23 vanished".toList, 1), .ok (Spec.utf8 "Saturday all lost".toList, 2)] := by
    have : (match Spec.contentOf otherDay (.loc 0 (some "day2/app.log".toList)) with
      | .ok [.ok a, .ok b] => decide (a = (Spec.utf8 "Friday disk 23 vanished".toList, 1) ∧ b = (Spec.utf8 "Saturday all lost".toList, 2))
      | _ => false) = true := by decide +kernel
    split at this
    · rename_i a b h
      obtain ⟨rfl, rfl⟩ := of_decide_eq_true this
      exact h
    · cases this
  rw [c1, c2]
  exact .cons (LJ.Process.alike_of (t := "Monday disk 1 vanished".toList) (t' := "Friday disk 23 vanished".toList) (by decide +kernel))
    (.cons (LJ.Process.alike_of (t := "Tuesday all lost".toList) (t' := "Saturday all lost".toList) (by decide +kernel)) .nil)

end LJ.Whole

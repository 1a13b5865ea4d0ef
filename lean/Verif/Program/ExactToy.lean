/-
Concrete commands for C130.
-/
import Verif.Program.Exact
import Verif.Program.Toy
namespace LJ.Program
open LJ.Process (Str Bytes Ev)
open LJ.Paths (Input Res Outside Source)
open LJ.Whole (Machine Local rawTree rawTree_meets rawTree_new)
open LJ.Output (OutputMode)
open LJ.Cli (Fs)
open Spec (Orders)
open LJ.Whole.Spec (sourcesOf CanList nameOf reads contentOf Distances)

/-- the two directories of `rawTree` -/
def treeOutside : Outside Empty where
  isDir p := decide (p = "old".toList ∨ p = "new".toList)
  isFile _ := false
  parse _ := none
  hasAuthority _ := false
  zuulUrl _ := none

noncomputable def plainPages : PageMaker := { toyPages with checks := false }

theorem tree_old : ["old".toList].map (fun s => localInput treeOutside (Input.fromString s)) = [Local.directory "old".toList].map Res.ok := by
  rw [List.map_singleton, fromString_path (by decide +kernel)]
  rfl

theorem tree_new : localInput treeOutside (Input.fromString "new".toList) = .ok (.directory "new".toList) := by
  rw [fromString_path (by decide +kernel)]
  rfl

/-- The hypotheses of `C130_diff` and `C130_report` are met by two directories with a file which is not UTF-8, a JSON file and a missing file. -/
example (mode : OutputMode) :
    ((localTool rawTree treeOutside plainPages toyLocal).run mode false noFiles ⟨none, none, .diff ["old".toList] "new".toList⟩).result = .ok () ∧
    ((localTool rawTree treeOutside plainPages toyLocal).run mode false noFiles ⟨some "r".toList, none, .diff ["old".toList] "new".toList⟩).result = .ok () ∧
    "\"r\": Writing report...\n".toList ∈
      ((localTool rawTree treeOutside plainPages toyLocal).run mode false noFiles ⟨some "r".toList, none, .diff ["old".toList] "new".toList⟩).printed := by
  obtain ⟨h1, h2, h3, h4, h5, h6⟩ := rawTree_meets
  have hn : Spec.Counted rawTree (sourcesOf rawTree (.directory "new".toList)) := by
    intro s hs
    rw [rawTree_new] at hs
    simp only [List.mem_cons, List.not_mem_nil, or_false] at hs
    rcases hs with rfl | rfl
    · intro evs he x hx
      have e : contentOf rawTree (.loc 3 (some "new/app.log".toList)) = .ok [.ok ([255], 1), .ok ("disk vanished".toList.flatMap fun c => [c.toNat.toUInt8], 2)] := by
        decide +kernel
      rw [e] at he
      cases he
      simp only [List.mem_cons, List.not_mem_nil, or_false, Except.ok.injEq] at hx
      rcases hx with rfl | rfl <;> decide
    · intro evs he
      have e : contentOf rawTree (.loc 3 (some "new/gone.log".toList)) = .error () := by decide +kernel
      rw [e] at he
      cases he
  obtain ⟨r1, _⟩ := C130_diff (X := treeOutside) (G := plainPages) h1 h2 h3 toyLocal_orders tree_old tree_new h4 h5 h6 mode false noFiles
  obtain ⟨r2, dist, groups, targets, r, page, c, items, _, _, _, hp, _⟩ :=
    C130_report (X := treeOutside) (G := plainPages) h1 h2 h3 rfl toyLocal_orders tree_old tree_new h4 h5 h6 hn mode (fs := noFiles) (file := "r".toList) ⟨rfl, rfl, rfl⟩
  refine ⟨r1, r2, ?_⟩
  rw [hp]
  exact List.mem_append_right _ (by decide +kernel)

/-- `debug-iterator` on the directory `new`: its first file has a line which is not UTF-8. -/
example : ((localTool rawTree treeOutside plainPages toyLocal).run .quiet false noFiles ⟨none, none, .debugIterator "new".toList⟩).printed =
    ["1 | error: \n".toList, "2 | disk vanished\n".toList] := by
  obtain ⟨h1, _, h3, _, _, h6⟩ := rawTree_meets
  have hp : localInput treeOutside (.path "new".toList) = .ok (.directory "new".toList) := rfl
  obtain ⟨_, s, hs, h⟩ := C100_exact (G := plainPages) (T := toyLocal) h1 h3 hp h6 .quiet false noFiles none none
  rw [rawTree_new] at hs
  cases hs
  have e : contentOf rawTree (.loc 3 (some "new/app.log".toList)) = .ok [.ok ([255], 1), .ok ("disk vanished".toList.flatMap fun c => [c.toNat.toUInt8], 2)] := by
    decide +kernel
  rw [e] at h
  exact h.2.trans (by decide +kernel)

end LJ.Program

/-
C139: what the normalisation removes from the baselines is not in the model, for the bytes of files.
-/
import Verif.Whole.Alike
import Verif.Report.Secret
namespace LJ.Whole
open LJ.Process (Str Bytes Ev)
open LJ.Paths (Source)
open LJ.Report (train)
open LJ.Report.Spec (SameLine SameSize SameOpen SameButBytes SameResult)

namespace Spec

/-- A file which is on neither of two machines, or the lines of which are related one by one. -/
def SameFile (R : Ev Unit → Ev Unit → Prop) (M M' : Machine) (s : Source) : Prop :=
  match reads M s, reads M' s with
  | some bs, some bs' => ∀ js, List.Forall₂ R (read js bs) (read js bs')
  | none, none => True
  | _, _ => False

end Spec
open Spec (SameFile)

theorem same_open {M : Machine} (hrel : M.checks = false) (hblocks : ∀ p d, LJ.Iterator.Spec.Blocks (M.cut p d))
    {files : Str → Option Bytes} {cut : Str → Bytes → List Bytes} (hblocks' : ∀ p d, LJ.Iterator.Spec.Blocks (cut p d)) {R : Ev Unit → Ev Unit → Prop} {s : Source}
    (h : SameFile R M (M.replaced files cut) s) : SameOpen R (M.world.openSource s) ((M.replaced files cut).world.openSource s) := by
  have h1 := open_reads hrel hblocks s
  have h2 := open_reads (M := M.replaced files cut) hrel hblocks' s
  unfold SameFile at h
  cases e : Spec.reads M s with
  | none =>
    cases e' : Spec.reads (M.replaced files cut) s with
    | none =>
      rw [e] at h1
      rw [e'] at h2
      simp only at h1 h2
      rw [h1, h2]
      exact rfl
    | some b' => rw [e, e'] at h; exact h.elim
  | some b =>
    cases e' : Spec.reads (M.replaced files cut) s with
    | none => rw [e, e'] at h; exact h.elim
    | some b' =>
      rw [e] at h1
      rw [e'] at h2
      rw [e, e'] at h
      obtain ⟨r, a1, a2⟩ := h1
      obtain ⟨r', b1, b2⟩ := h2
      rw [a1, b1]
      intro js
      rw [a2, b2]
      exact h js

/-- C139, for files and directories of any content, by a release build: when the files of the baselines are replaced with others of the same names whose lines have one by one the same
normalised text, the training fails in the same way, or makes a model which differs at most in its counts of bytes. -/
theorem C139_trees {M : Machine} (hrel : M.checks = false) (hblocks : ∀ p d, LJ.Iterator.Spec.Blocks (M.cut p d))
    {files : Str → Option Bytes} {cut : Str → Bytes → List Bytes} (hblocks' : ∀ p d, LJ.Iterator.Spec.Blocks (cut p d))
    {order : List (Str × List Source) → List (Str × List Source)} (ho : ∀ g, (order g).Perm g) (baselines : List Local)
    (h : ∀ s ∈ baselines.flatMap (Spec.sourcesOf M), SameFile (SameLine M.tok decode) M (M.replaced files cut) s) :
    SameResult SameButBytes (train M.world order baselines) (train (M.replaced files cut).world order baselines) :=
  LJ.Report.C139_train (w := M.world) (o := (M.replaced files cut).world.openSource) ho baselines fun s hs => same_open hrel hblocks hblocks' (h s hs)

/-- C139: with lines of the same numbers of bytes, the model is the same. -/
theorem C139_trees_equal {M : Machine} (hrel : M.checks = false) (hblocks : ∀ p d, LJ.Iterator.Spec.Blocks (M.cut p d))
    {files : Str → Option Bytes} {cut : Str → Bytes → List Bytes} (hblocks' : ∀ p d, LJ.Iterator.Spec.Blocks (cut p d))
    {order : List (Str × List Source) → List (Str × List Source)} (ho : ∀ g, (order g).Perm g) (baselines : List Local)
    (h : ∀ s ∈ baselines.flatMap (Spec.sourcesOf M), SameFile (fun e e' => SameLine M.tok decode e e' ∧ SameSize e e') M (M.replaced files cut) s) :
    train M.world order baselines = train (M.replaced files cut).world order baselines :=
  LJ.Report.C139_equal (w := M.world) (o := (M.replaced files cut).world.openSource) ho baselines fun s hs => same_open hrel hblocks hblocks' (h s hs)

/-- a machine with one log -/
noncomputable def secretLog (text : String) : Machine := { toyMachine fun p => if p = "app.log".toList then some (Spec.utf8 text.toList) else none with checks := false }

/-- The hypotheses are met: the password of a baseline is not in the model. -/
example (s : Source) (hs : s ∈ [Local.file "app.log".toList].flatMap (Spec.sourcesOf (secretLog "login password=hunter2\nready\n"))) :
    SameFile (SameLine (secretLog "").tok decode) (secretLog "login password=hunter2\nready\n")
      ((secretLog "login password=hunter2\nready\n").replaced (secretLog "login password=rosebudandmore\nready\n").files (secretLog "").cut) s := by
  have e1 : [Local.file "app.log".toList].flatMap (Spec.sourcesOf (secretLog "login password=hunter2\nready\n")) = [.loc 0 (some "app.log".toList)] := by decide +kernel
  rw [e1] at hs
  simp only [List.mem_singleton] at hs
  subst hs
  have key : ∀ js, (match Spec.reads (secretLog "login password=hunter2\nready\n") (.loc 0 (some "app.log".toList)),
      Spec.reads ((secretLog "login password=hunter2\nready\n").replaced (secretLog "login password=rosebudandmore\nready\n").files (secretLog "").cut) (.loc 0 (some "app.log".toList)) with
    | some bs, some bs' =>
      (match Spec.read js bs, Spec.read js bs' with
      | [.ok a, .ok b], [.ok c, .ok d] =>
        decide ((decode a.1).isSome ∧ (decode a.1).map (secretLog "").tok = (decode c.1).map (secretLog "").tok ∧ (decode b.1).isSome ∧ (decode b.1).map (secretLog "").tok = (decode d.1).map (secretLog "").tok)
      | _, _ => false)
    | _, _ => false) = true := by
    intro js
    cases js <;> decide +kernel
  unfold SameFile
  cases ea : Spec.reads (secretLog "login password=hunter2\nready\n") (.loc 0 (some "app.log".toList)) with
  | none => rw [ea] at key; cases key true
  | some bs =>
    cases eb : Spec.reads ((secretLog "login password=hunter2\nready\n").replaced (secretLog "login password=rosebudandmore\nready\n").files (secretLog "").cut) (.loc 0 (some "app.log".toList)) with
    | none => rw [ea, eb] at key; cases key true
    | some bs' =>
      rw [ea, eb] at key
      intro js
      have := key js
      simp only at this
      have same : ∀ {a c : Bytes × Nat}, (decode a.1).isSome → (decode a.1).map (secretLog "").tok = (decode c.1).map (secretLog "").tok →
          SameLine (ε := Unit) (secretLog "").tok decode (.ok a) (.ok c) := by
        intro a c h1 h2
        simp only [SameLine]
        cases x : decode a.1 with
        | none => rw [x] at h1; cases h1
        | some t =>
          cases y : decode c.1 with
          | none => rw [x, y] at h2; cases h2
          | some t' => rw [x, y] at h2; exact Option.some.inj h2
      split at this
      · rename_i a b c d h1 h2
        obtain ⟨a1, a2, a3, a4⟩ := of_decide_eq_true this
        rw [h1, h2]
        exact .cons (same a1 a2) (.cons (same a3 a4) .nil)
      · cases this

end LJ.Whole

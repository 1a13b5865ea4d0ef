/-
C140: a baseline whose reading fails, for the bytes of files.
-/
import Verif.Whole.Secret
import Verif.Report.Broken
namespace LJ.Whole
open LJ.Process (Str Bytes Ev)
open LJ.Paths (Source)
open LJ.Report (train)
open LJ.Report.Spec (SameLine SameSize SameOpen isText shortened)

namespace Spec

/-- The lines of a file before the first one which is no text. -/
def textOf (js : Bool) (bs : List Bytes) : List (Ev Unit) := (read js bs).takeWhile (isText decode)

/-- A file which is on neither of two machines, or which has on both the same lines before the first one which is no text. -/
def SameText (M M' : Machine) (s : Source) : Prop :=
  match reads M s, reads M' s with
  | some bs, some bs' => ∀ js, textOf js bs = textOf js bs'
  | none, none => True
  | _, _ => False

end Spec

/-- C140, for files and directories of any content, by a release build: only the lines before the first one which is no text matter in the files of the baselines.  The training, hence
all the comparisons made with its model, is the one for files which end before this line. -/
theorem C140_trees {M : Machine} (hrel : M.checks = false) (hblocks : ∀ p d, LJ.Iterator.Spec.Blocks (M.cut p d))
    {files : Str → Option Bytes} {cut : Str → Bytes → List Bytes} (hblocks' : ∀ p d, LJ.Iterator.Spec.Blocks (cut p d))
    {order : List (Str × List Source) → List (Str × List Source)} (ho : ∀ g, (order g).Perm g) (baselines : List Local)
    (h : ∀ s ∈ baselines.flatMap (Spec.sourcesOf M), Spec.SameText M (M.replaced files cut) s) :
    train M.world order baselines = train (M.replaced files cut).world order baselines := by
  rw [LJ.Report.C140_exact (w := M.world), LJ.Report.C140_exact (w := (M.replaced files cut).world)]
  refine LJ.Report.C139_equal (w := shortened M.world) (o := (shortened (M.replaced files cut).world).openSource) ho baselines fun s hs => ?_
  have refl : ∀ l : List (Ev Unit), List.Forall₂ (fun e e' => SameLine M.tok decode e e' ∧ SameSize e e') l l := by
    intro l
    refine List.forall₂_same.2 fun x _ => ?_
    cases x with
    | error e => exact ⟨trivial, trivial⟩
    | ok l =>
      refine ⟨?_, rfl⟩
      simp only [SameLine]
      cases decode l.1 <;> trivial
  have h := h s hs
  have h1 := open_reads hrel hblocks s
  have h2 := open_reads (M := M.replaced files cut) hrel hblocks' s
  unfold Spec.SameText at h
  show SameOpen _ ((M.world.openSource s).map _) (((M.replaced files cut).world.openSource s).map _)
  cases e : Spec.reads M s with
  | none =>
    cases e' : Spec.reads (M.replaced files cut) s with
    | none =>
      rw [e] at h1
      rw [e'] at h2
      simp only at h1 h2
      rw [h1, h2]
      exact rfl
    | some b' => rw [e, e'] at h; exact h.elim
  | some b =>
    cases e' : Spec.reads (M.replaced files cut) s with
    | none => rw [e, e'] at h; exact h.elim
    | some b' =>
      rw [e] at h1
      rw [e'] at h2
      rw [e, e'] at h
      obtain ⟨r, a1, a2⟩ := h1
      obtain ⟨r', b1, b2⟩ := h2
      rw [a1, b1]
      intro js
      show List.Forall₂ _ ((r js).takeWhile (isText decode)) ((r' js).takeWhile (isText decode))
      rw [a2, b2]
      have : (Spec.read js b).takeWhile (isText decode) = (Spec.read js b').takeWhile (isText decode) := h js
      rw [this]
      exact refl _

/-- a machine with one log -/
noncomputable def rawLog (bytes : Bytes) : Machine := { toyMachine fun p => if p = "app.log".toList then some bytes else none with checks := false }

/-- a log with `é` in Latin-1 in its second line -/
def latin : Bytes := Spec.utf8 "ready\ncaf".toList ++ [0xe9] ++ Spec.utf8 " is open\nall is well\n".toList

/-- The hypotheses are met: what follows a line in Latin-1 is not learned. -/
example (s : Source) (hs : s ∈ [Local.file "app.log".toList].flatMap (Spec.sourcesOf (rawLog latin))) :
    Spec.SameText (rawLog latin) ((rawLog latin).replaced (rawLog (Spec.utf8 "ready\n".toList)).files (rawLog []).cut) s := by
  have e1 : [Local.file "app.log".toList].flatMap (Spec.sourcesOf (rawLog latin)) = [.loc 0 (some "app.log".toList)] := by decide +kernel
  rw [e1] at hs
  simp only [List.mem_singleton] at hs
  subst hs
  have key : ∀ js, (match Spec.reads (rawLog latin) (.loc 0 (some "app.log".toList)),
      Spec.reads ((rawLog latin).replaced (rawLog (Spec.utf8 "ready\n".toList)).files (rawLog []).cut) (.loc 0 (some "app.log".toList)) with
    | some bs, some bs' =>
      (match Spec.textOf js bs, Spec.textOf js bs' with
      | [.ok a], [.ok b] => decide (a = b)
      | _, _ => false)
    | _, _ => false) = true := by
    intro js
    cases js <;> decide +kernel
  unfold Spec.SameText
  cases ea : Spec.reads (rawLog latin) (.loc 0 (some "app.log".toList)) with
  | none => rw [ea] at key; cases key true
  | some bs =>
    cases eb : Spec.reads ((rawLog latin).replaced (rawLog (Spec.utf8 "ready\n".toList)).files (rawLog []).cut) (.loc 0 (some "app.log".toList)) with
    | none => rw [ea, eb] at key; cases key true
    | some bs' =>
      rw [ea, eb] at key
      intro js
      have := key js
      simp only at this
      split at this
      · rename_i a b h1 h2
        have := of_decide_eq_true this
        rw [h1, h2, this]
      · cases this

end LJ.Whole

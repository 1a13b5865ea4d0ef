/-
The texts printed while a model is made and while a report is made.
-/
import Verif.Program.Model
namespace LJ.Program
open LJ.Process (Str Bytes Ev)
open LJ.Paths (Input Res)
open LJ.Output (OutputMode println progress)
open LJ.Cli (Fs)

variable {C S N D E ε : Type} [DecidableEq N] {T : Tool C S N D E ε}

theorem progress_none {mode : OutputMode} (h : mode ≠ .fastTerminal) (msg : Str) : progress mode msg = [] := by
  cases mode with
  | fastTerminal => exact absurd rfl h
  | debug => rfl
  | quiet => rfl

omit [DecidableEq N] in
theorem loading_none {mode : OutputMode} (h : mode ≠ .fastTerminal) : ∀ groups, T.loading mode groups = []
  | [] => rfl
  | (n, ss) :: groups => by
    unfold Tool.loading
    rw [progress_none h, List.nil_append]
    split
    · rfl
    · exact loading_none h groups

theorem trainText_none {mode : OutputMode} (h : mode ≠ .fastTerminal) (cs : List C) : T.trainText mode cs = [] := by
  unfold Tool.trainText
  split
  · rfl
  · exact loading_none h _

theorem modelText_none {mode : OutputMode} (h : mode ≠ .fastTerminal) (fs : Fs Str) (model : Option Str) (baselines : Option (List Input)) (content : C) :
    T.modelText mode fs model baselines content = [] := by
  unfold Tool.modelText
  split
  · rfl
  · split
    · rfl
    · exact trainText_none h _

omit [DecidableEq N] in
theorem visits_none {mode : OutputMode} (h : mode ≠ .fastTerminal) : ∀ ss, T.visits mode ss = []
  | [] => rfl
  | s :: ss => by
    unfold Tool.visits
    rw [progress_none h, List.nil_append]
    split
    · rfl
    · exact visits_none h ss

theorem reportText_none {mode : OutputMode} (h : mode ≠ .fastTerminal) (m : LJ.Report.Model C S N) (content : C) : T.reportText mode m content = [] := by
  unfold Tool.reportText
  split
  · rw [List.flatMap_eq_nil_iff]
    intro g _
    unfold Tool.visitGroup
    split
    · exact visits_none h _
    · rfl
  · rfl

omit [DecidableEq N] in
/-- the texts of the training don't depend on the order of the list of the groups -/
theorem loading_order (o : List (N × List S) → List (N × List S)) (mode : OutputMode) : ∀ groups,
    ({ T with groupOrder := o } : Tool C S N D E ε).loading mode groups = T.loading mode groups
  | [] => rfl
  | (n, ss) :: groups => by
    unfold Tool.loading
    simp only [loading_order o mode groups]

theorem trainText_order (o : List (N × List S) → List (N × List S)) (mode : OutputMode) (cs : List C) :
    ({ T with groupOrder := o } : Tool C S N D E ε).trainText mode cs = T.trainText mode cs := by
  unfold Tool.trainText
  simp only [loading_order]

omit [DecidableEq N] in
theorem visits_order (o : List (N × List S) → List (N × List S)) (mode : OutputMode) : ∀ ss,
    ({ T with groupOrder := o } : Tool C S N D E ε).visits mode ss = T.visits mode ss
  | [] => rfl
  | s :: ss => by
    unfold Tool.visits
    simp only [visits_order o mode ss]

theorem process_order (o : List (N × List S) → List (N × List S)) (mode : OutputMode) (cache : Bool) (fs : Fs Str) (args : Args)
    (baselines : Option (List Input)) (input : Input) :
    ({ T with groupOrder := o } : Tool C S N D E ε).process mode cache fs args baselines input = T.process mode cache fs args baselines input := by
  have h1 : ∀ model baselines content, ({ T with groupOrder := o } : Tool C S N D E ε).modelText mode fs model baselines content =
      T.modelText mode fs model baselines content := by
    intro model baselines content
    unfold Tool.modelText
    simp only [trainText_order]
    rfl
  have h2 : ∀ m content, ({ T with groupOrder := o } : Tool C S N D E ε).reportText mode m content = T.reportText mode m content := by
    intro m content
    unfold Tool.reportText Tool.visitGroup
    simp only [visits_order]
    rfl
  have h3 : ∀ fs report m content, ({ T with groupOrder := o } : Tool C S N D E ε).inspectText mode cache fs report m content =
      T.inspectText mode cache fs report m content := by
    intro fs report m content
    unfold Tool.inspectText Tool.writingText
    simp only [h2]
    rfl
  unfold Tool.process Tool.printed
  simp only [h1, h3]
  rfl

end LJ.Program

/-
C103: the output mode changes only the progress texts.
-/
import Verif.Program.Props
namespace LJ.Program
open LJ.Process (Str Bytes Ev)
open LJ.Report (SearchOk)
open LJ.Paths (Input Res)
open LJ.Output (LiveLabels OutputMode Live println decimal progress progressSep liveSource liveOne liveSources liveEnd processLive)
open LJ.Cli (Fs)

namespace Spec
/-- A text which only moves the cursor: a blank line, or a text written over the current line. -/
def Progress (s : Str) : Prop := s = ['\n'] ∨ s.head? = some '\r'

/-- `xs` is `ys` with progress texts in between. -/
def WithProgress (xs ys : List Str) : Prop :=
  ∃ parts : List (Bool × Str), parts.map Prod.snd = xs ∧ (parts.filter Prod.fst).map Prod.snd = ys ∧ ∀ p ∈ parts, p.1 = false → Progress p.2
end Spec
open Spec (Progress WithProgress)

theorem Spec.WithProgress.refl (xs : List Str) : WithProgress xs xs :=
  ⟨xs.map (true, ·), by simp, by rw [List.filter_eq_self.2 (by simp)]; simp, by simp⟩

theorem Spec.WithProgress.append {xs ys xs' ys' : List Str} (h : WithProgress xs ys) (h' : WithProgress xs' ys') : WithProgress (xs ++ xs') (ys ++ ys') := by
  obtain ⟨p, h1, h2, h3⟩ := h
  obtain ⟨p', h1', h2', h3'⟩ := h'
  refine ⟨p ++ p', by rw [List.map_append, h1, h1'], by rw [List.filter_append, List.map_append, h2, h2'], fun x hx => ?_⟩
  rcases List.mem_append.1 hx with hx | hx
  · exact h3 x hx
  · exact h3' x hx

theorem Spec.WithProgress.extra {xs : List Str} (h : ∀ x ∈ xs, Progress x) : WithProgress xs [] :=
  ⟨xs.map (false, ·), by simp, by simp, by simpa using h⟩

section
variable {C S N D E ε : Type} [DecidableEq N] {T : Tool C S N D E ε} {w : LJ.Report.World C S N D E ε}

theorem progress_extra (mode : OutputMode) (msg : Str) : ∀ x ∈ progress mode msg, Progress x := by
  intro x hx
  cases mode with
  | fastTerminal =>
    cases List.mem_singleton.1 hx
    exact .inr rfl
  | debug => cases hx
  | quiet => cases hx

theorem progressSep_extra (mode : OutputMode) (r : Bool) : ∀ x ∈ progressSep mode r, Progress x := by
  intro x hx
  unfold progressSep at hx
  split at hx
  · cases List.mem_singleton.1 hx
    exact .inl rfl
  · cases hx

/-- the states of the live output in a mode and in the quiet mode -/
structure SameLive (a b : Live) : Prop where
  out : WithProgress a.out b.out
  lines : a.lineCount = b.lineCount
  anomalies : a.anomalyCount = b.anomalyCount

/-- the results of a source in a mode and in the quiet mode -/
inductive SameStep : Option (Bool × Live) → Option (Bool × Live) → Prop where
  | none : SameStep none none
  | some {a b : Live} (goes : Bool) (h : SameLive a b) : SameStep (some (goes, a)) (some (goes, b))

theorem liveOne_same (lb : LiveLabels C S D E ε) (mode : OutputMode) (m : LJ.Report.Model C S N) (s : S) {a b : Live} (h : SameLive a b) :
    SameStep (liveOne w lb mode m s a) (liveOne w lb .quiet m s b) := by
  unfold liveOne
  cases LJ.Report.lookupOrSingle m.indexes (w.nameOf s) with
  | none => exact .some _ ⟨h.out.append (.refl _), h.lines, h.anomalies⟩
  | some index =>
    simp only [liveSource]
    have hp : ∀ msg, WithProgress (a.out ++ progress mode msg) (b.out ++ progress .quiet msg) := fun msg => h.out.append (.extra (progress_extra mode msg))
    cases w.openSource s with
    | error e => exact .some _ ⟨(hp _).append (.refl _), h.lines, h.anomalies⟩
    | ok reader =>
      simp only
      cases LJ.Report.inspect w index s reader [] with
      | none => exact .none
      | some x =>
        obtain ⟨anomalies, err, p⟩ := x
        refine .some _ ⟨(((hp _).append ?_).append (.refl _)).append (.refl _), ?_, ?_⟩
        · exact .extra (progressSep_extra mode _)
        · simp only [h.lines]
        · simp only [h.anomalies]

theorem liveSources_same (lb : LiveLabels C S D E ε) (mode : OutputMode) (m : LJ.Report.Model C S N) (ss : List S) : ∀ {a b : Live}, SameLive a b →
    (liveSources w lb mode m ss a = none ∧ liveSources w lb .quiet m ss b = none) ∨
      ∃ a' b', liveSources w lb mode m ss a = some a' ∧ liveSources w lb .quiet m ss b = some b' ∧ SameLive a' b' := by
  induction ss with
  | nil => exact fun h => .inr ⟨_, _, rfl, rfl, h⟩
  | cons s ss ih =>
    intro a b h
    have := liveOne_same (w := w) lb mode m s h
    unfold liveSources
    generalize liveOne w lb mode m s a = x at this
    generalize liveOne w lb .quiet m s b = y at this
    cases this with
    | none => exact .inl ⟨rfl, rfl⟩
    | some goes h' =>
      cases goes with
      | false => exact .inr ⟨_, _, rfl, rfl, h'⟩
      | true => exact ih h'

theorem liveRun_same (mode : OutputMode) (content : C) (m : LJ.Report.Model C S N) :
    (T.liveRun mode content m).2 = (T.liveRun .quiet content m).2 ∧ WithProgress (T.liveRun mode content m).1 (T.liveRun .quiet content m).1 := by
  unfold Tool.liveRun processLive
  cases LJ.Report.getSources T.logs content with
  | error e => exact ⟨rfl, .refl _⟩
  | ok ss =>
    simp only
    rcases liveSources_same (w := T.logs) T.live mode m ss (a := ⟨[], false, 0, 0⟩) (b := ⟨[], false, 0, 0⟩) ⟨.refl _, rfl, rfl⟩ with
      ⟨h1, h2⟩ | ⟨a, b, h1, h2, h⟩
    · rw [h1, h2]
      exact ⟨rfl, .refl _⟩
    · rw [h1, h2]
      refine ⟨rfl, (h.out.append ?_).append ?_⟩
      · refine .extra fun x hx => ?_
        split at hx
        · cases List.mem_singleton.1 hx
          exact .inr rfl
        · cases hx
      · exact .extra (progress_extra mode _)

theorem cli_same (mode : OutputMode) : T.cli mode = T.cli .quiet := by
  unfold Tool.cli
  congr 1
  funext content m
  exact (liveRun_same mode content m).1

omit [DecidableEq N] in
theorem loading_extra (mode : OutputMode) : ∀ groups, ∀ x ∈ T.loading mode groups, Progress x
  | [], _, hx => nomatch hx
  | (n, ss) :: groups, x, hx => by
    unfold Tool.loading at hx
    rcases List.mem_append.1 hx with hx | hx
    · exact progress_extra _ _ x hx
    · split at hx
      · cases hx
      · exact loading_extra mode groups x hx

theorem trainText_same (mode : OutputMode) (cs : List C) : WithProgress (T.trainText mode cs) (T.trainText .quiet cs) := by
  rw [trainText_none (mode := .quiet) (by simp)]
  refine .extra fun x hx => ?_
  unfold Tool.trainText at hx
  split at hx
  · cases hx
  · exact loading_extra mode _ x hx

theorem modelText_same (mode : OutputMode) (fs : Fs Str) (model : Option Str) (baselines : Option (List Input)) (content : C) :
    WithProgress (T.modelText mode fs model baselines content) (T.modelText .quiet fs model baselines content) := by
  unfold Tool.modelText
  rw [cli_same mode]
  split
  · exact .refl _
  · split
    · exact .refl _
    · exact trainText_same mode _

omit [DecidableEq N] in
theorem visits_extra (mode : OutputMode) : ∀ ss, ∀ x ∈ T.visits mode ss, Progress x
  | [], _, hx => nomatch hx
  | s :: ss, x, hx => by
    unfold Tool.visits at hx
    rcases List.mem_append.1 hx with hx | hx
    · exact progress_extra _ _ x hx
    · split at hx
      · cases hx
      · exact visits_extra mode ss x hx

theorem reportText_same (mode : OutputMode) (m : LJ.Report.Model C S N) (content : C) :
    WithProgress (T.reportText mode m content) (T.reportText .quiet m content) := by
  rw [reportText_none (mode := .quiet) (by simp)]
  refine .extra fun x hx => ?_
  unfold Tool.reportText at hx
  split at hx
  · obtain ⟨g, _, hx⟩ := List.mem_flatMap.1 hx
    unfold Tool.visitGroup at hx
    split at hx
    · exact visits_extra mode _ x hx
    · cases hx
  · cases hx

theorem inspectText_same (mode : OutputMode) (cache : Bool) (fs : Fs Str) (report : Option Str) (m : LJ.Report.Model C S N) (content : C) :
    WithProgress (T.inspectText mode cache fs report m content) (T.inspectText .quiet cache fs report m content) := by
  unfold Tool.inspectText
  split
  · exact (liveRun_same mode _ _).2
  · unfold Tool.writingText
    rw [cli_same mode]
    exact (reportText_same mode m content).append (.refl _)

theorem printed_same (mode : OutputMode) (cache : Bool) (fs : Fs Str) (args : Args) (baselines : Option (List Input)) (input : Input)
    (m : Option (LJ.Report.Model C S N)) : WithProgress (T.printed mode cache fs args baselines input m) (T.printed .quiet cache fs args baselines input m) := by
  unfold Tool.printed
  rw [cli_same mode]
  split
  · refine (modelText_same mode fs _ _ _).append ?_
    split
    · exact inspectText_same mode cache _ _ _ _
    · exact .refl _
  · exact .refl _

/-- The output mode changes neither the result, nor the model used, nor the files: it only adds progress texts to what is printed. -/
theorem C103_mode (mode : OutputMode) (cache : Bool) (fs : Fs Str) (args : Args) :
    (T.run mode cache fs args).result = (T.run .quiet cache fs args).result ∧ (T.run mode cache fs args).model = (T.run .quiet cache fs args).model ∧
      (T.run mode cache fs args).fs = (T.run .quiet cache fs args).fs ∧ WithProgress (T.run mode cache fs args).printed (T.run .quiet cache fs args).printed := by
  have key : ∀ bs input, (T.process mode cache fs args bs input).result = (T.process .quiet cache fs args bs input).result ∧
      (T.process mode cache fs args bs input).model = (T.process .quiet cache fs args bs input).model ∧
      (T.process mode cache fs args bs input).fs = (T.process .quiet cache fs args bs input).fs ∧
      WithProgress (T.process mode cache fs args bs input).printed (T.process .quiet cache fs args bs input).printed := by
    intro bs input
    unfold Tool.process
    rw [cli_same]
    refine ⟨rfl, rfl, rfl, ?_⟩
    exact printed_same mode cache fs args bs input _
  unfold Tool.run
  split
  case h_6 =>
    unfold Tool.trainCommand Tool.trainingText
    rw [cli_same]
    refine ⟨rfl, rfl, rfl, ?_⟩
    split
    · exact trainText_same mode _
    · exact .refl _
  all_goals first | exact key _ _ | exact ⟨rfl, rfl, rfl, .refl _⟩

theorem errorLine_extra (mode : OutputMode) (r : Except (Problem C E) Unit) : ∀ x ∈ errorLine mode r, Progress x := by
  intro x hx
  unfold errorLine at hx
  split at hx
  · cases hx
  · cases hx
  · split at hx
    · cases List.mem_singleton.1 hx
      exact .inl rfl
    · cases hx

/-- The same for the whole program: with or without a terminal, with any level of the logger, compared to a run whose output is a file and without
the logger. -/
theorem C103_main {level : Option Bool} (hl : level ≠ some false) (tty cache : Bool) (fs : Fs Str) (args : Args) :
    (T.main level tty cache fs args).result = (T.main none false cache fs args).result ∧ (T.main level tty cache fs args).model = (T.main none false cache fs args).model ∧
      (T.main level tty cache fs args).fs = (T.main none false cache fs args).fs ∧
      WithProgress (T.main level tty cache fs args).printed (T.main none false cache fs args).printed := by
  obtain ⟨h1, h2, h3, h4⟩ := C103_mode (T := T) (outputMode level.isSome tty) cache fs args
  unfold Tool.main
  rw [if_neg hl, if_neg (by simp)]
  refine ⟨h1, h2, h3, h4.append ?_⟩
  have : errorLine (outputMode false false) (T.run (outputMode false false) cache fs args).result = [] := by
    unfold errorLine
    split <;> rfl
  simp only [Option.isSome_none, this]
  exact .extra (errorLine_extra _ _)

theorem liveSources_debug (lb : LiveLabels C S D E ε) (m : LJ.Report.Model C S N) (ss : List S) : ∀ a : Live,
    liveSources w lb .debug m ss a = liveSources w lb .quiet m ss a := by
  have step : ∀ s a, liveOne w lb .debug m s a = liveOne w lb .quiet m s a := fun s a => rfl
  induction ss with
  | nil => intro a; rfl
  | cons s ss ih =>
    intro a
    unfold liveSources
    rw [step]
    cases liveOne w lb .quiet m s a with
    | none => rfl
    | some x =>
      obtain ⟨goes, b⟩ := x
      cases goes with
      | false => rfl
      | true => exact ih b

/-- With the logger, or when the output is not a terminal, nothing is added. -/
theorem C103_plain {level : Option Bool} (hl : level ≠ some false) {tty : Bool} (ht : level = none → tty = false) (cache : Bool) (fs : Fs Str) (args : Args) :
    T.main level tty cache fs args = T.main none false cache fs args := by
  have hlive : ∀ content m, T.liveRun .debug content m = T.liveRun .quiet content m := by
    intro content m
    have : processLive T.logs T.live .debug content m = processLive T.logs T.live .quiet content m := by
      unfold processLive
      simp only [liveSources_debug]
      rfl
    unfold Tool.liveRun
    rw [this]
  have hrun : T.run .debug cache fs args = T.run .quiet cache fs args := by
    have key : ∀ bs input, T.process .debug cache fs args bs input = T.process .quiet cache fs args bs input := by
      intro bs input
      unfold Tool.process Tool.printed Tool.inspectText Tool.writingText
      simp only [cli_same .debug, hlive, modelText_none (mode := .debug) (by simp), modelText_none (mode := .quiet) (by simp),
        reportText_none (mode := .debug) (by simp), reportText_none (mode := .quiet) (by simp)]
    unfold Tool.run
    simp only [key, Tool.trainCommand, Tool.trainingText, cli_same .debug, trainText_none (mode := .debug) (by simp), trainText_none (mode := .quiet) (by simp)]
  have hm : outputMode level.isSome tty = .debug ∨ outputMode level.isSome tty = .quiet := by
    cases level with
    | none => rw [ht rfl]; exact .inr rfl
    | some _ => exact .inl rfl
  unfold Tool.main
  rw [if_neg hl, if_neg (by simp)]
  rcases hm with hm | hm
  · simp only [hm]
    rw [hrun]
    rfl
  · simp only [hm]
    rfl

/-- A bad level of the logger is an error, before anything is done. -/
theorem C103_level (tty cache : Bool) (fs : Fs Str) (args : Args) :
    (T.main (some false) tty cache fs args).result = .error .level ∧ (T.main (some false) tty cache fs args).printed = [] ∧
      (T.main (some false) tty cache fs args).fs = fs := ⟨rfl, rfl, rfl⟩

end
end LJ.Program

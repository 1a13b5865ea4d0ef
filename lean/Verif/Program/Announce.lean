/-
C129: a report is announced before it is written.
-/
import Verif.Program.Modes
namespace LJ.Program
open LJ.Process (Str Bytes Ev)
open LJ.Paths (Input Res)
open LJ.Output (OutputMode println)
open LJ.Cli (Fs)
open Spec (announce Compares)
variable {C S N D E ε : Type} [DecidableEq N] {T : Tool C S N D E ε}

namespace Spec
/-- The target of a comparison. -/
def target : Command → Option Input
  | .diff _ dst => some (Input.fromString dst)
  | .path p => some (.path p)
  | .url u => some (.url u)
  | _ => none

/-- `r` is the report of the target made with the model `m`. -/
def Reports (T : Tool C S N D E ε) (cmd : Command) (m : LJ.Report.Model C S N) (r : LJ.Report.Report C S N D E ε) : Prop :=
  ∃ input content, target cmd = some input ∧ T.fromInput input = .ok content ∧ T.report m content = .ok r
end Spec
open Spec (target Reports)

/-- the commands which compare -/
theorem compares_run {cmd : Command} (h : Compares cmd) : ∃ bs input, target cmd = some input ∧ ∀ (mode : OutputMode) (cache : Bool) (fs : Fs Str) (report model : Option Str),
    T.run mode cache fs ⟨report, model, cmd⟩ = T.process mode cache fs ⟨report, model, cmd⟩ bs input := by
  cases cmd with
  | diff src dst => exact ⟨_, _, rfl, fun _ _ _ _ _ => rfl⟩
  | path p => exact ⟨_, _, rfl, fun _ _ _ _ _ => rfl⟩
  | url u => exact ⟨_, _, rfl, fun _ _ _ _ _ => rfl⟩
  | _ => exact h.elim

theorem fromInput_ok {mode : OutputMode} {input : Input} {content : C} (h : (T.cli mode).fromInput input = .ok content) : T.fromInput input = .ok content := by
  have : ofRes (E := E) (T.fromInput input) = .ok content := h
  cases hx : T.fromInput input with
  | ok c => rw [hx] at this; cases this; rfl
  | err => rw [hx] at this; cases this
  | panic => rw [hx] at this; cases this

/-- the outcome of a comparison with a report file -/
theorem process_report (mode : OutputMode) (cache : Bool) (fs : Fs Str) (file : Str) (model : Option Str) (cmd : Command) (bs : Option (List Input)) (input : Input) :
    let d := T.process mode cache fs ⟨some file, model, cmd⟩ bs input
    (d.model = none ∧ (∃ e, d.result = .error e) ∧ (∀ x ∈ d.printed, Spec.Progress x) ∧ ∀ q, model ≠ some q → d.fs.files q = fs.files q) ∨
    ∃ content m fs' pre, T.fromInput input = .ok content ∧ d.model = some m ∧ (∀ q, model ≠ some q → fs'.files q = fs.files q) ∧ (∀ x ∈ pre, Spec.Progress x) ∧
      d.result = (LJ.Cli.writeReport (T.cli mode) cache fs' file m content).1 ∧ d.fs = (LJ.Cli.writeReport (T.cli mode) cache fs' file m content).2 ∧
      d.printed = pre ++ match T.report m content with
        | .error _ => []
        | .ok r =>
          match (LJ.Cli.saveRaw (T.cli mode) cache fs' file r).1 with
          | .error _ => []
          | .ok () => [announce T file] := by
  have hmodel : ∀ content, ∀ x ∈ T.modelText mode fs model bs content, Spec.Progress x := by
    intro content x hx
    unfold Tool.modelText at hx
    split at hx
    · cases hx
    · split at hx
      · cases hx
      · unfold Tool.trainText at hx
        split at hx
        · cases hx
        · exact loading_extra mode _ x hx
  have hreport : ∀ m content, ∀ x ∈ T.reportText mode m content, Spec.Progress x := by
    intro m content x hx
    unfold Tool.reportText at hx
    split at hx
    · obtain ⟨g, _, hx⟩ := List.mem_flatMap.1 hx
      unfold Tool.visitGroup at hx
      split at hx
      · exact visits_extra mode _ x hx
      · cases hx
    · cases hx
  have hnone : ∀ x ∈ T.printed mode cache fs ⟨some file, model, cmd⟩ bs input none, Spec.Progress x := by
    intro x hx
    unfold Tool.printed at hx
    split at hx
    · rw [List.append_nil] at hx
      exact hmodel _ x hx
    · cases hx
  unfold Tool.process
  simp only [LJ.Cli.process]
  cases hi : (T.cli mode).fromInput input with
  | error e => exact .inl ⟨rfl, ⟨_, rfl⟩, hnone, fun _ _ => rfl⟩
  | ok content =>
    have hi' := fromInput_ok hi
    simp only
    cases hg : LJ.Cli.getModel (T.cli mode) fs content model bs with
    | error e => exact .inl ⟨rfl, ⟨_, rfl⟩, hnone, fun _ _ => rfl⟩
    | ok m =>
      simp only
      have hs : ∀ q, model ≠ some q → (LJ.Cli.saveModel (T.cli mode) LJ.Cli.alone fs model m).2.files q = fs.files q := by
        intro q hq
        unfold LJ.Cli.saveModel
        cases model with
        | none => rfl
        | some p =>
          simp only
          split
          · rfl
          · exact (LJ.Cli.saveGz_other _ _ _ fun e => hq (congrArg some e.symm)).1
      cases hsm : LJ.Cli.saveModel (T.cli mode) LJ.Cli.alone (LJ.Cli.alone.training fs) model m with
      | mk res fs' =>
        have hsm' : LJ.Cli.saveModel (T.cli mode) LJ.Cli.alone fs model m = (res, fs') := hsm
        rw [hsm'] at hs
        cases res with
        | error e => exact .inl ⟨rfl, ⟨_, rfl⟩, hnone, hs⟩
        | ok _ =>
          refine .inr ⟨content, m, fs', T.modelText mode fs model bs content ++ T.reportText mode m content, hi', rfl, hs, ?_, rfl, rfl, ?_⟩
          · intro x hx
            rcases List.mem_append.1 hx with hx | hx
            · exact hmodel _ x hx
            · exact hreport _ _ x hx
          · unfold Tool.printed
            simp only [hi', hsm', Tool.inspectText, Tool.writingText, List.append_assoc]
            have : println (T.quote file ++ ": Writing report...".toList) = announce T file := by
              unfold announce println
              rw [List.append_assoc]
              rfl
            rw [this]
            rfl

omit [DecidableEq N] in
theorem main_eq {level : Option Bool} (hl : level ≠ some false) (tty cache : Bool) (fs : Fs Str) (args : Args) [DecidableEq N] :
    T.main level tty cache fs args = ⟨(T.run (outputMode level.isSome tty) cache fs args).printed ++
      errorLine (outputMode level.isSome tty) (T.run (outputMode level.isSome tty) cache fs args).result,
      (T.run (outputMode level.isSome tty) cache fs args).result, (T.run (outputMode level.isSome tty) cache fs args).model,
      (T.run (outputMode level.isSome tty) cache fs args).fs⟩ := by
  unfold Tool.main
  rw [if_neg hl]

/-- C129.  When a comparison with a report file succeeds, the last text printed says that the report is written, and the file has the page of the
report of the target with the model used. -/
theorem C129_ok {cmd : Command} (hc : Compares cmd) {level : Option Bool} {tty cache : Bool} {fs : Fs Str} {file : Str} {model : Option Str}
    (h : (T.main level tty cache fs ⟨some file, model, cmd⟩).result = .ok ()) :
    let d := T.main level tty cache fs ⟨some file, model, cmd⟩
    d.printed.getLast? = some (announce T file) ∧ ∃ m r page, d.model = some m ∧ Reports T cmd m r ∧ T.page r = some page ∧ d.fs.files file = some page := by
  have hl : level ≠ some false := by rintro rfl; cases h
  obtain ⟨bs, input, ht, hrun⟩ := compares_run (T := T) hc
  simp only [main_eq hl, hrun] at h ⊢
  generalize outputMode level.isSome tty = mode at h ⊢
  rcases process_report (T := T) mode cache fs file model cmd bs input with ⟨_, ⟨e, he⟩, _⟩ | ⟨content, m, fs', pre, h1, h2, h3, h4, h5, h6, h7⟩
  · rw [he] at h; cases h
  · rw [h] at h5 ⊢
    unfold LJ.Cli.writeReport at h5 h6
    have hrep : (T.cli mode).report m content = T.report m content := rfl
    rw [hrep] at h5 h6
    cases hr : T.report m content with
    | error e => rw [hr] at h5; cases h5
    | ok r =>
      rw [hr] at h5 h6 h7
      simp only at h5 h6 h7
      cases hraw : LJ.Cli.saveRaw (T.cli mode) cache fs' file r with
      | mk res fs2 =>
        rw [hraw] at h5 h6 h7
        cases res with
        | error e => cases h5
        | ok _ =>
          simp only at h5 h6 h7
          unfold LJ.Cli.writePage at h5 h6
          have hpage : (T.cli mode).render r = ofOption .panic (T.page r) := rfl
          cases hp : T.page r with
          | none => rw [hpage, hp] at h5; cases h5
          | some page =>
            rw [hpage, hp] at h5 h6
            simp only [ofOption] at h5 h6
            refine ⟨by rw [h7, errorLine, List.append_nil, List.getLast?_append]; rfl, m, r, page, h2, ⟨input, content, ht, h1, hr⟩, hp, ?_⟩
            rw [h6]
            unfold LJ.Cli.writeFile at h5 ⊢
            cases hcr : LJ.Cli.create (T.cli mode) fs2 file with
            | error e => rw [hcr] at h5; cases h5
            | ok fs3 =>
              simp only [hcr] at h5 ⊢
              unfold LJ.Cli.written at h5 ⊢
              cases hlim : (T.cli mode).limit file with
              | none => simp [LJ.Cli.put]
              | some k =>
                simp only [hlim] at h5 ⊢
                by_cases hk : (page.take k).length < page.length
                · rw [if_pos hk] at h5; cases h5
                · have : page.take k = page := List.take_of_length_le (by rw [List.length_take] at hk; omega)
                  simp [LJ.Cli.put, this]

/-- C129.  Nothing is trained, hence nothing of it is announced, without a file for the model: `train` only says that the file is required. -/
theorem C129_train {level : Option Bool} (hl : level ≠ some false) (tty cache : Bool) (fs : Fs Str) (file : Option Str) (baselines : List Str) :
    T.main level tty cache fs ⟨file, none, .train baselines⟩ =
      ⟨errorLine (C := C) (E := E) (outputMode level.isSome tty) (.error .noModelPath), .error .noModelPath, none, fs⟩ := by
  rw [main_eq hl]
  rfl

/-- C129.  The report is announced only when it is made: an error found before (in the inputs, the baselines, the training, the model file, the
target) is not announced as a report. -/
theorem C129_announced {cmd : Command} (hc : Compares cmd) {level : Option Bool} {tty cache : Bool} {fs : Fs Str} {file : Str} {model : Option Str}
    (hq : (T.quote file).head? = some '"') (h : announce T file ∈ (T.main level tty cache fs ⟨some file, model, cmd⟩).printed) :
    ∃ m r, (T.main level tty cache fs ⟨some file, model, cmd⟩).model = some m ∧ Reports T cmd m r := by
  have hl : level ≠ some false := by rintro rfl; cases h
  obtain ⟨bs, input, ht, hrun⟩ := compares_run (T := T) hc
  simp only [main_eq hl, hrun] at h ⊢
  generalize outputMode level.isSome tty = mode at h ⊢
  have hnot : ¬ Spec.Progress (announce T file) := by
    unfold announce
    cases hx : T.quote file with
    | nil => rw [hx] at hq; cases hq
    | cons c cs =>
      rw [hx] at hq
      cases Option.some.inj hq
      rintro (h | h) <;> simp at h
  have hmem : announce T file ∈ (T.process mode cache fs ⟨some file, model, cmd⟩ bs input).printed := by
    rcases List.mem_append.1 h with h | h
    · exact h
    · exact absurd (errorLine_extra _ _ _ h) hnot
  rcases process_report (T := T) mode cache fs file model cmd bs input with ⟨_, _, hp, _⟩ | ⟨content, m, fs', pre, h1, h2, h3, h4, h5, h6, h7⟩
  · exact absurd (hp _ hmem) hnot
  · rw [h7] at hmem
    rcases List.mem_append.1 hmem with hm | hm
    · exact absurd (h4 _ hm) hnot
    · cases hr : T.report m content with
      | error e => rw [hr] at hm; cases hm
      | ok r => exact ⟨m, r, h2, input, content, ht, h1, hr⟩

/-- C129.  The report file is not touched without being announced: a file which changes, even when the writing fails, was announced.  The file is
not the one of the model nor of the raw report. -/
theorem C129_written {cmd : Command} (hc : Compares cmd) {level : Option Bool} {tty cache : Bool} {fs : Fs Str} {file : Str} {model : Option Str}
    (hm : model ≠ some file) (hj : cache = true → T.withJson file ≠ file)
    (h : (T.main level tty cache fs ⟨some file, model, cmd⟩).fs.files file ≠ fs.files file) :
    announce T file ∈ (T.main level tty cache fs ⟨some file, model, cmd⟩).printed := by
  have hl : level ≠ some false := by rintro rfl; exact h rfl
  obtain ⟨bs, input, ht, hrun⟩ := compares_run (T := T) hc
  simp only [main_eq hl, hrun] at h ⊢
  generalize outputMode level.isSome tty = mode at h ⊢
  refine List.mem_append_left _ ?_
  rcases process_report (T := T) mode cache fs file model cmd bs input with ⟨_, _, _, hp⟩ | ⟨content, m, fs', pre, h1, h2, h3, h4, h5, h6, h7⟩
  · exact absurd (hp _ hm) h
  · rw [h7]
    refine List.mem_append_right _ ?_
    rw [h6, ← h3 file hm] at h
    unfold LJ.Cli.writeReport at h
    have hrep : (T.cli mode).report m content = T.report m content := rfl
    rw [hrep] at h
    cases hr : T.report m content with
    | error e => rw [hr] at h; exact absurd rfl h
    | ok r =>
      rw [hr] at h
      simp only at h ⊢
      cases hraw : LJ.Cli.saveRaw (T.cli mode) cache fs' file r with
      | mk res fs2 =>
        cases res with
        | ok _ => exact .head _
        | error e =>
          have : (LJ.Cli.saveRaw (T.cli mode) cache fs' file r).2.files file = fs'.files file := by
            unfold LJ.Cli.saveRaw
            cases hcache : cache with
            | false => rfl
            | true => exact (LJ.Cli.saveGz_other _ _ _ fun e => hj hcache e.symm).1
          rw [hraw] at h this
          exact absurd this h

end LJ.Program

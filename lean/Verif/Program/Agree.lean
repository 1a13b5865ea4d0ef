/-
C115: the commands `path` and `url` are short for `diff`, and a model trained before is used as `diff` trains it.
-/
import Verif.Program.Modes
namespace LJ.Cli
variable {P I C M R Er : Type} [DecidableEq P] {w : World P I C M R Er}

/-- The same files, but for the file `p`. -/
structure But (p : P) (a b : Fs P) : Prop where
  denied : a.denied = b.denied
  files : ∀ q, q ≠ p → a.files q = b.files q

theorem But.put {p : P} {a b : Fs P} (h : But p a b) (q : P) (d : Bytes) : But p (put a q d) (put b q d) :=
  ⟨h.denied, fun x hx => by simp only [LJ.Cli.put]; split <;> [rfl; exact h.files x hx]⟩

/-- The same result, and the same files but for `p`, which is not written. -/
structure Alike {α : Type} (p : P) (x : Bytes) (u v : α × Fs P) : Prop where
  result : u.1 = v.1
  files : But p u.2 v.2
  kept : u.2.files p = some x

theorem saveGz_alike {p q : P} {x : Bytes} {a b : Fs P} (h : But p a b) (hk : a.files p = some x) (hq : q ≠ p) (enc : Except Er Bytes) :
    Alike p x (saveGz w a q enc) (saveGz w b q enc) := by
  have hk' : ∀ d, (put a q d).files p = some x := fun d => by simp only [LJ.Cli.put]; rw [if_neg (Ne.symm hq)]; exact hk
  unfold saveGz create
  rw [h.denied]
  cases b.denied q with
  | true => exact ⟨rfl, h, hk⟩
  | false =>
    cases w.createErr q with
    | some e => exact ⟨rfl, h, hk⟩
    | none =>
      cases enc with
      | error e => exact ⟨rfl, h.put q [], hk' []⟩
      | ok d =>
        refine ⟨rfl, (h.put q []).put q _, ?_⟩
        simp only [writeGz, LJ.Cli.put, Bool.false_eq_true, if_false]
        rw [if_neg (Ne.symm hq), if_neg (Ne.symm hq)]
        exact hk

theorem writeFile_alike {p q : P} {x : Bytes} {a b : Fs P} (h : But p a b) (hk : a.files p = some x) (hq : q ≠ p) (d : Bytes) :
    Alike p x (writeFile w a q d) (writeFile w b q d) := by
  unfold writeFile create
  rw [h.denied]
  cases b.denied q with
  | true => exact ⟨rfl, h, hk⟩
  | false =>
    cases w.createErr q with
    | some e => exact ⟨rfl, h, hk⟩
    | none =>
      refine ⟨rfl, (h.put q []).put q _, ?_⟩
      simp only [LJ.Cli.put, Bool.false_eq_true, if_false]
      rw [if_neg (Ne.symm hq), if_neg (Ne.symm hq)]
      exact hk

theorem inspect_alike {p : P} {x : Bytes} {a b : Fs P} (h : But p a b) (hk : a.files p = some x) {cache : Bool} {report : Option P}
    (hr : ¬ Spec.ReportPath w cache report p) (m : M) (content : C) : Alike p x (inspect w cache a report m content) (inspect w cache b report m content) := by
  unfold inspect
  cases report with
  | none => exact ⟨rfl, h, hk⟩
  | some file =>
    have h1 : file ≠ p := fun e => hr (.inl (by rw [e]))
    simp only [writeReport]
    cases w.report m content with
    | error e => exact ⟨rfl, h, hk⟩
    | ok r =>
      have hs : Alike p x (saveRaw w cache a file r) (saveRaw w cache b file r) := by
        unfold saveRaw
        cases cache with
        | false => exact ⟨rfl, h, hk⟩
        | true => exact saveGz_alike h hk (fun e => hr (.inr ⟨rfl, file, rfl, e.symm⟩)) _
      simp only
      generalize saveRaw w cache a file r = u at hs ⊢
      generalize saveRaw w cache b file r = v at hs ⊢
      obtain ⟨u1, u2⟩ := u
      obtain ⟨v1, v2⟩ := v
      obtain ⟨e1, e2, e3⟩ := hs
      simp only at e1 e2 e3
      subst e1
      cases u1 with
      | error e => exact ⟨rfl, e2, e3⟩
      | ok _ =>
        simp only [writePage]
        cases w.render r with
        | error e => exact ⟨rfl, e2, e3⟩
        | ok d => exact writeFile_alike e2 e3 h1 d

/-- a model which is there, and the training of the same model -/
theorem process_alike {p : P} {x : Bytes} {a b : Fs P} (h : But p a b) (hk : a.files p = some x) (hd : a.denied p = false) {cache : Bool} {report : Option P}
    (hr : ¬ Spec.ReportPath w cache report p) {m : M} (hx : w.decModel x = .ok m) {is : List I} {cs : List C} (hi : fromInputs w is = .ok cs) (ht : w.train cs = .ok m) (input : I) :
    (process w alone cache a report (some p) none input).result = (process w alone cache b report none (some is) input).result ∧
      (process w alone cache a report (some p) none input).model = (process w alone cache b report none (some is) input).model ∧
      But p (process w alone cache a report (some p) none input).fs (process w alone cache b report none (some is) input).fs ∧
      (process w alone cache a report (some p) none input).fs.files p = some x := by
  have hex : exists' a p = true := by simp [exists', hd, hk]
  have hload : load w a p = .ok m := by simp [load, readFile, hd, hk, hx]
  unfold process
  cases w.fromInput input with
  | error e => exact ⟨rfl, rfl, h, hk⟩
  | ok content =>
    have ha := inspect_alike (w := w) h hk hr m content
    simp only [getModel, hex, if_true, existingModel, hload, makeModel, findBaselines, hi, ht, saveModel, alone, id, true_and]
    exact ⟨ha.result, ha.files, ha.kept⟩

end LJ.Cli

namespace LJ.Program
open LJ.Process (Str Bytes Ev)
open LJ.Paths (Input Res)
open LJ.Output (OutputMode println)
open LJ.Cli (Fs)
variable {C S N D E ε : Type} [DecidableEq N] {T : Tool C S N D E ε}

namespace Spec

/-- The command which compares `x` with the baselines which are discovered. -/
inductive Alone (x : Str) : Command → Prop
  | url : "http".toList <+: x → Alone x (.url x)
  | path : ¬ "http".toList <+: x → Alone x (.path x)

/-- `c` is the content of the argument `x`, a URL if it begins with "http", otherwise a path. -/
def ContentOf (T : Tool C S N D E ε) (x : Str) (c : C) : Prop :=
  ("http".toList <+: x ∧ T.fromInput (.url x) = .ok c) ∨ (¬ "http".toList <+: x ∧ T.fromInput (.path x) = .ok c)

/-- the file of the model is one of the files of the report -/
def InReport (T : Tool C S N D E ε) (cache : Bool) (report : Option Str) (p : Str) : Prop :=
  report = some p ∨ cache = true ∧ ∃ f, report = some f ∧ p = T.withJson f

end Spec
open Spec

theorem fromString_url {x : Str} (h : "http".toList <+: x) : Input.fromString x = .url x := if_pos (List.isPrefixOf_iff_prefix.2 h)
theorem fromString_path {x : Str} (h : ¬ "http".toList <+: x) : Input.fromString x = .path x := if_neg fun e => h (List.isPrefixOf_iff_prefix.1 e)

omit [DecidableEq N] in
theorem contentOf_iff {x : Str} {c : C} : ContentOf T x c ↔ T.fromInput (Input.fromString x) = .ok c := by
  unfold ContentOf
  by_cases h : "http".toList <+: x
  · rw [fromString_url h]
    exact ⟨fun e => e.elim And.right fun e => absurd h e.1, fun e => .inl ⟨h, e⟩⟩
  · rw [fromString_path h]
    exact ⟨fun e => e.elim (fun e => absurd e.1 h) And.right, fun e => .inr ⟨h, e⟩⟩

theorem alone_run {x : Str} {cmd : Command} (h : Alone x cmd) (mode : OutputMode) (cache : Bool) (fs : Fs Str) (report model : Option Str) :
    T.run mode cache fs ⟨report, model, cmd⟩ = T.process mode cache fs ⟨report, model, cmd⟩ none (Input.fromString x) := by
  cases h with
  | url h => rw [fromString_url h]; rfl
  | path h => rw [fromString_path h]; rfl

theorem fromInputs_contents {srcs : List Str} {cs : List C} (h : List.Forall₂ (ContentOf T) srcs cs) (mode : OutputMode) :
    LJ.Cli.fromInputs (T.cli mode) (srcs.map Input.fromString) = .ok cs := by
  induction h with
  | nil => rfl
  | @cons a c _ _ h _ ih =>
    have : (T.cli mode).fromInput (Input.fromString a) = .ok c := by
      show ofRes (T.fromInput (Input.fromString a)) = _
      rw [contentOf_iff.1 h]
      rfl
    simp only [List.map_cons, LJ.Cli.fromInputs, this, ih]

/-- C115.  Without a model (or when there is no file yet for the model), `path x` and `url x` do what `diff b1 b2 .. x` does, when
the arguments b1 b2 .. are those of the baselines which are discovered for `x`: the same texts are printed, the result is the same, and the
same files are written. -/
theorem C115_diff {x : Str} {cmd : Command} (hc : Alone x cmd) {content : C} (hx : ContentOf T x content) {cs : List C} (hd : T.discover content = .ok cs)
    {srcs : List Str} (hs : List.Forall₂ (ContentOf T) srcs cs) {model : Option Str} {fs : Fs Str} (hm : ∀ p, model = some p → ¬ LJ.Cli.Spec.Visible fs p)
    (level : Option Bool) (tty cache : Bool) (report : Option Str) :
    T.main level tty cache fs ⟨report, model, cmd⟩ = T.main level tty cache fs ⟨report, model, .diff srcs x⟩ := by
  have hex : ∀ p, model = some p → LJ.Cli.exists' fs p = false := by
    intro p hp
    by_contra hne
    have h := hm p hp
    simp only [LJ.Cli.exists', Bool.not_eq_false, Bool.and_eq_true, Bool.not_eq_true'] at hne
    exact h ⟨hne.1, Option.isSome_iff_exists.1 hne.2⟩
  have key : ∀ mode, T.run mode cache fs ⟨report, model, cmd⟩ = T.run mode cache fs ⟨report, model, .diff srcs x⟩ := by
    intro mode
    rw [alone_run hc]
    have hfi := fromInputs_contents hs mode
    have hin : (T.cli mode).fromInput (Input.fromString x) = .ok content := by
      show ofRes (T.fromInput (Input.fromString x)) = _
      rw [contentOf_iff.1 hx]; rfl
    have hdi : (T.cli mode).discover content = .ok cs := by
      show ofRes (T.discover content) = _
      rw [hd]; rfl
    have hg : LJ.Cli.getModel (T.cli mode) fs content model none = LJ.Cli.getModel (T.cli mode) fs content model (some (srcs.map Input.fromString)) := by
      have hmk : LJ.Cli.makeModel (T.cli mode) content none = LJ.Cli.makeModel (T.cli mode) content (some (srcs.map Input.fromString)) := by
        simp only [LJ.Cli.makeModel, LJ.Cli.findBaselines, hfi, hdi]
      unfold LJ.Cli.getModel
      cases model with
      | none => exact hmk
      | some p => simp only [hex p rfl, Bool.false_eq_true, if_false, hmk]
    have hp : LJ.Cli.process (T.cli mode) LJ.Cli.alone cache fs report model none (Input.fromString x) =
        LJ.Cli.process (T.cli mode) LJ.Cli.alone cache fs report model (some (srcs.map Input.fromString)) (Input.fromString x) := by
      simp only [LJ.Cli.process, hin, hg]
    show T.process mode cache fs _ none (Input.fromString x) = T.process mode cache fs _ (some (srcs.map Input.fromString)) (Input.fromString x)
    have ht : T.modelText mode fs model none content = T.modelText mode fs model (some (srcs.map Input.fromString)) content := by
      simp only [Tool.modelText, LJ.Cli.findBaselines, hfi, hdi]
    simp only [Tool.process, hp, Tool.printed, contentOf_iff.1 hx, ht]
  unfold Tool.main
  simp only [key]

/-- C115.  After `train b1 b2 ..` saved a model in the file `p`, the commands `path x` and `url x` with that model do what `diff b1 b2 .. x`
does without it: the result is the same, the same files are written, and the file of the model is kept.  `diff` prints what `train` prints
and then what the command prints, if `x` can be read (otherwise both fail at once); `train` prints nothing but progress on a terminal. -/
theorem C115_trained (hf : ∀ m b, T.encModel m = some b → T.decModel b = some m) {p : Str} (hroom : T.limit p = none) {srcs : List Str} {fs : Fs Str}
    {level : Option Bool} {tty cache : Bool} {report0 : Option Str} (ht : (T.main level tty cache fs ⟨report0, some p, .train srcs⟩).result = .ok ())
    {x : Str} {cmd : Command} (hc : Alone x cmd) {report : Option Str} (hr : ¬ InReport T cache report p) :
    let train := T.main level tty cache fs ⟨report0, some p, .train srcs⟩
    let used := T.main level tty cache train.fs ⟨report, some p, cmd⟩
    let diff := T.main level tty cache fs ⟨report, none, .diff srcs x⟩
    (∀ c, ContentOf T x c → diff.printed = train.printed ++ used.printed) ∧ ((¬ ∃ c, ContentOf T x c) → diff.printed = used.printed) ∧
      (level ≠ none ∨ tty = false → train.printed = []) ∧ used.result = diff.result ∧ used.model = diff.model ∧
      (∀ q, q ≠ p → used.fs.files q = diff.fs.files q) ∧ used.fs.files p = train.fs.files p ∧ train.fs.files p ≠ none := by
  have hl : level ≠ some false := by
    rintro rfl
    cases ht
  generalize hmode : outputMode level.isSome tty = mode
  have hmain : ∀ fs args, T.main level tty cache fs args =
      ⟨(T.run mode cache fs args).printed ++ errorLine mode (T.run mode cache fs args).result, (T.run mode cache fs args).result, (T.run mode cache fs args).model, (T.run mode cache fs args).fs⟩ := by
    intro fs args
    unfold Tool.main
    rw [if_neg hl, hmode]
  have hrun : T.run mode cache fs ⟨report0, some p, .train srcs⟩ = T.trainCommand mode fs (some p) srcs := rfl
  simp only [hmain, hrun] at ht ⊢
  simp only [Tool.trainCommand] at ht ⊢
  unfold LJ.Cli.trainCommand at ht ⊢
  simp only at ht ⊢
  cases hi : LJ.Cli.fromInputs (T.cli mode) (srcs.map Input.fromString) with
  | error e => simp only [hi] at ht; cases ht
  | ok cs =>
    simp only [hi] at ht ⊢
    cases hm : (T.cli mode).train cs with
    | error e => simp only [hm] at ht; cases ht
    | ok m =>
      simp only [hm] at ht ⊢
      cases he : T.encModel m with
      | none =>
        have : (T.cli mode).encModel m = .error .format := by show ofOption .format (T.encModel m) = _; rw [he]; rfl
        rw [this] at ht
        unfold LJ.Cli.saveGz at ht
        split at ht <;> cases ht
      | some b =>
        have hb : (T.cli mode).encModel m = .ok b := by show ofOption .format (T.encModel m) = _; rw [he]; rfl
        have hdec : (T.cli mode).decModel b = .ok m := by show ofOption .format (T.decModel b) = _; rw [hf m b he]; rfl
        have hsave : fs.denied p = false ∧ LJ.Cli.saveGz (T.cli mode) fs p ((T.cli mode).encModel m) = (.ok (), LJ.Cli.put (LJ.Cli.put fs p []) p b) := by
          rw [hb] at ht ⊢
          unfold LJ.Cli.saveGz LJ.Cli.create at ht ⊢
          by_cases hden : fs.denied p = true
          · rw [if_pos hden] at ht; cases ht
          · rw [if_neg hden] at ht ⊢
            cases hce : (T.cli mode).createErr p with
            | some e => simp only [hce] at ht; cases ht
            | none =>
              have hlim : (T.cli mode).limit p = none := hroom
              simp only [LJ.Cli.writeGz, LJ.Cli.written, hlim]
              refine ⟨by simpa using hden, ?_⟩
              rw [if_neg (by omega)]
        rw [hsave.2]
        simp only
        rw [alone_run hc]
        have hal := LJ.Cli.process_alike (w := T.cli mode) (p := p) (x := b) (a := LJ.Cli.put (LJ.Cli.put fs p []) p b) (b := fs)
          ⟨rfl, fun q hq => by simp only [LJ.Cli.put]; rw [if_neg hq, if_neg hq]⟩ (by simp [LJ.Cli.put]) hsave.1 (cache := cache) (report := report)
          (by
            rintro (h | ⟨h1, f, h2, h3⟩)
            · exact hr (.inl h)
            · exact hr (.inr ⟨h1, f, h2, h3⟩)) hdec hi hm (Input.fromString x)
        have hbut : LJ.Cli.But p (LJ.Cli.put (LJ.Cli.put fs p []) p b) fs := ⟨rfl, fun q hq => by simp only [LJ.Cli.put]; rw [if_neg hq, if_neg hq]⟩
        have hquiet : level ≠ none ∨ tty = false → mode ≠ .fastTerminal := by
          rintro h rfl
          unfold outputMode at hmode
          cases level with
          | none =>
            rcases h with h | h
            · exact h rfl
            · rw [h] at hmode; cases hmode
          | some _ => cases hmode
        have htrain : T.trainingText mode (some p) srcs = T.trainText mode cs := by
          unfold Tool.trainingText
          rw [hi]
        have hmodel : ∀ c, T.modelText mode fs none (some (srcs.map Input.fromString)) c = T.trainText mode cs := by
          intro c
          unfold Tool.modelText LJ.Cli.findBaselines
          simp only [hi]
          rfl
        have hex : LJ.Cli.exists' (LJ.Cli.put (LJ.Cli.put fs p []) p b) p = true := by
          have : (LJ.Cli.put (LJ.Cli.put fs p []) p b).denied p = false := hsave.1
          simp only [LJ.Cli.exists', this, Bool.not_false, Bool.true_and]
          simp [LJ.Cli.put]
        have hused : ∀ c, T.modelText mode (LJ.Cli.put (LJ.Cli.put fs p []) p b) (some p) none c = [] := by
          intro c
          unfold Tool.modelText
          rw [if_pos (by simpa using hex)]
        have hinspect : ∀ m c, T.inspectText mode cache (LJ.Cli.saveModel (T.cli mode) LJ.Cli.alone (LJ.Cli.put (LJ.Cli.put fs p []) p b) (some p) m).2 report m c =
            T.inspectText mode cache (LJ.Cli.saveModel (T.cli mode) LJ.Cli.alone fs none m).2 report m c := by
          intro m c
          have : (LJ.Cli.saveModel (T.cli mode) LJ.Cli.alone (LJ.Cli.put (LJ.Cli.put fs p []) p b) (some p) m).2 = LJ.Cli.put (LJ.Cli.put fs p []) p b := by
            simp [LJ.Cli.saveModel, hex]
          rw [this]
          show _ = T.inspectText mode cache fs report m c
          unfold Tool.inspectText
          cases report with
          | none => rfl
          | some file =>
            have hraw : ∀ r, (LJ.Cli.saveRaw (T.cli mode) cache (LJ.Cli.put (LJ.Cli.put fs p []) p b) file r).1 = (LJ.Cli.saveRaw (T.cli mode) cache fs file r).1 := by
              intro r
              unfold LJ.Cli.saveRaw
              cases hcache : cache with
              | false => rfl
              | true =>
                exact (LJ.Cli.saveGz_alike (x := b) hbut (by simp [LJ.Cli.put])
                  (fun e => hr (.inr ⟨hcache, file, rfl, e.symm⟩)) _).result
            unfold Tool.writingText
            simp only [hraw]
        have hresult : (T.process mode cache (LJ.Cli.put (LJ.Cli.put fs p []) p b) ⟨report, some p, cmd⟩ none (Input.fromString x)).result =
            (T.process mode cache fs ⟨report, none, .diff srcs x⟩ (some (srcs.map Input.fromString)) (Input.fromString x)).result := hal.1
        have hdiff : T.run mode cache fs ⟨report, none, .diff srcs x⟩ =
          T.process mode cache fs ⟨report, none, .diff srcs x⟩ (some (srcs.map Input.fromString)) (Input.fromString x) := rfl
        rw [hdiff]
        refine ⟨fun c hcon => ?_, fun hcon => ?_, fun h => ?_, hal.1, hal.2.1, hal.2.2.1.files, ?_, by simp [LJ.Cli.put]⟩
        · rw [hresult, ← List.append_assoc]
          congr 1
          simp only [Tool.process, Tool.printed, contentOf_iff.1 hcon, hmodel, hused, hal.2.1, htrain, errorLine, List.append_nil, List.nil_append]
          congr 1
          cases (LJ.Cli.process (T.cli mode) LJ.Cli.alone cache fs report none (some (srcs.map Input.fromString)) (Input.fromString x)).model with
          | none => rfl
          | some m => exact (hinspect m c).symm
        · rw [hresult]
          congr 1
          simp only [Tool.process, Tool.printed]
          cases hfi : T.fromInput (Input.fromString x) with
          | ok c => exact absurd ⟨c, contentOf_iff.2 hfi⟩ hcon
          | err => rfl
          | panic => rfl
        · rw [htrain, trainText_none (hquiet h)]
          rfl
        · exact hal.2.2.2.trans (by simp [LJ.Cli.put])

end LJ.Program

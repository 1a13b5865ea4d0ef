/-
C97: a command ends without a panic.  C98: a comparison has something to compare with.  C99: the list of the groups.
-/
import Verif.Program.Spec
import Verif.Program.Texts
import Verif.Cli.Props
import Verif.Report.Props
import Verif.Output.Live
namespace LJ.Program
open LJ.Process (Str Bytes Ev)
open LJ.Paths (Input Res)
open LJ.Output (LiveLabels OutputMode println decimal)
open LJ.Cli (Fs)
open Spec (Calm Orders LinearLe sourcesOf Compares Missing NoModelFile)
variable {C S N D E ε : Type} [DecidableEq N] {T : Tool C S N D E ε}

/-! ### C97: no panic -/

/-- the errors of the files, and those of the functions used -/
structure Errors {P I C M R Er : Type} (w : LJ.Cli.World P I C M R Er) (Q : Er → Prop) : Prop where
  fromInput : ∀ i e, w.fromInput i = .error e → Q e
  discover : ∀ c e, w.discover c = .error e → Q e
  train : ∀ cs e, w.train cs = .error e → Q e
  report : ∀ m c e, w.report m c = .error e → Q e
  live : ∀ c m e, w.live c m = .error e → Q e
  render : ∀ r e, w.render r = .error e → Q e
  encModel : ∀ m e, w.encModel m = .error e → Q e
  decModel : ∀ b e, w.decModel b = .error e → Q e
  encReport : ∀ r e, w.encReport r = .error e → Q e
  createErr : ∀ p e, w.createErr p = some e → Q e
  notFound : Q w.notFound
  permission : Q w.permission
  noSpace : Q w.noSpace
  ambiguous : Q w.ambiguous
  noModelPath : Q w.noModelPath

section
variable {P I C M R Er : Type} {w : LJ.Cli.World P I C M R Er} {Q : Er → Prop}

variable [DecidableEq P] in
theorem create_error (h : Errors w Q) {fs : Fs P} {p : P} {e : Er} (he : LJ.Cli.create w fs p = .error e) : Q e := by
  unfold LJ.Cli.create at he
  split at he
  · cases he; exact h.permission
  · split at he
    · rename_i e' h'
      cases he; exact h.createErr p _ h'
    · cases he

variable [DecidableEq P] in
theorem saveGz_error (h : Errors w Q) {fs : Fs P} {p : P} {enc : Except Er Bytes} (henc : ∀ e, enc = .error e → Q e) {e : Er}
    (he : (LJ.Cli.saveGz w fs p enc).1 = .error e) : Q e := by
  unfold LJ.Cli.saveGz at he
  split at he
  · rename_i e' h'
    cases he; exact create_error h h'
  · split at he
    · cases he; exact henc _ rfl
    · unfold LJ.Cli.writeGz at he
      simp only at he
      split at he
      · cases he; exact h.noSpace
      · cases he

variable [DecidableEq P] in
theorem writeFile_error (h : Errors w Q) {fs : Fs P} {p : P} {b : Bytes} {e : Er} (he : (LJ.Cli.writeFile w fs p b).1 = .error e) : Q e := by
  unfold LJ.Cli.writeFile at he
  split at he
  · rename_i e' h'
    cases he; exact create_error h h'
  · simp only at he
    split at he
    · cases he; exact h.noSpace
    · cases he

theorem fromInputs_error (h : Errors w Q) {is : List I} {e : Er} (he : LJ.Cli.fromInputs w is = .error e) : Q e := by
  induction is generalizing e with
  | nil => cases he
  | cons i is ih =>
    unfold LJ.Cli.fromInputs at he
    split at he
    · rename_i e' h'
      cases he; exact h.fromInput _ _ h'
    · split at he
      · rename_i e' h'
        cases he; exact ih h'
      · cases he

theorem makeModel_error (h : Errors w Q) {content : C} {bs : Option (List I)} {e : Er} (he : LJ.Cli.makeModel w content bs = .error e) : Q e := by
  unfold LJ.Cli.makeModel LJ.Cli.findBaselines at he
  cases bs with
  | none =>
    simp only at he
    split at he
    · rename_i e' h'
      cases he; exact h.discover _ _ h'
    · exact h.train _ _ he
  | some is =>
    simp only at he
    split at he
    · rename_i e' h'
      cases he; exact fromInputs_error h h'
    · exact h.train _ _ he

theorem getModel_error (h : Errors w Q) {fs : Fs P} {content : C} {path : Option P} {bs : Option (List I)} {e : Er}
    (he : LJ.Cli.getModel w fs content path bs = .error e) : Q e := by
  unfold LJ.Cli.getModel at he
  split at he
  · split at he
    · unfold LJ.Cli.existingModel at he
      split at he
      · unfold LJ.Cli.load at he
        split at he
        · rename_i e' h'
          cases he
          unfold LJ.Cli.readFile at h'
          split at h'
          · cases h'; exact h.permission
          · split at h'
            · cases h'
            · cases h'; exact h.notFound
        · exact h.decModel _ _ he
      · cases he; exact h.ambiguous
    · exact makeModel_error h he
  · exact makeModel_error h he

variable [DecidableEq P] in
theorem inspect_error (h : Errors w Q) {cache : Bool} {fs : Fs P} {report : Option P} {m : M} {content : C} {e : Er}
    (he : (LJ.Cli.inspect w cache fs report m content).1 = .error e) : Q e := by
  unfold LJ.Cli.inspect at he
  split at he
  · exact h.live _ _ _ he
  · unfold LJ.Cli.writeReport at he
    split at he
    · rename_i e' h'
      cases he; exact h.report _ _ _ h'
    · split at he
      · rename_i e' _ h'
        cases he
        unfold LJ.Cli.saveRaw at h'
        split at h'
        · exact saveGz_error h (h.encReport _) (congrArg Prod.fst h')
        · cases h'
      · unfold LJ.Cli.writePage at he
        split at he
        · rename_i e' h'
          cases he; exact h.render _ _ h'
        · exact writeFile_error h he

variable [DecidableEq P] in
/-- an error of `process` is an error of what it uses -/
theorem process_error (h : Errors w Q) {cache : Bool} {fs : Fs P} {report path : Option P} {bs : Option (List I)} {input : I} {e : Er}
    (he : (LJ.Cli.process w LJ.Cli.alone cache fs report path bs input).result = .error e) : Q e := by
  unfold LJ.Cli.process at he
  split at he
  · rename_i e' h'
    cases he; exact h.fromInput _ _ h'
  · split at he
    · rename_i e' h'
      cases he; exact getModel_error h h'
    · split at he
      · rename_i e' _ h'
        cases he
        unfold LJ.Cli.saveModel at h'
        split at h'
        · split at h'
          · cases h'
          · exact saveGz_error h (h.encModel _) (congrArg Prod.fst h')
        · cases h'
      · exact inspect_error h he

variable [DecidableEq P] in
theorem trainCommand_error (h : Errors w Q) {fs : Fs P} {path : Option P} {is : List I} {e : Er}
    (he : (LJ.Cli.trainCommand w fs path is).1 = .error e) : Q e := by
  unfold LJ.Cli.trainCommand at he
  split at he
  · cases he; exact h.noModelPath
  · split at he
    · rename_i e' h'
      cases he; exact fromInputs_error h h'
    · split at he
      · rename_i e' h'
        cases he; exact h.train _ _ h'
      · exact saveGz_error h (h.encModel _) he
end

theorem ofRes_panic {α : Type} {x : Res α} (h : x ≠ .panic) : ofRes (C := C) (E := E) x ≠ .error .panic := by
  cases x with
  | ok x => intro h'; cases h'
  | err => intro h'; cases h'
  | panic => exact absurd rfl h

theorem ofOption_panic {α : Type} {p : Problem C E} {x : Option α} (h : x ≠ none ∨ p ≠ .panic) : ofOption p x ≠ .error .panic := by
  cases x with
  | some x => intro h'; cases h'
  | none =>
    intro h'
    rcases h with h | h
    · exact h rfl
    · cases h'; exact h rfl

theorem train_panic (cs : List C) : T.train cs ≠ .error .panic := by
  unfold Tool.train
  split
  · intro h; cases h
  · intro h; cases h

theorem report_panic (hc : Calm T) (ho : Orders T) (m : LJ.Report.Model C S N) (content : C) : T.report m content ≠ .error .panic := by
  obtain ⟨res, h, _⟩ := LJ.Report.report_total hc.search m T.reportOrder ho.report content
  unfold Tool.report
  rw [h]
  cases res <;> (intro h'; cases h')

theorem live_panic (hc : Calm T) (mode : OutputMode) (content : C) (m : LJ.Report.Model C S N) : (T.liveRun mode content m).2 ≠ .error .panic := by
  unfold Tool.liveRun
  by_cases hu : LJ.Report.Spec.Usable T.logs.valid (T.logs.list content)
  · obtain ⟨out, h, _⟩ := LJ.Output.C81_partial hc.search T.live mode m hu
    rw [h]
    intro h'; cases h'
  · have : ∃ e, LJ.Report.getSources T.logs content = .error e := by
      rcases LJ.Report.getSources_err hu with ⟨e, _, h⟩ | ⟨_, _, h⟩
      · exact ⟨_, h⟩
      · exact ⟨_, h⟩
    obtain ⟨e, he⟩ := this
    unfold LJ.Output.processLive
    rw [he]
    intro h'; cases h'

theorem errors_calm (hc : Calm T) (ho : Orders T) (mode : OutputMode) : Errors (T.cli mode) (· ≠ .panic) where
  fromInput i e h := by rintro rfl; exact ofRes_panic (hc.input i) h
  discover c e h := by rintro rfl; exact ofRes_panic (hc.discover c) h
  train cs e h := by rintro rfl; exact train_panic cs h
  report m c e h := by rintro rfl; exact report_panic hc ho m c h
  live c m e h := by rintro rfl; exact live_panic hc mode c m h
  render r e h := by rintro rfl; exact ofOption_panic (.inl (hc.page r)) h
  encModel m e h := by rintro rfl; exact ofOption_panic (.inr (by intro h; cases h)) h
  decModel m e h := by rintro rfl; exact ofOption_panic (.inr (by intro h; cases h)) h
  encReport m e h := by rintro rfl; exact ofOption_panic (.inr (by intro h; cases h)) h
  createErr p e h := by
    show e ≠ .panic
    change (if T.noCreate p then some Problem.create else none) = some e at h
    split at h
    · cases h; intro h; cases h
    · cases h
  notFound h := by cases h
  permission h := by cases h
  noSpace h := by cases h
  ambiguous h := by cases h
  noModelPath h := by cases h

/-- C97 in full: a command ends without a panic, when nothing it uses panics. -/
def C97 : Prop :=
  ∀ (C S N D E ε : Type) [DecidableEq N] (T : Tool C S N D E ε), Calm T → Orders T → ∀ (mode : OutputMode) (cache : Bool) (fs : Fs Str) (args : Args),
    (T.run mode cache fs args).result ≠ .error .panic

/-- The commands which are implemented end without a panic, when nothing they use panics. -/
theorem C97_partial (hc : Calm T) (ho : Orders T) (mode : OutputMode) (cache : Bool) (fs : Fs Str) {args : Args} (hm : ¬ Missing args.command) :
    (T.run mode cache fs args).result ≠ .error .panic := by
  intro h
  have he := errors_calm hc ho mode
  unfold Tool.run at h
  split at h
  · exact process_error he h rfl
  · exact process_error he h rfl
  · rename_i e; exact hm (by rw [e]; trivial)
  · rename_i e; exact hm (by rw [e]; trivial)
  · exact process_error he h rfl
  · exact trainCommand_error he h rfl
  · rename_i ds _
    have := hc.test ds
    change testResult (T.test ds).2 = _ at h
    cases hx : (T.test ds).2 with
    | none => exact this hx
    | some b => rw [hx] at h; cases b <;> cases h
  · rename_i target _
    change (T.debugGroups _).2 = _ at h
    unfold Tool.debugGroups at h
    split at h
    · rename_i e' h'
      cases h; exact ofRes_panic (hc.input _) h'
    · split at h <;> cases h
  · cases h
  · cases h
  · rename_i path _
    change (T.debugIterator _).2 = _ at h
    unfold Tool.debugIterator at h
    split at h
    · rename_i e' h'
      cases h; exact ofRes_panic (hc.input _) h'
    · split at h
      · cases h
      · rename_i sources _
        unfold Tool.debugFirst at h
        split at h
        · cases h
        · split at h <;> cases h

/-- The commands which are not implemented panic, whatever their arguments. -/
theorem C97_missing (mode : OutputMode) (cache : Bool) (fs : Fs Str) {args : Args} (hm : Missing args.command) :
    (T.run mode cache fs args).result = .error .panic ∧ (T.run mode cache fs args).printed = [] ∧ (T.run mode cache fs args).fs = fs := by
  unfold Tool.run
  cases h : args.command <;> rw [h] at hm <;> first | exact ⟨rfl, rfl, rfl⟩ | exact absurd hm id

/-! ### C98: a comparison has baselines -/

/-- C98 in full: a comparison which succeeds without a model file used a model which knows some source. -/
def C98 : Prop :=
  ∀ (C S N D E ε : Type) [DecidableEq N] (T : Tool C S N D E ε), Calm T → Orders T → (∀ c, T.discover c ≠ .ok []) →
    ∀ (mode : OutputMode) (cache : Bool) (fs : Fs Str) (args : Args), Compares args.command → NoModelFile fs args.model →
      (T.run mode cache fs args).result = .ok () → ∃ m, (T.run mode cache fs args).model = some m ∧ ∃ n i, (n, i) ∈ m.indexes ∧ i.sources ≠ []

theorem fromInputs_length {is : List Input} {cs : List C} {mode : OutputMode} (h : LJ.Cli.fromInputs (T.cli mode) is = .ok cs) : cs.length = is.length := by
  induction is generalizing cs with
  | nil => cases h; rfl
  | cons i is ih =>
    unfold LJ.Cli.fromInputs at h
    split at h
    · cases h
    · split at h
      · cases h
      · rename_i h'
        cases h
        simp [ih h']

/-- a model trained on some content knows a source -/
theorem train_some (ho : Orders T) {cs : List C} (hne : cs ≠ []) {m : LJ.Report.Model C S N} (h : T.train cs = .ok m) :
    m.baselines = cs ∧ (∀ c ∈ cs, ∀ s ∈ sourcesOf T c, ∃ n i, (n, i) ∈ m.indexes ∧ s ∈ i.sources) ∧ ∃ n i, (n, i) ∈ m.indexes ∧ i.sources ≠ [] := by
  have ht : LJ.Report.train T.logs T.trainOrder cs = .ok m := by
    unfold Tool.train at h
    split at h
    · rename_i h'; cases h; exact h'
    · cases h
  obtain ⟨g1, g2⟩ := LJ.Report.C75_train (w := T.logs) ho.train cs
  obtain ⟨hu, hopen⟩ := g1.1 ⟨m, ht⟩
  obtain ⟨hb, hnd, hi⟩ := g2 m ht
  have hall : ∀ c ∈ cs, ∀ s ∈ sourcesOf T c, ∃ n i, (n, i) ∈ m.indexes ∧ s ∈ i.sources := by
    intro c hc s hs
    have hmem : s ∈ (cs.flatMap fun c => LJ.Report.Spec.validSources T.logs.valid (T.logs.list c)).filter fun x => T.logs.nameOf x = T.logs.nameOf s := by
      rw [List.mem_filter]
      exact ⟨List.mem_flatMap.2 ⟨c, hc, hs⟩, by simp⟩
    have hti : ∀ ss : List S, (∀ s ∈ ss, ∃ r, T.logs.openSource s = .ok r) → ∃ i, LJ.Report.trainIndex T.logs ss = .ok i ∧ i.sources = ss := by
      intro ss hss
      refine ⟨_, LJ.Report.trainIndex_ok _ hss, rfl⟩
    obtain ⟨i, hi1, hi2⟩ := hti ((cs.flatMap fun c => LJ.Report.Spec.validSources T.logs.valid (T.logs.list c)).filter fun x => T.logs.nameOf x = T.logs.nameOf s) (by
      intro x hx
      obtain ⟨c', hc', hx'⟩ := List.mem_flatMap.1 (List.mem_filter.1 hx).1
      exact hopen c' hc' x hx')
    exact ⟨T.logs.nameOf s, i, (hi _ _).2 ⟨by rw [hi2]; exact List.ne_nil_of_mem hmem, hi2, by rw [hi2]; exact hi1⟩, by rw [hi2]; exact hmem⟩
  refine ⟨hb, hall, ?_⟩
  obtain ⟨c, hc⟩ := List.exists_mem_of_ne_nil _ hne
  obtain ⟨s, hs⟩ := List.exists_mem_of_ne_nil _ (hu c hc).2
  obtain ⟨n, i, h1, h2⟩ := hall c hc s hs
  exact ⟨n, i, h1, List.ne_nil_of_mem h2⟩

omit [DecidableEq N] in
/-- the model of a run -/
theorem process_model {w : LJ.Cli.World Str Input C (LJ.Report.Model C S N) (LJ.Report.Report C S N D E ε) (Problem C E)} {cache : Bool} {fs : Fs Str}
    {report path : Option Str} {bs : Option (List Input)} {input : Input}
    (h : (LJ.Cli.process w LJ.Cli.alone cache fs report path bs input).result = .ok ()) :
    ∃ m, (LJ.Cli.process w LJ.Cli.alone cache fs report path bs input).model = some m := by
  unfold LJ.Cli.process at h ⊢
  split at h
  · cases h
  · split at h
    · cases h
    · split at h
      · cases h
      · exact ⟨_, rfl⟩

/-- A comparison which succeeds without a model file used a model which knows some source of each baseline, when
`diff` has at least one source. -/
theorem C98_partial (ho : Orders T) (hd : ∀ c, T.discover c ≠ .ok []) (mode : OutputMode) (cache : Bool) (fs : Fs Str) {args : Args}
    (hcmp : Compares args.command) (hsrc : ∀ dst, args.command ≠ .diff [] dst) (hmf : NoModelFile fs args.model)
    (h : (T.run mode cache fs args).result = .ok ()) :
    ∃ m, (T.run mode cache fs args).model = some m ∧ m.baselines ≠ [] ∧
      (∀ c ∈ m.baselines, ∀ s ∈ sourcesOf T c, ∃ n i, (n, i) ∈ m.indexes ∧ s ∈ i.sources) ∧ ∃ n i, (n, i) ∈ m.indexes ∧ i.sources ≠ [] := by
  have key : ∀ bs input, (∀ is, bs = some is → is ≠ []) →
      (T.process mode cache fs args bs input).result = .ok () → ∃ m, (T.process mode cache fs args bs input).model = some m ∧ m.baselines ≠ [] ∧
      (∀ c ∈ m.baselines, ∀ s ∈ sourcesOf T c, ∃ n i, (n, i) ∈ m.indexes ∧ s ∈ i.sources) ∧ ∃ n i, (n, i) ∈ m.indexes ∧ i.sources ≠ [] := by
    intro bs input hbs h
    obtain ⟨m, hm⟩ := process_model h
    refine ⟨m, hm, ?_⟩
    obtain ⟨content, _, hch⟩ := LJ.Cli.C67_model _ _ _ _ _ _ _ hm
    have fin : ∀ cs, cs ≠ [] → T.train cs = .ok m → m.baselines ≠ [] ∧
        (∀ c ∈ m.baselines, ∀ s ∈ sourcesOf T c, ∃ n i, (n, i) ∈ m.indexes ∧ s ∈ i.sources) ∧ ∃ n i, (n, i) ∈ m.indexes ∧ i.sources ≠ [] := by
      intro cs hne ht
      obtain ⟨e, a, b⟩ := train_some ho hne ht
      rw [e]
      exact ⟨hne, a, b⟩
    have hg := LJ.Cli.getModel_iff.2 hch
    unfold LJ.Cli.getModel at hg
    have hmake : LJ.Cli.makeModel (T.cli mode) content bs = .ok m := by
      split at hg
      · rename_i p hp
        have : LJ.Cli.exists' fs p = false := by
          cases hx : LJ.Cli.exists' fs p with
          | false => rfl
          | true => exact absurd (LJ.Cli.exists_iff.1 hx) (hmf p hp)
        rw [this] at hg
        exact hg
      · exact hg
    unfold LJ.Cli.makeModel LJ.Cli.findBaselines at hmake
    cases bs with
    | none =>
      simp only at hmake
      split at hmake
      · cases hmake
      · rename_i cs hcs
        refine fin cs ?_ hmake
        rintro rfl
        have := hd content
        change ofRes (T.discover content) = _ at hcs
        cases hx : T.discover content with
        | ok l => rw [hx] at hcs; cases hcs; exact this hx
        | err => rw [hx] at hcs; cases hcs
        | panic => rw [hx] at hcs; cases hcs
    | some is =>
      simp only at hmake
      split at hmake
      · cases hmake
      · rename_i cs hcs
        refine fin cs ?_ hmake
        rintro rfl
        have := fromInputs_length hcs
        exact hbs is rfl (List.length_eq_zero_iff.1 this.symm)
  unfold Tool.run at h ⊢
  split at h
  · exact key _ _ (by intro is h; cases h) h
  · exact key _ _ (by intro is h; cases h) h
  · cases h
  · cases h
  · rename_i src dst e
    refine key _ _ ?_ h
    rintro is h rfl
    have : src = [] := List.map_eq_nil_iff.1 (Option.some.inj h)
    exact hsrc dst (by rw [e, this])
  all_goals (rename_i e; rw [e] at hcmp; exact absurd hcmp id)

/-- `diff` without sources: when the target can be read, the command succeeds; the model used has no index, and each source of the
target is said to have no baselines. -/
theorem C98_no_source (hc : Calm T) (mode : OutputMode) (cache : Bool) (fs : Fs Str) {dst : Str} {content : C}
    (hi : T.fromInput (Input.fromString dst) = .ok content) (hu : LJ.Report.Spec.Usable T.logs.valid (T.logs.list content))
    (ho : Orders T) :
    let d := T.run mode cache fs ⟨none, none, .diff [] dst⟩
    d.result = .ok () ∧ (∃ m, d.model = some m ∧ m.indexes = [] ∧ m.baselines = []) ∧ d.fs = fs ∧
      ∀ s ∈ sourcesOf T content, " -> No baselines for ".toList ++ T.live.source s ++ ['\n'] ∈ d.printed := by
  have hnil : T.trainOrder [] = [] := List.perm_nil.1 (ho.train [])
  have ht : T.train [] = .ok ⟨[], []⟩ := by
    have : LJ.Report.train T.logs T.trainOrder ([] : List C) = .ok ⟨[], []⟩ := by
      unfold LJ.Report.train
      simp only [LJ.Report.groupSources, LJ.Report.groupInto, hnil, LJ.Report.trainGroups]
    unfold Tool.train
    rw [this]
  obtain ⟨out, hout, hacc⟩ := LJ.Output.C81_partial hc.search T.live mode (⟨[], []⟩ : LJ.Report.Model C S N) hu
  have hlive : T.liveRun mode content ⟨[], []⟩ = (out, .ok ()) := by unfold Tool.liveRun; rw [hout]
  have hrun : LJ.Cli.process (T.cli mode) LJ.Cli.alone cache fs none none (some ([] : List Input)) (Input.fromString dst) = ⟨.ok (), some ⟨[], []⟩, fs⟩ := by
    have e1 : (T.cli mode).fromInput (Input.fromString dst) = .ok content := by
      show ofRes _ = _
      rw [hi]; rfl
    have e2 : (T.cli mode).train [] = .ok ⟨[], []⟩ := ht
    have e3 : (T.cli mode).live content ⟨[], []⟩ = .ok () := congrArg Prod.snd hlive
    unfold LJ.Cli.process LJ.Cli.getModel LJ.Cli.makeModel LJ.Cli.findBaselines LJ.Cli.fromInputs
    simp only [e1, e2, LJ.Cli.saveModel, LJ.Cli.inspect, LJ.Cli.alone, id, e3]
  have hd : T.run mode cache fs ⟨none, none, .diff [] dst⟩ = ⟨out, .ok (), some ⟨[], []⟩, fs⟩ := by
    unfold Tool.run Tool.process
    simp only [List.map_nil, hrun]
    have ht' : T.modelText mode fs none (some []) content = [] := by
      unfold Tool.modelText LJ.Cli.findBaselines LJ.Cli.fromInputs Tool.trainText
      simp [LJ.Report.groupSources, LJ.Report.groupInto, hnil, Tool.loading]
    unfold Tool.printed
    simp only [hi, ht', Tool.inspectText, hlive, List.nil_append]
  simp only [hd]
  refine ⟨trivial, ⟨_, rfl, rfl, rfl⟩, trivial, fun s hs => ?_⟩
  obtain ⟨pre, post, e⟩ := List.append_of_mem hs
  have := hacc pre s post e (by intro t _ h; simp [LJ.Report.lookupOrSingle] at h)
  unfold LJ.Output.Spec.Accounted at this
  exact this

/-! ### C99: the list of the groups -/

/-- a partition in the order of the names is a list of names -/
theorem sorted_partition {le : N → N → Bool} (hle : LinearLe le) {name : S → N} {xs : List S} {g : List (N × List S)}
    (hp : LJ.Report.Spec.IsPartition name xs g) :
    ∃ names : List N, names.Pairwise (fun a b => le a b = true ∧ a ≠ b) ∧ (∀ n, n ∈ names ↔ ∃ s ∈ xs, name s = n) ∧
      g.mergeSort (fun x y => le x.1 y.1) = names.map fun n => (n, xs.filter fun s => name s = n) := by
  have hperm := List.mergeSort_perm g (fun x y => le x.1 y.1)
  have hsort : (g.mergeSort fun x y => le x.1 y.1).Pairwise fun x y => le x.1 y.1 = true :=
    List.pairwise_mergeSort (fun a b c => hle.trans a.1 b.1 c.1) (fun a b => by simpa using hle.total a.1 b.1) g
  generalize g.mergeSort (fun x y => le x.1 y.1) = l at hperm hsort ⊢
  have hmem : ∀ n ss, (n, ss) ∈ l ↔ ss ≠ [] ∧ ss = xs.filter fun s => name s = n := fun n ss => by rw [hperm.mem_iff]; exact hp.2 n ss
  have hnd : (l.map Prod.fst).Nodup := (hperm.map Prod.fst).nodup_iff.2 hp.1
  refine ⟨l.map Prod.fst, ?_, ?_, ?_⟩
  · have h1 : (l.map Prod.fst).Pairwise (fun a b => le a b = true) := List.pairwise_map.2 hsort
    exact h1.and hnd
  · intro n
    rw [List.mem_map]
    constructor
    · rintro ⟨⟨k, ss⟩, h, rfl⟩
      obtain ⟨h1, h2⟩ := (hmem _ _).1 h
      obtain ⟨s, hs⟩ := List.exists_mem_of_ne_nil _ h1
      rw [h2, List.mem_filter, decide_eq_true_eq] at hs
      exact ⟨s, hs.1, hs.2⟩
    · rintro ⟨s, hs, rfl⟩
      refine ⟨(name s, _), (hmem _ _).2 ⟨List.ne_nil_of_mem (a := s) ?_, rfl⟩, rfl⟩
      rw [List.mem_filter]
      exact ⟨hs, by simp⟩
  · rw [List.map_map]
    conv => lhs; rw [← List.map_id l]
    refine List.map_congr_left fun x hx => ?_
    obtain ⟨n, ss⟩ := x
    obtain ⟨_, h2⟩ := (hmem n ss).1 hx
    show (n, ss) = _
    rw [h2]
    rfl

/-- The list of the groups of a target: one line for each name of a source, in the order of the names and without repetition, with the
sources of this name. -/
theorem C99_groups (hle : LinearLe T.le) (ho : Orders T) (mode : OutputMode) (cache : Bool) (fs : Fs Str) (report model : Option Str) {target : Str}
    {content : C} (hi : T.fromInput (Input.fromString target) = .ok content) (hu : LJ.Report.Spec.Usable T.logs.valid (T.logs.list content)) :
    let d := T.run mode cache fs ⟨report, model, .debugGroups target⟩
    ∃ names : List N, names.Pairwise (fun a b => T.le a b = true ∧ a ≠ b) ∧ (∀ n, n ∈ names ↔ ∃ s ∈ sourcesOf T content, T.logs.nameOf s = n) ∧
      d.printed = names.map (fun n => T.showName n ++ ": ".toList ++ T.showSources ((sourcesOf T content).filter fun s => T.logs.nameOf s = n) ++ ['\n']) ∧
      d.result = .ok () ∧ d.fs = fs := by
  obtain ⟨g, hg, hp⟩ := LJ.Report.C35_groups (w := T.logs) (cs := [content]) (by
    intro c hc; rw [List.mem_singleton] at hc; subst hc; exact hu)
  simp only [List.flatMap_cons, List.flatMap_nil, List.append_nil] at hp
  have hp' : LJ.Report.Spec.IsPartition T.logs.nameOf (sourcesOf T content) (T.groupOrder g) :=
    ⟨((ho.group g).map Prod.fst).nodup_iff.2 hp.1, fun n ss => by rw [(ho.group g).mem_iff]; exact hp.2 n ss⟩
  obtain ⟨names, h1, h2, h3⟩ := sorted_partition hle hp'
  have hrun : T.debugGroups (Input.fromString target) = (T.groupLines g, .ok ()) := by
    unfold Tool.debugGroups
    rw [hi]
    simp only [ofRes, hg]
  refine ⟨names, h1, h2, ?_, ?_, rfl⟩
  · show (T.debugGroups (Input.fromString target)).1 = _
    rw [hrun]
    show T.groupLines g = _
    unfold Tool.groupLines
    rw [h3, List.map_map]
    rfl
  · show (T.debugGroups (Input.fromString target)).2 = _
    rw [hrun]

/-- The list of the groups is the same for all the orders of the hash map. -/
theorem C99_order (hle : LinearLe T.le) {o : List (N × List S) → List (N × List S)} (h1 : ∀ g, (o g).Perm g) (h2 : ∀ g, (T.groupOrder g).Perm g)
    (mode : OutputMode) (cache : Bool) (fs : Fs Str) (args : Args) :
    ({ T with groupOrder := o } : Tool C S N D E ε).run mode cache fs args = T.run mode cache fs args := by
  have key : ∀ input, ({ T with groupOrder := o } : Tool C S N D E ε).debugGroups input = T.debugGroups input := by
    intro input
    unfold Tool.debugGroups
    cases hx : ofRes (C := C) (E := E) (T.fromInput input) with
    | error e => rfl
    | ok content =>
      simp only
      cases hg : LJ.Report.groupSources T.logs [content] with
      | error e => rfl
      | ok g =>
        have hp := (LJ.Report.groupSources_ok_iff hg).2
        have hs : ∀ l : List (N × List S), l.Perm g → (l.map Prod.fst).Nodup →
            (l.mergeSort fun x y => T.le x.1 y.1) = g.mergeSort fun x y => T.le x.1 y.1 := by
          intro l hl hnd
          have sort : ∀ l : List (N × List S), (l.mergeSort fun x y => T.le x.1 y.1).Pairwise fun x y => T.le x.1 y.1 = true := fun l =>
            List.pairwise_mergeSort (fun a b c => hle.trans a.1 b.1 c.1) (fun a b => by simpa using hle.total a.1 b.1) l
          have pl := List.mergeSort_perm l (fun x y => T.le x.1 y.1)
          have pg := List.mergeSort_perm g (fun x y => T.le x.1 y.1)
          refine (pl.trans (hl.trans pg.symm)).eq_of_pairwise ?_ (sort l) (sort g)
          rintro ⟨n, x⟩ ⟨k, y⟩ ha hb e1 e2
          have hnk : n = k := hle.antisymm _ _ e1 e2
          subst hnk
          have ha' := hl.mem_iff.1 (pl.mem_iff.1 ha)
          have hb' := pg.mem_iff.1 hb
          rw [((hp.2 n x).1 ha').2, ((hp.2 n y).1 hb').2]
        have n1 : ((o g).map Prod.fst).Nodup := ((h1 g).map Prod.fst).nodup_iff.2 hp.1
        have n2 : ((T.groupOrder g).map Prod.fst).Nodup := ((h2 g).map Prod.fst).nodup_iff.2 hp.1
        have : ({ T with groupOrder := o } : Tool C S N D E ε).groupLines g = T.groupLines g := by
          unfold Tool.groupLines
          show List.map _ ((o g).mergeSort _) = List.map _ ((T.groupOrder g).mergeSort _)
          rw [hs _ (h1 g) n1, hs _ (h2 g) n2]
        simp only [this]
  have htrain : ∀ model baselines, ({ T with groupOrder := o } : Tool C S N D E ε).trainCommand mode fs model baselines = T.trainCommand mode fs model baselines := by
    intro model baselines
    unfold Tool.trainCommand Tool.trainingText
    simp only [trainText_order]
    rfl
  unfold Tool.run
  cases args.command <;> first | exact process_order o mode cache fs args _ _ | exact htrain _ _ | (simp only [key]; done) | rfl

end LJ.Program

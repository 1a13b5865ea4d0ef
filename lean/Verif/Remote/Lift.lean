/-
The training and the report, with the cache, are those of what is then in the cache.
-/
import Verif.Remote.Again
namespace LJ.Remote
open LJ.Codec (Bytes Texts Url Source Content)
open LJ.Cache (State Remote Response Opened File)
open LJ.Process (Str Ev Env Trainer St AnomalyContext Stop)
open LJ.Report (Index Model Report ListErr Fail LogReport ReadErr World)

section
variable {t : Texts} {N D E : Type} {S : Setup t N D E}

/-! ### The model -/

theorem trainSources_spec (hu : S.useCache = true) (hc : CutOk S) {net : Nat → Net t} (hg : Good net) (json : Bool) (xs : List (Source t))
    (tr tr' : Trainer) (s s' : Sys) (hs : Sound s.cache) (h : S.trainSources net json xs tr s = (.ok tr', s')) :
    Sound s'.cache ∧ Ext s.cache s'.cache ∧ ∀ f, Ext s'.cache f → LJ.Report.trainSources (S.world f) json xs tr = .ok tr' := by
  induction xs generalizing tr s with
  | nil =>
    simp only [Setup.trainSources, Prod.mk.injEq, Outcome.ok.injEq] at h
    obtain ⟨rfl, rfl⟩ := h
    exact ⟨hs, Ext.refl _, fun f _ => rfl⟩
  | cons x xs ih =>
    unfold Setup.trainSources at h
    generalize hr : S.read net x json (trainAsked (S.env [])) s = y at h
    obtain ⟨o, s1⟩ := y
    cases o with
    | panic => cases h
    | error e => cases h
    | ok lines =>
      simp only at h
      obtain ⟨k1, k2, k3⟩ := read_spec hu hc hg x json _ s s1 hs lines hr
      obtain ⟨j1, j2, j3⟩ := ih _ s1 k1 h
      refine ⟨j1, k2.trans j2, fun f hf => ?_⟩
      obtain ⟨reader, e1, e2⟩ := k3 f (j2.trans hf)
      unfold LJ.Report.trainSources
      have : tr.add (LJ.Report.envOf (S.world f) []) (reader json) = tr.add (S.env []) lines := add_agree lines (reader json) tr e2
      rw [e1]
      simp only
      rw [this]
      exact j3 f hf

theorem trainSources_cached (hu : S.useCache = true) (net : Nat → Net t) (json : Bool) (xs : List (Source t)) (tr tr' : Trainer) (s : Sys)
    (h : LJ.Report.trainSources (S.world s.cache) json xs tr = .ok tr') : S.trainSources net json xs tr s = (.ok tr', s) := by
  induction xs generalizing tr with
  | nil =>
    simp only [LJ.Report.trainSources, Except.ok.injEq] at h
    rw [h]; rfl
  | cons x xs ih =>
    unfold LJ.Report.trainSources at h
    unfold Setup.trainSources
    cases ho : (S.world s.cache).openSource x with
    | error e => rw [ho] at h; cases h
    | ok reader =>
      rw [ho] at h
      rw [read_cached hu net x json _ s reader ho]
      exact ih _ h

theorem trainIndex_eq (f : State) (xs : List (Source t)) :
    LJ.Report.trainIndex (S.world f) xs = match LJ.Report.trainSources (S.world f) (S.firstJson xs) xs Trainer.new with
      | .error e => .error e
      | .ok t => .ok ⟨xs, t.complete.chunks, t.complete.lineCount, t.complete.byteCount⟩ := by
  cases xs <;> rfl

theorem trainIndex_spec (hu : S.useCache = true) (hc : CutOk S) {net : Nat → Net t} (hg : Good net) (xs : List (Source t))
    (index : Index (Source t)) (s s' : Sys) (hs : Sound s.cache) (h : S.trainIndex net xs s = (.ok index, s')) :
    Sound s'.cache ∧ Ext s.cache s'.cache ∧ ∀ f, Ext s'.cache f → LJ.Report.trainIndex (S.world f) xs = .ok index := by
  unfold Setup.trainIndex at h
  generalize hr : S.trainSources net (S.firstJson xs) xs Trainer.new s = y at h
  obtain ⟨o, s1⟩ := y
  cases o with
  | panic => cases h
  | error e => cases h
  | ok tr =>
    simp only [Prod.mk.injEq, Outcome.ok.injEq] at h
    obtain ⟨rfl, rfl⟩ := h
    obtain ⟨k1, k2, k3⟩ := trainSources_spec hu hc hg _ xs _ tr s s1 hs hr
    refine ⟨k1, k2, fun f hf => ?_⟩
    rw [trainIndex_eq, k3 f hf]

theorem trainIndex_cached (hu : S.useCache = true) (net : Nat → Net t) (xs : List (Source t)) (index : Index (Source t)) (s : Sys)
    (h : LJ.Report.trainIndex (S.world s.cache) xs = .ok index) : S.trainIndex net xs s = (.ok index, s) := by
  rw [trainIndex_eq] at h
  unfold Setup.trainIndex
  cases hr : LJ.Report.trainSources (S.world s.cache) (S.firstJson xs) xs Trainer.new with
  | error e => rw [hr] at h; cases h
  | ok tr =>
    rw [hr] at h
    simp only [Except.ok.injEq] at h
    subst h
    rw [trainSources_cached hu net _ xs _ tr s hr]

theorem trainGroups_spec (hu : S.useCache = true) (hc : CutOk S) {net : Nat → Net t} (hg : Good net) (g : List (N × List (Source t)))
    (indexes : List (N × Index (Source t))) (s s' : Sys) (hs : Sound s.cache) (h : S.trainGroups net g s = (.ok indexes, s')) :
    Sound s'.cache ∧ Ext s.cache s'.cache ∧ ∀ f, Ext s'.cache f → LJ.Report.trainGroups (S.world f) g = .ok indexes := by
  induction g generalizing indexes s with
  | nil =>
    simp only [Setup.trainGroups, Prod.mk.injEq, Outcome.ok.injEq] at h
    obtain ⟨rfl, rfl⟩ := h
    exact ⟨hs, Ext.refl _, fun f _ => rfl⟩
  | cons p g ih =>
    obtain ⟨n, xs⟩ := p
    unfold Setup.trainGroups at h
    generalize hr : S.trainIndex net xs s = y at h
    obtain ⟨o, s1⟩ := y
    cases o with
    | panic => cases h
    | error e => cases h
    | ok index =>
      simp only at h
      generalize hr2 : S.trainGroups net g s1 = z at h
      obtain ⟨o2, s2⟩ := z
      cases o2 with
      | panic => cases h
      | error e => cases h
      | ok rest =>
        simp only [Prod.mk.injEq, Outcome.ok.injEq] at h
        obtain ⟨rfl, rfl⟩ := h
        obtain ⟨k1, k2, k3⟩ := trainIndex_spec hu hc hg xs index s s1 hs hr
        obtain ⟨j1, j2, j3⟩ := ih rest s1 k1 hr2
        refine ⟨j1, k2.trans j2, fun f hf => ?_⟩
        unfold LJ.Report.trainGroups
        rw [k3 f (j2.trans hf), j3 f hf]

theorem trainGroups_cached (hu : S.useCache = true) (net : Nat → Net t) (g : List (N × List (Source t)))
    (indexes : List (N × Index (Source t))) (s : Sys) (h : LJ.Report.trainGroups (S.world s.cache) g = .ok indexes) :
    S.trainGroups net g s = (.ok indexes, s) := by
  induction g generalizing indexes with
  | nil =>
    simp only [LJ.Report.trainGroups, Except.ok.injEq] at h
    rw [← h]; rfl
  | cons p g ih =>
    obtain ⟨n, xs⟩ := p
    unfold LJ.Report.trainGroups at h
    unfold Setup.trainGroups
    cases hr : LJ.Report.trainIndex (S.world s.cache) xs with
    | error e => rw [hr] at h; cases h
    | ok index =>
      rw [hr] at h
      simp only at h
      cases hr2 : LJ.Report.trainGroups (S.world s.cache) g with
      | error e => rw [hr2] at h; cases h
      | ok rest =>
        rw [hr2] at h
        simp only [Except.ok.injEq] at h
        rw [trainIndex_cached hu net xs index s hr]
        simp only
        rw [ih rest hr2]
        simp only [h]

variable [DecidableEq N]

theorem train_spec (hu : S.useCache = true) (hc : CutOk S) {net : Nat → Net t} (hg : Good net) (order : List (N × List (Source t)) → List (N × List (Source t)))
    (bs : List (Content t)) (m : Model (Content t) (Source t) N) (s s' : Sys) (hs : Sound s.cache) (h : S.train net order bs s = (.ok m, s')) :
    Sound s'.cache ∧ Ext s.cache s'.cache ∧ ∀ f, Ext s'.cache f → LJ.Report.train (S.world f) order bs = .ok m := by
  unfold Setup.train at h
  generalize hr : S.groupInto net bs [] s = y at h
  obtain ⟨o, s1⟩ := y
  cases o with
  | error e => cases h
  | ok g =>
    simp only at h
    generalize hr2 : S.trainGroups net (order g) s1 = z at h
    obtain ⟨o2, s2⟩ := z
    cases o2 with
    | panic => cases h
    | error e => cases h
    | ok indexes =>
      simp only [Prod.mk.injEq, Outcome.ok.injEq] at h
      obtain ⟨rfl, rfl⟩ := h
      obtain ⟨k1, k2, k3⟩ := groupInto_spec net bs [] g s s1 hs hr
      obtain ⟨j1, j2, j3⟩ := trainGroups_spec hu hc hg (order g) indexes s1 s2 k1 hr2
      refine ⟨j1, k2.trans j2, fun f hf => ?_⟩
      unfold LJ.Report.train LJ.Report.groupSources
      rw [k3 f (j2.trans hf)]
      simp only
      rw [j3 f hf]

theorem train_cached (hu : S.useCache = true) (net : Nat → Net t) (order : List (N × List (Source t)) → List (N × List (Source t)))
    (bs : List (Content t)) (m : Model (Content t) (Source t) N) (s : Sys) (h : LJ.Report.train (S.world s.cache) order bs = .ok m) :
    S.train net order bs s = (.ok m, s) := by
  unfold LJ.Report.train LJ.Report.groupSources at h
  unfold Setup.train
  cases hr : LJ.Report.groupInto (S.world s.cache) bs [] with
  | error e => rw [hr] at h; cases h
  | ok g =>
    rw [hr] at h
    simp only at h
    cases hr2 : LJ.Report.trainGroups (S.world s.cache) (order g) with
    | error e => rw [hr2] at h; cases h
    | ok indexes =>
      rw [hr2] at h
      simp only [Except.ok.injEq] at h
      rw [groupInto_cached net bs [] g s hr]
      simp only
      rw [trainGroups_cached hu net (order g) indexes s hr2]
      simp only [h]

/-! ### The report -/

omit [DecidableEq N] in
theorem inspect_eq (hs : SearchOk S) (index : Index (Source t)) (lines : List (Ev Unit)) (skip : List Str) (f : State) (x : Source t)
    (reader : Bool → List (Ev Unit)) (h : Agree (processAsked (S.env index.chunks) skip lines) lines (reader (S.isJson x))) :
    LJ.Report.inspect (S.world f) index x reader skip = S.inspect index lines skip := by
  obtain ⟨dist, hd⟩ := hs index.chunks
  have e : LJ.Process.process (LJ.Report.envOf (S.world f) index.chunks) skip (reader ((S.world f).isJson x)) = LJ.Process.process (S.env index.chunks) skip lines :=
    process_agree (env := S.env index.chunks) hd skip lines _ h
  unfold LJ.Report.inspect Setup.inspect
  rw [e]
  generalize LJ.Process.process (S.env index.chunks) skip lines = y
  obtain ⟨a, b, c⟩ := y
  cases b <;> rfl

omit [DecidableEq N] in
theorem inspect_same (index : Index (Source t)) (skip : List Str) (f : State) (x : Source t) (reader : Bool → List (Ev Unit)) :
    LJ.Report.inspect (S.world f) index x reader skip = S.inspect index (reader (S.isJson x)) skip := by
  have e : LJ.Process.process (LJ.Report.envOf (S.world f) index.chunks) skip (reader ((S.world f).isJson x)) = LJ.Process.process (S.env index.chunks) skip (reader (S.isJson x)) := rfl
  unfold LJ.Report.inspect Setup.inspect
  rw [e]
  generalize LJ.Process.process (S.env index.chunks) skip (reader (S.isJson x)) = y
  obtain ⟨a, b, c⟩ := y
  cases b <;> rfl

theorem record_grows (name : N) (index : Index (Source t)) (x : Source t) (as : List (AnomalyContext D)) (err : Option (LJ.Process.Err Unit)) (st : St D)
    (r : Report (Content t) (Source t) N D E Unit) : ∃ l, (LJ.Report.record name index x as err st r).readErrors = r.readErrors ++ l := by
  have h0 : ∃ l, (LJ.Report.recordErr x err r).readErrors = r.readErrors ++ l := by
    cases err with
    | none => exact ⟨[], by simp [LJ.Report.recordErr]⟩
    | some e => exact ⟨_, rfl⟩
  obtain ⟨l, hl⟩ := h0
  refine ⟨l, ?_⟩
  unfold LJ.Report.record
  cases as with
  | nil => exact hl
  | cons a as =>
    simp only [LJ.Report.recordIndex]
    split <;> exact hl

theorem reportSources_grows (net : Nat → Net t) (name : N) (index : Index (Source t)) (xs : List (Source t)) (skip : List Str)
    (r r' : Report (Content t) (Source t) N D E Unit) (s s' : Sys) (h : S.reportSources net name index xs skip r s = (some r', s')) :
    ∃ l, r'.readErrors = r.readErrors ++ l := by
  induction xs generalizing skip r s with
  | nil =>
    simp only [Setup.reportSources, Prod.mk.injEq, Option.some.injEq] at h
    obtain ⟨rfl, rfl⟩ := h
    exact ⟨[], by simp⟩
  | cons x xs ih =>
    unfold Setup.reportSources at h
    generalize S.read net x (S.isJson x) (processAsked (S.env index.chunks) skip) s = y at h
    obtain ⟨o, s1⟩ := y
    cases o with
    | panic => cases h
    | error e =>
      simp only [Prod.mk.injEq, Option.some.injEq] at h
      obtain ⟨rfl, rfl⟩ := h
      exact ⟨_, rfl⟩
    | ok lines =>
      simp only at h
      cases hi : S.inspect index lines skip with
      | none => rw [hi] at h; cases h
      | some p =>
        obtain ⟨as, err, st⟩ := p
        rw [hi] at h
        simp only at h
        obtain ⟨l, hl⟩ := ih _ _ s1 h
        obtain ⟨l', hl'⟩ := record_grows name index x as err st r
        exact ⟨l' ++ l, by rw [hl, hl', List.append_assoc]⟩

theorem pure_reportSources_grows (w : World (Content t) (Source t) N D E Unit) (name : N) (index : Index (Source t)) (xs : List (Source t)) (skip : List Str)
    (r r' : Report (Content t) (Source t) N D E Unit) (h : LJ.Report.reportSources w name index xs skip r = some r') :
    ∃ l, r'.readErrors = r.readErrors ++ l := by
  induction xs generalizing skip r with
  | nil =>
    simp only [LJ.Report.reportSources, Option.some.injEq] at h
    subst h
    exact ⟨[], by simp⟩
  | cons x xs ih =>
    unfold LJ.Report.reportSources at h
    cases ho : w.openSource x with
    | error e =>
      rw [ho] at h
      simp only [Option.some.injEq] at h
      subst h
      exact ⟨_, rfl⟩
    | ok reader =>
      rw [ho] at h
      simp only at h
      cases hi : LJ.Report.inspect w index x reader skip with
      | none => rw [hi] at h; cases h
      | some p =>
        obtain ⟨as, err, st⟩ := p
        rw [hi] at h
        simp only at h
        obtain ⟨l, hl⟩ := ih _ _ h
        obtain ⟨l', hl'⟩ := record_grows name index x as err st r
        exact ⟨l' ++ l, by rw [hl, hl', List.append_assoc]⟩

omit [DecidableEq N] in
theorem AllOpened.of_grows {r r' : Report (Content t) (Source t) N D E Unit} (h : ∃ l, r'.readErrors = r.readErrors ++ l) (hr : AllOpened r') : AllOpened r := by
  obtain ⟨l, hl⟩ := h
  intro x e hm
  exact hr x e (by rw [hl]; exact List.mem_append_left _ hm)

theorem reportSources_spec (hu : S.useCache = true) (hc : CutOk S) (hsr : SearchOk S) {net : Nat → Net t} (hg : Good net) (name : N) (index : Index (Source t))
    (xs : List (Source t)) (skip : List Str) (r r' : Report (Content t) (Source t) N D E Unit) (s s' : Sys) (hs : Sound s.cache)
    (h : S.reportSources net name index xs skip r s = (some r', s')) (ho : AllOpened r') :
    Sound s'.cache ∧ Ext s.cache s'.cache ∧ ∀ f, Ext s'.cache f → LJ.Report.reportSources (S.world f) name index xs skip r = some r' := by
  induction xs generalizing skip r s with
  | nil =>
    simp only [Setup.reportSources, Prod.mk.injEq, Option.some.injEq] at h
    obtain ⟨rfl, rfl⟩ := h
    exact ⟨hs, Ext.refl _, fun f _ => rfl⟩
  | cons x xs ih =>
    unfold Setup.reportSources at h
    generalize hr : S.read net x (S.isJson x) (processAsked (S.env index.chunks) skip) s = y at h
    obtain ⟨o, s1⟩ := y
    cases o with
    | panic => cases h
    | error e =>
      simp only [Prod.mk.injEq, Option.some.injEq] at h
      obtain ⟨rfl, rfl⟩ := h
      exact absurd (by simp) (ho x e)
    | ok lines =>
      simp only at h
      cases hi : S.inspect index lines skip with
      | none => rw [hi] at h; cases h
      | some p =>
        obtain ⟨as, err, st⟩ := p
        rw [hi] at h
        simp only at h
        obtain ⟨k1, k2, k3⟩ := read_spec hu hc hg x _ _ s s1 hs lines hr
        obtain ⟨j1, j2, j3⟩ := ih _ _ s1 k1 h
        refine ⟨j1, k2.trans j2, fun f hf => ?_⟩
        obtain ⟨reader, e1, e2⟩ := k3 f (j2.trans hf)
        unfold LJ.Report.reportSources
        rw [e1]
        simp only
        rw [inspect_eq hsr index lines skip f x reader e2, hi]
        exact j3 f hf

theorem reportSources_cached (hu : S.useCache = true) (net : Nat → Net t) (name : N) (index : Index (Source t))
    (xs : List (Source t)) (skip : List Str) (r r' : Report (Content t) (Source t) N D E Unit) (s : Sys)
    (h : LJ.Report.reportSources (S.world s.cache) name index xs skip r = some r') (ho : AllOpened r') :
    S.reportSources net name index xs skip r s = (some r', s) := by
  induction xs generalizing skip r with
  | nil =>
    simp only [LJ.Report.reportSources, Option.some.injEq] at h
    rw [h]; rfl
  | cons x xs ih =>
    unfold LJ.Report.reportSources at h
    unfold Setup.reportSources
    cases hx : (S.world s.cache).openSource x with
    | error e =>
      rw [hx] at h
      simp only [Option.some.injEq] at h
      subst h
      exact absurd (by simp) (ho x e)
    | ok reader =>
      rw [hx] at h
      simp only at h
      rw [inspect_same] at h
      rw [read_cached hu net x _ _ s reader hx]
      simp only
      cases hi : S.inspect index (reader (S.isJson x)) skip with
      | none => rw [hi] at h; cases h
      | some p =>
        obtain ⟨as, err, st⟩ := p
        rw [hi] at h
        exact ih _ _ h

theorem reportGroup_grows (net : Nat → Net t) (m : Model (Content t) (Source t) N) (g : N × List (Source t))
    (r r' : Report (Content t) (Source t) N D E Unit) (s s' : Sys) (h : S.reportGroup net m g r s = (some r', s')) :
    ∃ l, r'.readErrors = r.readErrors ++ l := by
  unfold Setup.reportGroup at h
  cases hl : LJ.Report.lookupOrSingle m.indexes g.1 with
  | some index => rw [hl] at h; exact reportSources_grows net _ _ _ _ _ _ _ _ h
  | none =>
    rw [hl] at h
    simp only [Prod.mk.injEq, Option.some.injEq] at h
    obtain ⟨rfl, rfl⟩ := h
    exact ⟨[], by simp⟩

theorem pure_reportGroup_grows (w : World (Content t) (Source t) N D E Unit) (m : Model (Content t) (Source t) N) (g : N × List (Source t))
    (r r' : Report (Content t) (Source t) N D E Unit) (h : LJ.Report.reportGroup w m g r = some r') :
    ∃ l, r'.readErrors = r.readErrors ++ l := by
  unfold LJ.Report.reportGroup at h
  cases hl : LJ.Report.lookupOrSingle m.indexes g.1 with
  | some index => rw [hl] at h; exact pure_reportSources_grows w _ _ _ _ _ _ h
  | none =>
    rw [hl] at h
    simp only [Option.some.injEq] at h
    subst h
    exact ⟨[], by simp⟩

theorem reportGroups_grows (net : Nat → Net t) (m : Model (Content t) (Source t) N) (gs : List (N × List (Source t)))
    (r r' : Report (Content t) (Source t) N D E Unit) (s s' : Sys) (h : S.reportGroups net m gs r s = (some r', s')) :
    ∃ l, r'.readErrors = r.readErrors ++ l := by
  induction gs generalizing r s with
  | nil =>
    simp only [Setup.reportGroups, Prod.mk.injEq, Option.some.injEq] at h
    obtain ⟨rfl, rfl⟩ := h
    exact ⟨[], by simp⟩
  | cons g gs ih =>
    unfold Setup.reportGroups at h
    generalize hr : S.reportGroup net m g r s = y at h
    obtain ⟨o, s1⟩ := y
    cases o with
    | none => cases h
    | some r1 =>
      obtain ⟨l, hl⟩ := ih r1 s1 h
      obtain ⟨l', hl'⟩ := reportGroup_grows net m g r r1 s s1 hr
      exact ⟨l' ++ l, by rw [hl, hl', List.append_assoc]⟩

theorem pure_reportGroups_grows (w : World (Content t) (Source t) N D E Unit) (m : Model (Content t) (Source t) N) (gs : List (N × List (Source t)))
    (r r' : Report (Content t) (Source t) N D E Unit) (h : LJ.Report.reportGroups w m gs r = some r') :
    ∃ l, r'.readErrors = r.readErrors ++ l := by
  induction gs generalizing r with
  | nil =>
    simp only [LJ.Report.reportGroups, Option.some.injEq] at h
    subst h
    exact ⟨[], by simp⟩
  | cons g gs ih =>
    unfold LJ.Report.reportGroups at h
    cases hr : LJ.Report.reportGroup w m g r with
    | none => rw [hr] at h; cases h
    | some r1 =>
      rw [hr] at h
      obtain ⟨l, hl⟩ := ih r1 h
      obtain ⟨l', hl'⟩ := pure_reportGroup_grows w m g r r1 hr
      exact ⟨l' ++ l, by rw [hl, hl', List.append_assoc]⟩

theorem reportGroups_spec (hu : S.useCache = true) (hc : CutOk S) (hsr : SearchOk S) {net : Nat → Net t} (hg : Good net) (m : Model (Content t) (Source t) N)
    (gs : List (N × List (Source t))) (r r' : Report (Content t) (Source t) N D E Unit) (s s' : Sys) (hs : Sound s.cache)
    (h : S.reportGroups net m gs r s = (some r', s')) (ho : AllOpened r') :
    Sound s'.cache ∧ Ext s.cache s'.cache ∧ ∀ f, Ext s'.cache f → LJ.Report.reportGroups (S.world f) m gs r = some r' := by
  induction gs generalizing r s with
  | nil =>
    simp only [Setup.reportGroups, Prod.mk.injEq, Option.some.injEq] at h
    obtain ⟨rfl, rfl⟩ := h
    exact ⟨hs, Ext.refl _, fun f _ => rfl⟩
  | cons g gs ih =>
    unfold Setup.reportGroups at h
    generalize hr : S.reportGroup net m g r s = y at h
    obtain ⟨o, s1⟩ := y
    cases o with
    | none => cases h
    | some r1 =>
      simp only at h
      have ho1 : AllOpened r1 := AllOpened.of_grows (reportGroups_grows net m gs r1 r' s1 s' h) ho
      have hone : Sound s1.cache ∧ Ext s.cache s1.cache ∧ ∀ f, Ext s1.cache f → LJ.Report.reportGroup (S.world f) m g r = some r1 := by
        unfold Setup.reportGroup at hr
        cases hl : LJ.Report.lookupOrSingle m.indexes g.1 with
        | some index =>
          rw [hl] at hr
          obtain ⟨k1, k2, k3⟩ := reportSources_spec hu hc hsr hg g.1 index g.2 [] r r1 s s1 hs hr ho1
          refine ⟨k1, k2, fun f hf => ?_⟩
          unfold LJ.Report.reportGroup
          rw [hl]
          exact k3 f hf
        | none =>
          rw [hl] at hr
          simp only [Prod.mk.injEq, Option.some.injEq] at hr
          obtain ⟨rfl, rfl⟩ := hr
          refine ⟨hs, Ext.refl _, fun f _ => ?_⟩
          unfold LJ.Report.reportGroup
          rw [hl]
      obtain ⟨k1, k2, k3⟩ := hone
      obtain ⟨j1, j2, j3⟩ := ih r1 s1 k1 h
      refine ⟨j1, k2.trans j2, fun f hf => ?_⟩
      unfold LJ.Report.reportGroups
      rw [k3 f (j2.trans hf)]
      exact j3 f hf

theorem reportGroups_cached (hu : S.useCache = true) (net : Nat → Net t) (m : Model (Content t) (Source t) N)
    (gs : List (N × List (Source t))) (r r' : Report (Content t) (Source t) N D E Unit) (s : Sys)
    (h : LJ.Report.reportGroups (S.world s.cache) m gs r = some r') (ho : AllOpened r') :
    S.reportGroups net m gs r s = (some r', s) := by
  induction gs generalizing r with
  | nil =>
    simp only [LJ.Report.reportGroups, Option.some.injEq] at h
    rw [h]; rfl
  | cons g gs ih =>
    unfold LJ.Report.reportGroups at h
    unfold Setup.reportGroups
    cases hr : LJ.Report.reportGroup (S.world s.cache) m g r with
    | none => rw [hr] at h; cases h
    | some r1 =>
      rw [hr] at h
      simp only at h
      have ho1 : AllOpened r1 := AllOpened.of_grows (pure_reportGroups_grows _ m gs r1 r' h) ho
      have hone : S.reportGroup net m g r s = (some r1, s) := by
        unfold LJ.Report.reportGroup at hr
        unfold Setup.reportGroup
        cases hl : LJ.Report.lookupOrSingle m.indexes g.1 with
        | some index =>
          rw [hl] at hr
          exact reportSources_cached hu net g.1 index g.2 [] r r1 s hr ho1
        | none =>
          rw [hl] at hr
          simp only [Option.some.injEq] at hr
          simp only [hr]
      rw [hone]
      exact ih r1 h

theorem report_spec (hu : S.useCache = true) (hc : CutOk S) (hsr : SearchOk S) {net : Nat → Net t} (hg : Good net) (m : Model (Content t) (Source t) N)
    (order : List (N × List (Source t)) → List (N × List (Source t))) (target : Content t) (r : Report (Content t) (Source t) N D E Unit)
    (s s' : Sys) (hs : Sound s.cache) (h : S.report net m order target s = (some (.ok r), s')) (ho : AllOpened r) :
    Sound s'.cache ∧ Ext s.cache s'.cache ∧ ∀ f, Ext s'.cache f → LJ.Report.report (S.world f) m order target = some (.ok r) := by
  unfold Setup.report at h
  generalize hr : S.groupInto net [target] [] s = y at h
  obtain ⟨o, s1⟩ := y
  cases o with
  | error e => cases h
  | ok g =>
    simp only at h
    generalize hr2 : S.reportGroups net m (order g) ⟨target, m.baselines, [], [], [], [], 0, 0⟩ s1 = z at h
    obtain ⟨o2, s2⟩ := z
    cases o2 with
    | none => cases h
    | some r1 =>
      simp only [Prod.mk.injEq, Option.some.injEq, Except.ok.injEq] at h
      obtain ⟨rfl, rfl⟩ := h
      obtain ⟨k1, k2, k3⟩ := groupInto_spec net [target] [] g s s1 hs hr
      obtain ⟨j1, j2, j3⟩ := reportGroups_spec hu hc hsr hg m (order g) _ r1 s1 s2 k1 hr2 ho
      refine ⟨j1, k2.trans j2, fun f hf => ?_⟩
      unfold LJ.Report.report LJ.Report.groupSources
      rw [k3 f (j2.trans hf)]
      simp only
      rw [j3 f hf]

theorem report_cached (hu : S.useCache = true) (net : Nat → Net t) (m : Model (Content t) (Source t) N)
    (order : List (N × List (Source t)) → List (N × List (Source t))) (target : Content t) (r : Report (Content t) (Source t) N D E Unit)
    (s : Sys) (h : LJ.Report.report (S.world s.cache) m order target = some (.ok r)) (ho : AllOpened r) :
    S.report net m order target s = (some (.ok r), s) := by
  unfold LJ.Report.report LJ.Report.groupSources at h
  unfold Setup.report
  cases hr : LJ.Report.groupInto (S.world s.cache) [target] [] with
  | error e => rw [hr] at h; cases h
  | ok g =>
    rw [hr] at h
    simp only at h
    cases hr2 : LJ.Report.reportGroups (S.world s.cache) m (order g) ⟨target, m.baselines, [], [], [], [], 0, 0⟩ with
    | none => rw [hr2] at h; cases h
    | some r1 =>
      rw [hr2] at h
      simp only [Option.some.injEq, Except.ok.injEq] at h
      subst h
      rw [groupInto_cached net [target] [] g s hr]
      simp only
      rw [reportGroups_cached hu net m (order g) _ r1 s hr2 ho]

/-! ### The comparison -/

theorem compare_spec (hu : S.useCache = true) (hc : CutOk S) (hsr : SearchOk S) {net : Nat → Net t} (hg : Good net)
    (order order' : List (N × List (Source t)) → List (N × List (Source t))) (bs : List (Content t)) (target : Content t)
    (r : Report (Content t) (Source t) N D E Unit) (s s' : Sys) (hs : Sound s.cache)
    (h : S.compare net order order' bs target s = (.ok r, s')) (ho : AllOpened r) :
    Sound s'.cache ∧ Ext s.cache s'.cache ∧ ∀ f, Ext s'.cache f →
      ∃ m, LJ.Report.train (S.world f) order bs = .ok m ∧ LJ.Report.report (S.world f) m order' target = some (.ok r) := by
  unfold Setup.compare at h
  generalize hr : S.train net order bs s = y at h
  obtain ⟨o, s1⟩ := y
  cases o with
  | panic => cases h
  | error e => cases h
  | ok m =>
    simp only at h
    generalize hr2 : S.report net m order' target s1 = z at h
    obtain ⟨o2, s2⟩ := z
    match o2, h with
    | some (.ok r1), h =>
      simp only [Prod.mk.injEq, Outcome.ok.injEq] at h
      obtain ⟨rfl, rfl⟩ := h
      obtain ⟨k1, k2, k3⟩ := train_spec hu hc hg order bs m s s1 hs hr
      obtain ⟨j1, j2, j3⟩ := report_spec hu hc hsr hg m order' target r1 s1 s2 k1 hr2 ho
      exact ⟨j1, k2.trans j2, fun f hf => ⟨m, k3 f (j2.trans hf), j3 f hf⟩⟩

theorem compare_cached (hu : S.useCache = true) (net : Nat → Net t) (order order' : List (N × List (Source t)) → List (N × List (Source t)))
    (bs : List (Content t)) (target : Content t) (m : Model (Content t) (Source t) N) (r : Report (Content t) (Source t) N D E Unit) (s : Sys)
    (h1 : LJ.Report.train (S.world s.cache) order bs = .ok m) (h2 : LJ.Report.report (S.world s.cache) m order' target = some (.ok r)) (ho : AllOpened r) :
    S.compare net order order' bs target s = (.ok r, s) := by
  unfold Setup.compare
  rw [train_cached hu net order bs m s h1]
  simp only
  rw [report_cached hu net m order' target r s h2 ho]

end
end LJ.Remote

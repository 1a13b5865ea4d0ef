import Verif.Remote.Props
import Verif.Remote.Witness
import Mathlib.Data.List.Perm.Basic

/-! # The requests of a comparison

How many times the servers are asked for something (`Sys.asked`) by a training and a report, for every network, whatever it answers
at each time. -/
namespace LJ.Remote

open LJ.Codec LJ.Process

section
variable {t : Texts} {N D E : Type} {S : Setup t N D E} {net : Nat → Net t}

/-- the source is on a server -/
def OnServer : Source t → Prop
  | .loc _ _ => False
  | .remote _ _ => True

/-! ### One request at most -/

theorem fromUrl_asked (base url : Url t) (s : Sys) :
    s.asked ≤ (S.fromUrl net base url s).2.asked ∧ (S.fromUrl net base url s).2.asked ≤ s.asked + 1 ∧
    (S.useCache = false → (S.fromUrl net base url s).2.asked = s.asked + 1) := by
  unfold Setup.fromUrl
  split
  refine ⟨?_, ?_, ?_⟩
  · simp only; split <;> omega
  · simp only; split <;> omega
  · intro h
    simp [Setup.asks, h]

theorem read_asked (x : Source t) (json : Bool) (asked : List (Ev Unit) → Nat) (s : Sys) :
    s.asked ≤ (S.read net x json asked s).2.asked ∧ (S.read net x json asked s).2.asked ≤ s.asked + 1 ∧
    (S.useCache = false → OnServer x → ∀ lines s', S.read net x json asked s = (.ok lines, s') → s'.asked = s.asked + 1) := by
  cases x with
  | loc n p =>
    unfold Setup.read
    refine ⟨?_, ?_, fun _ h => h.elim⟩
    · simp only; split <;> simp
    · simp only; split <;> simp
  | remote pre url =>
    unfold Setup.read
    simp only
    cases baseOf pre.toNat url with
    | panic => simp
    | error e => simp
    | ok base =>
      simp only
      have h := fromUrl_asked (S := S) (net := net) base url s
      revert h
      cases S.fromUrl net base url s with
      | mk o s1 =>
        cases o with
        | none => intro h; exact ⟨h.1, h.2.1, by simp⟩
        | some o =>
          simp only
          intro h
          refine ⟨h.1, h.2.1, ?_⟩
          intro hc _ lines s' e
          cases e
          exact h.2.2 hc

theorem httpdir_asked (url : Url t) (s : Sys) :
    s.asked ≤ (S.httpdir net url s).2.asked ∧ (S.httpdir net url s).2.asked ≤ s.asked + 1 := by
  unfold Setup.httpdir
  split
  constructor
  · simp only; split <;> omega
  · simp only; split <;> omega

theorem list_asked (c : Content t) (s : Sys) : s.asked ≤ (S.list net c s).2.asked ∧ (S.list net c s).2.asked ≤ s.asked + 1 := by
  unfold Setup.list
  split
  · simp
  · simp
  · exact httpdir_asked _ s
  · exact httpdir_asked _ s

theorem getSources_asked (c : Content t) (s : Sys) :
    s.asked ≤ (S.getSources net c s).2.asked ∧ (S.getSources net c s).2.asked ≤ s.asked + 1 := by
  have h := list_asked (S := S) (net := net) c s
  unfold Setup.getSources
  revert h
  cases S.list net c s with
  | mk l s1 => exact id

variable [DecidableEq N]

theorem groupInto_asked (cs : List (Content t)) (g : List (N × List (Source t))) (s : Sys) :
    s.asked ≤ (S.groupInto net cs g s).2.asked ∧ (S.groupInto net cs g s).2.asked ≤ s.asked + cs.length := by
  induction cs generalizing g s with
  | nil => simp [Setup.groupInto]
  | cons c cs ih =>
    have h := getSources_asked (S := S) (net := net) c s
    unfold Setup.groupInto
    revert h
    cases S.getSources net c s with
    | mk r s1 =>
      cases r with
      | error e => simp only [List.length_cons]; omega
      | ok xs =>
        simp only [List.length_cons]
        intro h
        have := ih (xs.foldl (fun g x => LJ.Report.push (S.nameOf x) x g) g) s1
        omega

/-! ### Training -/

omit [DecidableEq N] in
theorem trainSources_asked (json : Bool) (xs : List (Source t)) (tr : Trainer) (s : Sys) :
    s.asked ≤ (S.trainSources net json xs tr s).2.asked ∧ (S.trainSources net json xs tr s).2.asked ≤ s.asked + xs.length ∧
    (S.useCache = false → (∀ x ∈ xs, OnServer x) → ∀ tr' s', S.trainSources net json xs tr s = (.ok tr', s') → s'.asked = s.asked + xs.length) := by
  induction xs generalizing tr s with
  | nil =>
    refine ⟨by simp [Setup.trainSources], by simp [Setup.trainSources], ?_⟩
    intro _ _ tr' s' e
    cases e; rfl
  | cons x xs ih =>
    have h := read_asked (S := S) (net := net) x json (trainAsked (S.env [])) s
    unfold Setup.trainSources
    revert h
    cases S.read net x json (trainAsked (S.env [])) s with
    | mk o s1 =>
      cases o with
      | panic => simp only [List.length_cons]; intro h; exact ⟨h.1, by omega, by simp⟩
      | error e => simp only [List.length_cons]; intro h; exact ⟨h.1, by omega, by simp⟩
      | ok lines =>
        simp only [List.length_cons]
        intro h
        have := ih (tr.add (S.env []) lines).2 s1
        refine ⟨by omega, by omega, ?_⟩
        intro hc hf tr' s' e
        have h1 := h.2.2 hc (hf x (by simp)) lines s1 rfl
        have h2 := this.2.2 hc (fun y hy => hf y (by simp [hy])) tr' s' e
        omega

omit [DecidableEq N] in
theorem trainIndex_asked (xs : List (Source t)) (s : Sys) {index : LJ.Report.Index (Source t)} {s' : Sys}
    (h : S.trainIndex net xs s = (.ok index, s')) :
    index.sources = xs ∧ s.asked ≤ s'.asked ∧ s'.asked ≤ s.asked + xs.length ∧
    (S.useCache = false → (∀ x ∈ xs, OnServer x) → s'.asked = s.asked + xs.length) := by
  have ht := trainSources_asked (S := S) (net := net) (S.firstJson xs) xs Trainer.new s
  unfold Setup.trainIndex at h
  revert ht h
  cases S.trainSources net (S.firstJson xs) xs Trainer.new s with
  | mk o s1 =>
    cases o with
    | panic => intro h; cases h
    | error e => intro h; cases h
    | ok tr =>
      intro h ht
      cases h
      exact ⟨rfl, ht.1, ht.2.1, fun hc hf => ht.2.2 hc hf tr _ rfl⟩

/-- the number of sources of some indexes -/
def sourceCount (indexes : List (N × LJ.Report.Index (Source t))) : Nat := (indexes.map fun i => i.2.sources.length).sum

omit [DecidableEq N] in
theorem trainGroups_asked (g : List (N × List (Source t))) (s : Sys) {indexes : List (N × LJ.Report.Index (Source t))} {s' : Sys}
    (h : S.trainGroups net g s = (.ok indexes, s')) :
    s.asked ≤ s'.asked ∧ s'.asked ≤ s.asked + sourceCount indexes ∧
    (S.useCache = false → (∀ i ∈ indexes, ∀ x ∈ i.2.sources, OnServer x) → s'.asked = s.asked + sourceCount indexes) := by
  induction g generalizing s indexes with
  | nil => cases h; simp [sourceCount]
  | cons p g ih =>
    obtain ⟨n, xs⟩ := p
    unfold Setup.trainGroups at h
    cases h1 : S.trainIndex net xs s with
    | mk o s1 =>
      rw [h1] at h
      cases o with
      | panic => cases h
      | error e => cases h
      | ok index =>
        obtain ⟨hx, ha, hb, hc⟩ := trainIndex_asked xs s h1
        simp only at h
        cases h2 : S.trainGroups net g s1 with
        | mk o2 s2 =>
          rw [h2] at h
          cases o2 with
          | panic => cases h
          | error e => cases h
          | ok is =>
            cases h
            obtain ⟨ia, ib, ic⟩ := ih s1 h2
            have e : sourceCount ((n, index) :: is) = xs.length + sourceCount is := by simp [sourceCount, hx]
            rw [e]
            refine ⟨by omega, by omega, ?_⟩
            intro hk hf
            have := hc hk (by
              have := hf (n, index) (by simp)
              rwa [hx] at this)
            have := ic hk (fun i hi => hf i (by simp [hi]))
            omega

/-- C148: to make a model the servers are asked at most once for the list of each baseline and at most once for each file of the model;
without LOGREDUCE_CACHE, exactly once for each file when they are all on servers.  Whatever the servers answer. -/
theorem C148_train {order : List (N × List (Source t)) → List (N × List (Source t))} {baselines : List (Content t)} {s s' : Sys}
    {m : LJ.Report.Model (Content t) (Source t) N} (h : S.train net order baselines s = (.ok m, s')) :
    s'.asked ≤ s.asked + baselines.length + (m.indexes.map fun i => i.2.sources.length).sum ∧
    (S.useCache = false → (∀ i ∈ m.indexes, ∀ x ∈ i.2.sources, OnServer x) →
      s.asked + (m.indexes.map fun i => i.2.sources.length).sum ≤ s'.asked) := by
  have hg := groupInto_asked (S := S) (net := net) baselines [] s
  unfold Setup.train at h
  revert hg h
  cases S.groupInto net baselines [] s with
  | mk r s1 =>
    cases r with
    | error e => intro h; cases h
    | ok g =>
      intro h hg
      simp only at h hg
      cases h2 : S.trainGroups net (order g) s1 with
      | mk o s2 =>
        rw [h2] at h
        cases o with
        | panic => cases h
        | error e => cases h
        | ok is =>
          cases h
          obtain ⟨ia, ib, ic⟩ := trainGroups_asked _ s1 h2
          simp only [sourceCount] at ib ic
          refine ⟨by simp only; omega, ?_⟩
          intro hc hf
          have := ic hc hf
          simp only
          omega

/-! ### The report -/

theorem reportSources_asked (name : N) (index : LJ.Report.Index (Source t)) (xs : List (Source t)) (skip : List Str)
    (r : LJ.Report.Report (Content t) (Source t) N D E Unit) (s : Sys) :
    s.asked ≤ (S.reportSources net name index xs skip r s).2.asked ∧
    (S.reportSources net name index xs skip r s).2.asked ≤ s.asked + xs.length := by
  induction xs generalizing skip r s with
  | nil => simp [Setup.reportSources]
  | cons x xs ih =>
    have h := read_asked (S := S) (net := net) x (S.isJson x) (processAsked (S.env index.chunks) skip) s
    unfold Setup.reportSources
    revert h
    cases S.read net x (S.isJson x) (processAsked (S.env index.chunks) skip) s with
    | mk o s1 =>
      cases o with
      | panic => simp only [List.length_cons]; omega
      | error e => simp only [List.length_cons]; omega
      | ok lines =>
        simp only [List.length_cons]
        intro h
        cases S.inspect index lines skip with
        | none => simp only; omega
        | some q =>
          obtain ⟨a, e, st⟩ := q
          have := ih st.skipLines (LJ.Report.record name index x a e st r) s1
          simp only
          omega

/-- the sources of the groups which have something to be compared with -/
def comparedCount (m : LJ.Report.Model (Content t) (Source t) N) (g : List (N × List (Source t))) : Nat :=
  (g.map fun p => if (LJ.Report.lookupOrSingle m.indexes p.1).isSome then p.2.length else 0).sum

theorem reportGroups_asked (m : LJ.Report.Model (Content t) (Source t) N) (g : List (N × List (Source t)))
    (r : LJ.Report.Report (Content t) (Source t) N D E Unit) (s : Sys) :
    (S.reportGroups net m g r s).2.asked ≤ s.asked + comparedCount m g := by
  induction g generalizing r s with
  | nil => simp [Setup.reportGroups, comparedCount]
  | cons p g ih =>
    have e : comparedCount m (p :: g) = (if (LJ.Report.lookupOrSingle m.indexes p.1).isSome then p.2.length else 0) + comparedCount m g := by
      simp [comparedCount]
    rw [e]
    have hg : (S.reportGroup net m p r s).2.asked ≤ s.asked + (if (LJ.Report.lookupOrSingle m.indexes p.1).isSome then p.2.length else 0) := by
      unfold Setup.reportGroup
      cases LJ.Report.lookupOrSingle m.indexes p.1 with
      | none => simp
      | some index => simpa using (reportSources_asked p.1 index p.2 [] r s).2
    unfold Setup.reportGroups
    revert hg
    cases S.reportGroup net m p r s with
    | mk o s1 =>
      cases o with
      | none => simp only; omega
      | some r1 =>
        simp only
        have := ih r1 s1
        omega

theorem push_compared (m : LJ.Report.Model (Content t) (Source t) N) (x : Source t) (n : N) (g : List (N × List (Source t))) :
    comparedCount m (LJ.Report.push n x g) = comparedCount m g + if (LJ.Report.lookupOrSingle m.indexes n).isSome then 1 else 0 := by
  induction g with
  | nil => simp [LJ.Report.push, comparedCount]
  | cons p g ih =>
    obtain ⟨k, ys⟩ := p
    unfold LJ.Report.push
    split
    · rename_i hk
      subst hk
      simp only [comparedCount, List.map_cons, List.sum_cons, List.length_append, List.length_singleton]
      split <;> omega
    · simp only [comparedCount, List.map_cons, List.sum_cons] at ih ⊢
      omega

theorem fold_compared (m : LJ.Report.Model (Content t) (Source t) N) (xs : List (Source t)) (g : List (N × List (Source t))) :
    comparedCount m (xs.foldl (fun g x => LJ.Report.push (S.nameOf x) x g) g) =
      comparedCount m g + (xs.filter fun x => (LJ.Report.lookupOrSingle m.indexes (S.nameOf x)).isSome).length := by
  induction xs generalizing g with
  | nil => simp
  | cons x xs ih =>
    rw [List.foldl_cons, ih, push_compared, List.filter_cons]
    split
    · simp; omega
    · simp

theorem comparedCount_perm (m : LJ.Report.Model (Content t) (Source t) N) {g g' : List (N × List (Source t))} (h : g.Perm g') :
    comparedCount m g = comparedCount m g' := (h.map _).sum_eq

/-- C148: to report on a target the servers are asked at most once for its list, and at most once for each of its files which has something to be
compared with: the others are not downloaded.  Whatever the servers answer. -/
theorem C148_report {order : List (N × List (Source t)) → List (N × List (Source t))} (horder : ∀ g, (order g).Perm g)
    {m : LJ.Report.Model (Content t) (Source t) N} {target : Content t} {s : Sys} {xs : List (Source t)}
    (h : (S.getSources net target s).1 = .ok xs) :
    (S.report net m order target s).2.asked ≤
      s.asked + 1 + (xs.filter fun x => (LJ.Report.lookupOrSingle m.indexes (S.nameOf x)).isSome).length := by
  have hs := getSources_asked (S := S) (net := net) target s
  unfold Setup.report
  rw [Setup.groupInto]
  revert h hs
  cases S.getSources net target s with
  | mk r s1 =>
    intro h hs
    simp only at h hs
    subst h
    simp only [Setup.groupInto]
    have hc := fold_compared (S := S) m xs []
    have hg := reportGroups_asked (S := S) (net := net) m (order (xs.foldl (fun g x => LJ.Report.push (S.nameOf x) x g) []))
      ⟨target, m.baselines, [], [], [], [], 0, 0⟩ s1
    rw [comparedCount_perm m (horder _), hc] at hg
    have h0 : comparedCount m ([] : List (N × List (Source t))) = 0 := rfl
    rw [h0] at hg
    revert hg
    cases S.reportGroups net m (order (xs.foldl (fun g x => LJ.Report.push (S.nameOf x) x g) []))
      ⟨target, m.baselines, [], [], [], [], 0, 0⟩ s1 with
    | mk o s2 =>
      cases o with
      | none => intro hg; simp only at hg ⊢; omega
      | some r => intro hg; simp only at hg ⊢; omega

/-! ### Exactly -/

theorem record_errors (name : N) (index : LJ.Report.Index (Source t)) (x : Source t) (a : List (AnomalyContext D)) (err : Option (LJ.Process.Err Unit)) (st : St D)
    (r : LJ.Report.Report (Content t) (Source t) N D E Unit) : r.readErrors <+: (LJ.Report.record name index x a err st r).readErrors := by
  have hi : ∀ r : LJ.Report.Report (Content t) (Source t) N D E Unit, (LJ.Report.recordIndex name index r).readErrors = r.readErrors := by
    intro r
    unfold LJ.Report.recordIndex
    split <;> rfl
  cases a <;> cases err <;> simp [LJ.Report.record, LJ.Report.recordErr, hi]

theorem reportSources_exact (name : N) (index : LJ.Report.Index (Source t)) (xs : List (Source t)) (skip : List Str)
    (r : LJ.Report.Report (Content t) (Source t) N D E Unit) (s : Sys) {r' : LJ.Report.Report (Content t) (Source t) N D E Unit} {s' : Sys}
    (h : S.reportSources net name index xs skip r s = (some r', s')) :
    r.readErrors <+: r'.readErrors ∧
    (S.useCache = false → (∀ x ∈ xs, OnServer x) → r'.readErrors = [] → s'.asked = s.asked + xs.length) := by
  induction xs generalizing skip r s with
  | nil => cases h; exact ⟨List.prefix_refl _, fun _ _ _ => rfl⟩
  | cons x xs ih =>
    have hr := read_asked (S := S) (net := net) x (S.isJson x) (processAsked (S.env index.chunks) skip) s
    unfold Setup.reportSources at h
    cases h1 : S.read net x (S.isJson x) (processAsked (S.env index.chunks) skip) s with
    | mk o s1 =>
      rw [h1] at h hr
      cases o with
      | panic => cases h
      | error e =>
        cases h
        exact ⟨List.prefix_append _ _, fun _ _ h => by simp at h⟩
      | ok lines =>
        simp only at h
        cases h2 : S.inspect index lines skip with
        | none => rw [h2] at h; cases h
        | some q =>
          obtain ⟨a, e, st⟩ := q
          rw [h2] at h
          simp only at h
          obtain ⟨i1, i2⟩ := ih _ _ _ h
          refine ⟨(record_errors name index x a e st r).trans i1, ?_⟩
          intro hc hf he
          have := hr.2.2 hc (hf x (by simp)) lines s1 rfl
          have := i2 hc (fun y hy => hf y (by simp [hy])) he
          simp only [List.length_cons]
          omega

theorem reportGroups_exact (m : LJ.Report.Model (Content t) (Source t) N) (g : List (N × List (Source t)))
    (r : LJ.Report.Report (Content t) (Source t) N D E Unit) (s : Sys) {r' : LJ.Report.Report (Content t) (Source t) N D E Unit} {s' : Sys}
    (h : S.reportGroups net m g r s = (some r', s')) :
    r.readErrors <+: r'.readErrors ∧
    (S.useCache = false → (∀ p ∈ g, ∀ x ∈ p.2, OnServer x) → r'.readErrors = [] → s'.asked = s.asked + comparedCount m g) := by
  induction g generalizing r s with
  | nil => cases h; exact ⟨List.prefix_refl _, fun _ _ _ => by simp [comparedCount]⟩
  | cons p g ih =>
    have e : comparedCount m (p :: g) = (if (LJ.Report.lookupOrSingle m.indexes p.1).isSome then p.2.length else 0) + comparedCount m g := by
      simp [comparedCount]
    unfold Setup.reportGroups at h
    cases h1 : S.reportGroup net m p r s with
    | mk o s1 =>
      rw [h1] at h
      cases o with
      | none => cases h
      | some r1 =>
        simp only at h
        obtain ⟨i1, i2⟩ := ih _ _ h
        have hg : r.readErrors <+: r1.readErrors ∧ (S.useCache = false → (∀ x ∈ p.2, OnServer x) → r1.readErrors = [] →
            s1.asked = s.asked + (if (LJ.Report.lookupOrSingle m.indexes p.1).isSome then p.2.length else 0)) := by
          unfold Setup.reportGroup at h1
          cases hl : LJ.Report.lookupOrSingle m.indexes p.1 with
          | none => rw [hl] at h1; cases h1; exact ⟨List.prefix_refl _, fun _ _ _ => by simp⟩
          | some index =>
            rw [hl] at h1
            simpa using reportSources_exact p.1 index p.2 [] r s h1
        refine ⟨hg.1.trans i1, ?_⟩
        intro hc hf he
        rw [he] at i1
        have := hg.2 hc (hf p (by simp)) (List.prefix_nil.1 i1)
        have := i2 hc (fun q hq => hf q (by simp [hq])) he
        omega

theorem push_sources {P : Source t → Prop} {n : N} {x : Source t} {g : List (N × List (Source t))} (hx : P x) (hg : ∀ p ∈ g, ∀ y ∈ p.2, P y) :
    ∀ p ∈ LJ.Report.push n x g, ∀ y ∈ p.2, P y := by
  induction g with
  | nil => simp [LJ.Report.push, hx]
  | cons q g ih =>
    obtain ⟨k, ys⟩ := q
    unfold LJ.Report.push
    split
    · intro p hp y hy
      rcases List.mem_cons.1 hp with rfl | hp
      · rcases List.mem_append.1 hy with hy | hy
        · exact hg (k, ys) (by simp) y hy
        · rw [List.mem_singleton] at hy; subst hy; exact hx
      · exact hg p (by simp [hp]) y hy
    · intro p hp y hy
      rcases List.mem_cons.1 hp with rfl | hp
      · exact hg (k, ys) (by simp) y hy
      · exact ih (fun q hq => hg q (by simp [hq])) p hp y hy

theorem fold_sources {P : Source t → Prop} {xs : List (Source t)} {g : List (N × List (Source t))} (hx : ∀ x ∈ xs, P x) (hg : ∀ p ∈ g, ∀ y ∈ p.2, P y) :
    ∀ p ∈ xs.foldl (fun g x => LJ.Report.push (S.nameOf x) x g) g, ∀ y ∈ p.2, P y := by
  induction xs generalizing g with
  | nil => exact hg
  | cons x xs ih => exact ih (fun y hy => hx y (by simp [hy])) (push_sources (hx x (by simp)) hg)

/-- C148: without LOGREDUCE_CACHE and when all is on servers, each file of the target which has something to be compared with is requested exactly
once, if no failure is told; `listed` tells whether the list of the target was asked for. -/
theorem C148_exact {order : List (N × List (Source t)) → List (N × List (Source t))} (horder : ∀ g, (order g).Perm g)
    {m : LJ.Report.Model (Content t) (Source t) N} {target : Content t} {s s' : Sys} {xs : List (Source t)}
    {r : LJ.Report.Report (Content t) (Source t) N D E Unit} (hc : S.useCache = false) (h : (S.getSources net target s).1 = .ok xs)
    (hf : ∀ x ∈ xs, OnServer x) (hr : S.report net m order target s = (some (.ok r), s')) (he : r.readErrors = []) :
    ∃ listed, listed ≤ 1 ∧
      s'.asked = s.asked + listed + (xs.filter fun x => (LJ.Report.lookupOrSingle m.indexes (S.nameOf x)).isSome).length := by
  have hs := getSources_asked (S := S) (net := net) target s
  unfold Setup.report at hr
  rw [Setup.groupInto] at hr
  cases h1 : S.getSources net target s with
  | mk o s1 =>
    rw [h1] at h hs hr
    simp only at h hs
    subst h
    simp only [Setup.groupInto] at hr
    cases h2 : S.reportGroups net m (order (xs.foldl (fun g x => LJ.Report.push (S.nameOf x) x g) [])) ⟨target, m.baselines, [], [], [], [], 0, 0⟩ s1 with
    | mk q s2 =>
      rw [h2] at hr
      cases q with
      | none => cases hr
      | some r1 =>
        cases hr
        have := (reportGroups_exact m _ _ s1 h2).2 hc (fun p hp => fold_sources hf (by simp) p ((horder _).mem_iff.1 hp)) he
        rw [comparedCount_perm m (horder _), fold_compared] at this
        have h0 : comparedCount m ([] : List (N × List (Source t))) = 0 := rfl
        rw [h0] at this
        exact ⟨s1.asked - s.asked, by omega, by omega⟩

/-- C148, for a comparison: one request at most for the list of each baseline and of the target, for each file of the baselines, and for each file
of the target which has something to be compared with. -/
theorem C148_compare {order order' : List (N × List (Source t)) → List (N × List (Source t))} (horder : ∀ g, (order' g).Perm g)
    {baselines : List (Content t)} {target : Content t} {s s1 : Sys} {m : LJ.Report.Model (Content t) (Source t) N} {xs : List (Source t)}
    (ht : S.train net order baselines s = (.ok m, s1)) (h : (S.getSources net target s1).1 = .ok xs) :
    (S.compare net order order' baselines target s).2.asked ≤ s.asked + (baselines.length + 1) +
      (m.indexes.map fun i => i.2.sources.length).sum +
      (xs.filter fun x => (LJ.Report.lookupOrSingle m.indexes (S.nameOf x)).isSome).length := by
  have h1 := (C148_train ht).1
  have h2 := C148_report (S := S) (net := net) horder (m := m) h
  unfold Setup.compare
  rw [ht]
  simp only
  revert h2
  cases S.report net m order' target s1 with
  | mk o s2 =>
    intro h2
    simp only at h2
    rcases o with _ | _ | r
    · simp only; omega
    · simp only; omega
    · simp only; omega

end

/-- Non-vacuity: the comparison of two files of a server without the cache makes two requests, as `C148_compare` and `C148_exact` say. -/
example : ∃ m s1, (demo false).train markNet id [.file (demoSource "m")] start = (.ok m, s1) ∧ s1.asked = 1 ∧
    ((demo false).getSources markNet (.file (demoSource "t")) s1).1 = .ok [demoSource "t"] ∧
    (m.indexes.map fun i => i.2.sources.length).sum = 1 ∧ (LJ.Report.lookupOrSingle m.indexes ()).isSome = true ∧
    ∃ r s2, (demo false).compare markNet id id [.file (demoSource "m")] (.file (demoSource "t")) start = (.ok r, s2) ∧ r.readErrors = [] ∧ s2.asked = 2 := by
  have h := compare_found (S := demo false) (net := markNet) (x := demoSource "m") (y := demoSource "t") rfl rfl (live_base _) (live_last _) (by decide +kernel)
  refine ⟨⟨[.file (demoSource "m")], [((), oneIndex (demo false) (demoSource "m") [lineM, lineZ 2])]⟩, ⟨start.cache, 1⟩, ?_, rfl, rfl, rfl, rfl, _, _, h, rfl, rfl⟩
  unfold Setup.train Setup.groupInto Setup.groupInto
  have hb := live_base (trainAsked ((demo false).env []))
  have e : (demo false).getSources markNet (.file (demoSource "m")) start = (.ok [demoSource "m"], start) := rfl
  rw [e]
  simp only [List.foldl_cons, List.foldl_nil, LJ.Report.push, id]
  unfold Setup.trainGroups Setup.trainIndex Setup.trainSources
  have e2 : (demo false).firstJson [demoSource "m"] = false := rfl
  rw [e2, hb]
  rfl

end LJ.Remote

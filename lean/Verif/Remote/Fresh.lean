/-
Without `LOGREDUCE_CACHE`, files are read as the servers give them.
-/
import Verif.Remote.Witness
namespace LJ.Remote
open LJ.Codec (Bytes Texts Url Source Content)
open LJ.Cache (State Remote Response Opened)
open LJ.Process (Str Ev Env Trainer St AnomalyContext Stop)
open LJ.Report (Index Model Report ListErr Fail LogReport ReadErr World)

/-- An operation which neither uses nor changes the cache. -/
def Fresh {α : Type} (f : Sys → α × Sys) : Prop := ∀ k, ∃ a k', ∀ c, f ⟨c, k⟩ = (a, ⟨c, k'⟩)

section
variable {t : Texts} {N D E : Type} {S : Setup t N D E}

theorem read_fresh (hu : S.useCache = false) (net : Nat → Net t) (x : Source t) (json : Bool) (asked : List (Ev Unit) → Nat) :
    Fresh (S.read net x json asked) := by
  intro k
  cases x with
  | loc n path =>
    simp only [Setup.read]
    cases S.localOpen (.loc n path) with
    | error e => exact ⟨_, _, fun _ => rfl⟩
    | ok r => exact ⟨_, _, fun _ => rfl⟩
  | remote pre url =>
    simp only [Setup.read]
    cases baseOf pre.toNat url with
    | panic => exact ⟨_, _, fun _ => rfl⟩
    | error e => exact ⟨_, _, fun _ => rfl⟩
    | ok base =>
      simp only [Setup.fromUrl, Setup.asks, hu, LJ.Cache.fromUrl, Bool.false_and, Bool.not_false, if_true]
      cases (net k).get url with
      | none => exact ⟨_, _, fun _ => rfl⟩
      | some resp =>
        exact ⟨.ok (S.lines json (reads resp.body)), k + 1, fun _ => rfl⟩

/-- Nothing is listed by a server for it. -/
def Unlisted : Content t → Prop
  | .file _ => True
  | .directory (.loc _ _) => True
  | .directory (.remote _ _) => False
  | .zuul _ => False

theorem getSources_fresh (net : Nat → Net t) (c : Content t) (hc : Unlisted c) : Fresh (S.getSources net c) := by
  intro k
  cases c with
  | file x => exact ⟨_, _, fun _ => rfl⟩
  | directory x =>
    cases x with
    | loc n p => exact ⟨_, _, fun _ => rfl⟩
    | remote p u => exact hc.elim
  | zuul b => exact hc.elim

theorem groupInto_fresh [DecidableEq N] (net : Nat → Net t) (cs : List (Content t)) (hc : ∀ c ∈ cs, Unlisted c) (g : List (N × List (Source t))) :
    Fresh (S.groupInto net cs g) := by
  induction cs generalizing g with
  | nil => exact fun k => ⟨_, _, fun _ => rfl⟩
  | cons c cs ih =>
    intro k
    obtain ⟨a, k', h⟩ := getSources_fresh (S := S) net c (hc c (by simp)) k
    simp only [Setup.groupInto, h]
    cases a with
    | error e => exact ⟨_, _, fun _ => rfl⟩
    | ok xs => exact ih (fun c h => hc c (List.mem_cons_of_mem _ h)) _ k'

theorem trainSources_fresh (hu : S.useCache = false) (net : Nat → Net t) (json : Bool) (xs : List (Source t)) (tr : Trainer) :
    Fresh (S.trainSources net json xs tr) := by
  induction xs generalizing tr with
  | nil => exact fun k => ⟨_, _, fun _ => rfl⟩
  | cons x xs ih =>
    intro k
    obtain ⟨a, k', h⟩ := read_fresh hu net x json (trainAsked (S.env [])) k
    simp only [Setup.trainSources, h]
    cases a with
    | panic => exact ⟨_, _, fun _ => rfl⟩
    | error e => exact ⟨_, _, fun _ => rfl⟩
    | ok l => exact ih _ k'

theorem trainIndex_fresh (hu : S.useCache = false) (net : Nat → Net t) (xs : List (Source t)) : Fresh (S.trainIndex net xs) := by
  intro k
  obtain ⟨a, k', h⟩ := trainSources_fresh hu net (S.firstJson xs) xs Trainer.new k
  simp only [Setup.trainIndex, h]
  cases a <;> exact ⟨_, _, fun _ => rfl⟩

theorem trainGroups_fresh (hu : S.useCache = false) (net : Nat → Net t) (g : List (N × List (Source t))) : Fresh (S.trainGroups net g) := by
  induction g with
  | nil => exact fun k => ⟨_, _, fun _ => rfl⟩
  | cons p g ih =>
    intro k
    obtain ⟨n, xs⟩ := p
    obtain ⟨a, k', h⟩ := trainIndex_fresh hu net xs k
    simp only [Setup.trainGroups, h]
    cases a with
    | panic => exact ⟨_, _, fun _ => rfl⟩
    | error e => exact ⟨_, _, fun _ => rfl⟩
    | ok l =>
      obtain ⟨a, k'', h⟩ := ih k'
      simp only [h]
      cases a <;> exact ⟨_, _, fun _ => rfl⟩

theorem train_fresh [DecidableEq N] (hu : S.useCache = false) (net : Nat → Net t) (order : List (N × List (Source t)) → List (N × List (Source t)))
    (bs : List (Content t)) (hb : ∀ c ∈ bs, Unlisted c) : Fresh (S.train net order bs) := by
  intro k
  obtain ⟨a, k', h⟩ := groupInto_fresh (S := S) net bs hb [] k
  simp only [Setup.train, h]
  cases a with
  | error e => exact ⟨_, _, fun _ => rfl⟩
  | ok g =>
    obtain ⟨a, k'', h⟩ := trainGroups_fresh hu net (order g) k'
    simp only [h]
    cases a <;> exact ⟨_, _, fun _ => rfl⟩

theorem reportSources_fresh [DecidableEq N] (hu : S.useCache = false) (net : Nat → Net t) (name : N) (index : Index (Source t)) (xs : List (Source t)) (skip : List Str)
    (r : Report (Content t) (Source t) N D E Unit) : Fresh (S.reportSources net name index xs skip r) := by
  induction xs generalizing skip r with
  | nil => exact fun k => ⟨_, _, fun _ => rfl⟩
  | cons x xs ih =>
    intro k
    obtain ⟨a, k', h⟩ := read_fresh hu net x (S.isJson x) (processAsked (S.env index.chunks) skip) k
    simp only [Setup.reportSources, h]
    cases a with
    | panic => exact ⟨_, _, fun _ => rfl⟩
    | error e => exact ⟨_, _, fun _ => rfl⟩
    | ok l =>
      simp only
      cases S.inspect index l skip with
      | none => exact ⟨_, _, fun _ => rfl⟩
      | some p => exact ih _ _ k'

theorem reportGroups_fresh [DecidableEq N] (hu : S.useCache = false) (net : Nat → Net t) (m : Model (Content t) (Source t) N) (g : List (N × List (Source t)))
    (r : Report (Content t) (Source t) N D E Unit) : Fresh (S.reportGroups net m g r) := by
  induction g generalizing r with
  | nil => exact fun k => ⟨_, _, fun _ => rfl⟩
  | cons p g ih =>
    intro k
    have hg : Fresh (S.reportGroup net m p r) := by
      intro k
      simp only [Setup.reportGroup]
      cases LJ.Report.lookupOrSingle m.indexes p.1 with
      | none => exact ⟨_, _, fun _ => rfl⟩
      | some index => exact reportSources_fresh hu net _ _ _ _ _ k
    obtain ⟨a, k', h⟩ := hg k
    simp only [Setup.reportGroups, h]
    cases a with
    | none => exact ⟨_, _, fun _ => rfl⟩
    | some r => exact ih _ k'

theorem compare_fresh [DecidableEq N] (hu : S.useCache = false) (net : Nat → Net t) (order order' : List (N × List (Source t)) → List (N × List (Source t)))
    (bs : List (Content t)) (hb : ∀ c ∈ bs, Unlisted c) (target : Content t) (ht : Unlisted target) :
    Fresh (S.compare net order order' bs target) := by
  intro k
  obtain ⟨a, k', h⟩ := train_fresh hu net order bs hb k
  simp only [Setup.compare, h]
  cases a with
  | panic => exact ⟨_, _, fun _ => rfl⟩
  | error e => exact ⟨_, _, fun _ => rfl⟩
  | ok m =>
    obtain ⟨a, k'', h⟩ := groupInto_fresh (S := S) net [target] (by simpa using ht) [] k'
    simp only [Setup.report, h]
    cases a with
    | error e => exact ⟨_, _, fun _ => rfl⟩
    | ok g =>
      obtain ⟨a, k3, h⟩ := reportGroups_fresh hu net m (order' g) ⟨target, m.baselines, [], [], [], [], 0, 0⟩ k''
      simp only [h]
      cases a <;> exact ⟨_, _, fun _ => rfl⟩

end
end LJ.Remote

/-
On servers whose content does not change, the comparison is the same with the cache and without it.
-/
import Verif.Remote.Same
namespace LJ.Remote
open LJ.Codec (Bytes Texts Url Source Content)
open LJ.Cache (State Remote Response Opened File GoodDigest Key)
open LJ.Process (Str Ev Env Trainer St AnomalyContext Stop)
open LJ.Report (Index Model Report ListErr Fail LogReport ReadErr World)

section
variable {t : Texts} {N D E : Type} {S : Setup t N D E} {U V : String → Prop} {site : Site t}

/-- the same result, and both caches are as they should be -/
def Alike (V : String → Prop) (S : Setup t N D E) (site : Site t) {α : Type} (x y : α × Sys) : Prop :=
  x.1 = y.1 ∧ Holds V S site x.2.cache ∧ Holds V S site y.2.cache

variable {b b' : Bool} {net net' : Nat → Net t}

theorem read_alike (hst : Stable U V S site) (hn : Serves site net) (hn' : Serves site net') (source : Source t) (hsrc : KnownSource U source) (json : Bool)
    (asked : List (Ev Unit) → Nat) (hask : ∀ d, Unmarked S d → (textLines json d).length < asked (textLines json d)) (s s' : Sys)
    (h : Holds V S site s.cache) (h' : Holds V S site s'.cache) :
    Alike V S site ((S.on b).read net source json asked s) ((S.on b').read net' source json asked s') := by
  obtain ⟨k1, k2⟩ := read_same hst.digest hst.cut hst.known hst.clean b hn source hsrc json asked hask s h
  obtain ⟨j1, j2⟩ := read_same hst.digest hst.cut hst.known hst.clean b' hn' source hsrc json asked hask s' h'
  exact ⟨k1.trans j1.symm, k2, j2⟩

theorem trainSources_alike (hst : Stable U V S site) (hn : Serves site net) (hn' : Serves site net') (json : Bool) (xs : List (Source t))
    (hx : ∀ x ∈ xs, KnownSource U x) (tr : Trainer) (s s' : Sys) (h : Holds V S site s.cache) (h' : Holds V S site s'.cache) :
    Alike V S site ((S.on b).trainSources net json xs tr s) ((S.on b').trainSources net' json xs tr s') := by
  induction xs generalizing tr s s' with
  | nil => exact ⟨rfl, h, h'⟩
  | cons x xs ih =>
    unfold Setup.trainSources
    have hr := read_alike (b := b) (b' := b') hst hn hn' x (hx x (List.mem_cons_self ..)) json (trainAsked (S.env []))
      (fun d hd => by rw [trainAsked_plain _ (plain_lines hd json [])]; omega) s s' h h'
    change Alike V S site (match (S.on b).read net x json (trainAsked (S.env [])) s with | (.panic, s) => _ | (.error e, s) => _ | (.ok lines, s) => _)
      (match (S.on b').read net' x json (trainAsked (S.env [])) s' with | (.panic, s) => _ | (.error e, s) => _ | (.ok lines, s) => _)
    generalize (S.on b).read net x json (trainAsked (S.env [])) s = y at hr ⊢
    generalize (S.on b').read net' x json (trainAsked (S.env [])) s' = y' at hr ⊢
    obtain ⟨o, s1⟩ := y
    obtain ⟨o', s1'⟩ := y'
    obtain ⟨e, k, k'⟩ := hr
    simp only at e k k'
    subst e
    cases o with
    | panic => exact ⟨rfl, k, k'⟩
    | error e => exact ⟨rfl, k, k'⟩
    | ok lines => exact ih (fun x hx' => hx x (List.mem_cons_of_mem _ hx')) _ s1 s1' k k'

theorem trainIndex_alike (hst : Stable U V S site) (hn : Serves site net) (hn' : Serves site net') (xs : List (Source t))
    (hx : ∀ x ∈ xs, KnownSource U x) (s s' : Sys) (h : Holds V S site s.cache) (h' : Holds V S site s'.cache) :
    Alike V S site ((S.on b).trainIndex net xs s) ((S.on b').trainIndex net' xs s') := by
  unfold Setup.trainIndex
  have e1 : (S.on b).firstJson xs = S.firstJson xs := by cases xs <;> rfl
  have e2 : (S.on b').firstJson xs = S.firstJson xs := by cases xs <;> rfl
  rw [e1, e2]
  have hr := trainSources_alike (b := b) (b' := b') hst hn hn' (S.firstJson xs) xs hx Trainer.new s s' h h'
  generalize (S.on b).trainSources net (S.firstJson xs) xs Trainer.new s = y at hr ⊢
  generalize (S.on b').trainSources net' (S.firstJson xs) xs Trainer.new s' = y' at hr ⊢
  obtain ⟨o, s1⟩ := y
  obtain ⟨o', s1'⟩ := y'
  obtain ⟨e, k, k'⟩ := hr
  simp only at e k k'
  subst e
  cases o <;> exact ⟨rfl, k, k'⟩

/-- the sources of the groups are known -/
def KnownGroups (U : String → Prop) (g : List (N × List (Source t))) : Prop := ∀ p ∈ g, ∀ x ∈ p.2, KnownSource U x

theorem KnownGroups.perm {g g' : List (N × List (Source t))} (h : g'.Perm g) (hg : KnownGroups U g) : KnownGroups U g' :=
  fun p hp => hg p (h.mem_iff.1 hp)

theorem trainGroups_alike (hst : Stable U V S site) (hn : Serves site net) (hn' : Serves site net') (g : List (N × List (Source t)))
    (hg : KnownGroups U g) (s s' : Sys) (h : Holds V S site s.cache) (h' : Holds V S site s'.cache) :
    Alike V S site ((S.on b).trainGroups net g s) ((S.on b').trainGroups net' g s') := by
  induction g generalizing s s' with
  | nil => exact ⟨rfl, h, h'⟩
  | cons p g ih =>
    obtain ⟨n, xs⟩ := p
    unfold Setup.trainGroups
    have hr := trainIndex_alike (b := b) (b' := b') hst hn hn' xs (hg _ (List.mem_cons_self ..)) s s' h h'
    generalize (S.on b).trainIndex net xs s = y at hr ⊢
    generalize (S.on b').trainIndex net' xs s' = y' at hr ⊢
    obtain ⟨o, s1⟩ := y
    obtain ⟨o', s1'⟩ := y'
    obtain ⟨e, k, k'⟩ := hr
    simp only at e k k'
    subst e
    cases o with
    | panic => exact ⟨rfl, k, k'⟩
    | error e => exact ⟨rfl, k, k'⟩
    | ok index =>
      simp only
      have hr2 := ih (fun p hp => hg p (List.mem_cons_of_mem _ hp)) s1 s1' k k'
      generalize (S.on b).trainGroups net g s1 = z at hr2 ⊢
      generalize (S.on b').trainGroups net' g s1' = z' at hr2 ⊢
      obtain ⟨o, s2⟩ := z
      obtain ⟨o', s2'⟩ := z'
      obtain ⟨e, k, k'⟩ := hr2
      simp only at e k k'
      subst e
      cases o <;> exact ⟨rfl, k, k'⟩

theorem collectOk_mem {α : Type} (l : List (Except E α)) (xs : List α) (h : LJ.Report.collectOk l = .ok xs) : ∀ x ∈ xs, .ok x ∈ l := by
  induction l generalizing xs with
  | nil =>
    simp only [LJ.Report.collectOk, Except.ok.injEq] at h
    subst h
    intro x hx
    cases hx
  | cons e l ih =>
    cases e with
    | error e => simp [LJ.Report.collectOk] at h
    | ok a =>
      simp only [LJ.Report.collectOk] at h
      cases hl : LJ.Report.collectOk l with
      | error e => rw [hl] at h; cases h
      | ok ys =>
        rw [hl] at h
        simp only [Except.ok.injEq] at h
        subst h
        intro x hx
        rcases List.mem_cons.1 hx with rfl | hx
        · exact List.mem_cons_self ..
        · exact List.mem_cons_of_mem _ (ih ys hl x hx)

theorem getSources_alike (hst : Stable U V S site) (hn : Serves site net) (hn' : Serves site net') (c : Content t) (hc : KnownContent U c)
    (s s' : Sys) (h : Holds V S site s.cache) (h' : Holds V S site s'.cache) :
    Alike V S site ((S.on b).getSources net c s) ((S.on b').getSources net' c s') ∧
      ∀ sources, ((S.on b).getSources net c s).1 = .ok sources → ∀ x ∈ sources, KnownSource U x := by
  obtain ⟨k1, k2⟩ := list_same hst.digest hst.known b hn c hc s h
  obtain ⟨j1, j2⟩ := list_same hst.digest hst.known b' hn' c hc s' h'
  refine ⟨⟨?_, k2, j2⟩, ?_⟩
  · unfold Setup.getSources
    simp only [k1, j1]
    rfl
  · intro sources hs x hx
    unfold Setup.getSources at hs
    simp only [k1] at hs
    refine siteList_known hst.known c hc x ?_
    cases hl : LJ.Report.collectOk ((S.siteList site c).filter (LJ.Report.keepSource (S.on b).valid)) with
    | error e => rw [hl] at hs; cases hs
    | ok ys =>
      rw [hl] at hs
      have : sources = ys := by
        cases ys with
        | nil => cases hs
        | cons y ys => cases hs; rfl
      subst this
      exact (List.mem_filter.1 (collectOk_mem _ _ hl x hx)).1

variable [DecidableEq N]

theorem push_known (name : N) (x : Source t) (hx : KnownSource U x) (g : List (N × List (Source t))) (hg : KnownGroups U g) :
    KnownGroups U (LJ.Report.push name x g) := by
  induction g with
  | nil =>
    intro p hp y hy
    simp only [LJ.Report.push, List.mem_singleton] at hp
    subst hp
    simp only [List.mem_singleton] at hy
    subst hy
    exact hx
  | cons q g ih =>
    obtain ⟨n, ys⟩ := q
    have hg' : KnownGroups U g := fun p hp => hg p (List.mem_cons_of_mem _ hp)
    unfold LJ.Report.push
    split
    · intro p hp y hy
      rcases List.mem_cons.1 hp with rfl | hp
      · rcases List.mem_append.1 hy with hy | hy
        · exact hg (n, ys) (List.mem_cons_self ..) y hy
        · rw [List.mem_singleton] at hy
          subst hy
          exact hx
      · exact hg' p hp y hy
    · intro p hp y hy
      rcases List.mem_cons.1 hp with rfl | hp
      · exact hg (n, ys) (List.mem_cons_self ..) y hy
      · exact ih hg' p hp y hy

theorem foldl_known (xs : List (Source t)) (hx : ∀ x ∈ xs, KnownSource U x) (name : Source t → N) (g : List (N × List (Source t))) (hg : KnownGroups U g) :
    KnownGroups U (xs.foldl (fun g x => LJ.Report.push (name x) x g) g) := by
  induction xs generalizing g with
  | nil => exact hg
  | cons x xs ih =>
    rw [List.foldl_cons]
    exact ih (fun y hy => hx y (List.mem_cons_of_mem _ hy)) _ (push_known _ x (hx x (List.mem_cons_self ..)) g hg)

theorem groupInto_alike (hst : Stable U V S site) (hn : Serves site net) (hn' : Serves site net') (cs : List (Content t)) (hc : ∀ c ∈ cs, KnownContent U c)
    (g : List (N × List (Source t))) (hg : KnownGroups U g) (s s' : Sys) (h : Holds V S site s.cache) (h' : Holds V S site s'.cache) :
    Alike V S site ((S.on b).groupInto net cs g s) ((S.on b').groupInto net' cs g s') ∧
      ∀ g', ((S.on b).groupInto net cs g s).1 = .ok g' → KnownGroups U g' := by
  induction cs generalizing g s s' with
  | nil =>
    refine ⟨⟨rfl, h, h'⟩, fun g' hg' => ?_⟩
    simp only [Setup.groupInto, Except.ok.injEq] at hg'
    subst hg'
    exact hg
  | cons c cs ih =>
    unfold Setup.groupInto
    obtain ⟨hr, hkn⟩ := getSources_alike (b := b) (b' := b') hst hn hn' c (hc c (List.mem_cons_self ..)) s s' h h'
    generalize (S.on b).getSources net c s = y at hr hkn ⊢
    generalize (S.on b').getSources net' c s' = y' at hr ⊢
    obtain ⟨o, s1⟩ := y
    obtain ⟨o', s1'⟩ := y'
    obtain ⟨e, k, k'⟩ := hr
    simp only at e k k' hkn
    subst e
    cases o with
    | error e => exact ⟨⟨rfl, k, k'⟩, fun g' hg' => by cases hg'⟩
    | ok sources => exact ih (fun c hc' => hc c (List.mem_cons_of_mem _ hc')) _ (foldl_known sources (hkn sources rfl) _ g hg) s1 s1' k k'

theorem train_alike (hst : Stable U V S site) (hn : Serves site net) (hn' : Serves site net') (order : List (N × List (Source t)) → List (N × List (Source t)))
    (ho : ∀ g, (order g).Perm g) (bs : List (Content t)) (hc : ∀ c ∈ bs, KnownContent U c) (s s' : Sys) (h : Holds V S site s.cache) (h' : Holds V S site s'.cache) :
    Alike V S site ((S.on b).train net order bs s) ((S.on b').train net' order bs s') := by
  unfold Setup.train
  obtain ⟨hr, hkn⟩ := groupInto_alike (b := b) (b' := b') hst hn hn' bs hc [] (fun p hp => by cases hp) s s' h h'
  generalize (S.on b).groupInto net bs [] s = y at hr hkn ⊢
  generalize (S.on b').groupInto net' bs [] s' = y' at hr ⊢
  obtain ⟨o, s1⟩ := y
  obtain ⟨o', s1'⟩ := y'
  obtain ⟨e, k, k'⟩ := hr
  simp only at e k k' hkn
  subst e
  cases o with
  | error e => exact ⟨rfl, k, k'⟩
  | ok g =>
    simp only
    have hr2 := trainGroups_alike (b := b) (b' := b') hst hn hn' (order g) ((hkn g rfl).perm (ho g)) s1 s1' k k'
    generalize (S.on b).trainGroups net (order g) s1 = z at hr2 ⊢
    generalize (S.on b').trainGroups net' (order g) s1' = z' at hr2 ⊢
    obtain ⟨o, s2⟩ := z
    obtain ⟨o', s2'⟩ := z'
    obtain ⟨e, k, k'⟩ := hr2
    simp only at e k k'
    subst e
    cases o <;> exact ⟨rfl, k, k'⟩

theorem reportSources_alike (hst : Stable U V S site) (hn : Serves site net) (hn' : Serves site net') (name : N) (index : Index (Source t)) (xs : List (Source t))
    (hx : ∀ x ∈ xs, KnownSource U x) (skip : List Str) (r : Report (Content t) (Source t) N D E Unit) (s s' : Sys)
    (h : Holds V S site s.cache) (h' : Holds V S site s'.cache) :
    Alike V S site ((S.on b).reportSources net name index xs skip r s) ((S.on b').reportSources net' name index xs skip r s') := by
  induction xs generalizing skip r s s' with
  | nil => exact ⟨rfl, h, h'⟩
  | cons x xs ih =>
    unfold Setup.reportSources
    obtain ⟨dist, hd⟩ := hst.search index.chunks
    have hr := read_alike (b := b) (b' := b') hst hn hn' x (hx x (List.mem_cons_self ..)) (S.isJson x) (processAsked (S.env index.chunks) skip)
      (fun d hu => processAsked_plain (env := S.env index.chunks) hd skip _ (plain_lines hu _ _)) s s' h h'
    change Alike V S site (match (S.on b).read net x (S.isJson x) (processAsked (S.env index.chunks) skip) s with | (.panic, s) => _ | (.error e, s) => _ | (.ok lines, s) => _)
      (match (S.on b').read net' x (S.isJson x) (processAsked (S.env index.chunks) skip) s' with | (.panic, s) => _ | (.error e, s) => _ | (.ok lines, s) => _)
    generalize (S.on b).read net x (S.isJson x) (processAsked (S.env index.chunks) skip) s = y at hr ⊢
    generalize (S.on b').read net' x (S.isJson x) (processAsked (S.env index.chunks) skip) s' = y' at hr ⊢
    obtain ⟨o, s1⟩ := y
    obtain ⟨o', s1'⟩ := y'
    obtain ⟨e, k, k'⟩ := hr
    simp only at e k k'
    subst e
    cases o with
    | panic => exact ⟨rfl, k, k'⟩
    | error e => exact ⟨rfl, k, k'⟩
    | ok lines =>
      simp only
      have e1 : (S.on b).inspect index lines skip = S.inspect index lines skip := rfl
      have e2 : (S.on b').inspect index lines skip = S.inspect index lines skip := rfl
      rw [e1, e2]
      cases S.inspect index lines skip with
      | none => exact ⟨rfl, k, k'⟩
      | some p =>
        obtain ⟨as, err, st⟩ := p
        exact ih (fun x hx' => hx x (List.mem_cons_of_mem _ hx')) _ _ s1 s1' k k'

theorem reportGroups_alike (hst : Stable U V S site) (hn : Serves site net) (hn' : Serves site net') (m : Model (Content t) (Source t) N) (gs : List (N × List (Source t)))
    (hg : KnownGroups U gs) (r : Report (Content t) (Source t) N D E Unit) (s s' : Sys) (h : Holds V S site s.cache) (h' : Holds V S site s'.cache) :
    Alike V S site ((S.on b).reportGroups net m gs r s) ((S.on b').reportGroups net' m gs r s') := by
  induction gs generalizing r s s' with
  | nil => exact ⟨rfl, h, h'⟩
  | cons g gs ih =>
    unfold Setup.reportGroups
    have hr : Alike V S site ((S.on b).reportGroup net m g r s) ((S.on b').reportGroup net' m g r s') := by
      unfold Setup.reportGroup
      cases LJ.Report.lookupOrSingle m.indexes g.1 with
      | some index => exact reportSources_alike hst hn hn' _ _ _ (hg g (List.mem_cons_self ..)) _ _ s s' h h'
      | none => exact ⟨rfl, h, h'⟩
    generalize (S.on b).reportGroup net m g r s = y at hr ⊢
    generalize (S.on b').reportGroup net' m g r s' = y' at hr ⊢
    obtain ⟨o, s1⟩ := y
    obtain ⟨o', s1'⟩ := y'
    obtain ⟨e, k, k'⟩ := hr
    simp only at e k k'
    subst e
    cases o with
    | none => exact ⟨rfl, k, k'⟩
    | some r1 => exact ih (fun p hp => hg p (List.mem_cons_of_mem _ hp)) r1 s1 s1' k k'

theorem report_alike (hst : Stable U V S site) (hn : Serves site net) (hn' : Serves site net') (m : Model (Content t) (Source t) N)
    (order : List (N × List (Source t)) → List (N × List (Source t))) (ho : ∀ g, (order g).Perm g) (target : Content t) (hc : KnownContent U target)
    (s s' : Sys) (h : Holds V S site s.cache) (h' : Holds V S site s'.cache) :
    Alike V S site ((S.on b).report net m order target s) ((S.on b').report net' m order target s') := by
  unfold Setup.report
  obtain ⟨hr, hkn⟩ := groupInto_alike (b := b) (b' := b') hst hn hn' [target] (fun c hc' => by rw [List.mem_singleton] at hc'; subst hc'; exact hc) [] (fun p hp => by cases hp) s s' h h'
  generalize (S.on b).groupInto net [target] [] s = y at hr hkn ⊢
  generalize (S.on b').groupInto net' [target] [] s' = y' at hr ⊢
  obtain ⟨o, s1⟩ := y
  obtain ⟨o', s1'⟩ := y'
  obtain ⟨e, k, k'⟩ := hr
  simp only at e k k' hkn
  subst e
  cases o with
  | error e => exact ⟨rfl, k, k'⟩
  | ok g =>
    simp only
    have hr2 := reportGroups_alike (b := b) (b' := b') hst hn hn' m (order g) ((hkn g rfl).perm (ho g)) ⟨target, m.baselines, [], [], [], [], 0, 0⟩ s1 s1' k k'
    generalize (S.on b).reportGroups net m (order g) ⟨target, m.baselines, [], [], [], [], 0, 0⟩ s1 = z at hr2 ⊢
    generalize (S.on b').reportGroups net' m (order g) ⟨target, m.baselines, [], [], [], [], 0, 0⟩ s1' = z' at hr2 ⊢
    obtain ⟨o, s2⟩ := z
    obtain ⟨o', s2'⟩ := z'
    obtain ⟨e, k, k'⟩ := hr2
    simp only at e k k'
    subst e
    cases o <;> exact ⟨rfl, k, k'⟩

theorem compare_alike (hst : Stable U V S site) (hn : Serves site net) (hn' : Serves site net') (o1 o2 : List (N × List (Source t)) → List (N × List (Source t)))
    (h1 : ∀ g, (o1 g).Perm g) (h2 : ∀ g, (o2 g).Perm g) (bs : List (Content t)) (hb : ∀ c ∈ bs, KnownContent U c) (target : Content t) (hc : KnownContent U target)
    (s s' : Sys) (h : Holds V S site s.cache) (h' : Holds V S site s'.cache) :
    Alike V S site ((S.on b).compare net o1 o2 bs target s) ((S.on b').compare net' o1 o2 bs target s') := by
  unfold Setup.compare
  have hr := train_alike (b := b) (b' := b') hst hn hn' o1 h1 bs hb s s' h h'
  generalize (S.on b).train net o1 bs s = y at hr ⊢
  generalize (S.on b').train net' o1 bs s' = y' at hr ⊢
  obtain ⟨o, s1⟩ := y
  obtain ⟨o', s1'⟩ := y'
  obtain ⟨e, k, k'⟩ := hr
  simp only at e k k'
  subst e
  cases o with
  | panic => exact ⟨rfl, k, k'⟩
  | error e => exact ⟨rfl, k, k'⟩
  | ok m =>
    simp only
    have hr2 := report_alike (b := b) (b' := b') hst hn hn' m o2 h2 target hc s1 s1' k k'
    generalize (S.on b).report net m o2 target s1 = z at hr2 ⊢
    generalize (S.on b').report net' m o2 target s1' = z' at hr2 ⊢
    obtain ⟨o, s2⟩ := z
    obtain ⟨o', s2'⟩ := z'
    obtain ⟨e, k, k'⟩ := hr2
    simp only at e k k'
    subst e
    match o with
    | none => exact ⟨rfl, k, k'⟩
    | some (.error e) => exact ⟨rfl, k, k'⟩
    | some (.ok r) => exact ⟨rfl, k, k'⟩

theorem mixed_holds (hst : Stable U V S site) (us : List (Bool × Use t N)) (hus : ∀ p ∈ us, p.2.On U site) (s : Sys) (h : Holds V S site s.cache) :
    Holds V S site (mixed S us s).cache := by
  induction us generalizing s with
  | nil => exact h
  | cons p us ih =>
    obtain ⟨b, u⟩ := p
    have hu := hus (b, u) (List.mem_cons_self ..)
    have := compare_alike (b := b) (b' := b) hst hu.net hu.net u.order u.order' hu.order hu.order' u.baselines hu.baselines u.target hu.target s s h h
    exact ih (fun p hp => hus p (List.mem_cons_of_mem _ hp)) _ this.2.1

end
end LJ.Remote

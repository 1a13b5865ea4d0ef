/-
Whatever happens in a comparison, the files that were in the cache stay as they were.
-/
import Verif.Remote.Lift
namespace LJ.Remote
open LJ.Codec (Bytes Texts Url Source Content)
open LJ.Cache (State Remote Response Opened File)
open LJ.Process (Str Ev Env Trainer St AnomalyContext Stop)
open LJ.Report (Index Model Report ListErr Fail LogReport ReadErr World)

/-- the cache of the second is sound, and has all of the first -/
def Kept (a b : State) : Prop := Sound a → Sound b ∧ Ext a b

theorem Kept.refl (a : State) : Kept a a := fun h => ⟨h, Ext.refl a⟩

theorem Kept.trans {a b c : State} (h1 : Kept a b) (h2 : Kept b c) : Kept a c := fun h =>
  ⟨(h2 (h1 h).1).1, (h1 h).2.trans (h2 (h1 h).1).2⟩

/-- the reads of an open reader change its file only -/
theorem readMany_only (id i m : Nat) (r : Remote) (s : State) (hs : s.readers[id]? = some (some ⟨r, i⟩)) :
    (readMany id m s).names = s.names ∧ (∃ l, (readMany id m s).files = s.files.modify i (LJ.Cache.append l)) ∧
      ∃ r', (readMany id m s).readers[id]? = some (some ⟨r', i⟩) := by
  induction m generalizing r s with
  | zero =>
    refine ⟨rfl, ⟨[], ?_⟩, r, hs⟩
    show s.files = _
    have : LJ.Cache.append [] = _root_.id := funext append_nil
    rw [this]
    exact (List.modify_id _ _).symm
  | succ m ih =>
    have hid : id < s.readers.length := (List.getElem?_eq_some_iff.1 hs).1
    unfold readMany
    unfold LJ.Cache.readerRead
    rw [hs]
    simp only
    generalize r.read 8192 = y
    obtain ⟨o, r1⟩ := y
    cases o with
    | none =>
      simp only
      obtain ⟨g1, g2, g3⟩ := ih r1 { s with readers := s.readers.set id (some ⟨r1, i⟩) } (by simp [hid])
      exact ⟨g1, g2, g3⟩
    | some c =>
      simp only
      obtain ⟨g1, ⟨l, g2⟩, g3⟩ := ih r1 { s with readers := s.readers.set id (some ⟨r1, i⟩), files := s.files.modify i (LJ.Cache.append c) } (by simp [hid])
      refine ⟨g1, ⟨c ++ l, ?_⟩, g3⟩
      rw [g2, List.modify_modify_eq]
      congr 1
      funext x
      cases x <;> simp [LJ.Cache.append]

section
variable {t : Texts} {N D E : Type} {S : Setup t N D E}

theorem read_kept (net : Nat → Net t) (source : Source t) (json : Bool) (asked : List (Ev Unit) → Nat) (s : Sys) :
    Kept s.cache (S.read net source json asked s).2.cache := by
  intro hs
  unfold Setup.read
  cases source with
  | loc n path =>
    simp only
    split <;> exact ⟨hs, Ext.refl _⟩
  | remote pre url =>
    simp only
    cases baseOf pre.toNat url with
    | panic => exact ⟨hs, Ext.refl _⟩
    | error e => exact ⟨hs, Ext.refl _⟩
    | ok base =>
      simp only
      unfold Setup.fromUrl LJ.Cache.fromUrl
      cases hu : S.useCache with
      | false =>
        simp only [Bool.false_eq_true, if_false]
        cases (net s.asked).get url <;> exact ⟨hs, Ext.refl _⟩
      | true =>
        simp only [if_true]
        cases hg : LJ.Cache.remoteGet S.digest base url s.cache with
        | some x => exact ⟨hs, Ext.refl _⟩
        | none =>
          simp only
          cases (net s.asked).get url with
          | none => exact ⟨hs, Ext.refl _⟩
          | some resp =>
            simp only
            cases ha : LJ.Cache.remoteAdd S.digest base url resp.body s.cache with
            | none => exact ⟨hs, Ext.refl _⟩
            | some c1 =>
              simp only
              have hget : LJ.Cache.get (LJ.Cache.httpName S.digest base url) s.cache = none := by
                unfold LJ.Cache.remoteGet at hg
                cases hx : LJ.Cache.get (LJ.Cache.httpName S.digest base url) s.cache with
                | none => rfl
                | some x => rw [hx] at hg; cases hg
              have hname := get_none hs hget
              unfold LJ.Cache.remoteAdd LJ.Cache.create at ha
              rw [hname] at ha
              simp only [Option.map_some, Option.some.injEq] at ha
              subst ha
              have hrd : (s.cache.readers ++ [some (⟨resp.body, s.cache.files.length⟩ : LJ.Cache.Reader)])[s.cache.readers.length]? = some (some ⟨resp.body, s.cache.files.length⟩) := by simp
              unfold Setup.consume
              simp only [hrd]
              generalize S.readsMade json _ _ = m
              obtain ⟨g1, ⟨l, g2⟩, r', g3⟩ := readMany_only s.cache.readers.length s.cache.files.length m resp.body
                { names := fun n => if n = LJ.Cache.httpName S.digest base url then some s.cache.files.length else s.cache.names n, files := s.cache.files ++ [.gz [] false],
                  readers := s.cache.readers ++ [some ⟨resp.body, s.cache.files.length⟩] } hrd
              generalize readMany s.cache.readers.length m _ = c3 at g1 g2 g3
              have hfin : LJ.Cache.readerClose s.cache.readers.length c3 = { c3 with readers := c3.readers.set s.cache.readers.length none, files := c3.files.modify s.cache.files.length LJ.Cache.finish } := by
                unfold LJ.Cache.readerClose
                rw [g3]
              rw [hfin]
              have := ext_add (c := s.cache) (n := LJ.Cache.httpName S.digest base url) (x := .gz l true)
                (c' := { c3 with readers := c3.readers.set s.cache.readers.length none, files := c3.files.modify s.cache.files.length LJ.Cache.finish }) hs hname g1 (by
                  simp only [g2]
                  exact modify_last _ _ _ _)
              exact ⟨this.1, this.2.1⟩

theorem list_kept (net : Nat → Net t) (c : Content t) (s : Sys) : Kept s.cache (S.list net c s).2.cache := by
  intro hs
  obtain ⟨k1, k2, _⟩ := list_spec net c s _ hs _ (Prod.eta (S.list net c s)).symm
  exact ⟨k1, k2⟩

/-- A relation which the reads and the listings of the program keep -/
structure Steps (S : Setup t N D E) (R : State → State → Prop) : Prop where
  refl : ∀ a, R a a
  trans : ∀ {a b c}, R a b → R b c → R a c
  read : ∀ net source json asked s, R s.cache (S.read net source json asked s).2.cache
  list : ∀ net c s, R s.cache (S.list net c s).2.cache

variable {R : State → State → Prop}

theorem getSources_rel (hR : Steps S R) (net : Nat → Net t) (c : Content t) (s : Sys) : R s.cache (S.getSources net c s).2.cache := by
  unfold Setup.getSources
  exact hR.list net c s

theorem trainSources_rel (hR : Steps S R) (net : Nat → Net t) (json : Bool) (xs : List (Source t)) (tr : Trainer) (s : Sys) :
    R s.cache (S.trainSources net json xs tr s).2.cache := by
  induction xs generalizing tr s with
  | nil => exact hR.refl _
  | cons x xs ih =>
    unfold Setup.trainSources
    have h := hR.read net x json (trainAsked (S.env [])) s
    generalize S.read net x json (trainAsked (S.env [])) s = y at h
    obtain ⟨o, s1⟩ := y
    cases o with
    | panic => exact h
    | error e => exact h
    | ok lines => exact hR.trans h (ih _ s1)

theorem trainIndex_rel (hR : Steps S R) (net : Nat → Net t) (xs : List (Source t)) (s : Sys) : R s.cache (S.trainIndex net xs s).2.cache := by
  unfold Setup.trainIndex
  have h := trainSources_rel hR net (S.firstJson xs) xs Trainer.new s
  generalize S.trainSources net (S.firstJson xs) xs Trainer.new s = y at h
  obtain ⟨o, s1⟩ := y
  cases o <;> exact h

theorem trainGroups_rel (hR : Steps S R) (net : Nat → Net t) (g : List (N × List (Source t))) (s : Sys) : R s.cache (S.trainGroups net g s).2.cache := by
  induction g generalizing s with
  | nil => exact hR.refl _
  | cons p g ih =>
    obtain ⟨n, xs⟩ := p
    unfold Setup.trainGroups
    have h := trainIndex_rel hR net xs s
    generalize S.trainIndex net xs s = y at h
    obtain ⟨o, s1⟩ := y
    cases o with
    | panic => exact h
    | error e => exact h
    | ok index =>
      simp only
      have h2 := ih s1
      generalize S.trainGroups net g s1 = z at h2
      obtain ⟨o2, s2⟩ := z
      cases o2 <;> exact hR.trans h h2

variable [DecidableEq N]

theorem groupInto_rel (hR : Steps S R) (net : Nat → Net t) (cs : List (Content t)) (g : List (N × List (Source t))) (s : Sys) :
    R s.cache (S.groupInto net cs g s).2.cache := by
  induction cs generalizing g s with
  | nil => exact hR.refl _
  | cons c cs ih =>
    unfold Setup.groupInto
    have h := getSources_rel hR net c s
    generalize S.getSources net c s = y at h
    obtain ⟨o, s1⟩ := y
    cases o with
    | error e => exact h
    | ok sources => exact hR.trans h (ih _ s1)

theorem train_rel (hR : Steps S R) (net : Nat → Net t) (order : List (N × List (Source t)) → List (N × List (Source t))) (bs : List (Content t)) (s : Sys) :
    R s.cache (S.train net order bs s).2.cache := by
  unfold Setup.train
  have h := groupInto_rel hR net bs [] s
  generalize S.groupInto net bs [] s = y at h
  obtain ⟨o, s1⟩ := y
  cases o with
  | error e => exact h
  | ok g =>
    simp only
    have h2 := trainGroups_rel hR net (order g) s1
    generalize S.trainGroups net (order g) s1 = z at h2
    obtain ⟨o2, s2⟩ := z
    cases o2 <;> exact hR.trans h h2

theorem reportSources_rel (hR : Steps S R) (net : Nat → Net t) (name : N) (index : Index (Source t)) (xs : List (Source t)) (skip : List Str)
    (r : Report (Content t) (Source t) N D E Unit) (s : Sys) : R s.cache (S.reportSources net name index xs skip r s).2.cache := by
  induction xs generalizing skip r s with
  | nil => exact hR.refl _
  | cons x xs ih =>
    unfold Setup.reportSources
    have h := hR.read net x (S.isJson x) (processAsked (S.env index.chunks) skip) s
    generalize S.read net x (S.isJson x) (processAsked (S.env index.chunks) skip) s = y at h
    obtain ⟨o, s1⟩ := y
    cases o with
    | panic => exact h
    | error e => exact h
    | ok lines =>
      simp only
      cases S.inspect index lines skip with
      | none => exact h
      | some p =>
        obtain ⟨as, err, st⟩ := p
        exact hR.trans h (ih _ _ s1)

theorem reportGroups_rel (hR : Steps S R) (net : Nat → Net t) (m : Model (Content t) (Source t) N) (gs : List (N × List (Source t)))
    (r : Report (Content t) (Source t) N D E Unit) (s : Sys) : R s.cache (S.reportGroups net m gs r s).2.cache := by
  induction gs generalizing r s with
  | nil => exact hR.refl _
  | cons g gs ih =>
    unfold Setup.reportGroups
    have h : R s.cache (S.reportGroup net m g r s).2.cache := by
      unfold Setup.reportGroup
      cases LJ.Report.lookupOrSingle m.indexes g.1 with
      | some index => exact reportSources_rel hR net _ _ _ _ _ _
      | none => exact hR.refl _
    generalize S.reportGroup net m g r s = y at h
    obtain ⟨o, s1⟩ := y
    cases o with
    | none => exact h
    | some r1 => exact hR.trans h (ih r1 s1)

theorem report_rel (hR : Steps S R) (net : Nat → Net t) (m : Model (Content t) (Source t) N) (order : List (N × List (Source t)) → List (N × List (Source t)))
    (target : Content t) (s : Sys) : R s.cache (S.report net m order target s).2.cache := by
  unfold Setup.report
  have h := groupInto_rel hR net [target] [] s
  generalize S.groupInto net [target] [] s = y at h
  obtain ⟨o, s1⟩ := y
  cases o with
  | error e => exact h
  | ok g =>
    simp only
    have h2 := reportGroups_rel hR net m (order g) ⟨target, m.baselines, [], [], [], [], 0, 0⟩ s1
    generalize S.reportGroups net m (order g) ⟨target, m.baselines, [], [], [], [], 0, 0⟩ s1 = z at h2
    obtain ⟨o2, s2⟩ := z
    cases o2 <;> exact hR.trans h h2

theorem compare_rel (hR : Steps S R) (net : Nat → Net t) (order order' : List (N × List (Source t)) → List (N × List (Source t))) (bs : List (Content t)) (target : Content t)
    (s : Sys) : R s.cache (S.compare net order order' bs target s).2.cache := by
  unfold Setup.compare
  have h := train_rel hR net order bs s
  generalize S.train net order bs s = y at h
  obtain ⟨o, s1⟩ := y
  cases o with
  | panic => exact h
  | error e => exact h
  | ok m =>
    simp only
    have h2 := report_rel hR net m order' target s1
    generalize S.report net m order' target s1 = z at h2
    obtain ⟨o2, s2⟩ := z
    match o2, h2 with
    | none, h2 => exact hR.trans h h2
    | some (.error e), h2 => exact hR.trans h h2
    | some (.ok r), h2 => exact hR.trans h h2

theorem compare_kept (net : Nat → Net t) (order order' : List (N × List (Source t)) → List (N × List (Source t))) (bs : List (Content t)) (target : Content t)
    (s : Sys) : Kept s.cache (S.compare net order order' bs target s).2.cache :=
  compare_rel ⟨Kept.refl, Kept.trans, read_kept, list_kept⟩ net order order' bs target s

end
end LJ.Remote

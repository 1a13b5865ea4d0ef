/-
What the cache gives to the comparisons of remote logs.
-/
import Verif.Remote.Fresh
import Verif.Report.Props
import Verif.Cache.Lemmas
namespace LJ.Remote
open LJ.Codec (Bytes Texts Url Source Content)
open LJ.Cache (State Remote Response Opened File demoTexts demoUrl demoDigest)
open LJ.Process (Str Ev Env Trainer St AnomalyContext Stop)
open LJ.Report (Index Model Report ListErr Fail LogReport ReadErr World)

section
variable {t : Texts} {N D E : Type} [DecidableEq N] {S : Setup t N D E}

theorem uses_kept (us : List (Use t N)) (s : Sys) : Kept s.cache (uses S us s).cache := by
  induction us generalizing s with
  | nil => exact Kept.refl _
  | cons u us ih => exact (compare_kept u.net u.order u.order' u.baselines u.target s).trans (ih _)

omit [DecidableEq N] in
theorem AllOpened.same {r r' : Report (Content t) (Source t) N D E Unit} (h : SameReport r r') (ho : AllOpened r) : AllOpened r' :=
  fun x e hm => ho x e (h.errors.mem_iff.2 hm)

/-- what is in the cache, compared in another order -/
theorem compare_again (hu : S.useCache = true) (hsr : SearchOk S) (net : Nat → Net t)
    (o1 o2 o3 o4 : List (N × List (Source t)) → List (N × List (Source t))) (h1 : ∀ g, (o1 g).Perm g) (h2 : ∀ g, (o2 g).Perm g)
    (h3 : ∀ g, (o3 g).Perm g) (h4 : ∀ g, (o4 g).Perm g) (baselines : List (Content t)) (target : Content t)
    (r : Report (Content t) (Source t) N D E Unit) (s : Sys) (m : Model (Content t) (Source t) N)
    (m1 : LJ.Report.train (S.world s.cache) o1 baselines = .ok m) (m2 : LJ.Report.report (S.world s.cache) m o2 target = some (.ok r)) (ho : AllOpened r) :
    ∃ r', S.compare net o3 o4 baselines target s = (.ok r', s) ∧ SameReport r r' := by
  rcases LJ.Report.C39_train (w := S.world s.cache) h1 h3 baselines with ⟨e1, e2, a1, _⟩ | ⟨n1, n2, a1, a2, a3, a4, a5⟩
  · rw [m1] at a1; cases a1
  · rw [m1] at a1
    cases a1
    rw [LJ.Report.C39_model a3 a5 a4] at m2
    obtain ⟨r', b1, b2, b3, b4, b5, b6, b7, b8, b9⟩ := LJ.Report.C39_report (w := S.world s.cache) hsr h2 h4 m2
    have hsame : SameReport r r' := ⟨b8, b9, b2, b3, b4, b5, b6, b7⟩
    exact ⟨r', compare_cached hu net o3 o4 baselines target n2 r' _ a2 b1 (AllOpened.same hsame ho), hsame⟩

/-! ### C104 -/

/-- C104: with the cache set, once a comparison was made, and whatever other comparisons were made after it, it can be
made again: it gives the same report (here with the maps drained in the same order), nothing is asked from the network,
and the cache is not changed. -/
theorem C104_again (hu : S.useCache = true) (hc : CutOk S) (hsr : SearchOk S) (U : String → Prop) (net : Nat → Net t) (hg : Good net)
    (order order' : List (N × List (Source t)) → List (N × List (Source t))) (baselines : List (Content t)) (target : Content t)
    (s s' : Sys) (hs : LJ.Cache.Reachable (t := t) S.digest U s.cache) (r : Report (Content t) (Source t) N D E Unit)
    (h : S.compare net order order' baselines target s = (.ok r, s')) (ho : AllOpened r) (us : List (Use t N)) (net' : Nat → Net t) :
    S.compare net' order order' baselines target (uses S us s') = (.ok r, uses S us s') := by
  obtain ⟨k1, k2, k3⟩ := compare_spec hu hc hsr hg order order' baselines target r s s' (LJ.Cache.reachable_bounded hs).names h ho
  obtain ⟨m, m1, m2⟩ := k3 _ (uses_kept us s' k1).2
  exact compare_cached hu net' order order' baselines target m r _ m1 m2 ho

/-- C104, with the maps drained in any order. -/
theorem C104_partial (hu : S.useCache = true) (hc : CutOk S) (hsr : SearchOk S) (U : String → Prop) (net : Nat → Net t) (hg : Good net)
    (o1 o2 o3 o4 : List (N × List (Source t)) → List (N × List (Source t))) (h1 : ∀ g, (o1 g).Perm g) (h2 : ∀ g, (o2 g).Perm g)
    (h3 : ∀ g, (o3 g).Perm g) (h4 : ∀ g, (o4 g).Perm g) (baselines : List (Content t)) (target : Content t)
    (s s' : Sys) (hs : LJ.Cache.Reachable (t := t) S.digest U s.cache) (r : Report (Content t) (Source t) N D E Unit)
    (h : S.compare net o1 o2 baselines target s = (.ok r, s')) (ho : AllOpened r) (us : List (Use t N)) (net' : Nat → Net t) :
    ∃ r', S.compare net' o3 o4 baselines target (uses S us s') = (.ok r', uses S us s') ∧ SameReport r r' := by
  obtain ⟨k1, k2, k3⟩ := compare_spec hu hc hsr hg o1 o2 baselines target r s s' (LJ.Cache.reachable_bounded hs).names h ho
  obtain ⟨m, m1, m2⟩ := k3 _ (uses_kept us s' k1).2
  exact compare_again hu hsr net' o1 o2 o3 o4 h1 h2 h3 h4 baselines target r _ m m1 m2 ho

end

/-- C104 does not hold when the connection is lost while a file is read: the copy which is kept ends there, and the next
time the file is read without an error. -/
theorem C104_false : ∃ (net : Nat → Net demoTexts) (r r' : Report (Content demoTexts) (Source demoTexts) Unit Bool Unit Unit) (s : Sys),
    (demo true).compare net id id [.file (demoSource "b")] (.file (demoSource "t")) start = (.ok r, s) ∧ AllOpened r ∧
    (demo true).compare net id id [.file (demoSource "b")] (.file (demoSource "t")) s = (.ok r', s) ∧
    r.readErrors.length = 1 ∧ r'.readErrors.length = 0 := by
  have h1 := compare_found (S := demo true) (net := lostNet) (x := demoSource "b") (y := demoSource "t") rfl rfl lost_base lost_target (by decide +kernel)
  have h2 := compare_found (S := demo true) (net := lostNet) (x := demoSource "b") (y := demoSource "t") rfl rfl (lost_hit _) (lost_short _) (by decide +kernel)
  refine ⟨lostNet, _, _, _, h1, ?_, h2, by decide +kernel, by decide +kernel⟩
  intro x e hm
  have : (found (demo true) (demoSource "b") (demoSource "t") [lineA] [lineA, .error ()] (by decide +kernel)).readErrors = [(demoSource "t", .reading (.io ()))] := rfl
  rw [this, List.mem_singleton] at hm
  cases hm

/-- Non-vacuity of C104: two files of the examples, whose comparison finds an anomaly, and is made again. -/
example : ∃ (r : Report (Content demoTexts) (Source demoTexts) Unit Bool Unit Unit) (s : Sys), Good markNet ∧
    (demo true).compare markNet id id [.file (demoSource "m")] (.file (demoSource "t")) mark2 = (.ok r, s) ∧ AllOpened r ∧ r.totalAnomalyCount = 1 ∧ s.asked = 3 ∧
    ∀ net', (demo true).compare net' id id [.file (demoSource "m")] (.file (demoSource "t")) s = (.ok r, s) := by
  have hg : Good markNet := by
    intro k url resp h
    simp only [markNet] at h
    split at h
    · cases h
      exact ⟨by simp [Steady], fun json => by cases json <;> decide +kernel⟩
    · split at h
      · cases h
        exact ⟨by simp [Steady], fun json => by cases json <;> decide +kernel⟩
      · split at h
        · cases h
          exact ⟨by simp [Steady], fun json => by cases json <;> decide +kernel⟩
        · cases h
  have h1 := compare_found (S := demo true) (net := markNet) (x := demoSource "m") (y := demoSource "t") rfl rfl (mark_hit _) mark_last (by decide +kernel)
  have ho : AllOpened (found (demo true) (demoSource "m") (demoSource "t") [lineM] [lineZ 1] (by decide +kernel)) := by
    intro x e hm
    have : (found (demo true) (demoSource "m") (demoSource "t") [lineM] [lineZ 1] (by decide +kernel)).readErrors = [] := rfl
    rw [this] at hm
    cases hm
  refine ⟨_, _, hg, h1, ho, by decide +kernel, rfl, fun net' => ?_⟩
  have h0 := compare_found (S := demo true) (net := markNet) (x := demoSource "b") (y := demoSource "m") rfl rfl mark_base mark_target (by decide +kernel)
  have hs : Sound mark2.cache := by
    have := compare_kept (S := demo true) markNet id id [.file (demoSource "b")] (.file (demoSource "m")) start
    rw [h0] at this
    exact (this (fun n i h => by cases h)).1
  obtain ⟨k1, k2, k3⟩ := compare_spec rfl (demo_cut true) (demo_search true) hg id id _ _ _ _ _ hs h1 ho
  obtain ⟨m, m1, m2⟩ := k3 _ (Ext.refl _)
  exact compare_cached rfl net' id id _ _ m _ _ m1 m2 ho

/-! ### C105 -/

section
variable {t : Texts} {N D E : Type} [DecidableEq N] {S : Setup t N D E}

/-- C105: on servers whose files do not change, have short lines of text without the marker and are read without
failures, what was cached before makes no difference: after any runs, with `LOGREDUCE_CACHE` set or not, a comparison
gives with `LOGREDUCE_CACHE` set what it gives without it and with nothing cached, errors and panics included. -/
theorem C105_partial (U V : String → Prop) (site : Site t) (hst : Stable U V S site) (us : List (Bool × Use t N)) (hus : ∀ p ∈ us, p.2.On U site)
    (net net' : Nat → Net t) (hn : Serves site net) (hn' : Serves site net') (order order' : List (N × List (Source t)) → List (N × List (Source t)))
    (ho : ∀ g, (order g).Perm g) (ho' : ∀ g, (order' g).Perm g) (baselines : List (Content t)) (hb : ∀ c ∈ baselines, KnownContent U c)
    (target : Content t) (ht : KnownContent U target) :
    ((S.on true).compare net order order' baselines target (mixed S us ⟨State.empty, 0⟩)).1 =
      ((S.on false).compare net' order order' baselines target ⟨State.empty, 0⟩).1 :=
  (compare_alike hst hn hn' order order' ho ho' baselines hb target ht _ _ (mixed_holds hst us hus _ holds_empty) holds_empty).1

end

/-- C105 does not hold when a file contains the marker: only what comes before is kept of a target, and later it is not
the same baseline. -/
theorem C105_false : ∃ (net : Nat → Net demoTexts) (r0 r r' : Report (Content demoTexts) (Source demoTexts) Unit Bool Unit Unit) (s s' s'' : Sys),
    (demo true).compare net id id [.file (demoSource "b")] (.file (demoSource "m")) start = (.ok r0, s) ∧
    (demo true).compare net id id [.file (demoSource "m")] (.file (demoSource "t")) s = (.ok r, s') ∧
    (demo false).compare net id id [.file (demoSource "m")] (.file (demoSource "t")) start = (.ok r', s'') ∧
    r.totalAnomalyCount = 1 ∧ r'.totalAnomalyCount = 0 := by
  have h0 := compare_found (S := demo true) (net := markNet) (x := demoSource "b") (y := demoSource "m") rfl rfl mark_base mark_target (by decide +kernel)
  have h1 := compare_found (S := demo true) (net := markNet) (x := demoSource "m") (y := demoSource "t") rfl rfl (mark_hit _) mark_last (by decide +kernel)
  have h2 := compare_found (S := demo false) (net := markNet) (x := demoSource "m") (y := demoSource "t") rfl rfl (live_base _) (live_last _) (by decide +kernel)
  exact ⟨markNet, _, _, _, _, _, _, h0, h1, h2, by decide +kernel, by decide +kernel⟩

/-- the files of an example -/
def demoSite : Site demoTexts where
  docs u := if u = demoUrl "b" then some (ascii "a\n") else if u = demoUrl "t" then some (ascii "a\nz\n") else none
  dirs u := if u = demoUrl "d" then some [demoUrl "b", demoUrl "t"] else none

/-- the URLs of the example -/
def demoUrls (s : String) : Prop := s = "b" ∨ s = "t" ∨ s = "d"

/-- Non-vacuity of C105: a directory of two files. -/
theorem demo_stable : Stable demoUrls demoUrls (demo true) demoSite where
  digest := by
    refine ⟨?_, ?_, ?_⟩
    · intro s; simp [demo, demoDigest]
    · intro s h
      simp only [demo, demoDigest] at h
      have := List.mem_of_mem_take h
      simp at this
    · intro a b ha hb
      simp only [demoUrls] at ha hb
      rcases ha with rfl | rfl | rfl <;> rcases hb with rfl | rfl | rfl <;> decide +kernel
  cut := demo_cut true
  search := demo_search true
  known := by
    refine ⟨fun _ h => h, ?_, ?_, ?_⟩
    · intro url urls h u hu
      simp only [demoSite] at h
      split at h
      · cases h
        rcases List.mem_cons.1 hu with rfl | hu
        · exact .inl rfl
        · rw [List.mem_singleton] at hu
          subst hu
          exact .inr (.inl rfl)
      · cases h
    · intro source x h
      cases h
    · intro pre url b hu hb
      unfold baseOf at hb
      split at hb
      · cases hb; exact hu
      · have hlen : LJ.Paths.sliceTo url.val.toList 42 = none := by
          simp only [demoUrls] at hu
          rcases hu with hu | hu | hu <;> rw [hu] <;> decide +kernel
        rw [hlen] at hb
        cases hb
  clean := by
    intro url d _ h
    simp only [demoSite] at h
    split at h
    · cases h
      refine ⟨fun json => by cases json <;> decide +kernel, fun json => ?_⟩
      have : ∀ p ∈ LJ.Iterator.Spec.pieces json (ascii "a\n"), LJ.Process.contains LJ.Process.MARKER (p.1.map fun c => Char.ofNat c.toNat) = false := by
        cases json <;> decide +kernel
      exact fun p hp => ⟨_, rfl, this p hp⟩
    · split at h
      · cases h
        refine ⟨fun json => by cases json <;> decide +kernel, fun json => ?_⟩
        have : ∀ p ∈ LJ.Iterator.Spec.pieces json (ascii "a\nz\n"), LJ.Process.contains LJ.Process.MARKER (p.1.map fun c => Char.ofNat c.toNat) = false := by
          cases json <;> decide +kernel
        exact fun p hp => ⟨_, rfl, this p hp⟩
      · cases h

/-- the network of the example, which gives the files in one read -/
def demoNet : Nat → Net demoTexts := fun _ => { get := fun u => (demoSite.docs u).map fun d => ⟨200, ⟨d, []⟩⟩, list := demoSite.dirs }

theorem demo_serves : Serves demoSite demoNet := by
  intro k url
  refine ⟨?_, ?_, rfl⟩
  · simp only [demoNet, Option.map_map]
    cases demoSite.docs url <;> rfl
  · intro resp h
    simp only [demoNet, Option.map_eq_some_iff] at h
    obtain ⟨d, _, rfl⟩ := h
    simp [Steady]

example : KnownContent demoUrls (.directory (demoSource "d")) ∧ KnownContent demoUrls (.file (demoSource "t")) ∧
    (⟨demoNet, id, id, [.file (demoSource "b")], .file (demoSource "t")⟩ : Use demoTexts Unit).On demoUrls demoSite :=
  ⟨.inr (.inr rfl), .inr (.inl rfl), demo_serves, fun _ => .refl _, fun _ => .refl _, fun c hc => by rw [List.mem_singleton] at hc; subst hc; exact .inl rfl, .inr (.inl rfl)⟩

/-! ### C106 -/

section
variable {t : Texts} {N D E : Type} [DecidableEq N] {S : Setup t N D E}

/-- C106: without `LOGREDUCE_CACHE`, comparing files and local directories gives the same from any cache, and leaves it
as it is. -/
theorem C106_partial (hu : S.useCache = false) (net : Nat → Net t) (order order' : List (N × List (Source t)) → List (N × List (Source t)))
    (baselines : List (Content t)) (hb : ∀ c ∈ baselines, Unlisted c) (target : Content t) (ht : Unlisted target) (s s' : Sys) (h : s.asked = s'.asked) :
    (S.compare net order order' baselines target s).1 = (S.compare net order order' baselines target s').1 ∧
      (S.compare net order order' baselines target s).2.cache = s.cache := by
  obtain ⟨a, k, hk⟩ := compare_fresh hu net order order' baselines hb target ht s.asked
  have h1 := hk s.cache
  have h2 := hk s'.cache
  rw [h] at h2
  exact ⟨(congrArg Prod.fst h1).trans (congrArg Prod.fst h2).symm, by rw [show s = ⟨s.cache, s.asked⟩ from rfl, h1]⟩

end

/-- Non-vacuity of C106: two files, from a cache which is not empty. -/
example : ∃ (r : Report (Content demoTexts) (Source demoTexts) Unit Bool Unit Unit) (s : Sys), mark2.cache ≠ start.cache ∧
    (demo false).compare markNet id id [.file (demoSource "m")] (.file (demoSource "t")) start = (.ok r, s) ∧
    ((demo false).compare markNet id id [.file (demoSource "m")] (.file (demoSource "t")) ⟨mark2.cache, 0⟩).1 = .ok r := by
  have h2 := compare_found (S := demo false) (net := markNet) (x := demoSource "m") (y := demoSource "t") rfl rfl (live_base _) (live_last _) (by decide +kernel)
  have h3 := C106_partial (S := demo false) rfl markNet id id [.file (demoSource "m")] (by simp [Unlisted]) (.file (demoSource "t")) trivial ⟨mark2.cache, 0⟩ start rfl
  refine ⟨_, _, ?_, h2, ?_⟩
  · intro h
    have : mark2.cache.readers.length = start.cache.readers.length := by rw [h]
    revert this
    decide +kernel
  · rw [h3.1, h2]

/-- a directory which is empty at the first request, and then has a file -/
def laterNet : Nat → Net demoTexts := fun k => { get := fun _ => none, list := fun _ => if k = 0 then some [] else some [demoUrl "http://logs.example.org/0123456789/0123456789/b"] }

/-- C106 does not hold for what the servers list: a listing is kept and used again, whether `LOGREDUCE_CACHE` is set or not.
A directory in which there was nothing stays empty. -/
theorem C106_false : ∃ (net : Nat → Net demoTexts) (s : Sys),
    (demo false).compare net id id [.directory (demoSource "d")] (.file (demoSource "t")) start = (.error (.sources (.empty (.directory (demoSource "d")))), s) ∧
    ((demo false).compare net id id [.directory (demoSource "d")] (.file (demoSource "t")) s).1 = .error (.sources (.empty (.directory (demoSource "d")))) ∧
    ((demo false).compare net id id [.directory (demoSource "d")] (.file (demoSource "t")) ⟨start.cache, s.asked⟩).1 = .error (.read ()) := by
  refine ⟨laterNet, ((demo false).httpdir laterNet (demoUrl "d") start).2, ?_, ?_, ?_⟩
  · rfl
  · rfl
  · rfl

end LJ.Remote

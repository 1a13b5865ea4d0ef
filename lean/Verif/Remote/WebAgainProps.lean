/-
C114: the comparison of a build, made again from the cache.
-/
import Verif.Remote.WebAgain
import Verif.Remote.WebWitness
namespace LJ.Remote
open LJ.Codec (Bytes Texts Url Source Content)
open LJ.Cache (State Remote Response Opened File demoTexts demoUrl demoDigest)
open LJ.Process (Str Ev Env Trainer St AnomalyContext Stop)
open LJ.Report (Index Model Report ListErr Fail LogReport ReadErr World)
open LJ.Zuul (Target encodeBuild newContent)

section
variable {t : Texts} {N D E : Type} [DecidableEq N] {S : Setup t N D E} {W : Web t}

/-- C114.  The build whose URL is given was compared, with the cache; the servers answered each HEAD, their bodies were
read without an error, and each file could be opened.  After any other runs, with the cache or without it, on any
network, the same command gives the same report, asks nothing from the network, and leaves the cache as it is: on the same
day, and on any later day if the builds which are in the cache had ended on the day of the first run.  Here the maps are
drained in the same order. -/
theorem C114_again (hu : S.useCache = true) (hd : ∀ s, (S.digest s).length = 64) (hc : CutOk S) (hsr : SearchOk S) (U : String → Prop) (net : Nat → Net t)
    (hg : Good net) (hh : ∀ k url, (net k).head url ≠ none) (order order' : List (N × List (Source t)) → List (N × List (Source t))) (now now' : Int) (text : Str)
    (s s' : Sys) (hs : LJ.Cache.Reachable (t := t) S.digest U s.cache) (r : Report (Content t) (Source t) N D E Unit)
    (h : S.compareUrl W net order order' now text s = (.ok r, s')) (ho : AllOpened r) (us : List (Bool × Run t N)) (hr : AllReached W S us s')
    (hn : now' = now ∨ now ≤ now' ∧ Ended W S (runs W S us s').cache now) (net' : Nat → Net t) :
    S.compareUrl W net' order order' now' text (runs W S us s') = (.ok r, runs W S us s') := by
  obtain ⟨k1, -, k3⟩ := compareUrl_spec hu hd hc hsr hg hh order order' now text r s s' (LJ.Cache.reachable_bounded hs).names h ho
  exact (k3 _ (runs_later hd us s' k1 hr) now' hn net' _).1

/-- C114, with the maps drained in any order. -/
theorem C114_partial (hu : S.useCache = true) (hd : ∀ s, (S.digest s).length = 64) (hc : CutOk S) (hsr : SearchOk S) (U : String → Prop) (net : Nat → Net t)
    (hg : Good net) (hh : ∀ k url, (net k).head url ≠ none) (o1 o2 o3 o4 : List (N × List (Source t)) → List (N × List (Source t)))
    (h1 : ∀ g, (o1 g).Perm g) (h2 : ∀ g, (o2 g).Perm g) (h3 : ∀ g, (o3 g).Perm g) (h4 : ∀ g, (o4 g).Perm g) (now now' : Int) (text : Str)
    (s s' : Sys) (hs : LJ.Cache.Reachable (t := t) S.digest U s.cache) (r : Report (Content t) (Source t) N D E Unit)
    (h : S.compareUrl W net o1 o2 now text s = (.ok r, s')) (ho : AllOpened r) (us : List (Bool × Run t N)) (hr : AllReached W S us s')
    (hn : now' = now ∨ now ≤ now' ∧ Ended W S (runs W S us s').cache now) (net' : Nat → Net t) :
    ∃ r', S.compareUrl W net' o3 o4 now' text (runs W S us s') = (.ok r', runs W S us s') ∧ SameReport r r' := by
  obtain ⟨k1, -, k3⟩ := compareUrl_spec hu hd hc hsr hg hh o1 o2 now text r s s' (LJ.Cache.reachable_bounded hs).names h ho
  exact (k3 _ (runs_later hd us s' k1 hr) now' hn net' _).2 h1 h2 o3 o4 h3 h4

end

/-- C114 does not hold when a HEAD gets no answer: nothing is kept of it, the next build is the baseline, and when the server
answers the same command takes another baseline and gives another report. -/
theorem C114_false : ∃ (net net' : Nat → Net demoTexts) (r r' : Report (Content demoTexts) (Source demoTexts) Unit Bool Unit Unit) (s s' : Sys),
    (demo true).compareUrl twoWeb net id id 735727 "w".toList start = (.ok r, s) ∧ AllOpened r ∧
    (demo true).compareUrl twoWeb net' id id 735727 "w".toList s = (.ok r', s') ∧
    r.baselines = [.zuul (twoWeb.build twoTG)] ∧ r'.baselines = [.zuul (twoWeb.build twoTE)] ∧ s'.asked = s.asked + 3 ∧
    (∀ k u, u ≠ demoUrl "e" → (net k).head u = (net' k).head u) ∧ (∀ k u, (net k).get u = (net' k).get u ∧ (net k).list u = (net' k).list u ∧ (net k).api u = (net' k).api u) := by
  refine ⟨twoNet true, twoNet false, lostR, backR, lostS7, _, lostRun, ?_, backRun, rfl, rfl, by decide +kernel, ?_, fun _ _ => ⟨rfl, rfl, rfl⟩⟩
  · intro x e hm
    have : lostR.readErrors = [] := rfl
    rw [this] at hm
    cases hm
  · intro k u hu
    simp [twoNet, hu]

theorem two_good : Good (twoNet false) := by
  intro k url resp h
  simp only [twoNet] at h
  split at h
  · cases h
    exact ⟨by simp [Steady], fun json => by cases json <;> decide +kernel⟩
  · split at h
    · cases h
      exact ⟨by simp [Steady], fun json => by cases json <;> decide +kernel⟩
    · split at h
      · cases h
        exact ⟨by simp [Steady], fun json => by cases json <;> decide +kernel⟩
      · cases h

theorem two_decodes (d : Bytes) (l : List B2) (h : twoWeb.decodeBuilds d = some l) : l = [twoE, twoG] := by
  have h0 : LJ.Zuul.decodeBuilds (env := twoWeb.env) (.arr (twoSamples.map encodeBuild)) = some [twoE, twoG] := by decide +kernel
  unfold Web.decodeBuilds at h
  have h1 : (if d = [1] then some (.arr (twoSamples.map encodeBuild)) else none).bind (LJ.Zuul.decodeBuilds (env := twoWeb.env)) = some l := h
  split at h1
  · rw [Option.bind_some, h0] at h1
    exact (Option.some.inj h1).symm
  · cases h1

/-- Non-vacuity of C114: the build of the example is compared, one anomaly is found, and the command is made again, that day
or later. -/
example : ∃ (r : Report (Content demoTexts) (Source demoTexts) Unit Bool Unit Unit) (s : Sys),
    (demo true).compareUrl twoWeb (twoNet false) id id 735727 "w".toList start = (.ok r, s) ∧ AllOpened r ∧ r.totalAnomalyCount = 1 ∧ s.asked = 7 ∧
    ∀ now' ≥ 735727, ∀ net', (demo true).compareUrl twoWeb net' id id now' "w".toList s = (.ok r, s) := by
  have ho : AllOpened goodR := by
    intro x e hm
    have : goodR.readErrors = [] := rfl
    rw [this] at hm
    cases hm
  have hd : ∀ s, ((demo true).digest s).length = 64 := fun s => by simp [demo, demoDigest]
  have hh : ∀ k url, (twoNet false k).head url ≠ none := fun _ _ => by simp [twoNet]
  have h0 : LJ.Cache.Reachable (t := demoTexts) (demo true).digest (fun _ => True) start.cache := ⟨[], nofun, rfl⟩
  obtain ⟨hs, -⟩ := compareUrl_spec (S := demo true) (W := twoWeb) rfl hd (demo_cut true) (demo_search true) two_good hh id id 735727 "w".toList goodR start goodS7
    (LJ.Cache.reachable_bounded h0).names goodRun ho
  refine ⟨goodR, goodS7, goodRun, ho, by decide +kernel, by decide +kernel, fun now' hn net' => ?_⟩
  refine C114_again (S := demo true) (W := twoWeb) rfl hd (demo_cut true) (demo_search true) (fun _ => True) (twoNet false) two_good
    hh id id 735727 now' "w".toList start goodS7 h0 goodR goodRun ho [] trivial (.inr ⟨hn, ?_⟩) net'
  intro base url net n bs h b hb
  obtain ⟨-, -, d, h1, -⟩ := getDecoded_spec (S := demo true) rfl hd net base url ⟨goodS7.cache, n⟩ _ hs bs h
  rw [two_decodes d bs h1] at hb
  rcases List.mem_cons.1 hb with rfl | hb
  · decide +kernel
  · rw [List.mem_singleton.1 hb]
    decide +kernel
end LJ.Remote

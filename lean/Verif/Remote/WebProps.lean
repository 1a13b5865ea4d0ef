/-
What is compared when the URL of a build is given, through the cache.
-/
import Verif.Remote.WebSame
import Verif.Remote.Props
namespace LJ.Remote
open LJ.Codec (Bytes Texts Url Source Content)
open LJ.Cache (State Remote Response Opened File demoTexts demoUrl demoDigest)
open LJ.Process (Str)
open LJ.Report (Report Fail)
open LJ.Zuul (Target WebUrl Json DateTime encodeBuild)

/-! ### C112 -/

section
variable {t : Texts} {W : Web t} {N D E : Type} [DecidableEq N] {S : Setup t N D E}

theorem compareUrl_build {net : Nat → Net t} {order order' : List (N × List (Source t)) → List (N × List (Source t))} {now : Int} {text : Str} {s : Sys}
    {api : LJ.Zuul.Url W.env} {uid : Str} (h : IsBuildUrl W text api uid) : S.compareUrl W net order order' now text s =
      match S.lookup W net api uid s with
      | (.panic, s) => (.panic, s)
      | (.error (), s) => (.error .input, s)
      | (.ok x, s) => S.compareBuild W net order order' now x s := by
  obtain ⟨url, h1, h2, h3⟩ := h
  unfold Setup.compareUrl
  rw [h1]
  simp only [h2, h3, Bool.not_true, Bool.false_eq_true, if_false]
  rfl

/-- C112: what is reported for the URL of a build is the comparison of the build which the API tells with the best of the successful
builds of its job among those whose logs the servers have; and there is a report only in this way. -/
theorem C112 (hu : S.useCache = false) (site : Site t) (net : Nat → Net t) (hs : ServesApi site net)
    (order order' : List (N × List (Source t)) → List (N × List (Source t))) (now : Int) (text : Str) (api : LJ.Zuul.Url W.env) (uid : Str)
    (ht : IsBuildUrl W text api uid) (s : Sys) : ∃ n, ∀ r, (S.compareUrl W net order order' now text s).1 = .ok r ↔
      ∃ x y cx cy, Matched W site now api uid x y ∧ SavedAs W x cx ∧ SavedAs W y cy ∧ (S.compare net order order' [.zuul cy] (.zuul cx) ⟨s.cache, n⟩).1 = .ok r := by
  simp only [savedAs_iff, exists_and_left, exists_eq_left]
  rw [compareUrl_build ht]
  simp only [matched_iff]
  obtain ⟨n, hn⟩ := lookup_off (W := W) hu hs api uid s
  rw [hn]
  cases hl : W.siteLookup site api uid with
  | panic => exact ⟨0, fun r => by simp⟩
  | error e => exact ⟨0, fun r => by simp⟩
  | ok x =>
    obtain ⟨m, hm⟩ := compareBuild_off (W := W) hu hs order order' now x ⟨s.cache, n⟩
    refine ⟨m, fun r => ?_⟩
    simp only [hm, Outcome.ok.injEq]
    constructor
    · rintro ⟨y, h1, h2⟩; exact ⟨x, y, ⟨rfl, h1⟩, h2⟩
    · rintro ⟨x', y, ⟨rfl, h1⟩, h2⟩; exact ⟨y, h1, h2⟩

/-- C113: on servers whose content does not change, what was cached before makes no difference to the comparison of
a build.  After any runs, with `LOGREDUCE_CACHE` set or not, it gives what it gives without it and with nothing cached, errors
and panics included. -/
theorem C113_transparent_partial (U V : String → Prop) (site : Site t) (hst : Stable U V S site) (hw : KnownWeb W U V site) (us : List (Bool × Run t N)) (hus : ∀ p ∈ us, p.2.On U site)
    (b : Bool) (net net' : Nat → Net t) (hn : ServesWeb site net) (hn' : ServesWeb site net') (order order' : List (N × List (Source t)) → List (N × List (Source t)))
    (ho : ∀ g, (order g).Perm g) (ho' : ∀ g, (order' g).Perm g) (now : Int) (text : Str) :
    ((S.on b).compareUrl W net order order' now text (runs W S us ⟨State.empty, 0⟩)).1 = ((S.on false).compareUrl W net' order order' now text ⟨State.empty, 0⟩).1 :=
  (compareUrl_alike hst hw hn hn' order order' ho ho' now text _ _ (runs_holds hst hw us hus _ holds_empty) holds_empty).1

/-- C113: what is compared. -/
theorem C113_partial (U V : String → Prop) (site : Site t) (hst : Stable U V S site) (hw : KnownWeb W U V site) (us : List (Bool × Run t N)) (hus : ∀ p ∈ us, p.2.On U site)
    (b : Bool) (net net' : Nat → Net t) (hn : ServesWeb site net) (hn' : ServesWeb site net') (order order' : List (N × List (Source t)) → List (N × List (Source t)))
    (ho : ∀ g, (order g).Perm g) (ho' : ∀ g, (order' g).Perm g) (now : Int) (text : Str) (api : LJ.Zuul.Url W.env) (uid : Str) (ht : IsBuildUrl W text api uid)
    (r : Report (Content t) (Source t) N D E Unit) :
    ((S.on b).compareUrl W net order order' now text (runs W S us ⟨State.empty, 0⟩)).1 = .ok r ↔
      ∃ x y cx cy, Matched W site now api uid x y ∧ SavedAs W x cx ∧ SavedAs W y cy ∧ ((S.on false).compare net' order order' [.zuul cy] (.zuul cx) ⟨State.empty, 0⟩).1 = .ok r := by
  rw [C113_transparent_partial U V site hst hw us hus b net net' hn hn' order order' ho ho' now text]
  obtain ⟨n, h⟩ := C112 (S := S.on false) rfl site net' hn'.2 order order' now text api uid ht ⟨State.empty, 0⟩
  rw [h r]
  simp only [savedAs_iff, exists_and_left, exists_eq_left]
  refine exists_congr fun x => exists_congr fun y => and_congr_right fun hm => ?_
  rw [matched_iff] at hm
  rw [(compare_alike (b := false) (b' := false) hst hn'.1 hn'.1 order order' ho ho' [.zuul (W.build y)]
    (fun c hc => by rw [List.mem_singleton] at hc; subst hc; exact discover_known hw hm.2) (.zuul (W.build x)) (lookup_known hw hm.1).2
    ⟨State.empty, n⟩ ⟨State.empty, 0⟩ holds_empty holds_empty).1]

end

/-! ### An example -/

/-- the URLs of the builds of the example -/
def webEnv : LJ.Zuul.Env := ⟨fun s => (demoTexts.parseUrl (String.ofList s)).map String.toList, id⟩

theorem webEnv_parse (s : Str) : webEnv.parseUrl s = some s := by
  show some (String.toList (String.ofList s)) = some s
  rw [String.toList_ofList]

/-- a URL of a build -/
def webUrl (s : String) : LJ.Zuul.Url webEnv := ⟨s.toList, webEnv_parse _⟩

/-- the time of the builds -/
def webTime : DateTime := ⟨2014, 7, 8, 9, 10, 11, 0, by decide⟩

/-- the builds of the example -/
def webBuild (uuid log : String) (change : Nat) : LJ.Zuul.Build webEnv :=
  { uuid := uuid.toList, jobName := "tox".toList, result := "SUCCESS".toList, startTime := webTime, endTime := webTime, duration := 42, voting := true,
    logUrl := some (webUrl log), refUrl := some (webUrl "r"), artifacts := [], project := "p".toList, branch := "main".toList, pipeline := "check".toList,
    change := some change, patchset := none, changeRef := [], eventId := [] }

/-- the build whose URL is given -/
def webTarget : LJ.Zuul.Build webEnv := webBuild "0" "d" 1
/-- the same change, a build whose logs are not there any more, and a build which can be used -/
def webSamples : List (LJ.Zuul.Build webEnv) := [webBuild "1" "d" 1, webBuild "2" "gone" 2, webBuild "3" "e" 3]

/-- the documents of the API: a build, and the list of the builds -/
def demoWeb : Web demoTexts where
  parts _ := ⟨"https://z".toList, "/t/x/build/0123456789abcdef0123456789abcdef".toList, []⟩
  hasAuthority _ := true
  join _ s := some (if s = "builds".toList then demoUrl "L" else demoUrl "B")
  withParams u _ := some u
  json d := if d = [0] then some (encodeBuild webTarget) else none
  jsonList d := if d = [1] then some (.arr (webSamples.map encodeBuild)) else none
  floatAsU32 := id
  date _ := ()

/-- the servers of the example -/
def webSite : Site demoTexts where
  docs u := if u = demoUrl "b" then some (ascii "a\n") else if u = demoUrl "t" then some (ascii "a\nz\n") else if u = demoUrl "B" then some [0]
    else if u = demoUrl "L" then some [1] else none
  dirs u := if u = demoUrl "d" then some [demoUrl "t"] else if u = demoUrl "e" then some [demoUrl "b"] else none
  heads u := some (decide (u = demoUrl "d" ∨ u = demoUrl "e"))

/-- the network of the example -/
def webNet : Nat → Net demoTexts := fun _ =>
  { get := fun u => (webSite.docs u).map fun d => ⟨200, ⟨d, []⟩⟩, list := webSite.dirs, head := fun u => some (if u = demoUrl "d" ∨ u = demoUrl "e" then 200 else 404) }

theorem web_serves : ServesWeb webSite webNet := by
  refine ⟨?_, ?_⟩ <;> intro k url
  · refine ⟨?_, ?_, rfl⟩
    · simp only [webNet, Option.map_map]
      cases webSite.docs url <;> rfl
    · intro resp h
      simp only [webNet, Option.map_eq_some_iff] at h
      obtain ⟨d, _, rfl⟩ := h
      simp [Steady]
  refine ⟨?_, ?_, ?_⟩
  · simp only [webNet, Option.map_map]
    cases webSite.docs url <;> rfl
  · intro resp h
    simp only [webNet, Option.map_eq_some_iff] at h
    obtain ⟨d, _, rfl⟩ := h
    simp [Steady]
  · simp only [webNet, webSite]
    split
    · rename_i h; simp [LJ.Cache.remoteHead, h]
    · rename_i h; simp [LJ.Cache.remoteHead, h]

/-- the URLs of logs, and all the URLs -/
def webLogs (s : String) : Prop := s = "b" ∨ s = "t" ∨ s = "d" ∨ s = "e" ∨ s = "gone"
def webUrls (s : String) : Prop := webLogs s ∨ s = "B" ∨ s = "L" ∨ s = "https://z/api/tenant/x/"

theorem web_api : LJ.Zuul.getZuulApiUrl webEnv (demoWeb.parts (demoUrl "w")) = some (some (webUrl "https://z/api/tenant/x/", "0123456789abcdef0123456789abcdef".toList)) := by
  decide +kernel

theorem web_decode (d : Bytes) (b : LJ.Zuul.Build webEnv) : @Eq (Option (LJ.Zuul.Build webEnv)) (demoWeb.decodeBuild d) (some b) ↔ d = [0] ∧ b = webTarget := by
  have h : LJ.Zuul.decodeBuild (env := webEnv) (encodeBuild webTarget) = some webTarget := by decide +kernel
  unfold Web.decodeBuild
  show (if d = [0] then some (encodeBuild webTarget) else none).bind (LJ.Zuul.decodeBuild (env := webEnv)) = some b ↔ _
  split
  · rename_i hd
    rw [Option.bind_some, h, Option.some.injEq]
    exact ⟨fun e => ⟨hd, e.symm⟩, fun e => e.2.symm⟩
  · rename_i hd
    exact ⟨fun e => (nomatch e), fun e => absurd e.1 hd⟩

theorem web_decodes (d : Bytes) (l : List (LJ.Zuul.Build webEnv)) : @Eq (Option (List (LJ.Zuul.Build webEnv))) (demoWeb.decodeBuilds d) (some l) ↔ d = [1] ∧ l = webSamples := by
  have h : LJ.Zuul.decodeBuilds (env := webEnv) (.arr (webSamples.map encodeBuild)) = some webSamples := by decide +kernel
  unfold Web.decodeBuilds
  show (if d = [1] then some (.arr (webSamples.map encodeBuild)) else none).bind (LJ.Zuul.decodeBuilds (env := webEnv)) = some l ↔ _
  split
  · rename_i hd
    rw [Option.bind_some, h, Option.some.injEq]
    exact ⟨fun e => ⟨hd, e.symm⟩, fun e => e.2.symm⟩
  · rename_i hd
    exact ⟨fun e => (nomatch e), fun e => absurd e.1 hd⟩

theorem web_known : KnownWeb demoWeb webLogs webUrls webSite where
  api url api uid h := by
    have e : some (some (api, uid)) = some (some (webUrl "https://z/api/tenant/x/", _)) := h.symm.trans web_api
    cases e
    exact .inr (.inr (.inr (by decide +kernel)))
  build api uid url _ h := by
    have e : url = (if uid = "builds".toList then demoUrl "L" else demoUrl "B") := (Option.some.inj h).symm
    subst e
    split
    · exact .inr (.inr (.inl rfl))
    · exact .inr (.inl rfl)
  samples api job url _ h := by
    have e : url = demoUrl "L" := (Option.some.inj h).symm
    subst e
    exact .inr (.inr (.inl rfl))
  logs url d b u _ h hl := by
    obtain ⟨_, rfl⟩ := (web_decode _ _).1 h
    have e : webUrl "d" = u := Option.some.inj hl
    subst e
    exact .inr (.inr (.inl (by decide +kernel)))
  sampleLogs url d bs b u _ h hb hl := by
    obtain ⟨_, rfl⟩ := (web_decodes _ _).1 h
    have hb : b = webBuild "1" "d" 1 ∨ b = webBuild "2" "gone" 2 ∨ b = webBuild "3" "e" 3 := by
      rcases List.mem_cons.1 hb with h | hb
      · exact .inl h
      rcases List.mem_cons.1 hb with h | hb
      · exact .inr (.inl h)
      · exact .inr (.inr (List.mem_singleton.1 hb))
    rcases hb with rfl | rfl | rfl
    · have e : webUrl "d" = u := Option.some.inj hl
      subst e
      exact .inr (.inr (.inl (by decide +kernel)))
    · have e : webUrl "gone" = u := Option.some.inj hl
      subst e
      exact .inr (.inr (.inr (.inr (by decide +kernel))))
    · have e : webUrl "e" = u := Option.some.inj hl
      subst e
      exact .inr (.inr (.inr (.inl (by decide +kernel))))

theorem web_stable : Stable webLogs webUrls (demo true) webSite where
  digest := by
    refine ⟨?_, ?_, ?_⟩
    · intro s; simp [demo, demoDigest]
    · intro s h
      simp only [demo, demoDigest] at h
      have := List.mem_of_mem_take h
      simp at this
    · intro a b ha hb
      simp only [webUrls, webLogs, or_assoc] at ha hb
      rcases ha with rfl | rfl | rfl | rfl | rfl | rfl | rfl | rfl <;> rcases hb with rfl | rfl | rfl | rfl | rfl | rfl | rfl | rfl <;> decide +kernel
  cut := demo_cut true
  search := demo_search true
  known := by
    refine ⟨fun _ h => .inl h, ?_, ?_, ?_⟩
    · intro url urls h u hu
      simp only [webSite] at h
      split at h
      · cases h
        rw [List.mem_singleton] at hu
        subst hu
        exact .inr (.inl rfl)
      · split at h
        · cases h
          rw [List.mem_singleton] at hu
          subst hu
          exact .inl rfl
        · cases h
    · intro source x h
      cases h
    · intro pre url b hu hb
      unfold baseOf at hb
      split at hb
      · cases hb; exact .inl hu
      · have hlen : LJ.Paths.sliceTo url.val.toList 42 = none := by
          simp only [webLogs] at hu
          rcases hu with hu | hu | hu | hu | hu <;> rw [hu] <;> decide +kernel
        rw [hlen] at hb
        cases hb
  clean := by
    intro url d hu h
    have hc : url = demoUrl "b" ∧ d = ascii "a\n" ∨ url = demoUrl "t" ∧ d = ascii "a\nz\n" := by
      simp only [webSite] at h
      split at h
      · rename_i e; exact .inl ⟨e, (Option.some.inj h).symm⟩
      split at h
      · rename_i e; exact .inr ⟨e, (Option.some.inj h).symm⟩
      split at h
      · rename_i e
        subst e
        exact absurd hu (by unfold webLogs demoUrl; decide +kernel)
      split at h
      · rename_i e
        subst e
        exact absurd hu (by unfold webLogs demoUrl; decide +kernel)
      · cases h
    rcases hc with ⟨rfl, rfl⟩ | ⟨rfl, rfl⟩
    · exact demo_stable.clean (demoUrl "b") _ (.inl rfl) (by decide +kernel)
    · exact demo_stable.clean (demoUrl "t") _ (.inr (.inl rfl)) (by decide +kernel)

/-- the contents of the example -/
def webX : Target webEnv :=
  ⟨webUrl "https://z/api/tenant/x/", "0".toList, "tox".toList, "p".toList, "main".toList, "SUCCESS".toList, "check".toList, webUrl "d", webUrl "r", webTime, 1⟩
def webY : Target webEnv :=
  ⟨webUrl "https://z/api/tenant/x/", "3".toList, "tox".toList, "p".toList, "main".toList, "SUCCESS".toList, "check".toList, webUrl "e", webUrl "r", webTime, 3⟩

theorem web_best : LJ.Zuul.Spec.Best webX 735422 (demoWeb.heads webSite) webSamples (webBuild "3" "e" 3) := by
  have e1 := LJ.Zuul.score_eq webX 735422 (webBuild "1" "d" 1) (s := -440) (by decide +kernel)
  have e3 := LJ.Zuul.score_eq webX 735422 (webBuild "3" "e" 3) (s := 110) (by decide +kernel)
  refine ⟨2, rfl, ⟨⟨webUrl "e", rfl, by decide +kernel⟩, ⟨_, rfl⟩, by decide +kernel, fun _ => ⟨3, rfl⟩⟩, fun j c hj hc => ?_⟩
  match j with
  | 0 => obtain rfl := Option.some.inj hj; omega
  | 1 =>
    obtain rfl := Option.some.inj hj
    obtain ⟨u, h1, h2⟩ := hc.logs
    have e : webUrl "gone" = u := Option.some.inj h1
    subst e
    exact absurd h2 (by decide +kernel)
  | 2 => obtain rfl := Option.some.inj hj; omega
  | j + 3 => exact absurd hj (by simp [webSamples])

theorem web_listed : LJ.Zuul.Spec.Listed (env := webEnv) ((webSamples.map encodeBuild).map LJ.Zuul.toValue) webSamples := by
  obtain ⟨xs, h, h'⟩ := (LJ.Zuul.C109_builds (env := webEnv) (.arr (webSamples.map encodeBuild)) webSamples).1 (by decide +kernel)
  cases h
  exact h'

/-- what is compared in the example: the build of the same change and the one whose logs are gone are not taken. -/
theorem web_matched : Matched demoWeb webSite 735422 (webUrl "https://z/api/tenant/x/") "0123456789abcdef0123456789abcdef".toList webX webY where
  target := ⟨webTarget, ⟨demoUrl "B", demoUrl "B", [0], encodeBuild webTarget, rfl, by decide +kernel, by decide +kernel, rfl,
    (LJ.Zuul.C109_build (env := webEnv) _ _).1 (by decide +kernel)⟩, by constructor <;> rfl⟩
  baseline := ⟨webSamples, webBuild "3" "e" 3, ⟨demoUrl "L", demoUrl "L", [1], webSamples.map encodeBuild, by decide +kernel, rfl, by decide +kernel, rfl, web_listed⟩, web_best, by constructor <;> rfl⟩

/-- Non-vacuity of C112 and C113, beside `web_matched`, `web_stable`, `web_known` and `web_serves` -/
example : IsBuildUrl demoWeb "w".toList (webUrl "https://z/api/tenant/x/") "0123456789abcdef0123456789abcdef".toList ∧ ServesApi webSite webNet :=
  ⟨⟨demoUrl "w", by decide +kernel, rfl, web_api⟩, web_serves.2⟩
example : (Run.build webNet id id 735422 "w".toList : Run demoTexts Unit).On webLogs webSite := ⟨web_serves, fun _ => .refl _, fun _ => .refl _⟩

end LJ.Remote

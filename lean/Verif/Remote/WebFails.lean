/-
C116: when the comparison of a URL fails, and what it says.
-/
import Verif.Remote.WebProps
namespace LJ.Remote
open LJ.Codec (Bytes Texts Url Source Content)
open LJ.Cache (State demoUrl demoTexts)
open LJ.Process (Str)
open LJ.Report (Report Fail)
open LJ.Zuul (Target newContent encodeBuild)

section
variable {t : Texts} (W : Web t)

/-- The text is a URL which has a host. -/
def HasHost (text : Str) (url : Url t) : Prop := parseUrl (t := t) (String.ofList text) = some url ∧ W.hasAuthority url = true

/-- The content of the URL can't be found: it has no host, it looks like the one of a build but the URL of the API can't be made,
or the API does not tell the build. -/
inductive NoInput (site : Site t) (text : Str) : Prop
  | host (url) : parseUrl (t := t) (String.ofList text) = some url → W.hasAuthority url = false → NoInput site text
  | api (url) : HasHost W text url → LJ.Zuul.getZuulApiUrl W.env (W.parts url) = some none → NoInput site text
  | build (api uid) : IsBuildUrl W text api uid → (∀ b, ¬ ApiBuild W site api uid b) → NoInput site text

/-- The URL is the one of a build which the API tells, and which has all what is needed. -/
def IsTarget (site : Site t) (text : Str) (x : Target W.env) : Prop :=
  ∃ uid b, IsBuildUrl W text x.api uid ∧ ApiBuild W site x.api uid b ∧ LJ.Zuul.Spec.ContentOf x.api b x

/-- `b` is the build to compare with. -/
def Chosen (site : Site t) (now : Int) (x : Target W.env) (b : LJ.Zuul.Build W.env) : Prop :=
  ∃ samples, ApiSamples W site x.api x.jobName samples ∧ LJ.Zuul.Spec.Best x now (W.heads site) samples b

/-- There is nothing to compare with: the URL is not the one of a build, or no build can be used. -/
inductive NoBaseline (site : Site t) (now : Int) (text : Str) : Prop
  | url (url) : HasHost W text url → LJ.Zuul.getZuulApiUrl W.env (W.parts url) = none → NoBaseline site now text
  | builds (x) : IsTarget W site text x → (∀ b, ¬ Chosen W site now x b) → NoBaseline site now text

/-- The build has no logs, no link to its change, or no change. -/
def Incomplete (b : LJ.Zuul.Build W.env) : Prop := b.logUrl = none ∨ b.refUrl = none ∨ b.change = none

/-- The program stops before the comparison: the text is not a URL, or one of the builds is incomplete. -/
inductive Stops (site : Site t) (now : Int) (text : Str) : Prop
  | url : parseUrl (t := t) (String.ofList text) = none → Stops site now text
  | target (api uid b) : IsBuildUrl W text api uid → ApiBuild W site api uid b → Incomplete W b → Stops site now text
  | baseline (x b) : IsTarget W site text x → Chosen W site now x b → Incomplete W b → Stops site now text

variable {W} {N D E : Type} [DecidableEq N] {S : Setup t N D E} {site : Site t}

omit [DecidableEq N] in
theorem newContent_none {api : LJ.Zuul.Url W.env} {b : LJ.Zuul.Build W.env} : newContent api b = none ↔ Incomplete W b := by
  unfold newContent Incomplete
  cases b.logUrl <;> cases b.refUrl <;> cases b.change <;> simp

theorem siteLookup_error {api : LJ.Zuul.Url W.env} {uid : Str} : W.siteLookup site api uid = .error () ↔ ∀ b, ¬ ApiBuild W site api uid b := by
  simp only [← apiBuild_iff]
  unfold Web.siteLookup
  cases ((W.buildUrl (toUrl api) uid).bind site.docs).bind W.decodeBuild with
  | none => simp
  | some b =>
    simp only [Option.some.injEq]
    cases newContent api b <;> simp

theorem siteLookup_panic {api : LJ.Zuul.Url W.env} {uid : Str} : W.siteLookup site api uid = .panic ↔ ∃ b, ApiBuild W site api uid b ∧ Incomplete W b := by
  simp only [← apiBuild_iff, ← newContent_none (api := api)]
  unfold Web.siteLookup
  cases ((W.buildUrl (toUrl api) uid).bind site.docs).bind W.decodeBuild with
  | none => simp
  | some b =>
    simp only [Option.some.injEq, exists_eq_left']
    cases newContent api b <;> simp

theorem chosen_iff {now : Int} {x : Target W.env} {b : LJ.Zuul.Build W.env} : Chosen W site now x b ↔
    (((W.samplesUrl (toUrl x.api) x.jobName).bind site.docs).bind W.decodeBuilds).bind (fun samples =>
      ((ranked x now samples).filter (LJ.Zuul.logsAvailable (W.heads site))).head?) = some b := by
  unfold Chosen
  simp only [← apiSamples_iff, ← ranked_best]
  exact Option.bind_eq_some_iff.symm

theorem siteDiscover_error {now : Int} {x : Target W.env} : W.siteDiscover site now x = .error () ↔ ∀ b, ¬ Chosen W site now x b := by
  simp only [chosen_iff]
  unfold Web.siteDiscover
  cases ((W.samplesUrl (toUrl x.api) x.jobName).bind site.docs).bind W.decodeBuilds with
  | none => simp
  | some samples =>
    simp only [Option.bind_some]
    cases ((ranked x now samples).filter (LJ.Zuul.logsAvailable (W.heads site))).head? with
    | none => simp
    | some b =>
      simp only [Option.some.injEq]
      cases newContent x.api b <;> simp

theorem siteDiscover_panic {now : Int} {x : Target W.env} : W.siteDiscover site now x = .panic ↔ ∃ b, Chosen W site now x b ∧ Incomplete W b := by
  simp only [chosen_iff, ← newContent_none (api := x.api)]
  unfold Web.siteDiscover
  cases ((W.samplesUrl (toUrl x.api) x.jobName).bind site.docs).bind W.decodeBuilds with
  | none => simp
  | some samples =>
    simp only [Option.bind_some]
    cases ((ranked x now samples).filter (LJ.Zuul.logsAvailable (W.heads site))).head? with
    | none => simp
    | some b =>
      simp only [Option.some.injEq, exists_eq_left']
      cases newContent x.api b <;> simp

/-- What is done with a URL, on these servers -/
theorem compareUrl_off (hu : S.useCache = false) {net : Nat → Net t} (hs : ServesApi site net) (order order' : List (N × List (Source t)) → List (N × List (Source t)))
    (now : Int) (text : Str) (s : Sys) : ∃ n, (S.compareUrl W net order order' now text s).1 =
      match parseUrl (t := t) (String.ofList text) with
      | none => .panic
      | some url =>
        if !W.hasAuthority url then .error .input
        else
          match LJ.Zuul.getZuulApiUrl W.env (W.parts url) with
          | none => .error .baselines
          | some none => .error .input
          | some (some (api, uid)) =>
            match W.siteLookup site api uid with
            | .panic => .panic
            | .error () => .error .input
            | .ok x =>
              match W.siteDiscover site now x with
              | .panic => .panic
              | .error () => .error .baselines
              | .ok y =>
                match (S.compare net order order' [.zuul (W.build y)] (.zuul (W.build x)) ⟨s.cache, n⟩).1 with
                | .panic => .panic
                | .error e => .error (.compare e)
                | .ok r => .ok r := by
  unfold Setup.compareUrl
  cases parseUrl (t := t) (String.ofList text) with
  | none => exact ⟨0, rfl⟩
  | some url =>
    simp only
    cases W.hasAuthority url with
    | false => exact ⟨0, rfl⟩
    | true =>
      simp only [Bool.not_true, Bool.false_eq_true, if_false]
      cases LJ.Zuul.getZuulApiUrl W.env (W.parts url) with
      | none => exact ⟨0, rfl⟩
      | some p =>
        cases p with
        | none => exact ⟨0, rfl⟩
        | some p =>
          obtain ⟨api, uid⟩ := p
          simp only
          obtain ⟨n, hn⟩ := lookup_off (W := W) hu hs api uid s
          rw [hn]
          cases W.siteLookup site api uid with
          | panic => exact ⟨0, rfl⟩
          | error e => exact ⟨0, rfl⟩
          | ok x =>
            simp only
            unfold Setup.compareBuild
            obtain ⟨m, hm⟩ := discover_off (W := W) hu hs now x ⟨s.cache, n⟩
            rw [hm]
            refine ⟨m, ?_⟩
            cases W.siteDiscover site now x with
            | panic => rfl
            | error e => rfl
            | ok y =>
              simp only
              generalize S.compare net order order' [.zuul (W.build y)] (.zuul (W.build x)) ⟨s.cache, m⟩ = z
              obtain ⟨o, s'⟩ := z
              cases o <;> rfl

omit [DecidableEq N] in
theorem isTarget_iff {text : Str} {api : LJ.Zuul.Url W.env} {uid : Str} (h : IsBuildUrl W text api uid) {x : Target W.env} :
    IsTarget W site text x ↔ W.siteLookup site api uid = .ok x := by
  rw [siteLookup_iff]
  constructor
  · rintro ⟨uid', b, h1, h2, h3⟩
    obtain ⟨u, a1, a2, a3⟩ := h
    obtain ⟨u', b1, b2, b3⟩ := h1
    cases a1.symm.trans b1
    cases a3.symm.trans b3
    exact ⟨b, h2, h3⟩
  · rintro ⟨b, h2, h3⟩
    have e := h3.api
    subst e
    exact ⟨uid, b, h, h2, h3⟩

omit [DecidableEq N] in
theorem isBuildUrl_unique {text : Str} {api api' : LJ.Zuul.Url W.env} {uid uid' : Str} (h : IsBuildUrl W text api uid) (h' : IsBuildUrl W text api' uid') :
    api' = api ∧ uid' = uid := by
  obtain ⟨u, a1, a2, a3⟩ := h
  obtain ⟨u', b1, b2, b3⟩ := h'
  cases a1.symm.trans b1
  cases a3.symm.trans b3
  exact ⟨rfl, rfl⟩

omit [DecidableEq N] in
theorem urlCases (W : Web t) (text : Str) : (parseUrl (t := t) (String.ofList text) = none) ∨ (∃ url, parseUrl (t := t) (String.ofList text) = some url ∧ W.hasAuthority url = false) ∨
    (∃ url, HasHost W text url ∧ LJ.Zuul.getZuulApiUrl W.env (W.parts url) = none) ∨ (∃ url, HasHost W text url ∧ LJ.Zuul.getZuulApiUrl W.env (W.parts url) = some none) ∨
    ∃ api uid, IsBuildUrl W text api uid := by
  cases h : parseUrl (t := t) (String.ofList text) with
  | none => exact .inl rfl
  | some url =>
    cases ha : W.hasAuthority url with
    | false => exact .inr (.inl ⟨url, rfl, ha⟩)
    | true =>
      refine .inr (.inr ?_)
      cases hz : LJ.Zuul.getZuulApiUrl W.env (W.parts url) with
      | none => exact .inl ⟨url, ⟨h, ha⟩, hz⟩
      | some p =>
        cases p with
        | none => exact .inr (.inl ⟨url, ⟨h, ha⟩, hz⟩)
        | some p => exact .inr (.inr ⟨p.1, p.2, url, h, ha, hz⟩)

/-- C116: the program says that the content can't be found exactly when it can't be. -/
theorem C116_input (hu : S.useCache = false) (site : Site t) (net : Nat → Net t) (hs : ServesApi site net) (order order' : List (N × List (Source t)) → List (N × List (Source t)))
    (now : Int) (text : Str) (s : Sys) : (S.compareUrl W net order order' now text s).1 = .error .input ↔ NoInput W site text := by
  obtain ⟨n, hn⟩ := compareUrl_off (W := W) hu hs order order' now text s
  rw [hn]
  rcases urlCases W text with h | ⟨url, h1, h2⟩ | ⟨url, ⟨h1, h2⟩, h3⟩ | ⟨url, ⟨h1, h2⟩, h3⟩ | ⟨api, uid, hb⟩
  · rw [h]
    simp only [reduceCtorEq, false_iff]
    rintro (⟨_, a, _⟩ | ⟨_, ⟨a, _⟩, _⟩ | ⟨_, _, ⟨_, a, _⟩, _⟩) <;> rw [h] at a <;> cases a
  · rw [h1]
    simp only [h2, Bool.not_false, if_true, true_iff]
    exact .host url h1 h2
  · rw [h1]
    simp only [h2, h3, Bool.not_true, Bool.false_eq_true, if_false, Outcome.error.injEq, reduceCtorEq, false_iff]
    rintro (⟨_, a, b⟩ | ⟨_, ⟨a, _⟩, b⟩ | ⟨_, _, ⟨_, a, _, b⟩, _⟩) <;> rw [h1] at a <;> cases a
    · rw [h2] at b; cases b
    · rw [h3] at b; cases b
    · rw [h3] at b; cases b
  · rw [h1]
    simp only [h2, h3, Bool.not_true, Bool.false_eq_true, if_false, true_iff]
    exact .api url ⟨h1, h2⟩ h3
  · have key : NoInput W site text ↔ W.siteLookup site api uid = .error () := by
      rw [siteLookup_error]
      constructor
      · obtain ⟨u, h1, h2, h3⟩ := id hb
        rintro (⟨_, a, b⟩ | ⟨_, ⟨a, _⟩, b⟩ | ⟨_, _, a, b⟩)
        · rw [h1] at a; cases a; rw [h2] at b; cases b
        · rw [h1] at a; cases a; rw [h3] at b; cases b
        · obtain ⟨rfl, rfl⟩ := isBuildUrl_unique hb a
          exact b
      · exact .build api uid hb
    rw [key]
    obtain ⟨url, h1, h2, h3⟩ := hb
    rw [h1]
    simp only [h2, h3, Bool.not_true, Bool.false_eq_true, if_false]
    cases W.siteLookup site api uid with
    | panic => simp
    | error e => simp
    | ok x =>
      simp only [reduceCtorEq, iff_false]
      cases W.siteDiscover site now x with
      | panic => simp
      | error e => simp
      | ok y =>
        simp only
        cases (S.compare net order order' [.zuul (W.build y)] (.zuul (W.build x)) ⟨s.cache, n⟩).1 <;> simp

/-- C116: the program says that there is no baseline exactly when there is none. -/
theorem C116_baselines (hu : S.useCache = false) (site : Site t) (net : Nat → Net t) (hs : ServesApi site net) (order order' : List (N × List (Source t)) → List (N × List (Source t)))
    (now : Int) (text : Str) (s : Sys) : (S.compareUrl W net order order' now text s).1 = .error .baselines ↔ NoBaseline W site now text := by
  obtain ⟨n, hn⟩ := compareUrl_off (W := W) hu hs order order' now text s
  rw [hn]
  rcases urlCases W text with h | ⟨url, h1, h2⟩ | ⟨url, ⟨h1, h2⟩, h3⟩ | ⟨url, ⟨h1, h2⟩, h3⟩ | ⟨api, uid, hb⟩
  · rw [h]
    simp only [reduceCtorEq, false_iff]
    rintro (⟨_, ⟨a, _⟩, _⟩ | ⟨_, ⟨_, _, ⟨_, a, _⟩, _⟩, _⟩) <;> rw [h] at a <;> cases a
  · rw [h1]
    simp only [h2, Bool.not_false, if_true, Outcome.error.injEq, reduceCtorEq, false_iff]
    rintro (⟨_, ⟨a, b⟩, _⟩ | ⟨_, ⟨_, _, ⟨_, a, b, _⟩, _⟩, _⟩) <;> rw [h1] at a <;> cases a <;> rw [h2] at b <;> cases b
  · rw [h1]
    simp only [h2, h3, Bool.not_true, Bool.false_eq_true, if_false, true_iff]
    exact .url url ⟨h1, h2⟩ h3
  · rw [h1]
    simp only [h2, h3, Bool.not_true, Bool.false_eq_true, if_false, Outcome.error.injEq, reduceCtorEq, false_iff]
    rintro (⟨_, ⟨a, _⟩, b⟩ | ⟨_, ⟨_, _, ⟨_, a, _, b⟩, _⟩, _⟩) <;> rw [h1] at a <;> cases a <;> rw [h3] at b <;> cases b
  · have key : NoBaseline W site now text ↔ ∃ x, W.siteLookup site api uid = .ok x ∧ W.siteDiscover site now x = .error () := by
      simp only [siteDiscover_error, ← isTarget_iff hb]
      constructor
      · obtain ⟨u, h1, h2, h3⟩ := id hb
        rintro (⟨_, ⟨a, _⟩, b⟩ | ⟨x, a, b⟩)
        · rw [h1] at a; cases a; rw [h3] at b; cases b
        · exact ⟨x, a, b⟩
      · rintro ⟨x, a, b⟩; exact .builds x a b
    rw [key]
    obtain ⟨url, h1, h2, h3⟩ := hb
    rw [h1]
    simp only [h2, h3, Bool.not_true, Bool.false_eq_true, if_false]
    cases W.siteLookup site api uid with
    | panic => simp
    | error e => simp
    | ok x =>
      simp only [Outcome.ok.injEq, exists_eq_left']
      cases W.siteDiscover site now x with
      | panic => simp
      | error e => simp
      | ok y =>
        simp only
        cases (S.compare net order order' [.zuul (W.build y)] (.zuul (W.build x)) ⟨s.cache, n⟩).1 <;> simp

/-- C116: the program panics exactly when the text is not a URL, when one of the builds is incomplete, or when the comparison
panics; and the other errors are those of the comparison. -/
theorem C116_panic (hu : S.useCache = false) (site : Site t) (net : Nat → Net t) (hs : ServesApi site net) (order order' : List (N × List (Source t)) → List (N × List (Source t)))
    (now : Int) (text : Str) (s : Sys) : ∃ n,
      ((S.compareUrl W net order order' now text s).1 = .panic ↔ Stops W site now text ∨ ∃ api uid x y cx cy, IsBuildUrl W text api uid ∧ Matched W site now api uid x y ∧
        SavedAs W x cx ∧ SavedAs W y cy ∧ (S.compare net order order' [.zuul cy] (.zuul cx) ⟨s.cache, n⟩).1 = .panic) ∧
      ∀ e, (S.compareUrl W net order order' now text s).1 = .error (.compare e) ↔ ∃ api uid x y cx cy, IsBuildUrl W text api uid ∧ Matched W site now api uid x y ∧
        SavedAs W x cx ∧ SavedAs W y cy ∧ (S.compare net order order' [.zuul cy] (.zuul cx) ⟨s.cache, n⟩).1 = .error e := by
  obtain ⟨n, hn⟩ := compareUrl_off (W := W) hu hs order order' now text s
  refine ⟨n, ?_⟩
  rw [hn]
  simp only [savedAs_iff, exists_and_left, exists_eq_left]
  rcases urlCases W text with h | ⟨url, h1, h2⟩ | ⟨url, ⟨h1, h2⟩, h3⟩ | ⟨url, ⟨h1, h2⟩, h3⟩ | ⟨api, uid, hb⟩
  · rw [h]
    refine ⟨⟨fun _ => .inl (.url h), fun _ => rfl⟩, fun e => ⟨fun h => (nomatch h), ?_⟩⟩
    rintro ⟨_, _, ⟨_, a, _⟩, _⟩
    rw [h] at a; cases a
  · have hno : ∀ api uid, ¬ IsBuildUrl W text api uid := by
      rintro _ _ ⟨_, a, b, _⟩; rw [h1] at a; cases a; rw [h2] at b; cases b
    rw [h1]
    simp only [h2, Bool.not_false, if_true, Outcome.error.injEq, reduceCtorEq, false_iff]
    refine ⟨?_, fun e => fun ⟨_, _, a, _⟩ => hno _ _ a⟩
    rintro ((a | ⟨_, _, _, a, _⟩ | ⟨_, _, ⟨_, _, a, _⟩, _⟩) | ⟨_, _, a, _⟩)
    · rw [h1] at a; cases a
    all_goals exact hno _ _ a
  · have hno : ∀ api uid, ¬ IsBuildUrl W text api uid := by
      rintro _ _ ⟨_, a, _, b⟩; rw [h1] at a; cases a; rw [h3] at b; cases b
    rw [h1]
    simp only [h2, h3, Bool.not_true, Bool.false_eq_true, if_false, Outcome.error.injEq, reduceCtorEq, false_iff]
    refine ⟨?_, fun e => fun ⟨_, _, a, _⟩ => hno _ _ a⟩
    rintro ((a | ⟨_, _, _, a, _⟩ | ⟨_, _, ⟨_, _, a, _⟩, _⟩) | ⟨_, _, a, _⟩)
    · rw [h1] at a; cases a
    all_goals exact hno _ _ a
  · have hno : ∀ api uid, ¬ IsBuildUrl W text api uid := by
      rintro _ _ ⟨_, a, _, b⟩; rw [h1] at a; cases a; rw [h3] at b; cases b
    rw [h1]
    simp only [h2, h3, Bool.not_true, Bool.false_eq_true, if_false, Outcome.error.injEq, reduceCtorEq, false_iff]
    refine ⟨?_, fun e => fun ⟨_, _, a, _⟩ => hno _ _ a⟩
    rintro ((a | ⟨_, _, _, a, _⟩ | ⟨_, _, ⟨_, _, a, _⟩, _⟩) | ⟨_, _, a, _⟩)
    · rw [h1] at a; cases a
    all_goals exact hno _ _ a
  · have key : Stops W site now text ↔ W.siteLookup site api uid = .panic ∨ ∃ x, W.siteLookup site api uid = .ok x ∧ W.siteDiscover site now x = .panic := by
      simp only [siteDiscover_panic, siteLookup_panic, ← isTarget_iff hb]
      constructor
      · rintro (a | ⟨_, _, b, a, h, h'⟩ | ⟨x, b, h, h', h''⟩)
        · obtain ⟨u, h1, h2, h3⟩ := hb
          rw [h1] at a; cases a
        · obtain ⟨rfl, rfl⟩ := isBuildUrl_unique hb a
          exact .inl ⟨b, h, h'⟩
        · exact .inr ⟨x, h, b, h', h''⟩
      · rintro (⟨b, h, h'⟩ | ⟨x, h, b, h', h''⟩)
        · exact .target api uid b hb h h'
        · exact .baseline x b h h' h''
    have key2 : ∀ P : Target W.env → Target W.env → Prop, (∃ api uid, IsBuildUrl W text api uid ∧ ∃ x y, Matched W site now api uid x y ∧ P x y) ↔
        ∃ x y, (W.siteLookup site api uid = .ok x ∧ W.siteDiscover site now x = .ok y) ∧ P x y := by
      intro P
      constructor
      · rintro ⟨_, _, a, x, y, h, h'⟩
        obtain ⟨rfl, rfl⟩ := isBuildUrl_unique hb a
        exact ⟨x, y, matched_iff.1 h, h'⟩
      · rintro ⟨x, y, h, h'⟩
        exact ⟨api, uid, hb, x, y, matched_iff.2 h, h'⟩
    rw [key]
    simp only [key2]
    obtain ⟨url, h1, h2, h3⟩ := hb
    rw [h1]
    simp only [h2, h3, Bool.not_true, Bool.false_eq_true, if_false]
    cases W.siteLookup site api uid with
    | panic => simp
    | error e => simp
    | ok x =>
      simp only [Outcome.ok.injEq, exists_and_left, and_assoc, exists_eq_left', reduceCtorEq, false_or]
      cases hd : W.siteDiscover site now x with
      | panic => simp
      | error e => simp
      | ok y =>
        simp only [Outcome.ok.injEq, exists_eq_left', reduceCtorEq, false_or]
        cases (S.compare net order order' [.zuul (W.build y)] (.zuul (W.build x)) ⟨s.cache, n⟩).1 <;> simp

end

/-! ### Examples -/

/-- a URL without a host -/
example : NoInput { demoWeb with hasAuthority := fun _ => false } webSite "w".toList := .host (demoUrl "w") (by decide +kernel) rfl

/-- a build which is not there -/
example : NoInput demoWeb { webSite with docs := fun _ => none } "w".toList :=
  .build (webUrl "https://z/api/tenant/x/") "0123456789abcdef0123456789abcdef".toList ⟨demoUrl "w", by decide +kernel, rfl, web_api⟩
    (fun _ ⟨_, _, _, _, _, _, h, _⟩ => nomatch h)

theorem web_target : IsTarget demoWeb webSite "w".toList webX := by
  obtain ⟨b, h1, h2⟩ := web_matched.target
  exact ⟨"0123456789abcdef0123456789abcdef".toList, b, ⟨demoUrl "w", by decide +kernel, rfl, web_api⟩, h1, h2⟩

/-- a build can be compared -/
example : Chosen demoWeb webSite 735422 webX (webBuild "3" "e" 3) :=
  have ⟨samples, _, h1, _, _⟩ := web_matched.baseline
  have e : samples = webSamples := Option.some.inj ((apiSamples_iff.2 h1).symm.trans (by decide +kernel))
  ⟨samples, h1, by rw [e]; exact web_best⟩

/-- a site whose logs are all gone -/
example : NoBaseline demoWeb { webSite with heads := fun _ => some false } 735422 "w".toList := by
  refine .builds webX web_target ?_
  rintro b ⟨samples, _, _, _, he, _⟩
  obtain ⟨u, _, h⟩ := he.logs
  cases h

/-- a build of another project which is not the one of a change: those of periodic pipelines -/
def webPeriodic : LJ.Zuul.Build webEnv := { webBuild "4" "e" 3 with project := "q".toList, pipeline := "periodic".toList, change := none }

/-- its job has only this build -/
def periodicWeb : Web demoTexts := { demoWeb with jsonList := fun d => if d = [1] then some (.arr [encodeBuild webPeriodic]) else none }

theorem periodic_listed : LJ.Zuul.Spec.Listed (env := webEnv) ([encodeBuild webPeriodic].map LJ.Zuul.toValue) [webPeriodic] := by
  obtain ⟨xs, h, h'⟩ := (LJ.Zuul.C109_builds (env := webEnv) (.arr [encodeBuild webPeriodic]) [webPeriodic]).1 (by decide +kernel)
  cases h
  exact h'

/-- it is chosen, and the program panics -/
example : Stops periodicWeb webSite 735422 "w".toList := by
  refine .baseline webX webPeriodic web_target ?_ (.inr (.inr rfl))
  refine ⟨[webPeriodic], ⟨demoUrl "L", demoUrl "L", [1], [encodeBuild webPeriodic], by decide +kernel, rfl, by decide +kernel, rfl, periodic_listed⟩, 0, rfl, ?_, ?_⟩
  · exact ⟨⟨webUrl "e", rfl, by decide +kernel⟩, ⟨_, rfl⟩, by decide +kernel, fun h => absurd h (by decide +kernel)⟩
  · intro j c hj _
    cases j with
    | zero => obtain rfl := Option.some.inj hj; exact ⟨Int.le_refl _, fun h => absurd h (by omega)⟩
    | succ j => cases hj

end LJ.Remote

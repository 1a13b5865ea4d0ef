/-
The properties of the zuul builds.
-/
import Verif.Zuul.Text
namespace LJ.Zuul
open LJ.Paths (Str)

variable {env : Env}

/-! ### A concrete case -/

/-- Every text is a URL. -/
def exEnv : Env := ⟨some, id⟩
def exUrl (s : String) : Url exEnv := ⟨s.toList, rfl⟩
/-- 2014-07-08 09:10:11 -/
def exTime : DateTime := ⟨2014, 7, 8, 9, 10, 11, 500, by decide⟩
/-- 2014-07-05 09:10:11 -/
def exOlder : DateTime := ⟨2014, 7, 5, 9, 10, 11, 0, by decide⟩
def exTarget : Target exEnv :=
  ⟨exUrl "https://zuul/api/", "target".toList, "tox".toList, "zuul".toList, "master".toList, "FAILURE".toList, "check".toList,
    exUrl "https://logs/1", exUrl "https://review/1", exTime, 1⟩
def exBuild : Build exEnv :=
  { uuid := "b".toList, jobName := "tox".toList, result := "SUCCESS".toList, startTime := exOlder, endTime := exTime, duration := 42, voting := true,
    logUrl := some (exUrl "https://logs/2"), refUrl := some (exUrl "https://review/2"), artifacts := [⟨"a".toList, exUrl "https://logs/2/a"⟩],
    project := "zuul".toList, branch := "master".toList, pipeline := "gate".toList, change := some 2, patchset := some "1".toList,
    changeRef := "refs/2".toList, eventId := "e".toList }
/-- The same build, three days earlier -/
def exOld : Build exEnv := { exBuild with uuid := "c".toList, endTime := exOlder }
/-- A build of the same change -/
def exSame : Build exEnv := { exBuild with uuid := "d".toList, change := some 1 }
/-- A build of another project which is not for a change, with its logs -/
def exTag : Build exEnv := { exBuild with uuid := "e".toList, project := "nova".toList, change := none }
def exHead : Url exEnv → Option Bool := fun _ => some true

theorem exEligible (b : Build exEnv) (h : b = exBuild ∨ b = exOld ∨ b = exSame ∨ b = exTag) : Spec.Eligible exTarget exHead b := by
  rcases h with rfl | rfl | rfl | rfl
  · exact ⟨⟨_, rfl, rfl⟩, ⟨_, rfl⟩, by decide, fun _ => ⟨_, rfl⟩⟩
  · exact ⟨⟨_, rfl, rfl⟩, ⟨_, rfl⟩, by decide, fun _ => ⟨_, rfl⟩⟩
  · exact ⟨⟨_, rfl, rfl⟩, ⟨_, rfl⟩, by decide, fun _ => ⟨_, rfl⟩⟩
  · exact ⟨⟨_, rfl, rfl⟩, ⟨_, rfl⟩, by decide, fun h => absurd h (by decide)⟩

theorem exBest (now : Int) (b : Build exEnv) (h : b = exSame ∨ b = exTag) : Spec.Best exTarget now exHead [b] b := by
  refine ⟨0, rfl, exEligible b (Or.inr (Or.inr h)), fun j c hj hc => ?_⟩
  cases j with
  | zero => simp only [List.getElem?_cons_zero, Option.some.injEq] at hj; subst hj; exact ⟨Int.le_refl _, fun h => absurd h (by omega)⟩
  | succ j => exact absurd hj (by simp)

theorem discover_some (self : Target env) (now : Int) (head : Url env → Option Bool) (samples : List (Build env)) :
    discoverBaselines self now head (some samples) = ((selectBuilds self now head samples).mapM (newContent self.api)).map some := rfl

/-! ### C58: the best baseline is selected -/

/-- The discovery gives at most one baseline, which is the first of the best eligible builds; it gives none only when
there is no eligible build. -/
theorem C58 (self : Target env) (now : Int) (head : Url env → Option Bool) (samples : List (Build env)) (l : List (Target env))
    (h : discoverBaselines self now head (some samples) = some (some l)) :
    (l = [] ∧ ∀ b ∈ samples, ¬ Spec.Eligible self head b) ∨
      ∃ b t, l = [t] ∧ Spec.Best self now head samples b ∧ Spec.ContentOf self.api b t := by
  rw [discover_some] at h
  rw [Option.map_eq_some_iff] at h
  obtain ⟨l', h1, h2⟩ := h
  obtain rfl := Option.some.inj h2
  rcases select_length self now head samples with e | ⟨b, e⟩
  · rw [e] at h1
    exact Or.inl ⟨by simpa using h1.symm, (select_none self now head samples).1 e⟩
  · rw [e] at h1
    cases hc : newContent self.api b with
    | none => simp [hc] at h1
    | some t =>
      refine Or.inr ⟨b, t, ?_, (select_best self now head samples b).1 e, (content_iff _ _ _).1 hc⟩
      simpa [hc] using h1.symm

/-- The best eligible build is returned, if it is for a change. -/
theorem C58_found (self : Target env) (now : Int) (head : Url env → Option Bool) (samples : List (Build env)) (b : Build env) (t : Target env)
    (h : Spec.Best self now head samples b) (hc : Spec.ContentOf self.api b t) :
    discoverBaselines self now head (some samples) = some (some [t]) := by
  rw [discover_some]
  rw [(select_best self now head samples b).2 h]
  simp [(content_iff _ _ _).2 hc]

/-- Nothing is returned when no build is eligible. -/
theorem C58_none (self : Target env) (now : Int) (head : Url env → Option Bool) (samples : List (Build env))
    (h : ∀ b ∈ samples, ¬ Spec.Eligible self head b) : discoverBaselines self now head (some samples) = some (some []) := by
  rw [discover_some]
  rw [(select_none self now head samples).2 h]
  rfl

/-- A failure of the API is an error. -/
theorem C58_error (self : Target env) (now : Int) (head : Url env → Option Bool) : discoverBaselines self now head none = some none := rfl

/-- A newer build which comes last is found among three. -/
theorem exSelected : selectBuilds exTarget (dayNumber 2014 7 9) exHead [exOld, exSame, exBuild] = [exBuild] := by
  rw [select_best]
  have e1 := score_eq exTarget (dayNumber 2014 7 9) exOld (s := 156) (by decide +kernel)
  have e2 := score_eq exTarget (dayNumber 2014 7 9) exSame (s := -391) (by decide +kernel)
  have e3 := score_eq exTarget (dayNumber 2014 7 9) exBuild (s := 159) (by decide +kernel)
  refine ⟨2, rfl, exEligible _ (Or.inl rfl), fun j c hj _ => ?_⟩
  match j with
  | 0 => obtain rfl := Option.some.inj hj; omega
  | 1 => obtain rfl := Option.some.inj hj; omega
  | 2 => obtain rfl := Option.some.inj hj; omega
  | j + 3 => exact absurd hj (by simp)

example : ∃ l, discoverBaselines exTarget (dayNumber 2014 7 9) exHead (some [exOld, exSame, exBuild]) = some (some l) := by
  rw [discover_some]
  rw [exSelected]
  exact ⟨_, rfl⟩
example : Spec.Best exTarget (dayNumber 2014 7 9) exHead [exOld, exSame, exBuild] exBuild := (select_best _ _ _ _ _).1 exSelected
example : ∃ t, Spec.ContentOf exTarget.api exBuild t := ⟨_, (content_iff _ _ _).1 rfl⟩
example : ∀ b ∈ [exBuild], ¬ Spec.Eligible exTarget (fun _ => none) b := by
  intro b hb h
  obtain ⟨u, _, h2⟩ := h.logs
  exact absurd h2 (by simp)

/-! ### C59: a build is not compared with the same change -/

/-- The claim: a baseline which is returned is not a build of the same change. -/
def C59 (env : Env) : Prop := ∀ (self : Target env) (now : Int) (head : Url env → Option Bool) (samples : List (Build env)) (t : Target env),
  discoverBaselines self now head (some samples) = some (some [t]) → ¬ (t.project = self.project ∧ t.change = self.change)

/-- It is returned when there is nothing else. -/
theorem C59_false : ¬ C59 exEnv := by
  intro h
  obtain ⟨t, ht⟩ : ∃ t, Spec.ContentOf exTarget.api exSame t := ⟨_, (content_iff _ _ _).1 rfl⟩
  refine h exTarget 0 exHead [exSame] t (C58_found _ _ _ _ _ _ (exBest 0 exSame (Or.inl rfl)) ht) ⟨ht.project, ?_⟩
  have := ht.change
  exact (Option.some.inj this).symm

theorem points_range (p : Prop) (n : Int) (h : 0 ≤ n) : 0 ≤ Spec.points p n ∧ Spec.points p n ≤ n := by
  unfold Spec.points; split <;> omega

/-- A build of the same change is returned only if every eligible build of another change is at least 390 days older. -/
theorem C59_partial (self : Target env) (now : Int) (head : Url env → Option Bool) (samples : List (Build env)) (b : Build env)
    (h : Spec.Best self now head samples b) (hs : Spec.SameChange self b) :
    ∀ c ∈ samples, Spec.Eligible self head c → ¬ Spec.SameChange self c → Spec.age now b + 390 ≤ Spec.age now c := by
  intro c hc he hn
  obtain ⟨i, _, _, h3⟩ := h
  obtain ⟨j, hj⟩ := List.mem_iff_getElem?.1 hc
  have := (h3 j c hj he).1
  unfold Spec.score at this
  have e1 : Spec.points (Spec.SameChange self b) (-500) = -500 := by unfold Spec.points; rw [if_pos hs]
  have e2 : Spec.points (Spec.SameChange self c) (-500) = 0 := by unfold Spec.points; rw [if_neg hn]
  have e3 : Spec.points (b.project = self.project ∧ b.change ≠ some self.change) 50 = 0 := by
    unfold Spec.points; rw [if_neg]; intro h; exact h.2 hs.2
  rw [e1, e2, e3] at this
  have r1 := points_range (b.branch = self.branch) 50 (by decide)
  have r2 := points_range ("gate".toList <:+: b.pipeline ∨ "periodic".toList <:+: b.pipeline) 50 (by decide)
  have r3 := points_range (b.voting = true) 10 (by decide)
  have r4 := points_range (c.branch = self.branch) 50 (by decide)
  have r5 := points_range ("gate".toList <:+: c.pipeline ∨ "periodic".toList <:+: c.pipeline) 50 (by decide)
  have r6 := points_range (c.voting = true) 10 (by decide)
  have r7 := points_range (c.project = self.project ∧ c.change ≠ some self.change) 50 (by decide)
  omega

example : Spec.Best exTarget 0 exHead [exSame] exSame ∧ Spec.SameChange exTarget exSame := ⟨exBest 0 exSame (Or.inl rfl), rfl, rfl⟩

/-! ### C60: no panic -/

/-- The claim, for the discovery -/
def C60 (env : Env) : Prop := ∀ (self : Target env) (now : Int) (head : Url env → Option Bool) (samples : Option (List (Build env))),
  discoverBaselines self now head samples ≠ none

/-- The claim, for the lookup of a build -/
def C60_lookup (env : Env) : Prop := ∀ (getBuild : Url env → Str → Option Json) (url : WebUrl), fromZuulUrl getBuild url ≠ some .panic

/-- The discovery panics exactly when the best build is not for a change. -/
theorem C60_partial (self : Target env) (now : Int) (head : Url env → Option Bool) (samples : List (Build env)) :
    discoverBaselines self now head (some samples) = none ↔ ∃ b, Spec.Best self now head samples b ∧ b.change = none := by
  constructor
  · intro h
    rw [discover_some] at h
    rcases select_length self now head samples with e | ⟨b, e⟩
    · rw [e] at h; simp at h
    · have hb := (select_best self now head samples b).1 e
      rw [e] at h
      cases hc : newContent self.api b with
      | some t => simp [hc] at h
      | none =>
        refine ⟨b, hb, ?_⟩
        obtain ⟨_, _, he, _⟩ := hb
        obtain ⟨u, hu, _⟩ := he.logs
        obtain ⟨v, hv⟩ := he.reference
        rcases (content_none _ _).1 hc with h | h | h
        · rw [hu] at h; exact absurd h (by simp)
        · rw [hv] at h; exact absurd h (by simp)
        · exact h
  · rintro ⟨b, hb, hc⟩
    rw [discover_some]
    rw [(select_best self now head samples b).2 hb]
    have := (content_none self.api b).2 (Or.inr (Or.inr hc))
    simp [this]

/-- When every build is for a change, or of the same project, the discovery does not panic. -/
theorem C60_changes (self : Target env) (now : Int) (head : Url env → Option Bool) (samples : List (Build env))
    (h : ∀ b ∈ samples, b.change ≠ none ∨ b.project = self.project) : discoverBaselines self now head (some samples) ≠ none := by
  intro hn
  obtain ⟨b, ⟨i, hi, he, _⟩, hc⟩ := (C60_partial self now head samples).1 hn
  rcases h b (List.mem_of_getElem? hi) with h | h
  · exact h hc
  · obtain ⟨c, hc'⟩ := he.comparable h
    rw [hc'] at hc; exact absurd hc (by simp)

/-- A build of another project which is for a tag or a periodic pipeline has no change. -/
theorem C60_false : ¬ C60 exEnv := fun h =>
  h exTarget 0 exHead (some [exTag]) ((C60_partial _ _ _ _).2 ⟨exTag, exBest 0 exTag (Or.inr rfl), rfl⟩)

/-- The lookup panics exactly when the build decodes without its log URL, its ref URL or its change. -/
theorem C60_lookup_partial (getBuild : Url env → Str → Option Json) (url : WebUrl) :
    fromZuulUrl getBuild url = some .panic ↔ ∃ api uid j, ∃ b : Build env, getZuulApiUrl env url = some (some (api, uid)) ∧ getBuild api uid = some j ∧
      decodeBuild j = some b ∧ (b.logUrl = none ∨ b.refUrl = none ∨ b.change = none) := by
  unfold fromZuulUrl
  rw [Option.map_eq_some_iff]
  constructor
  · rintro ⟨r, hr, h⟩
    cases r with
    | none => exact absurd h (by simp)
    | some p =>
      obtain ⟨api, uid⟩ := p
      dsimp only at h
      cases hj : getBuild api uid with
      | none => rw [hj] at h; exact absurd h (by simp)
      | some j =>
        rw [hj] at h
        dsimp only [Option.bind_some] at h
        cases hd : decodeBuild (env := env) j with
        | none => rw [hd] at h; exact absurd h (by simp)
        | some b =>
          rw [hd] at h
          dsimp only at h
          cases hc : newContent api b with
          | some t => rw [hc] at h; exact absurd h (by simp)
          | none => exact ⟨api, uid, j, b, hr, hj, hd, (content_none _ _).1 hc⟩
  · rintro ⟨api, uid, j, b, h1, h2, h3, h4⟩
    refine ⟨_, h1, ?_⟩
    dsimp only
    rw [h2, Option.bind_some, h3]
    dsimp only
    rw [(content_none api b).2 h4]

/-- The answer of the API: what is returned, and the URL of the build -/
theorem C60_lookup_ok (getBuild : Url env → Str → Option Json) (url : WebUrl) (t : Target env) :
    fromZuulUrl getBuild url = some (.ok t) ↔ ∃ api uid j, ∃ b : Build env, getZuulApiUrl env url = some (some (api, uid)) ∧ getBuild api uid = some j ∧
      decodeBuild j = some b ∧ Spec.ContentOf api b t := by
  unfold fromZuulUrl
  rw [Option.map_eq_some_iff]
  constructor
  · rintro ⟨r, hr, h⟩
    cases r with
    | none => exact absurd h (by simp)
    | some p =>
      obtain ⟨api, uid⟩ := p
      dsimp only at h
      cases hj : getBuild api uid with
      | none => rw [hj] at h; exact absurd h (by simp)
      | some j =>
        rw [hj] at h
        dsimp only [Option.bind_some] at h
        cases hd : decodeBuild (env := env) j with
        | none => rw [hd] at h; exact absurd h (by simp)
        | some b =>
          rw [hd] at h
          dsimp only at h
          cases hc : newContent api b with
          | none => rw [hc] at h; exact absurd h (by simp)
          | some t' =>
            rw [hc] at h
            dsimp only at h
            obtain rfl : t' = t := Outcome.ok.inj h
            exact ⟨api, uid, j, b, hr, hj, hd, (content_iff _ _ _).1 hc⟩
  · rintro ⟨api, uid, j, b, h1, h2, h3, h4⟩
    refine ⟨_, h1, ?_⟩
    dsimp only
    rw [h2, Option.bind_some, h3]
    dsimp only
    rw [(content_iff api b t).2 h4]

def exUid : Str := "a498f74ab32b49ffa9c9e7463fbf8885".toList
/-- https://zuul/t/zuul/build/a498f74ab32b49ffa9c9e7463fbf8885 -/
def exWeb : WebUrl := ⟨"https://zuul".toList, "/t/zuul/build/".toList ++ exUid, []⟩

theorem exApi : getZuulApiUrl exEnv exWeb = some (some (exUrl "https://zuul/api/tenant/zuul/", exUid)) := by decide +kernel

/-- A build in progress has no log URL. -/
theorem C60_lookup_false : ¬ C60_lookup exEnv := fun h =>
  h (fun _ _ => some (encodeBuild { exBuild with logUrl := none })) exWeb
    ((C60_lookup_partial _ _).2 ⟨_, _, _, _, exApi, rfl, decode_encode _, Or.inl rfl⟩)

example : ∀ b ∈ [exOld, exBuild], b.change ≠ none ∨ b.project = exTarget.project := by decide

/-! ### C61: newer baselines are preferred -/

/-- The day number counts the days of the calendar. -/
theorem C61_calendar (y : Int) (m d : Nat) (hm : 1 ≤ m ∧ m ≤ 12) (hd : 1 ≤ d ∧ d ≤ monthDays y m) :
    dayNumber (Spec.nextDay y m d).1 (Spec.nextDay y m d).2.1 (Spec.nextDay y m d).2.2 = dayNumber y m d + 1 := by
  unfold Spec.nextDay
  split
  · unfold dayNumber; simp only; omega
  · rename_i h
    have he : d = monthDays y m := by omega
    obtain ⟨h1, h2⟩ := hm
    have : m = 1 ∨ m = 2 ∨ m = 3 ∨ m = 4 ∨ m = 5 ∨ m = 6 ∨ m = 7 ∨ m = 8 ∨ m = 9 ∨ m = 10 ∨ m = 11 ∨ m = 12 := by omega
    by_cases h2 : m = 2
    · subst h2
      simp only [monthDays, isLeap, decide_eq_true_eq, if_true] at he
      unfold dayNumber
      simp
      split at he <;> omega
    · rcases this with rfl | rfl | rfl | rfl | rfl | rfl | rfl | rfl | rfl | rfl | rfl | rfl <;>
        first
        | exact absurd rfl h2
        | (simp [monthDays] at he; subst he; unfold dayNumber; simp; done)
        | (simp [monthDays] at he; subst he; unfold dayNumber; simp; omega)

/-- Among the eligible builds which differ only by their dates, the selected one is one of the newest. -/
theorem C61 (self : Target env) (now : Int) (head : Url env → Option Bool) (samples : List (Build env)) (b : Build env)
    (h : Spec.Best self now head samples b) (c : Build env) (hc : c ∈ samples) (he : Spec.Eligible self head c)
    (hsame : c.project = b.project ∧ c.change = b.change ∧ c.branch = b.branch ∧ c.pipeline = b.pipeline ∧ c.voting = b.voting) :
    now ≤ b.endTime.date ∨ c.endTime.date ≤ b.endTime.date := by
  obtain ⟨i, _, _, h3⟩ := h
  obtain ⟨j, hj⟩ := List.mem_iff_getElem?.1 hc
  have := (h3 j c hj he).1
  obtain ⟨h1, h2, h3, h4, h5⟩ := hsame
  unfold Spec.score Spec.SameChange Spec.age at this
  rw [h1, h2, h3, h4, h5] at this
  omega

/-- The score which orders the builds: an older build never has a higher one. -/
theorem C61_monotone (self : Target env) (now : Int) (b : Build env) (t : DateTime) (h : t.date ≤ b.endTime.date) (s s' : Int)
    (hs : baselineScore self now b = some s) (hs' : baselineScore self now { b with endTime := t } = some s') : s' ≤ s := by
  rw [score_eq _ _ _ hs, score_eq _ _ _ hs']
  unfold Spec.score Spec.SameChange Spec.age
  dsimp only
  omega

/-- A build in the future counts as a build of today. -/
theorem C61_future (self : Target env) (now : Int) (b : Build env) (t t' : DateTime) (h : now ≤ t.date) (h' : now ≤ t'.date) :
    baselineScore self now { b with endTime := t } = baselineScore self now { b with endTime := t' } := by
  have e : elapsedDays now t.date = elapsedDays now t'.date := by unfold elapsedDays; omega
  unfold baselineScore
  have e2 : projectPoints self { b with endTime := t } = projectPoints self { b with endTime := t' } := rfl
  rw [e2]
  dsimp only
  rw [e]

/-- The bounds of the score -/
theorem C61_bounds (self : Target env) (now : Int) (b : Build env) (s : Int) (hs : baselineScore self now b = some s) :
    -500 - Spec.age now b ≤ s ∧ s ≤ 160 - Spec.age now b := by
  rw [score_eq _ _ _ hs]
  unfold Spec.score
  have r1 := points_range (b.branch = self.branch) 50 (by decide)
  have r2 := points_range ("gate".toList <:+: b.pipeline ∨ "periodic".toList <:+: b.pipeline) 50 (by decide)
  have r3 := points_range (b.voting = true) 10 (by decide)
  have r4 := points_range (b.project = self.project ∧ b.change ≠ some self.change) 50 (by decide)
  have r5 : Spec.points (Spec.SameChange self b) (-500) = 0 ∨ Spec.points (Spec.SameChange self b) (-500) = -500 := by
    unfold Spec.points; split <;> simp
  omega

example : baselineScore exTarget (dayNumber 2014 7 9) exBuild = some 159 := by decide +kernel
example : exOld ∈ [exOld, exSame, exBuild] ∧ Spec.Eligible exTarget exHead exOld ∧ exOlder.date < exTime.date :=
  ⟨by simp, exEligible _ (Or.inr (Or.inl rfl)), by decide +kernel⟩
example : (1 ≤ 29 ∧ 29 ≤ monthDays 2024 2) ∧ Spec.nextDay 2024 2 29 = (2024, 3, 1) := by decide

/-! ### C62: the URLs of builds are recognised -/

/-- A URL is taken as a build exactly when its path ends with `/build/` and an identifier. -/
theorem C62_recognised (url : WebUrl) :
    (∃ r, getZuulApiUrl env url = some r) ↔ ∃ pre uid, Spec.Dir pre ∧ Spec.Uid uid ∧ url.path = pre ++ "/build/".toList ++ uid := by
  constructor
  · rintro ⟨r, h⟩
    unfold getZuulApiUrl at h
    cases hs : url.segments with
    | none => rw [hs] at h; exact absurd h (by simp)
    | some segs =>
      cases hr : recogniseSegments segs.reverse with
      | none => rw [hs, Option.bind_some, hr] at h; exact absurd h (by simp)
      | some x =>
        obtain ⟨pre, h1, h2, h3⟩ := segments_some hs hr
        exact ⟨pre, x.1, h1, h2, h3⟩
  · rintro ⟨pre, uid, hd, hu, hp⟩
    unfold getZuulApiUrl
    rw [segments_build url hd hu hp]
    simp only [Option.bind_some, List.reverse_append, List.reverse_cons, List.reverse_nil, List.nil_append, List.cons_append]
    rw [recognise_build uid _ hu]
    split
    · rename_i h; unfold tenantSegments at h; split at h <;> (try split at h) <;> exact absurd h (by simp)
    · exact ⟨_, rfl⟩
    · exact ⟨_, rfl⟩

/-- The URL of a build in a tenant: the API is at the same place, when `/t/` is not before. -/
theorem C62_partial (url : WebUrl) (pre tenant uid : Str) (hd : Spec.Dir pre) (ht : '/' ∉ tenant) (hu : Spec.Uid uid)
    (hp : url.path = pre ++ "/t/".toList ++ tenant ++ "/build/".toList ++ uid) (hno : ¬ "/t/".toList <:+: url.origin ++ pre ++ ['/']) :
    getZuulApiUrl env url = some ((mkUrl env (url.origin ++ pre ++ "/api/tenant/".toList ++ tenant ++ ['/'])).map fun api => (api, uid)) := by
  have hd2 : Spec.Dir (pre ++ "/t/".toList ++ tenant) := by
    rcases hd with rfl | ⟨p, rfl⟩
    · exact Or.inr ⟨"t/".toList ++ tenant, rfl⟩
    · exact Or.inr ⟨p ++ "/t/".toList ++ tenant, rfl⟩
  unfold getZuulApiUrl
  rw [segments_build url hd2 hu hp, before_tenant ht hd rfl]
  simp only [Option.bind_some, List.reverse_append, List.reverse_cons, List.reverse_nil, List.nil_append, List.cons_append]
  rw [recognise_build uid _ hu]
  unfold tenantSegments
  dsimp only
  rw [if_pos rfl]
  dsimp only
  have e : url.asStr = (url.origin ++ pre) ++ "/t/".toList ++ (tenant ++ "/build/".toList ++ uid ++ url.suffix) := by
    unfold WebUrl.asStr; rw [hp]; simp only [List.append_assoc]
  unfold apiFromWebui
  rw [e, splitOnce_first _ _ _ (by decide) (t_first hno)]
  rfl

/-- The URL of a build without a tenant: the API is at the same place, when `/build/` is not in the query or the fragment. -/
theorem C62_whitelabel_partial (url : WebUrl) (pre uid : Str) (hd : Spec.Dir pre) (hu : Spec.Uid uid)
    (hp : url.path = pre ++ "/build/".toList ++ uid) (ht : ∀ q tenant, '/' ∉ tenant → pre ≠ q ++ "/t/".toList ++ tenant)
    (hno : ¬ "/build/".toList <:+: url.suffix) :
    getZuulApiUrl env url = some ((mkUrl env (url.origin ++ pre ++ "/api/".toList)).map fun api => (api, uid)) := by
  unfold getZuulApiUrl
  rw [segments_build url hd hu hp]
  simp only [Option.bind_some, List.reverse_append, List.reverse_cons, List.reverse_nil, List.nil_append, List.cons_append]
  rw [recognise_build uid _ hu]
  have e : tenantSegments uid (before pre).reverse = some (uid, none) := by
    unfold tenantSegments
    split
    · rename_i tenant t rest hb
      rw [if_neg]
      rintro rfl
      obtain ⟨q, h1, h2⟩ := before_some hb
      exact ht q tenant h1 h2
    · rfl
  rw [e]
  dsimp only
  have e2 : url.asStr = (url.origin ++ pre) ++ "/build/".toList ++ (uid ++ url.suffix) := by
    unfold WebUrl.asStr; rw [hp]; simp only [List.append_assoc]
  unfold apiFromWhitelabelWebui
  rw [e2]
  rw [rsplit_build _ hu hno]
  rfl

/-- The claim for the tenants, whatever is before -/
def C62 (env : Env) : Prop := ∀ (url : WebUrl) (pre tenant uid : Str), Spec.Dir pre → '/' ∉ tenant → Spec.Uid uid →
  url.path = pre ++ "/t/".toList ++ tenant ++ "/build/".toList ++ uid →
  getZuulApiUrl env url = some ((mkUrl env (url.origin ++ pre ++ "/api/tenant/".toList ++ tenant ++ ['/'])).map fun api => (api, uid))

/-- The claim without a tenant, whatever is after -/
def C62_whitelabel (env : Env) : Prop := ∀ (url : WebUrl) (pre uid : Str), Spec.Dir pre → Spec.Uid uid →
  url.path = pre ++ "/build/".toList ++ uid → (∀ q tenant, '/' ∉ tenant → pre ≠ q ++ "/t/".toList ++ tenant) →
  getZuulApiUrl env url = some ((mkUrl env (url.origin ++ pre ++ "/api/".toList)).map fun api => (api, uid))

theorem exUid_ok : Spec.Uid exUid := (isUid_iff _).1 (by decide +kernel)

/-- https://t/t/zuul/build/… is looked for at https://api/tenant/zuul/, which is another host. -/
theorem C62_false : ¬ C62 exEnv := fun h => by
  have h1 := h ⟨"https://t".toList, "/t/zuul/build/".toList ++ exUid, []⟩ [] "zuul".toList exUid (Or.inl rfl) (by decide) exUid_ok rfl
  have h2 : getZuulApiUrl exEnv ⟨"https://t".toList, "/t/zuul/build/".toList ++ exUid, []⟩ =
    some (some (exUrl "https://api/tenant/zuul/", exUid)) := by decide +kernel
  rw [h2] at h1
  revert h1
  decide +kernel

/-- https://zuul/build/…?from=/build/ is looked for at https://zuul/build/…?from=/api/. -/
theorem C62_whitelabel_false : ¬ C62_whitelabel exEnv := fun h => by
  have h1 := h ⟨"https://zuul".toList, "/build/".toList ++ exUid, "?from=/build/".toList⟩ [] exUid (Or.inl rfl) exUid_ok rfl
    (fun q tenant _ e => by cases q <;> exact absurd e (by simp))
  have h2 : getZuulApiUrl exEnv ⟨"https://zuul".toList, "/build/".toList ++ exUid, "?from=/build/".toList⟩ =
    some (some (⟨"https://zuul/build/".toList ++ exUid ++ "?from=/api/".toList, rfl⟩, exUid)) := by decide +kernel
  rw [h2] at h1
  revert h1
  decide +kernel

example : Spec.Dir [] ∧ '/' ∉ "zuul".toList ∧ Spec.Uid exUid ∧ exWeb.path = [] ++ "/t/".toList ++ "zuul".toList ++ "/build/".toList ++ exUid ∧
    ¬ "/t/".toList <:+: exWeb.origin ++ [] ++ ['/'] :=
  ⟨Or.inl rfl, by decide, exUid_ok, rfl, by rw [← LJ.Paths.contains_iff]; decide⟩
/-- https://review/zuul/build/… -/
example : Spec.Dir "/zuul".toList ∧ (∀ q tenant, '/' ∉ tenant → "/zuul".toList ≠ q ++ "/t/".toList ++ tenant) ∧ ¬ "/build/".toList <:+: [] := by
  refine ⟨Or.inr ⟨"zuul".toList, rfl⟩, fun q tenant _ e => ?_, by rw [← LJ.Paths.contains_iff]; decide⟩
  have hc : LJ.Paths.contains "/t/".toList "/zuul".toList = true := (LJ.Paths.contains_iff _ _).2 ⟨q, tenant, e.symm⟩
  exact absurd hc (by decide)

/-! ### C63: builds survive a JSON round trip -/

/-- The claim: the build is the same, to the second. -/
def C63 (env : Env) : Prop := ∀ b : Build env, b.duration < 2 ^ 32 →
  decodeBuild (encodeBuild b) = some { b with startTime := Spec.toSecond b.startTime, endTime := Spec.toSecond b.endTime }

/-- It holds up to the duration, for every build: the times are kept to the second. -/
theorem C63_times (b : Build env) : ∃ b', decodeBuild (encodeBuild b) = some b' ∧
    b' = { b with startTime := Spec.toSecond b.startTime, endTime := Spec.toSecond b.endTime, duration := b'.duration } :=
  ⟨_, decode_encode b, rfl⟩

/-- The builds which last up to 2^24 seconds (six months) are the same, to the second. -/
theorem C63_partial (b : Build env) (h : b.duration ≤ 2 ^ 24) :
    decodeBuild (encodeBuild b) = some { b with startTime := Spec.toSecond b.startTime, endTime := Spec.toSecond b.endTime } := by
  rw [decode_encode, roundF32_small h]
  have : asU32 b.duration = b.duration := by unfold asU32; omega
  rw [this]

/-- The duration is the same exactly when it has at most 24 significant bits, or when it is the largest one. -/
theorem C63_exact (b : Build env) (h : b.duration < 2 ^ 32) :
    decodeBuild (encodeBuild b) = some { b with startTime := Spec.toSecond b.startTime, endTime := Spec.toSecond b.endTime } ↔
      2 ^ (b.duration.log2 - 23) ∣ b.duration ∨ b.duration = 2 ^ 32 - 1 := by
  rw [decode_encode, ← roundF32_exact]
  simp only [Option.some.injEq, Build.mk.injEq, true_and, and_true]
  unfold asU32
  constructor
  · intro e; omega
  · rintro (e | e)
    · omega
    · rw [e]; decide +kernel

/-- The error on the duration is at most one in 2^24. -/
theorem C63_error (b b' : Build env) (h : b.duration < 2 ^ 32) (hd : decodeBuild (encodeBuild b) = some b') :
    2 ^ 24 * b'.duration ≤ (2 ^ 24 + 1) * b.duration ∧ (2 ^ 24 - 1) * b.duration ≤ 2 ^ 24 * b'.duration := by
  rw [decode_encode] at hd
  obtain rfl := Option.some.inj hd
  have := roundF32_error b.duration
  unfold asU32
  dsimp only
  omega

/-- A duration of 2^24 + 1 seconds is read as 2^24. -/
theorem C63_false : ¬ C63 exEnv := fun h => by
  have h1 := h { exBuild with duration := 2 ^ 24 + 1 } (by decide)
  rw [decode_encode] at h1
  have h2 := congrArg Build.duration (Option.some.inj h1)
  revert h2
  decide +kernel

example : (exBuild.duration ≤ 2 ^ 24) ∧ formatTime exBuild.startTime = "2014-07-05T09:10:11".toList := by decide +kernel
example : roundF32 (2 ^ 24 + 1) = 2 ^ 24 ∧ roundF32 (2 ^ 24 + 3) = 2 ^ 24 + 4 ∧ asU32 (roundF32 (2 ^ 32 - 1)) = 2 ^ 32 - 1 := by decide +kernel

/-! ### C64: one bad build does not hide the others -/

/-- Exactly the elements which decode are returned, in order.  When a field is repeated in an object, the last one counts. -/
theorem C64 (xs : List Json) (l : List (Build env)) : decodeBuilds (.arr xs) = some l ↔ Spec.Kept (xs.map toValue) l := by
  unfold decodeBuilds
  rw [Option.some.injEq]
  generalize xs.map toValue = xs
  constructor
  · rintro rfl
    induction xs with
    | nil => exact .nil
    | cons x xs ih =>
      cases hx : decodeBuild (env := env) x with
      | none => rw [List.filterMap_cons_none hx]; exact .skip hx ih
      | some b => rw [List.filterMap_cons_some hx]; exact .keep hx ih
  · intro h
    induction h with
    | nil => rfl
    | keep hx _ ih => rw [List.filterMap_cons_some hx, ih]
    | skip hx _ ih => rw [List.filterMap_cons_none hx, ih]

/-- The decoder fails only if the answer is not an array. -/
theorem C64_error (j : Json) : decodeBuilds (env := env) j = none ↔ ∀ xs, j ≠ .arr xs := by
  unfold decodeBuilds
  split
  · rename_i xs; simp
  · rename_i h; simp only [true_iff]; intro xs e; exact h xs e

theorem bind_none {α β : Type} {o : Option α} {f : α → Option β} (h : ∀ x, f x = none) : o.bind f = none := by
  cases o with
  | none => rfl
  | some x => exact h x

/-- A build without one of the mandatory fields is not returned, whatever the other fields are. -/
theorem C64_missing (fs : List (String × Json)) (name : String)
    (hn : name ∈ ["uuid", "job_name", "result", "start_time", "end_time", "duration", "voting", "artifacts", "project", "branch", "pipeline", "ref", "event_id"])
    (h : field name fs = none) : decodeBuild (env := env) (.obj fs) = none := by
  show (structFields buildNames (.obj fs)).bind decodeFields = none
  unfold structFields
  dsimp only
  split
  swap
  · rfl
  rw [Option.bind_some]
  unfold decodeFields
  simp only [List.mem_cons, List.not_mem_nil, or_false] at hn
  rcases hn with rfl | rfl | rfl | rfl | rfl | rfl | rfl | rfl | rfl | rfl | rfl | rfl | rfl <;> rw [h] <;>
    repeat (first | exact Option.bind_none _ | (refine bind_none fun _ => ?_))

theorem toValues_map (xs : List Json) : toValues xs = xs.map toValue := by
  induction xs with
  | nil => rfl
  | cons x xs ih => rw [toValues, ih]; rfl

/-- a build which is written has no repeated field -/
theorem toValue_encode (b : Build env) : toValue (encodeBuild b) = encodeBuild b := by
  have ha : ∀ l : List (Artifact env), (l.map encodeArtifact).map toValue = l.map encodeArtifact := by
    intro l
    rw [List.map_map]
    refine List.map_congr_left fun a _ => ?_
    simp [encodeArtifact, toValue, toFields]
  have ho : ∀ {α : Type} (f : α → Json) (o : Option α), (∀ a, toValue (f a) = f a) → toValue (optJson f o) = optJson f o := by
    intro α f o h
    cases o with
    | none => rfl
    | some a => exact h a
  unfold encodeBuild
  simp only [toValue, toFields, toValues_map, ha, List.map_cons, List.map_nil, List.mem_cons, String.reduceEq, List.not_mem_nil, or_self, if_false]
  rw [ho _ _ (fun _ => rfl), ho _ _ (fun _ => rfl), ho _ _ (fun _ => rfl), ho _ _ (fun _ => rfl)]

/-- A good build is returned wherever it is in the answer, to the second. -/
theorem C64_found (xs ys : List Json) (b : Build env) (h : b.duration ≤ 2 ^ 24) :
    ∃ l, decodeBuilds (.arr (xs ++ encodeBuild b :: ys)) = some l ∧
      { b with startTime := Spec.toSecond b.startTime, endTime := Spec.toSecond b.endTime } ∈ l := by
  refine ⟨_, rfl, ?_⟩
  rw [List.mem_filterMap]
  exact ⟨encodeBuild b, List.mem_map.2 ⟨encodeBuild b, by simp, toValue_encode b⟩, C63_partial b h⟩

example : decodeBuild (env := exEnv) (.obj [("uuid", .null)]) = none := rfl
example : Spec.Kept [.null, encodeBuild exBuild, .str "x".toList] [{ exBuild with endTime := Spec.toSecond exTime }] :=
  .skip rfl (.keep (C63_partial exBuild (by decide)) (.skip rfl .nil))

theorem field_other (fs gs : List (String × Json)) {n : String} (name : String) (v : Json) (hne : n ≠ name) :
    field n (fs ++ (name, v) :: gs) = field n (fs ++ gs) := by
  induction fs with
  | nil => exact if_neg (Ne.symm hne)
  | cons p fs ih =>
    obtain ⟨k, w⟩ := p
    simp only [List.cons_append, field, ih]

/-- the decoder only looks at the fields of the build, and a field which is null is an optional field left out -/
theorem decode_congr {fs gs : List (String × Json)}
    (h : ∀ n ∈ ["uuid", "job_name", "result", "start_time", "end_time", "duration", "voting", "artifacts", "project", "branch", "pipeline", "ref",
      "event_id"], field n fs = field n gs)
    (ho : ∀ n ∈ ["log_url", "ref_url", "change", "patchset"], (field n fs).getD .null = (field n gs).getD .null)
    (hd : ((fs.map Prod.fst).filter fun n => decide (n ∈ buildNames)).Nodup ↔ ((gs.map Prod.fst).filter fun n => decide (n ∈ buildNames)).Nodup) :
    decodeBuild (env := env) (.obj fs) = decodeBuild (.obj gs) := by
  have hopt : ∀ {α : Type} (f : Json → Option α) (a b : Option Json), a.getD .null = b.getD .null → opt f a = opt f b := by
    intro α f a b hab
    have : ∀ a : Option Json, opt f a = opt f (some (a.getD .null)) := by intro a; cases a <;> rfl
    rw [this a, this b, hab]
  show (structFields buildNames (.obj fs)).bind decodeFields = (structFields buildNames (.obj gs)).bind decodeFields
  simp only [structFields, hd]
  by_cases hg : ((gs.map Prod.fst).filter fun n => decide (n ∈ buildNames)).Nodup
  swap
  · rw [if_neg hg, if_neg hg]
  rw [if_pos hg, if_pos hg]
  simp only [Option.bind_some]
  unfold decodeFields
  simp only [List.forall_mem_cons, List.not_mem_nil, false_implies, implies_true, and_true] at h ho
  obtain ⟨h1, h2, h3, h4, h5, h6, h7, h8, h9, h10, h11, h12, h13⟩ := h
  obtain ⟨o1, o2, o3, o4⟩ := ho
  rw [h1, h2, h3, h4, h5, h6, h7, h8, h9, h10, h11, h12, h13, hopt _ _ _ o1, hopt _ _ _ o2, hopt _ _ _ o3, hopt _ _ _ o4]

/-- Fields which are not those of a build change nothing, wherever they are. -/
theorem C64_unknown (fs gs : List (String × Json)) (name : String) (v : Json)
    (hn : name ∉ ["uuid", "job_name", "result", "start_time", "end_time", "duration", "voting", "artifacts", "project", "branch", "pipeline", "ref",
      "event_id", "log_url", "ref_url", "change", "patchset"]) :
    decodeBuild (env := env) (.obj (fs ++ (name, v) :: gs)) = decodeBuild (.obj (fs ++ gs)) := by
  have key := fun n => field_other fs gs (n := n) name v
  simp only [List.mem_cons, List.not_mem_nil, or_false, not_or] at hn
  apply decode_congr
  · simp only [List.forall_mem_cons, List.not_mem_nil, false_implies, implies_true, and_true]
    refine ⟨?_, ?_, ?_, ?_, ?_, ?_, ?_, ?_, ?_, ?_, ?_, ?_, ?_⟩ <;> exact key _ (by rintro rfl; simp at hn)
  · simp only [List.forall_mem_cons, List.not_mem_nil, false_implies, implies_true, and_true]
    refine ⟨?_, ?_, ?_, ?_⟩ <;> rw [key _ (by rintro rfl; simp at hn)]
  · have hb : name ∉ buildNames := by
      intro h
      simp only [buildNames, List.mem_cons, List.not_mem_nil, or_false] at h
      tauto
    rw [List.map_append, List.map_append, List.map_cons, List.filter_append, List.filter_append, List.filter_cons_of_neg (by simpa using hb)]

/-- The four optional fields can be left out of a build that would have them null. -/
theorem C64_optional (fs gs : List (String × Json)) (name : String) (hn : name ∈ ["log_url", "ref_url", "change", "patchset"])
    (h1 : field name fs = none) (h2 : field name gs = none) :
    decodeBuild (env := env) (.obj (fs ++ gs)) = decodeBuild (.obj (fs ++ (name, .null) :: gs)) := by
  have key := fun n => field_other fs gs (n := n) name .null
  have hs : field name (fs ++ gs) = none ∧ field name (fs ++ (name, .null) :: gs) = some .null := by
    induction fs with
    | nil => exact ⟨h2, if_pos rfl⟩
    | cons p fs ih =>
      obtain ⟨k, v⟩ := p
      rw [field] at h1
      split at h1
      · cases h1
      · rename_i hk
        have := ih h1 (fun n => field_other fs gs (n := n) name .null)
        simp only [List.cons_append, field, if_neg hk]
        exact this
  simp only [List.mem_cons, List.not_mem_nil, or_false] at hn
  apply decode_congr
  · simp only [List.forall_mem_cons, List.not_mem_nil, false_implies, implies_true, and_true]
    refine ⟨?_, ?_, ?_, ?_, ?_, ?_, ?_, ?_, ?_, ?_, ?_, ?_, ?_⟩ <;> exact (key _ (by rintro rfl; simp at hn)).symm
  · intro n _
    by_cases h : n = name
    · rw [h, hs.1, hs.2]; rfl
    · rw [key n h]
  · have hn' : ∀ l, field name l = none → name ∉ l.map Prod.fst := by
      intro l
      induction l with
      | nil => simp
      | cons p l ih =>
        intro hl hm
        rw [field] at hl
        split at hl
        · cases hl
        · rename_i hk
          rcases List.mem_cons.1 hm with e | hm
          · exact hk e.symm
          · exact ih hl hm
    rw [List.map_append, List.map_append, List.map_cons, List.filter_append, List.filter_append,
      List.filter_cons_of_pos (by rcases hn with rfl | rfl | rfl | rfl <;> decide), List.nodup_middle, List.nodup_cons]
    constructor
    · intro h
      refine ⟨fun hm => ?_, h⟩
      rcases List.mem_append.1 hm with hm | hm
      · exact hn' fs h1 (List.mem_filter.1 hm).1
      · exact hn' gs h2 (List.mem_filter.1 hm).1
    · exact fun h => h.2

/-- a build without its patchset, with an unknown field -/
example : (decodeBuild (env := exEnv) (.obj [("new", .null), ("uuid", .str []), ("job_name", .str []), ("result", .str []),
    ("start_time", .str "2014-07-05T09:10:11".toList), ("end_time", .str "2014-07-05T09:10:11".toList), ("duration", .num (.pos 3)),
    ("voting", .bool true), ("artifacts", .arr []), ("project", .str []), ("branch", .str []), ("pipeline", .str []), ("ref", .str []),
    ("event_id", .str [])])).isSome = true := by decide +kernel

end LJ.Zuul

/-
The comparison of a build on servers whose content does not change: what is compared, and that the cache makes no difference.
-/
import Verif.Remote.WebLemmas
namespace LJ.Remote
open LJ.Codec (Bytes Texts Url Source Content)
open LJ.Cache (State Remote Response Opened File GoodDigest Key)
open LJ.Process (Str)
open LJ.Report (Report Fail)
open LJ.Zuul (Target WebUrl logsAvailable newContent)

section
variable {t : Texts} {W : Web t} {N D E : Type} {S : Setup t N D E} {U V : String → Prop} {site : Site t}

theorem ranked_select (x : Target W.env) (now : Int) (head : LJ.Zuul.Url W.env → Option Bool) (samples : List (LJ.Zuul.Build W.env)) :
    LJ.Zuul.selectBuilds x now head samples = ((ranked x now samples).filter (logsAvailable head)).take 1 := by
  unfold LJ.Zuul.selectBuilds ranked
  rw [List.map_take]
  congr 1
  rw [List.filter_map (p := logsAvailable head)]
  rfl

theorem ranked_best (x : Target W.env) (now : Int) (head : LJ.Zuul.Url W.env → Option Bool) (samples : List (LJ.Zuul.Build W.env)) (b : LJ.Zuul.Build W.env) :
    ((ranked x now samples).filter (logsAvailable head)).head? = some b ↔ LJ.Zuul.Spec.Best x now head samples b := by
  rw [← LJ.Zuul.select_best, ranked_select]
  generalize List.filter _ _ = l
  cases l <;> simp

theorem ranked_mem {x : Target W.env} {now : Int} {samples : List (LJ.Zuul.Build W.env)} {b : LJ.Zuul.Build W.env} (h : b ∈ ranked x now samples) : b ∈ samples := by
  unfold ranked at h
  rw [List.mem_map] at h
  obtain ⟨p, hp, rfl⟩ := h
  rw [List.mem_mergeSort] at hp
  obtain ⟨c, hc, rfl⟩ := List.mem_map.1 (List.mem_filter.1 hp).1
  exact hc

/-! ### What the servers tell -/

/-- the build of the API -/
def Web.siteLookup (W : Web t) (site : Site t) (api : LJ.Zuul.Url W.env) (uid : Str) : Outcome Unit (Target W.env) :=
  match ((W.buildUrl (toUrl api) uid).bind site.docs).bind W.decodeBuild with
  | none => .error ()
  | some b =>
    match newContent api b with
    | none => .panic
    | some x => .ok x

/-- its baseline -/
def Web.siteDiscover (W : Web t) (site : Site t) (now : Int) (x : Target W.env) : Outcome Unit (Target W.env) :=
  match ((W.samplesUrl (toUrl x.api) x.jobName).bind site.docs).bind W.decodeBuilds with
  | none => .error ()
  | some samples =>
    match ((ranked x now samples).filter (logsAvailable (W.heads site))).head? with
    | none => .error ()
    | some b =>
      match newContent x.api b with
      | none => .panic
      | some y => .ok y

theorem savedAs_iff {x : Target W.env} {c : LJ.Codec.Build t} : SavedAs W x c ↔ c = W.build x := by
  constructor
  · rintro ⟨h1, h2, h3, h4, h5, h6, h7, h8, h9, h10, h11⟩
    cases c
    cases h1; cases h2; cases h3; cases h4; cases h5; cases h6; cases h7; cases h8; cases h9; cases h10; cases h11
    rfl
  · rintro rfl; exact ⟨rfl, rfl, rfl, rfl, rfl, rfl, rfl, rfl, rfl, rfl, rfl⟩

theorem apiBuild_iff {api : LJ.Zuul.Url W.env} {uid : Str} {b : LJ.Zuul.Build W.env} :
    ((W.buildUrl (toUrl api) uid).bind site.docs).bind W.decodeBuild = some b ↔ ApiBuild W site api uid b := by
  simp only [Option.bind_eq_some_iff, ApiBuild, Web.buildUrl, Web.decodeBuild, LJ.Zuul.C109_build]
  constructor
  · rintro ⟨d, ⟨u, ⟨v, h1, h1'⟩, h2⟩, j, h3, h4⟩; exact ⟨v, u, d, j, h1, h1', h2, h3, h4⟩
  · rintro ⟨v, u, d, j, h1, h1', h2, h3, h4⟩; exact ⟨d, ⟨u, ⟨v, h1, h1'⟩, h2⟩, j, h3, h4⟩

theorem apiSamples_iff {api : LJ.Zuul.Url W.env} {job : Str} {l : List (LJ.Zuul.Build W.env)} :
    ((W.samplesUrl (toUrl api) job).bind site.docs).bind W.decodeBuilds = some l ↔ ApiSamples W site api job l := by
  simp only [Option.bind_eq_some_iff, ApiSamples, Web.samplesUrl, Web.decodeBuilds, LJ.Zuul.C109_builds]
  constructor
  · rintro ⟨d, ⟨u, ⟨v, h1, h1'⟩, h2⟩, j, h3, xs, rfl, h4⟩; exact ⟨v, u, d, xs, h1, h1', h2, h3, h4⟩
  · rintro ⟨v, u, d, xs, h1, h1', h2, h3, h4⟩; exact ⟨d, ⟨u, ⟨v, h1, h1'⟩, h2⟩, _, h3, xs, rfl, h4⟩

theorem siteLookup_iff {api : LJ.Zuul.Url W.env} {uid : Str} {x : Target W.env} :
    W.siteLookup site api uid = .ok x ↔ ∃ b, ApiBuild W site api uid b ∧ LJ.Zuul.Spec.ContentOf api b x := by
  simp only [← apiBuild_iff, ← LJ.Zuul.content_iff]
  unfold Web.siteLookup
  cases ((W.buildUrl (toUrl api) uid).bind site.docs).bind W.decodeBuild with
  | none => simp
  | some b =>
    simp only [Option.some.injEq, exists_eq_left']
    cases newContent api b <;> simp

theorem siteDiscover_iff {now : Int} {x y : Target W.env} :
    W.siteDiscover site now x = .ok y ↔ ∃ samples b, ApiSamples W site x.api x.jobName samples ∧ LJ.Zuul.Spec.Best x now (W.heads site) samples b ∧ LJ.Zuul.Spec.ContentOf x.api b y := by
  simp only [← apiSamples_iff, ← LJ.Zuul.content_iff, ← ranked_best]
  unfold Web.siteDiscover
  cases ((W.samplesUrl (toUrl x.api) x.jobName).bind site.docs).bind W.decodeBuilds with
  | none => simp
  | some samples =>
    simp only [Option.some.injEq, exists_and_left, exists_eq_left']
    cases ((ranked x now samples).filter (logsAvailable (W.heads site))).head? with
    | none => simp
    | some b =>
      simp only [Option.some.injEq, exists_eq_left']
      cases newContent x.api b <;> simp

theorem matched_iff {now : Int} {api : LJ.Zuul.Url W.env} {uid : Str} {x y : Target W.env} :
    Matched W site now api uid x y ↔ W.siteLookup site api uid = .ok x ∧ W.siteDiscover site now x = .ok y := by
  rw [siteLookup_iff, siteDiscover_iff]
  constructor
  · rintro ⟨⟨b, h1, h2⟩, s, b', h3, h4, h5⟩
    have e := h2.api
    subst e
    exact ⟨⟨b, h1, h2⟩, s, b', h3, h4, h5⟩
  · rintro ⟨⟨b, h1, h2⟩, s, b', h3, h4, h5⟩
    have e := h2.api
    subst e
    exact ⟨⟨b, h1, h2⟩, s, b', h3, h4, h5⟩

/-! ### Without the cache -/

theorem getBuild_off (hu : S.useCache = false) {net : Nat → Net t} (hs : ServesApi site net) (api : Url t) (uid : Str) (s : Sys) :
    ∃ n, S.getBuild W net api uid s = (((W.buildUrl api uid).bind site.docs).bind W.decodeBuild, ⟨s.cache, n⟩) := by
  unfold Setup.getBuild
  cases W.buildUrl api uid with
  | none => exact ⟨s.asked, rfl⟩
  | some url => exact ⟨_, getDecoded_off _ hu hs api url s⟩

theorem getSamples_off (hu : S.useCache = false) {net : Nat → Net t} (hs : ServesApi site net) (x : Target W.env) (s : Sys) :
    ∃ n, S.getSamples W net x s = (((W.samplesUrl (toUrl x.api) x.jobName).bind site.docs).bind W.decodeBuilds, ⟨s.cache, n⟩) := by
  unfold Setup.getSamples
  cases W.samplesUrl (toUrl x.api) x.jobName with
  | none => exact ⟨s.asked, rfl⟩
  | some url => exact ⟨_, getDecoded_off _ hu hs (toUrl x.api) url s⟩

theorem firstAvailable_off (hu : S.useCache = false) {net : Nat → Net t} (hs : ServesApi site net) (bs : List (LJ.Zuul.Build W.env)) (s : Sys) :
    ∃ n, S.firstAvailable net bs s = ((bs.filter (logsAvailable (W.heads site))).head?, ⟨s.cache, n⟩) := by
  induction bs generalizing s with
  | nil => exact ⟨s.asked, rfl⟩
  | cons b bs ih =>
    unfold Setup.firstAvailable
    rw [List.filter_cons]
    cases hl : b.logUrl with
    | none =>
      have : logsAvailable (W.heads site) b = false := by unfold logsAvailable; rw [hl]
      rw [if_neg (by simp [this])]
      exact ih s
    | some url =>
      simp only
      rw [headUrl_off hu hs]
      have : logsAvailable (W.heads site) b = ((site.heads (toUrl url)).getD false) := by
        unfold logsAvailable Web.heads
        rw [hl]
        simp only
        cases site.heads (toUrl url) <;> rfl
      rw [this]
      cases site.heads (toUrl url) with
      | none => exact ih _
      | some v =>
        cases v with
        | true => exact ⟨_, rfl⟩
        | false => exact ih _

theorem lookup_off (hu : S.useCache = false) {net : Nat → Net t} (hs : ServesApi site net) (api : LJ.Zuul.Url W.env) (uid : Str) (s : Sys) :
    ∃ n, S.lookup W net api uid s = (W.siteLookup site api uid, ⟨s.cache, n⟩) := by
  unfold Setup.lookup Web.siteLookup
  obtain ⟨n, hn⟩ := getBuild_off (W := W) hu hs (toUrl api) uid s
  rw [hn]
  cases ((W.buildUrl (toUrl api) uid).bind site.docs).bind W.decodeBuild with
  | none => exact ⟨n, rfl⟩
  | some b =>
    simp only
    cases newContent api b <;> exact ⟨n, rfl⟩

theorem discover_off (hu : S.useCache = false) {net : Nat → Net t} (hs : ServesApi site net) (now : Int) (x : Target W.env) (s : Sys) :
    ∃ n, S.discover W net now x s = (W.siteDiscover site now x, ⟨s.cache, n⟩) := by
  unfold Setup.discover Web.siteDiscover
  obtain ⟨n, hn⟩ := getSamples_off (W := W) hu hs x s
  rw [hn]
  cases ((W.samplesUrl (toUrl x.api) x.jobName).bind site.docs).bind W.decodeBuilds with
  | none => exact ⟨n, rfl⟩
  | some samples =>
    simp only
    obtain ⟨m, hm⟩ := firstAvailable_off hu hs (ranked x now samples) ⟨s.cache, n⟩
    rw [hm]
    cases ((ranked x now samples).filter (logsAvailable (W.heads site))).head? with
    | none => exact ⟨m, rfl⟩
    | some b =>
      simp only
      cases newContent x.api b <;> exact ⟨m, rfl⟩

variable [DecidableEq N]

theorem compareBuild_off (hu : S.useCache = false) {net : Nat → Net t} (hs : ServesApi site net) (order order' : List (N × List (Source t)) → List (N × List (Source t)))
    (now : Int) (x : Target W.env) (s : Sys) : ∃ n, ∀ r, (S.compareBuild W net order order' now x s).1 = .ok r ↔
      ∃ y, W.siteDiscover site now x = .ok y ∧ (S.compare net order order' [.zuul (W.build y)] (.zuul (W.build x)) ⟨s.cache, n⟩).1 = .ok r := by
  unfold Setup.compareBuild
  obtain ⟨n, hn⟩ := discover_off (W := W) hu hs now x s
  refine ⟨n, fun r => ?_⟩
  rw [hn]
  cases W.siteDiscover site now x with
  | panic => simp
  | error e => simp
  | ok y =>
    simp only [Outcome.ok.injEq, exists_eq_left']
    generalize S.compare net order order' _ _ _ = z
    obtain ⟨o, s1⟩ := z
    cases o <;> simp

/-! ### With the cache -/

omit [DecidableEq N] in
theorem getBuild_same (hd : GoodDigest S.digest V) (hw : KnownWeb W U V site) (b : Bool) {net : Nat → Net t} (hs : ServesApi site net) (api : Url t) (ha : V api.val)
    (uid : Str) (s : Sys) (h : Holds V S site s.cache) :
    ((S.on b).getBuild W net api uid s).1 = ((W.buildUrl api uid).bind site.docs).bind W.decodeBuild ∧ Holds V S site ((S.on b).getBuild W net api uid s).2.cache := by
  unfold Setup.getBuild
  cases hb : W.buildUrl api uid with
  | none => exact ⟨rfl, h⟩
  | some url => exact getDecoded_same _ hd b hs api url ha (hw.build _ _ _ ha hb) s h

omit [DecidableEq N] in
theorem getSamples_same (hd : GoodDigest S.digest V) (hw : KnownWeb W U V site) (b : Bool) {net : Nat → Net t} (hs : ServesApi site net) (x : Target W.env)
    (ha : V (toUrl x.api).val) (s : Sys) (h : Holds V S site s.cache) :
    ((S.on b).getSamples W net x s).1 = ((W.samplesUrl (toUrl x.api) x.jobName).bind site.docs).bind W.decodeBuilds ∧ Holds V S site ((S.on b).getSamples W net x s).2.cache := by
  unfold Setup.getSamples
  cases hb : W.samplesUrl (toUrl x.api) x.jobName with
  | none => exact ⟨rfl, h⟩
  | some url => exact getDecoded_same _ hd b hs _ url ha (hw.samples _ _ _ ha hb) s h

omit [DecidableEq N] in
theorem firstAvailable_same (hd : GoodDigest S.digest V) (b : Bool) {net : Nat → Net t} (hs : ServesApi site net) (bs : List (LJ.Zuul.Build W.env))
    (hb : ∀ x ∈ bs, ∀ u, x.logUrl = some u → V (toUrl u).val) (s : Sys) (h : Holds V S site s.cache) :
    ((S.on b).firstAvailable net bs s).1 = (bs.filter (logsAvailable (W.heads site))).head? ∧ Holds V S site ((S.on b).firstAvailable net bs s).2.cache := by
  induction bs generalizing s with
  | nil => exact ⟨rfl, h⟩
  | cons x bs ih =>
    have ih := ih fun y hy => hb y (List.mem_cons_of_mem _ hy)
    unfold Setup.firstAvailable
    rw [List.filter_cons]
    cases hl : x.logUrl with
    | none =>
      have : logsAvailable (W.heads site) x = false := by unfold logsAvailable; rw [hl]
      rw [if_neg (by simp [this])]
      exact ih s h
    | some url =>
      simp only
      obtain ⟨k1, k2⟩ := headUrl_same hd b hs (toUrl url) (hb x (List.mem_cons_self ..) url hl) s h
      have : logsAvailable (W.heads site) x = ((site.heads (toUrl url)).getD false) := by
        unfold logsAvailable Web.heads
        rw [hl]
        simp only
        cases site.heads (toUrl url) <;> rfl
      rw [this, ← k1]
      generalize (S.on b).headUrl net (toUrl url) s = z at k2 ⊢
      obtain ⟨o, s1⟩ := z
      match o with
      | none => exact ih s1 k2
      | some true => exact ⟨rfl, k2⟩
      | some false => exact ih s1 k2

omit [DecidableEq N] in
theorem lookup_same (hd : GoodDigest S.digest V) (hw : KnownWeb W U V site) (b : Bool) {net : Nat → Net t} (hs : ServesApi site net) (api : LJ.Zuul.Url W.env)
    (ha : V (toUrl api).val) (uid : Str) (s : Sys) (h : Holds V S site s.cache) :
    ((S.on b).lookup W net api uid s).1 = W.siteLookup site api uid ∧ Holds V S site ((S.on b).lookup W net api uid s).2.cache := by
  unfold Setup.lookup Web.siteLookup
  obtain ⟨k1, k2⟩ := getBuild_same hd hw b hs (toUrl api) ha uid s h
  rw [← k1]
  generalize (S.on b).getBuild W net (toUrl api) uid s = z at k2 ⊢
  obtain ⟨o, s1⟩ := z
  cases o with
  | none => exact ⟨rfl, k2⟩
  | some x =>
    simp only
    cases newContent api x <;> exact ⟨rfl, k2⟩

omit [DecidableEq N] in
theorem discover_same (hd : GoodDigest S.digest V) (hw : KnownWeb W U V site) (hUV : ∀ u, U u → V u) (b : Bool) {net : Nat → Net t} (hs : ServesApi site net) (now : Int)
    (x : Target W.env) (ha : V (toUrl x.api).val) (s : Sys) (h : Holds V S site s.cache) :
    ((S.on b).discover W net now x s).1 = W.siteDiscover site now x ∧ Holds V S site ((S.on b).discover W net now x s).2.cache := by
  unfold Setup.discover Web.siteDiscover
  obtain ⟨k1, k2⟩ := getSamples_same hd hw b hs x ha s h
  cases hsm : ((W.samplesUrl (toUrl x.api) x.jobName).bind site.docs).bind W.decodeBuilds with
  | none =>
    rw [hsm] at k1
    generalize (S.on b).getSamples W net x s = z at k1 k2 ⊢
    obtain ⟨o, s1⟩ := z
    simp only at k1
    subst k1
    exact ⟨rfl, k2⟩
  | some samples =>
    rw [hsm] at k1
    generalize (S.on b).getSamples W net x s = z at k1 k2 ⊢
    obtain ⟨o, s1⟩ := z
    simp only at k1
    subst k1
    simp only
    obtain ⟨j1, j2⟩ := firstAvailable_same hd b hs (ranked x now samples) (fun y hy u hu => by
      obtain ⟨d, h1, h2⟩ := Option.bind_eq_some_iff.1 hsm
      obtain ⟨url, h3, h4⟩ := Option.bind_eq_some_iff.1 h1
      exact hUV _ (hw.sampleLogs url d samples y u h4 h2 (ranked_mem hy) hu)) s1 k2
    rw [← j1]
    generalize (S.on b).firstAvailable net (ranked x now samples) s1 = z at j2 ⊢
    obtain ⟨o, s2⟩ := z
    cases o with
    | none => exact ⟨rfl, j2⟩
    | some y =>
      simp only
      cases newContent x.api y <;> exact ⟨rfl, j2⟩

omit [DecidableEq N] in
theorem lookup_known (hw : KnownWeb W U V site) {api : LJ.Zuul.Url W.env} {uid : Str} {x : Target W.env} (h : W.siteLookup site api uid = .ok x) :
    x.api = api ∧ KnownContent U (.zuul (W.build x)) := by
  obtain ⟨b, ⟨_, url, d, j, _, _, h2, h3, h3'⟩, h4⟩ := siteLookup_iff.1 h
  exact ⟨h4.api, hw.logs url d b _ h2 (Option.bind_eq_some_iff.2 ⟨j, h3, (LJ.Zuul.C109_build _ _).2 h3'⟩) h4.logUrl⟩

omit [DecidableEq N] in
theorem discover_known (hw : KnownWeb W U V site) {now : Int} {x y : Target W.env} (h : W.siteDiscover site now x = .ok y) : KnownContent U (.zuul (W.build y)) := by
  obtain ⟨samples, b, ⟨_, url, d, xs, _, _, h2, h3, h3'⟩, ⟨i, h4, _⟩, h5⟩ := siteDiscover_iff.1 h
  exact hw.sampleLogs url d samples b _ h2 (Option.bind_eq_some_iff.2 ⟨_, h3, (LJ.Zuul.C109_builds _ _).2 ⟨xs, rfl, h3'⟩⟩) (List.mem_of_getElem? h4) h5.logUrl

variable {b b' : Bool} {net net' : Nat → Net t}

theorem compareBuild_alike (hst : Stable U V S site) (hw : KnownWeb W U V site) (hn : ServesWeb site net) (hn' : ServesWeb site net')
    (o1 o2 : List (N × List (Source t)) → List (N × List (Source t))) (h1 : ∀ g, (o1 g).Perm g) (h2 : ∀ g, (o2 g).Perm g) (now : Int) (x : Target W.env)
    (ha : V (toUrl x.api).val) (hx : KnownContent U (.zuul (W.build x))) (s s' : Sys) (h : Holds V S site s.cache) (h' : Holds V S site s'.cache) :
    Alike V S site ((S.on b).compareBuild W net o1 o2 now x s) ((S.on b').compareBuild W net' o1 o2 now x s') := by
  unfold Setup.compareBuild
  obtain ⟨k1, k2⟩ := discover_same hst.digest hw hst.known.within b hn.2 now x ha s h
  obtain ⟨j1, j2⟩ := discover_same hst.digest hw hst.known.within b' hn'.2 now x ha s' h'
  generalize (S.on b).discover W net now x s = y at k1 k2 ⊢
  generalize (S.on b').discover W net' now x s' = y' at j1 j2 ⊢
  obtain ⟨o, s1⟩ := y
  obtain ⟨o', s1'⟩ := y'
  simp only at k1 j1
  subst k1 j1
  cases hy : W.siteDiscover site now x with
  | panic => exact ⟨rfl, k2, j2⟩
  | error e => exact ⟨rfl, k2, j2⟩
  | ok y =>
    simp only
    have hr := compare_alike (b := b) (b' := b') hst hn.1 hn'.1 o1 o2 h1 h2 [.zuul (W.build y)]
      (fun c hc => by rw [List.mem_singleton] at hc; subst hc; exact discover_known hw hy) (.zuul (W.build x)) hx s1 s1' k2 j2
    generalize (S.on b).compare net o1 o2 [.zuul (W.build y)] (.zuul (W.build x)) s1 = z at hr ⊢
    generalize (S.on b').compare net' o1 o2 [.zuul (W.build y)] (.zuul (W.build x)) s1' = z' at hr ⊢
    obtain ⟨o, s2⟩ := z
    obtain ⟨o', s2'⟩ := z'
    obtain ⟨e, k, k'⟩ := hr
    simp only at e k k'
    subst e
    cases o <;> exact ⟨rfl, k, k'⟩

theorem compareUrl_alike (hst : Stable U V S site) (hw : KnownWeb W U V site) (hn : ServesWeb site net) (hn' : ServesWeb site net')
    (o1 o2 : List (N × List (Source t)) → List (N × List (Source t))) (h1 : ∀ g, (o1 g).Perm g) (h2 : ∀ g, (o2 g).Perm g) (now : Int) (text : Str)
    (s s' : Sys) (h : Holds V S site s.cache) (h' : Holds V S site s'.cache) :
    Alike V S site ((S.on b).compareUrl W net o1 o2 now text s) ((S.on b').compareUrl W net' o1 o2 now text s') := by
  unfold Setup.compareUrl
  cases parseUrl (t := t) (String.ofList text) with
  | none => exact ⟨rfl, h, h'⟩
  | some url =>
    simp only
    cases W.hasAuthority url with
    | false => exact ⟨rfl, h, h'⟩
    | true =>
      simp only [Bool.not_true, Bool.false_eq_true, if_false]
      cases hz : LJ.Zuul.getZuulApiUrl W.env (W.parts url) with
      | none => exact ⟨rfl, h, h'⟩
      | some o =>
        cases o with
        | none => exact ⟨rfl, h, h'⟩
        | some p =>
          obtain ⟨api, uid⟩ := p
          simp only
          have ha := hw.api url api uid hz
          obtain ⟨k1, k2⟩ := lookup_same hst.digest hw b hn.2 api ha uid s h
          obtain ⟨j1, j2⟩ := lookup_same hst.digest hw b' hn'.2 api ha uid s' h'
          generalize (S.on b).lookup W net api uid s = y at k1 k2 ⊢
          generalize (S.on b').lookup W net' api uid s' = y' at j1 j2 ⊢
          obtain ⟨o, s1⟩ := y
          obtain ⟨o', s1'⟩ := y'
          simp only at k1 j1
          subst k1 j1
          cases hy : W.siteLookup site api uid with
          | panic => exact ⟨rfl, k2, j2⟩
          | error e => exact ⟨rfl, k2, j2⟩
          | ok x =>
            obtain ⟨e, hx⟩ := lookup_known hw hy
            exact compareBuild_alike hst hw hn hn' o1 o2 h1 h2 now x (by rw [e]; exact ha) hx s1 s1' k2 j2

theorem runs_holds (hst : Stable U V S site) (hw : KnownWeb W U V site) (us : List (Bool × Run t N)) (hus : ∀ p ∈ us, p.2.On U site) (s : Sys) (h : Holds V S site s.cache) :
    Holds V S site (runs W S us s).cache := by
  induction us generalizing s with
  | nil => exact h
  | cons p us ih =>
    obtain ⟨b, u⟩ := p
    have hu := hus (b, u) (List.mem_cons_self ..)
    have ih := ih fun p hp => hus p (List.mem_cons_of_mem _ hp)
    cases u with
    | contents u =>
      have := compare_alike (b := b) (b' := b) hst hu.net hu.net u.order u.order' hu.order hu.order' u.baselines hu.baselines u.target hu.target s s h h
      exact ih _ this.2.1
    | build net o1 o2 now text =>
      obtain ⟨g1, g2, g3⟩ := hu
      have := compareUrl_alike (b := b) (b' := b) hst hw g1 g1 o1 o2 g2 g3 now text s s h h
      exact ih _ this.2.1

end
end LJ.Remote

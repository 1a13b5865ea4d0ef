/-
The comparison of a build of zuul, from its URL (`model/src/urls.rs`, `model/src/zuul.rs`): its lookup, the discovery of a
baseline, and the comparison of their logs, through the cache.

`Verif/Zuul` has the decoding of the builds and their scores; here the answers of the API and of the servers of logs come from the
network or from the cache, one after the other.
-/
import Verif.Remote.Model
import Verif.Zuul.Model
namespace LJ.Remote
open LJ.Codec (Bytes Texts Url Source Content)
open LJ.Process (Str)
open LJ.Report (Report Fail)
open LJ.Zuul (Json WebUrl DateTime Target)

/-- What is used of the crates `url`, `serde_json` and `chrono`. -/
structure Web (t : Texts) where
  /-- the parts of a URL -/
  parts : Url t → WebUrl
  /-- `Url::has_authority` -/
  hasAuthority : Url t → Bool
  /-- `Url::join` -/
  join : Url t → Str → Option (Url t)
  /-- `Url::parse_with_params` -/
  withParams : Url t → List (Str × Str) → Option (Url t)
  /-- the documents read as a build, and as a list of values -/
  json : Bytes → Option Json
  jsonList : Bytes → Option Json
  /-- `f as f32 as u32` for the numbers with a fraction -/
  floatAsU32 : Nat → Nat
  /-- a `DateTime<Utc>`, as it is saved -/
  date : DateTime → t.Date

section
variable {t : Texts} (W : Web t)

/-- The URL parser of `Verif/Codec`, on lists of characters -/
def Web.env : LJ.Zuul.Env := ⟨fun s => (t.parseUrl (String.ofList s)).map String.toList, W.floatAsU32⟩

variable {W} in
/-- The same URL -/
def toUrl (u : LJ.Zuul.Url W.env) : Url t := ⟨String.ofList u.val, by
  have h : (t.parseUrl (String.ofList u.val)).map String.toList = some u.val := u.property
  obtain ⟨v, h1, h2⟩ := Option.map_eq_some_iff.1 h
  rw [h1, ← h2, String.ofList_toList]⟩

/-- The same build, as it is saved -/
def Web.build (x : Target W.env) : LJ.Codec.Build t where
  api := toUrl x.api
  uuid := String.ofList x.uuid
  jobName := String.ofList x.jobName
  project := String.ofList x.project
  branch := String.ofList x.branch
  result := String.ofList x.result
  pipeline := String.ofList x.pipeline
  logUrl := toUrl x.logUrl
  refUrl := toUrl x.refUrl
  endTime := W.date x.endTime
  change := UInt64.ofNat x.change

/-- zuul.rs:150, the URL of a build -/
def Web.buildUrl (api : Url t) (uid : Str) : Option (Url t) := (W.join api "build/".toList).bind fun u => W.join u uid

/-- zuul.rs:45-55, the URL of the successful builds of a job -/
def Web.samplesUrl (api : Url t) (job : Str) : Option (Url t) :=
  (W.join api "builds".toList).bind fun base =>
    W.withParams base [("job_name".toList, job), ("limit".toList, "500".toList), ("result".toList, "SUCCESS".toList)]

/-- zuul-build.rs:68-70 `decode_build` -/
def Web.decodeBuild (b : Bytes) : Option (LJ.Zuul.Build W.env) := (W.json b).bind LJ.Zuul.decodeBuild

/-- zuul-build.rs:72-80 `decode_builds` -/
def Web.decodeBuilds (b : Bytes) : Option (List (LJ.Zuul.Build W.env)) := (W.jsonList b).bind LJ.Zuul.decodeBuilds

variable {N D E : Type} (S : Setup t N D E)

/-- zuul.rs:149-164 `get_build` and `get_builds`, after the URL -/
def Setup.getDecoded {α : Type} (decode : Bytes → Option α) (net : Nat → Net t) (base url : Url t) (s : Sys) : Option α × Sys :=
  match LJ.Cache.getDecoded S.digest decode S.useCache base url ((net s.asked).api url) s.cache with
  | (x, c) => (x, ⟨c, if S.asks base url s.cache then s.asked + 1 else s.asked⟩)

/-- reader.rs:62-77 `head_url` -/
def Setup.headUrl (net : Nat → Net t) (url : Url t) (s : Sys) : Option Bool × Sys :=
  match LJ.Cache.headUrl S.digest S.useCache url url ((net s.asked).head url) s.cache with
  | (x, c) => (x, ⟨c, if S.useCache && (LJ.Cache.head S.digest url url s.cache).isSome then s.asked else s.asked + 1⟩)

/-- zuul.rs:149-156 `get_build` -/
def Setup.getBuild (net : Nat → Net t) (api : Url t) (uid : Str) (s : Sys) : Option (LJ.Zuul.Build W.env) × Sys :=
  match W.buildUrl api uid with
  | none => (none, s)
  | some url => S.getDecoded W.decodeBuild net api url s

/-- zuul.rs:44-58 `get_success_samples` and 158-164 `get_builds` -/
def Setup.getSamples (net : Nat → Net t) (x : Target W.env) (s : Sys) : Option (List (LJ.Zuul.Build W.env)) × Sys :=
  match W.samplesUrl (toUrl x.api) x.jobName with
  | none => (none, s)
  | some url => S.getDecoded W.decodeBuilds net (toUrl x.api) url s

variable {W} in
/-- zuul.rs:110-117, the builds which have a score, with the greatest one first -/
def ranked (x : Target W.env) (now : Int) (samples : List (LJ.Zuul.Build W.env)) : List (LJ.Zuul.Build W.env) :=
  (((samples.map fun b => (LJ.Zuul.baselineScore x now b, b)).filter fun (score, b) => score.isSome && decide (x.uuid ≠ b.uuid)).mergeSort
    fun x y => LJ.Zuul.scoreGe x.1 y.1).map Prod.snd

variable {W} in
/-- zuul.rs:89-104 and 118-122, the first build whose logs are available: the next ones are not checked. -/
def Setup.firstAvailable (net : Nat → Net t) : List (LJ.Zuul.Build W.env) → Sys → Option (LJ.Zuul.Build W.env) × Sys
  | [], s => (none, s)
  | b :: bs, s =>
    match b.logUrl with
    | none => Setup.firstAvailable net bs s
    | some url =>
      match S.headUrl net (toUrl url) s with
      | (some true, s) => (some b, s)
      | (_, s) => Setup.firstAvailable net bs s

/-- zuul.rs:106-126 `Build::discover_baselines` and model.rs:359-362: there is at most one baseline; none is an error. -/
def Setup.discover (net : Nat → Net t) (now : Int) (x : Target W.env) (s : Sys) : Outcome Unit (Target W.env) × Sys :=
  match S.getSamples W net x s with
  | (none, s) => (.error (), s)
  | (some samples, s) =>
    match S.firstAvailable net (ranked x now samples) s with
    | (none, s) => (.error (), s)
    | (some b, s) =>
      match LJ.Zuul.newContent x.api b with
      | none => (.panic, s)
      | some y => (.ok y, s)

/-- zuul.rs:216-221 `from_zuul_url`, for a URL which is the one of a build. -/
def Setup.lookup (net : Nat → Net t) (api : LJ.Zuul.Url W.env) (uid : Str) (s : Sys) : Outcome Unit (Target W.env) × Sys :=
  match S.getBuild W net (toUrl api) uid s with
  | (none, s) => (.error (), s)
  | (some b, s) =>
    match LJ.Zuul.newContent api b with
    | none => (.panic, s)
    | some x => (.ok x, s)

/-- The problems of the command `url` -/
inductive UrlErr (E C : Type) where
  /-- the URL, or its build, can't be found -/
  | input
  /-- no baseline can be found -/
  | baselines
  /-- the comparison -/
  | compare (e : Fail E C)
deriving DecidableEq, Repr

variable [DecidableEq N]

/-- main.rs:217-276 for a build: the discovery, and the comparison. -/
def Setup.compareBuild (net : Nat → Net t) (order order' : List (N × List (Source t)) → List (N × List (Source t))) (now : Int) (x : Target W.env) (s : Sys) :
    Outcome (UrlErr E (Content t)) (Report (Content t) (Source t) N D E Unit) × Sys :=
  match S.discover W net now x s with
  | (.panic, s) => (.panic, s)
  | (.error (), s) => (.error .baselines, s)
  | (.ok y, s) =>
    match S.compare net order order' [.zuul (W.build y)] (.zuul (W.build x)) s with
    | (.panic, s) => (.panic, s)
    | (.error e, s) => (.error (.compare e), s)
    | (.ok r, s) => (.ok r, s)

/-- main.rs:217-276 for the command `url` without a model, urls.rs:15-25 `from_url` and model.rs:326-333: only the URL of a build
has baselines.  `now` is the day of `Utc::now`. -/
def Setup.compareUrl (net : Nat → Net t) (order order' : List (N × List (Source t)) → List (N × List (Source t))) (now : Int) (text : Str) (s : Sys) :
    Outcome (UrlErr E (Content t)) (Report (Content t) (Source t) N D E Unit) × Sys :=
  match parseUrl (t := t) (String.ofList text) with
  | none => (.panic, s)
  | some url =>
    if !W.hasAuthority url then (.error .input, s)
    else
      match LJ.Zuul.getZuulApiUrl W.env (W.parts url) with
      | none => (.error .baselines, s)
      | some none => (.error .input, s)
      | some (some (api, uid)) =>
        match S.lookup W net api uid s with
        | (.panic, s) => (.panic, s)
        | (.error (), s) => (.error .input, s)
        | (.ok x, s) => S.compareBuild W net order order' now x s

end
end LJ.Remote

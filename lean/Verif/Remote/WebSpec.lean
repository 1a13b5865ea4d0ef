/-
The vocabulary of the properties of the comparison of a build.
-/
import Verif.Remote.WebModel
import Verif.Remote.Spec
import Verif.Zuul.Spec
import Verif.Zuul.Builds
namespace LJ.Remote
open LJ.Codec (Bytes Texts Url Source Content)
open LJ.Process (Str)
open LJ.Report (Report)
open LJ.Zuul (Target WebUrl)

section
variable {t : Texts} (W : Web t)

/-- The logs which the servers have -/
def Web.heads (site : Site t) (u : LJ.Zuul.Url W.env) : Option Bool := site.heads (toUrl u)

/-- The text is the URL of the build `uid` of the zuul whose API is at `api`. -/
def IsBuildUrl (text : Str) (api : LJ.Zuul.Url W.env) (uid : Str) : Prop :=
  ∃ url, parseUrl (t := t) (String.ofList text) = some url ∧ W.hasAuthority url = true ∧ LJ.Zuul.getZuulApiUrl W.env (W.parts url) = some (some (api, uid))

/-- The API tells that `b` is the build `uid`: it is the document at `build/uid`. -/
def ApiBuild (site : Site t) (api : LJ.Zuul.Url W.env) (uid : Str) (b : LJ.Zuul.Build W.env) : Prop :=
  ∃ dir url d j, W.join (toUrl api) "build/".toList = some dir ∧ W.join dir uid = some url ∧ site.docs url = some d ∧ W.json d = some j ∧ LJ.Zuul.Spec.Reads j b

/-- The API tells that these are the successful builds of a job: they are in the document at
`builds?job_name=job&limit=500&result=SUCCESS`. -/
def ApiSamples (site : Site t) (api : LJ.Zuul.Url W.env) (job : Str) (samples : List (LJ.Zuul.Build W.env)) : Prop :=
  ∃ base url d xs, W.join (toUrl api) "builds".toList = some base ∧
    W.withParams base [("job_name".toList, job), ("limit".toList, "500".toList), ("result".toList, "SUCCESS".toList)] = some url ∧
    site.docs url = some d ∧ W.jsonList d = some (.arr xs) ∧ LJ.Zuul.Spec.Listed (xs.map LJ.Zuul.toValue) samples

/-- The build as it is saved has all the fields of the build. -/
structure SavedAs (x : Target W.env) (c : LJ.Codec.Build t) : Prop where
  api : c.api = toUrl x.api
  uuid : c.uuid = String.ofList x.uuid
  jobName : c.jobName = String.ofList x.jobName
  project : c.project = String.ofList x.project
  branch : c.branch = String.ofList x.branch
  result : c.result = String.ofList x.result
  pipeline : c.pipeline = String.ofList x.pipeline
  logUrl : c.logUrl = toUrl x.logUrl
  refUrl : c.refUrl = toUrl x.refUrl
  endTime : c.endTime = W.date x.endTime
  change : c.change = UInt64.ofNat x.change

/-- What is compared for a build on the day `now`: the build of the API, and the best of the successful builds of its job whose logs
the servers have. -/
structure Matched (site : Site t) (now : Int) (api : LJ.Zuul.Url W.env) (uid : Str) (x y : Target W.env) : Prop where
  target : ∃ b, ApiBuild W site api uid b ∧ LJ.Zuul.Spec.ContentOf api b x
  baseline : ∃ samples b, ApiSamples W site api x.jobName samples ∧ LJ.Zuul.Spec.Best x now (W.heads site) samples b ∧ LJ.Zuul.Spec.ContentOf api b y

/-- The network gives the documents of the API, in any number of reads, and the success of a HEAD. -/
def ServesApi (site : Site t) (net : Nat → Net t) : Prop := ∀ k url,
  ((net k).api url).map (fun r => r.body.rest) = site.docs url ∧ (∀ resp, (net k).api url = some resp → Steady resp.body) ∧
    LJ.Cache.remoteHead ((net k).head url) = site.heads url

/-- The network gives what the servers hold. -/
def ServesWeb (site : Site t) (net : Nat → Net t) : Prop := Serves site net ∧ ServesApi site net

variable {N D E : Type}

/-- A run of the program on these servers: a comparison of contents, or the one of a build. -/
inductive Run (t : Texts) (N : Type) where
  | contents (u : Use t N)
  | build (net : Nat → Net t) (order order' : List (N × List (Source t)) → List (N × List (Source t))) (now : Int) (text : Str)

/-- Runs of the program, each one with `LOGREDUCE_CACHE` set or not. -/
def runs [DecidableEq N] (S : Setup t N D E) : List (Bool × Run t N) → Sys → Sys
  | [], s => s
  | (b, .contents u) :: us, s => runs S us ((S.on b).compare u.net u.order u.order' u.baselines u.target s).2
  | (b, .build net order order' now text) :: us, s => runs S us ((S.on b).compareUrl W net order order' now text s).2

/-- The run is on these servers, and uses known URLs. -/
def Run.On (U : String → Prop) (site : Site t) : Run t N → Prop
  | .contents u => u.On U site
  | .build net order order' _ _ => ServesWeb site net ∧ (∀ g, (order g).Perm g) ∧ ∀ g, (order' g).Perm g

/-- The run reached the comparison: the build and its baseline were found. -/
def Reached {α C : Type} : Outcome (UrlErr E C) α → Prop
  | .ok _ => True
  | .error (.compare _) => True
  | _ => False

/-- The runs which are given the URL of a build reach the comparison. -/
def AllReached [DecidableEq N] (S : Setup t N D E) : List (Bool × Run t N) → Sys → Prop
  | [], _ => True
  | (b, .contents u) :: us, s => AllReached S us ((S.on b).compare u.net u.order u.order' u.baselines u.target s).2
  | (b, .build net order order' now text) :: us, s =>
    Reached ((S.on b).compareUrl W net order order' now text s).1 ∧ AllReached S us ((S.on b).compareUrl W net order order' now text s).2

/-- The builds in the cache have ended on the day `now`: those which are read without asking the network. -/
def Ended (S : Setup t N D E) (f : LJ.Cache.State) (now : Int) : Prop :=
  ∀ base url net n bs, S.getDecoded W.decodeBuilds net base url ⟨f, n⟩ = (some bs, ⟨f, n⟩) → ∀ b ∈ bs, b.endTime.date ≤ now

/-- The URLs `V` contain those of the API, and the URLs `U` of logs contain those of the builds. -/
structure KnownWeb (U V : String → Prop) (site : Site t) : Prop where
  api : ∀ url api uid, LJ.Zuul.getZuulApiUrl W.env (W.parts url) = some (some (api, uid)) → V (toUrl api).val
  build : ∀ api uid url, V api.val → W.buildUrl api uid = some url → V url.val
  samples : ∀ api job url, V api.val → W.samplesUrl api job = some url → V url.val
  logs : ∀ url d b u, site.docs url = some d → W.decodeBuild d = some b → b.logUrl = some u → U (toUrl u).val
  sampleLogs : ∀ url d bs b u, site.docs url = some d → W.decodeBuilds d = some bs → b ∈ bs → b.logUrl = some u → U (toUrl u).val

end
end LJ.Remote

/-
Model of the zuul builds: `zuul/src/zuul-build.rs` (their JSON) and `model/src/zuul.rs` (the choice of a baseline, and
the URLs of the API).

A string is its list of characters.  The URL parser, and the conversion of JSON numbers with a fraction, are parameters.
JSON documents are modelled once parsed; an object is the list of its fields, in which a name may be repeated.
-/
import Verif.Paths.Model
import Verif.Tokenizer.Model
namespace LJ.Zuul
open LJ.Paths (Str contains split)

/-! ### Dates (chrono 0.4, as it is used by the format `%Y-%m-%dT%H:%M:%S`) -/

/-- Whether a year of the Gregorian calendar has 366 days -/
def isLeap (y : Int) : Bool := decide (y % 4 = 0 ∧ (y % 100 ≠ 0 ∨ y % 400 = 0))

/-- The number of days of a month -/
def monthDays (y : Int) (m : Nat) : Nat :=
  if m = 2 then (if isLeap y then 29 else 28) else if m = 4 ∨ m = 6 ∨ m = 9 ∨ m = 11 then 30 else 31

/-- A `DateTime<Utc>`.  A leap second is the second 60; chrono accepts it in any minute.  The years of chrono are limited. -/
structure DateTime where
  year : Int
  month : Nat
  day : Nat
  hour : Nat
  minute : Nat
  second : Nat
  nanos : Nat
  valid : 1 ≤ month ∧ month ≤ 12 ∧ 1 ≤ day ∧ day ≤ monthDays year month ∧ hour < 24 ∧ minute < 60 ∧ second ≤ 60 ∧ nanos < 1000000000 ∧
    -262144 ≤ year ∧ year ≤ 262143
deriving DecidableEq

/-- The number of days from the 1st of March of the year 0 to a day (`NaiveDate::num_days_from_ce`, up to a constant):
the years start in March, so that the day of a leap year is the last one. -/
def dayNumber (y : Int) (m d : Nat) : Int :=
  let y' := if m ≤ 2 then y - 1 else y
  let m' := if m ≤ 2 then m + 9 else m - 3
  365 * y' + y' / 4 - y' / 100 + y' / 400 + ((153 * m' + 2) / 5 : Nat) + d - 1

/-- `DateTime::date_naive`, as a day number -/
def DateTime.date (t : DateTime) : Int := dayNumber t.year t.month t.day

/-- A digit -/
def digitChar (n : Nat) : Char := Char.ofNat (48 + n)

/-- The value of a digit -/
def digitValue (c : Char) : Option Nat := if '0' ≤ c ∧ c ≤ '9' then some (c.toNat - 48) else none

/-- The `w` last digits of a number -/
def digits : Nat → Nat → Str
  | 0, _ => []
  | w + 1, n => digits w (n / 10) ++ [digitChar (n % 10)]

/-- The number of digits of a number, at least one -/
def width (n : Nat) : Nat := if n < 10 then 1 else width (n / 10) + 1
termination_by n

/-- `{:0w$}` -/
def pad (w n : Nat) : Str := digits (max w (width n)) n

/-- `%Y` in chrono: at least four digits, with a sign outside of the years 0 to 9999 -/
def formatYear (y : Int) : Str :=
  if 0 ≤ y ∧ y ≤ 9999 then pad 4 y.toNat else (if y < 0 then '-' else '+') :: pad 4 y.natAbs

/-- zuul-build.rs:89-95 `serialize` of `python_utc_without_trailing_z` -/
def formatTime (t : DateTime) : Str :=
  formatYear t.year ++ '-' :: pad 2 t.month ++ '-' :: pad 2 t.day ++ 'T' :: pad 2 t.hour ++ ':' :: pad 2 t.minute ++ ':' :: pad 2 t.second

/-- The digits at the start of a string, at most `w` of them: their number, their value after `acc`, and the rest -/
def scanDigits : Nat → Nat → Nat → Str → Nat × Nat × Str
  | 0, k, acc, s => (k, acc, s)
  | _ + 1, k, acc, [] => (k, acc, [])
  | w + 1, k, acc, c :: s =>
    match digitValue c with
    | some d => scanDigits w (k + 1) (acc * 10 + d) s
    | none => (k, acc, c :: s)

/-- chrono's `scan::number(s, 1, w)` -/
def scanNumber (w : Nat) (s : Str) : Option (Nat × Str) :=
  match scanDigits w 0 0 s with
  | (0, _, _) => none
  | (_ + 1, n, r) => some (n, r)

/-- A literal of the format -/
def scanChar (c : Char) : Str → Option Str
  | [] => none
  | a :: s => if a = c then some s else none

/-- The year: up to four digits, or a sign and any number of digits.  (The digits of a signed year are not bounded in
chrono; the length of the text is a bound.) -/
def scanYear : Str → Option (Int × Str)
  | '+' :: s => (scanNumber s.length s).map fun (n, r) => ((n : Int), r)
  | '-' :: s => (scanNumber s.length s).map fun (n, r) => (-(n : Int), r)
  | s => (scanNumber 4 s).map fun (n, r) => ((n : Int), r)

/-- `str::trim_start` -/
def trimStart (s : Str) : Str := s.dropWhile LJ.Tokenizer.isWs

/-- A date, if there is such a day -/
def mkTime (y : Int) (mo d h mi s : Nat) : Option DateTime :=
  if v : 1 ≤ mo ∧ mo ≤ 12 ∧ 1 ≤ d ∧ d ≤ monthDays y mo ∧ h < 24 ∧ mi < 60 ∧ s ≤ 60 ∧ 0 < 1000000000 ∧ -262144 ≤ y ∧ y ≤ 262143 then
    some ⟨y, mo, d, h, mi, s, 0, v⟩
  else none

/-- zuul-build.rs:97-104 `deserialize` of `python_utc_without_trailing_z`.  chrono skips the white spaces before a number. -/
def parseTime (s : Str) : Option DateTime := do
  let (y, s) ← scanYear (trimStart s)
  let s ← scanChar '-' s
  let (mo, s) ← scanNumber 2 (trimStart s)
  let s ← scanChar '-' s
  let (d, s) ← scanNumber 2 (trimStart s)
  let s ← scanChar 'T' s
  let (h, s) ← scanNumber 2 (trimStart s)
  let s ← scanChar ':' s
  let (mi, s) ← scanNumber 2 (trimStart s)
  let s ← scanChar ':' s
  let (sec, s) ← scanNumber 2 (trimStart s)
  if s = [] then mkTime y mo d h mi sec else none

/-! ### Durations -/

/-- `n as f32` for an integer, as an integer: rounded to 24 significant bits, to nearest, ties to even. -/
def roundF32 (n : Nat) : Nat :=
  let ulp := 2 ^ (n.log2 - 23)
  let q := n / ulp
  let r := n % ulp
  if 2 * r < ulp ∨ (2 * r = ulp ∧ q % 2 = 0) then q * ulp else (q + 1) * ulp

/-- `x as u32` for an integer: it saturates. -/
def asU32 (n : Nat) : Nat := min n (2 ^ 32 - 1)

/-! ### JSON -/

/-- A number of `serde_json`: the ones with a fraction, or out of the range of the integers, are opaque. -/
inductive Num where
  | pos (n : Nat)
  | neg (n : Nat)
  | float (bits : Nat)
deriving DecidableEq, Repr

/-- `serde_json::Value`: an object is a list of fields. -/
inductive Json where
  | null
  | bool (b : Bool)
  | num (n : Num)
  | str (s : Str)
  | arr (xs : List Json)
  | obj (fields : List (String × Json))

/-- What is not modelled: the URL parser, and `f as f32 as u32` for the numbers with a fraction. -/
structure Env where
  parseUrl : Str → Option Str
  floatAsU32 : Nat → Nat

variable (env : Env)

/-- A `url::Url`, as its serialization: it parses to itself. -/
def Url : Type := { s : Str // env.parseUrl s = some s }

instance : DecidableEq (Url env) := inferInstanceAs (DecidableEq { s : Str // env.parseUrl s = some s })

/-- `Url::parse`; that a parsed URL parses to itself is a property of the `url` crate, which is checked here. -/
def mkUrl (s : Str) : Option (Url env) :=
  match env.parseUrl s with
  | none => none
  | some u => if h : env.parseUrl u = some u then some ⟨u, h⟩ else none

/-- zuul-build.rs:59-66 `Artifact` -/
structure Artifact where
  name : Str
  url : Url env
deriving DecidableEq

/-- zuul-build.rs:16-57 `Build`; `duration` is a `u32` and `change` a `u64`. -/
structure Build where
  uuid : Str
  jobName : Str
  result : Str
  startTime : DateTime
  endTime : DateTime
  duration : Nat
  voting : Bool
  logUrl : Option (Url env)
  refUrl : Option (Url env)
  artifacts : List (Artifact env)
  project : Str
  branch : Str
  pipeline : Str
  change : Option Nat
  patchset : Option Str
  changeRef : Str
  eventId : Str
deriving DecidableEq

variable {env}

/-- The field of an object -/
def field (name : String) : List (String × Json) → Option Json
  | [] => none
  | (k, v) :: fs => if k = name then some v else field name fs

/-- A string -/
def asStr : Json → Option Str
  | .str s => some s
  | _ => none

/-- A boolean -/
def asBool : Json → Option Bool
  | .bool b => some b
  | _ => none

/-- An unsigned 64 bit number -/
def asU64 : Json → Option Nat
  | .num (.pos n) => some n
  | _ => none

/-- A `Url` -/
def asUrl : Json → Option (Url env)
  | .str s => mkUrl env s
  | _ => none

/-- An `Option`: the field may be missing or null. -/
def opt {α : Type} (f : Json → Option α) : Option Json → Option (Option α)
  | none => some none
  | some .null => some none
  | some j => (f j).map some

/-- zuul-build.rs:118-124 `deserialize` of `rounded_float` -/
def asDuration : Json → Option Nat
  | .num (.pos n) => some (asU32 (roundF32 n))
  | .num (.neg _) => some 0
  | .num (.float f) => some (env.floatAsU32 f)
  | _ => none

/-- zuul-build.rs:97-104 -/
def asTime : Json → Option DateTime
  | .str s => parseTime s
  | _ => none

/-- The derived `Deserialize` of a structure with these fields: an object in which none of them is repeated, or an array
of all of them. -/
def structFields (names : List String) : Json → Option (List (String × Json))
  | .obj fs => if ((fs.map Prod.fst).filter fun n => decide (n ∈ names)).Nodup then some fs else none
  | .arr xs => if xs.length = names.length then some (names.zip xs) else none
  | _ => none

/-- zuul-build.rs:59-66 the derived `Deserialize` of `Artifact` -/
def decodeArtifact (j : Json) : Option (Artifact env) := do
  let fs ← structFields ["name", "url"] j
  let name ← (field "name" fs).bind asStr
  let url ← (field "url" fs).bind asUrl
  return ⟨name, url⟩

/-- A `Vec` of artifacts -/
def asArtifacts : Json → Option (List (Artifact env))
  | .arr xs => xs.mapM decodeArtifact
  | _ => none

/-- zuul-build.rs:17 the derived `Deserialize` of `Build` -/
def decodeFields (fs : List (String × Json)) : Option (Build env) := do
  let uuid ← (field "uuid" fs).bind asStr
  let jobName ← (field "job_name" fs).bind asStr
  let result ← (field "result" fs).bind asStr
  let startTime ← (field "start_time" fs).bind asTime
  let endTime ← (field "end_time" fs).bind asTime
  let duration ← (field "duration" fs).bind (asDuration (env := env))
  let voting ← (field "voting" fs).bind asBool
  let logUrl ← opt asUrl (field "log_url" fs)
  let refUrl ← opt asUrl (field "ref_url" fs)
  let artifacts ← (field "artifacts" fs).bind asArtifacts
  let project ← (field "project" fs).bind asStr
  let branch ← (field "branch" fs).bind asStr
  let pipeline ← (field "pipeline" fs).bind asStr
  let change ← opt asU64 (field "change" fs)
  let patchset ← opt asStr (field "patchset" fs)
  let changeRef ← (field "ref" fs).bind asStr
  let eventId ← (field "event_id" fs).bind asStr
  return ⟨uuid, jobName, result, startTime, endTime, duration, voting, logUrl, refUrl, artifacts, project, branch, pipeline, change,
    patchset, changeRef, eventId⟩

/-- zuul-build.rs:16-57, the fields of a `Build` -/
def buildNames : List String := ["uuid", "job_name", "result", "start_time", "end_time", "duration", "voting", "log_url", "ref_url", "artifacts",
  "project", "branch", "pipeline", "change", "patchset", "ref", "event_id"]

/-- zuul-build.rs:68-70 `decode_build`, once the JSON is parsed -/
def decodeBuild (j : Json) : Option (Build env) := (structFields buildNames j).bind decodeFields

mutual
/-- `serde_json::Value`: in an object, the last of the fields with the same name is kept. -/
def toValue : Json → Json
  | .arr xs => .arr (toValues xs)
  | .obj fs => .obj (toFields fs)
  | .null => .null
  | .bool b => .bool b
  | .num n => .num n
  | .str s => .str s
/-- the elements of an array -/
def toValues : List Json → List Json
  | [] => []
  | x :: xs => toValue x :: toValues xs
/-- the fields of an object -/
def toFields : List (String × Json) → List (String × Json)
  | [] => []
  | (k, v) :: fs => if k ∈ fs.map Prod.fst then toFields fs else (k, toValue v) :: toFields fs
end

/-- zuul-build.rs:72-80 `decode_builds`, once the JSON is parsed: the elements are read as `Value`s first. -/
def decodeBuilds : Json → Option (List (Build env))
  | .arr xs => some ((xs.map toValue).filterMap decodeBuild)
  | _ => none

/-- An optional field, when it is written -/
def optJson {α : Type} (f : α → Json) : Option α → Json
  | none => .null
  | some x => f x

/-- The derived `Serialize` of `Artifact` -/
def encodeArtifact (a : Artifact env) : Json := .obj [("name", .str a.name), ("url", .str a.url.val)]

/-- zuul-build.rs:17 the derived `Serialize` of `Build` -/
def encodeBuild (b : Build env) : Json :=
  .obj [("uuid", .str b.uuid), ("job_name", .str b.jobName), ("result", .str b.result), ("start_time", .str (formatTime b.startTime)),
    ("end_time", .str (formatTime b.endTime)), ("duration", .num (.pos b.duration)), ("voting", .bool b.voting),
    ("log_url", optJson (fun u => .str u.val) b.logUrl), ("ref_url", optJson (fun u => .str u.val) b.refUrl),
    ("artifacts", .arr (b.artifacts.map encodeArtifact)), ("project", .str b.project), ("branch", .str b.branch),
    ("pipeline", .str b.pipeline), ("change", optJson (fun n => .num (.pos n)) b.change), ("patchset", optJson .str b.patchset),
    ("ref", .str b.changeRef), ("event_id", .str b.eventId)]

/-! ### The choice of a baseline -/

variable (env) in
/-- model/src/zuul.rs:13-26 `Build`: the target -/
structure Target where
  api : Url env
  uuid : Str
  jobName : Str
  project : Str
  branch : Str
  result : Str
  pipeline : Str
  logUrl : Url env
  refUrl : Url env
  endTime : DateTime
  change : Nat
deriving DecidableEq

/-- zuul.rs:34-41 `elapsed_days`; the days fit in an `i32` (`C61_days_fit`). -/
def elapsedDays (now since : Int) : Int := if now - since < 0 then 0 else now - since

/-- zuul.rs:63-70 the points of the project; `none` is the return of `target.change?`. -/
def projectPoints (self : Target env) (target : Build env) : Option Int :=
  if self.project = target.project then
    match target.change with
    | none => none
    | some c => if self.change = c then some (-500) else some 50
  else some 0

/-- zuul.rs:60-87 `baseline_score` -/
def baselineScore (self : Target env) (now : Int) (target : Build env) : Option Int :=
  match projectPoints self target with
  | none => none
  | some p =>
    let score := p
    let score := if self.branch = target.branch then score + 50 else score
    let score := if contains "gate".toList target.pipeline || contains "periodic".toList target.pipeline then score + 50 else score
    let score := if target.voting then score + 10 else score
    let score := score - elapsedDays now target.endTime.date
    if target.logUrl.isSome && target.refUrl.isSome then some score else none

/-- zuul.rs:89-104 `logs_available`; `head` is the result of `head_url`, `none` on errors. -/
def logsAvailable (head : Url env → Option Bool) (target : Build env) : Bool :=
  match target.logUrl with
  | none => false
  | some url =>
    match head url with
    | none => false
    | some n => n

/-- zuul.rs:133-147 `new_content`: `none` is a panic. -/
def newContent (api : Url env) (b : Build env) : Option (Target env) :=
  match b.logUrl, b.refUrl, b.change with
  | some logUrl, some refUrl, some change =>
    some ⟨api, b.uuid, b.jobName, b.project, b.branch, b.result, b.pipeline, logUrl, refUrl, b.endTime, change⟩
  | _, _, _ => none

/-- zuul.rs:117 the order of the scores, with the greatest first: `Option`s are ordered with `None` first -/
def scoreGe : Option Int → Option Int → Bool
  | _, none => true
  | none, some _ => false
  | some a, some b => decide (b ≤ a)

/-- zuul.rs:110-122 the builds which are taken.  `sorted_by` is stable.  The builds are checked in order until one is
available; `head` is a function because each URL is asked at most once with the same state of the network: that the
answers do not change during the discovery is a simplification. -/
def selectBuilds (self : Target env) (now : Int) (head : Url env → Option Bool) (samples : List (Build env)) : List (Build env) :=
  (((((samples.map fun b => (baselineScore self now b, b)).filter fun (score, b) => score.isSome && decide (self.uuid ≠ b.uuid)).mergeSort
    fun x y => scoreGe x.1 y.1).filter fun (_, b) => logsAvailable head b).take 1).map Prod.snd

/-- zuul.rs:106-126 `discover_baselines`, with the builds of the API if there was an answer; a panic is `none`, an error is
`some none`. -/
def discoverBaselines (self : Target env) (now : Int) (head : Url env → Option Bool) (samples : Option (List (Build env))) :
    Option (Option (List (Target env))) :=
  match samples with
  | none => some none
  | some samples => ((selectBuilds self now head samples).mapM (newContent self.api)).map some

/-! ### The URLs of the API -/

/-- A parsed URL with a path: what is before the path, the path, and what is after it (the query and the fragment) -/
structure WebUrl where
  origin : Str
  path : Str
  suffix : Str
deriving DecidableEq, Repr

/-- `Url::as_str` -/
def WebUrl.asStr (u : WebUrl) : Str := u.origin ++ u.path ++ u.suffix

/-- `Url::path_segments`; a URL whose path does not start with a slash has none. -/
def WebUrl.segments (u : WebUrl) : Option (List Str) :=
  match u.path with
  | '/' :: p => some (split '/' p)
  | _ => none

/-- zuul.rs:166-171 `is_uid` -/
def isUid (s : Str) : Bool :=
  decide (LJ.Paths.byteLen s = 32) && s.all fun c => c.isLower || c.isUpper || c.isDigit

/-- `str::split_once` with a string: what is before the first occurrence -/
def splitOnceStr (pat : Str) : Str → Option Str
  | [] => if pat.isEmpty then some [] else none
  | c :: s => if pat.isPrefixOf (c :: s) then some [] else (splitOnceStr pat s).map (c :: ·)

/-- `str::rsplit_once` with a string: what is before the last occurrence -/
def rsplitOnceStr (pat : Str) : Str → Option Str
  | [] => if pat.isEmpty then some [] else none
  | c :: s =>
    match rsplitOnceStr pat s with
    | some r => some (c :: r)
    | none => if pat.isPrefixOf (c :: s) then some [] else none

/-- zuul.rs:173-181 `api_from_webui`: the text which is parsed -/
def apiFromWebui (url : WebUrl) (tenant : Str) : Option Str :=
  (splitOnceStr "/t/".toList url.asStr).map fun base => base ++ "/api/tenant/".toList ++ tenant ++ ['/']

/-- zuul.rs:183-190 `api_from_whitelabel_webui`: the text which is parsed -/
def apiFromWhitelabelWebui (url : WebUrl) : Option Str :=
  (rsplitOnceStr "/build/".toList url.asStr).map fun base => base ++ "/api/".toList

/-- zuul.rs:200-210 the segments before the uid and `build`, from the last one -/
def tenantSegments (uid : Str) : List Str → Option (Str × Option Str)
  | tenant :: t :: _ => if t = ['t'] then some (uid, some tenant) else some (uid, none)
  | _ => some (uid, none)

/-- zuul.rs:193-212 the segments are taken from the last one: the uid, and the tenant if there is one -/
def recogniseSegments : List Str → Option (Str × Option Str)
  | uid :: build :: rest =>
    if isUid uid then
      if build = "build".toList then tenantSegments uid rest else none
    else none
  | _ => none

variable (env) in
/-- zuul.rs:192-214 `get_zuul_api_url`: `none` when it is not the URL of a build, `some none` on an error. -/
def getZuulApiUrl (url : WebUrl) : Option (Option (Url env × Str)) :=
  match url.segments.bind fun segs => recogniseSegments segs.reverse with
  | none => none
  | some (uid, some tenant) => some (((apiFromWebui url tenant).bind (mkUrl env)).map fun api => (api, uid))
  | some (uid, none) => some (((apiFromWhitelabelWebui url).bind (mkUrl env)).map fun api => (api, uid))

/-- An outcome: a value, an error or a panic -/
inductive Outcome (α : Type) where
  | ok (x : α)
  | error
  | panic
deriving DecidableEq, Repr

/-- zuul.rs:217-221 `from_zuul_url`; `getBuild` is `get_build`, whose answer is decoded JSON, `none` on errors. -/
def fromZuulUrl (getBuild : Url env → Str → Option Json) (url : WebUrl) : Option (Outcome (Target env)) :=
  (getZuulApiUrl env url).map fun
    | none => .error
    | some (api, uid) =>
      match (getBuild api uid).bind decodeBuild with
      | none => .error
      | some build =>
        match newContent api build with
        | some t => .ok t
        | none => .panic

end LJ.Zuul

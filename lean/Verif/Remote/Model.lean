/-
Comparisons of remote logs: the training and the report of `Verif/Report`, on sources which are listed and read
through the cache of `Verif/Cache`, with the line iterator of `Verif/Iterator`.

The state is the cache and the number of requests made so far; the answer to a request may depend on that number.  A
consumer of lines may stop before the end of a source: what it did not ask for is not read, and is not in the cache.
When the line iterator panics the program ends: here, as in `Verif/Whole`, the lines end.
-/
import Verif.Cache.Model
import Verif.Whole.Model
namespace LJ.Remote
open LJ.Codec (Bytes Texts Url Source Content)
open LJ.Cache (State Remote Response Opened)
open LJ.Process (Str Ev Env Trainer St AnomalyContext Stop)
open LJ.Report (Index Model Report ListErr Fail LogReport ReadErr World)

/-! ### The lines a consumer asks for -/

section
variable {D ε : Type}

/-- process.rs:47-67 `ChunkTrainer::add`: how many times it calls `next` on the lines. -/
def trainAsked (env : Env D) : List (Ev ε) → Nat
  | [] => 1
  | .error _ :: _ => 1
  | .ok line :: r =>
    match env.decode line.1 with
    | none => 1
    | some _ => 1 + trainAsked env r

/-- process.rs:143-194 `read_anomalies`: how many times it calls `next` on the lines. -/
def readAsked (env : Env D) : List (Ev ε) → St D → Nat
  | [], _ => 1
  | .error _ :: _, _ => 1
  | .ok line :: r, s =>
    match env.decode line.1 with
    | none => 1
    | some raw =>
      if LJ.Process.contains LJ.Process.MARKER raw then 1
      else
        let isNew := !decide (env.tokenize raw ∈ (s.count line).skipLines)
        let s := (s.count line).push env line raw
        if s.full isNew then
          match s.doSearch env with
          | none => 1
          | some s => if s.anomalies ≠ [] then 1 else 1 + readAsked env r s
        else 1 + readAsked env r s

/-- process.rs:107-117 `ChunkProcessor::next`: it asks for lines when it has no anomaly left. -/
def nextAsked (env : Env D) (r : List (Ev ε)) (s : St D) : Nat :=
  match s.anomalies with
  | _ :: _ => 0
  | [] => readAsked env r s

/-- model.rs:477-486, the loop over the processor. -/
def collectAsked (env : Env D) : Nat → List (Ev ε) → St D → Nat
  | 0, _, _ => 0
  | fuel + 1, r, s =>
    nextAsked env r s +
      match LJ.Process.next env r s with
      | some (some (.ok _), r, s) => collectAsked env fuel r s
      | _ => 0

/-- The lines asked for while a source is processed. -/
def processAsked (env : Env D) (skipLines : List Str) (r : List (Ev ε)) : Nat :=
  collectAsked env (r.length + 2) r (St.new skipLines)

/-- The line iterator after `n` calls of `next` -/
def nexts (cfg : LJ.Iterator.Cfg) : Nat → LJ.Iterator.BL ε → LJ.Iterator.BL ε
  | 0, s => s
  | n + 1, s => nexts cfg n (s.next cfg).1

end

/-! ### The outside -/

/-- What the servers answer to a request: the response to a GET of a file, the outcome of `httpdir::list`
(`Verif/Crawler`), the status of the response to a HEAD, and the response to a GET of a document of an API.  The latter is also a
GET: it has its own name to tell the documents, which have one long line, from the files. -/
structure Net (t : Texts) where
  get : Url t → Option Response
  list : Url t → Option (List (Url t))
  head : Url t → Option Nat := fun _ => none
  api : Url t → Option Response := get

/-- The cache, and the number of requests made. -/
structure Sys where
  cache : State
  asked : Nat

/-- The program and the machine it runs on: the digest of the names in the cache, whether `LOGREDUCE_CACHE` is set
(reader.rs:23), debug or release build, how the reads cut the data of a cached file, the error of the network, the
local directories and files, and the functions of `LJ.Report.World`. -/
structure Setup (t : Texts) (N D E : Type) where
  digest : String → List Char
  useCache : Bool
  checks : Bool
  cut : Bytes → List Bytes
  netError : E
  localList : Source t → List (Except E (Source t))
  localOpen : Source t → Except E (Bool → List (Ev Unit))
  valid : Source t → Bool
  nameOf : Source t → N
  isJson : Source t → Bool
  decode : Bytes → Option Str
  tokenize : Str → Str
  search : List (List Str) → List Str → List D
  over : D → Bool

section
variable {t : Texts} {N D E : Type} (S : Setup t N D E)

/-- iterator.rs:137-138 -/
def Setup.cfg : LJ.Iterator.Cfg := LJ.Iterator.build S.checks

/-- What the processor uses of an index. -/
def Setup.env (chunks : List (List Str)) : Env D := ⟨S.decode, S.tokenize, S.search chunks, S.over⟩

/-! ### Reading -/

/-- The successive reads of a body, with the buffer of the line iterator (iterator.rs:137 `chunk_size`), until the end. -/
def bodyReads : Nat → Remote → LJ.Iterator.Reader Unit
  | 0, _ => []
  | n + 1, r =>
    match r.read 8192 with
    | (none, r) => .err () :: bodyReads n r
    | (some [], _) => []
    | (some (c :: cs), r) => .data (c :: cs) :: bodyReads n r

/-- All the reads of a body -/
def reads (r : Remote) : LJ.Iterator.Reader Unit := bodyReads (r.rest.length + r.grants.length + 1) r

/-- The lines of a reader -/
def Setup.lines (json : Bool) (r : LJ.Iterator.Reader Unit) : List (Ev Unit) :=
  LJ.Whole.events (LJ.Iterator.allLines S.cfg json r)

/-- The reads of a cached file: its data, and an error if it is not finished -/
def Setup.gzReads (data : Bytes) (finished : Bool) : LJ.Iterator.Reader Unit :=
  LJ.Iterator.fromReads (S.cut data) ++ if finished then [] else [.err ()]

/-- How many reads were made when `n` lines were asked for -/
def Setup.readsMade (json : Bool) (r : LJ.Iterator.Reader Unit) (n : Nat) : Nat :=
  r.length - (nexts S.cfg n (LJ.Iterator.BL.new r json)).reader.length

/-- `m` reads of the reader `id`, which fill the file of the cache (cache.rs:144-157) -/
def readMany (id : Nat) : Nat → State → State
  | 0, s => s
  | m + 1, s => readMany id m (LJ.Cache.readerRead id 8192 s).2

/-- The lines of an open source, for a consumer which asks for `asked` of them and then drops the reader
(model.rs:268-278 and 475-513). -/
def Setup.consume (json : Bool) (asked : List (Ev Unit) → Nat) (o : Opened) (s : State) : List (Ev Unit) × State :=
  match o with
  | .gz data finished => (S.lines json (S.gzReads data finished), s)
  | .remote r => (S.lines json (reads r), s)
  | .cached id =>
    match s.readers[id]? with
    | some (some rd) =>
      let r := reads rd.remote
      let lines := S.lines json r
      (lines, LJ.Cache.readerClose id (readMany id (S.readsMade json r (asked lines)) s))
    | _ => ([], s)

/-! ### Opening -/

/-- The result of an operation which may fail or panic -/
inductive Outcome (E α : Type) where
  | ok (a : α)
  | error (e : E)
  | panic
deriving DecidableEq, Repr

/-- `Url::parse` -/
def parseUrl (s : String) : Option (Url t) :=
  match t.parseUrl s with
  | none => none
  | some u => if h : t.parseUrl u = some u then some ⟨u, h⟩ else none

/-- urls.rs:32-36, the base given to the reader. -/
def baseOf (pre : Nat) (url : Url t) : Outcome Unit (Url t) :=
  if pre = 0 then .ok url
  else
    match LJ.Paths.sliceTo url.val.toList 42 with
    | none => .panic
    | some b =>
      match parseUrl (String.ofList b) with
      | some base => .ok base
      | none => .error ()

/-- Whether the server is asked for a file (reader.rs:79-96) -/
def Setup.asks (base url : Url t) (s : State) : Bool := !(S.useCache && (LJ.Cache.remoteGet S.digest base url s).isSome)

/-- reader.rs:79-96 `from_url` -/
def Setup.fromUrl (net : Nat → Net t) (base url : Url t) (s : Sys) : Option Opened × Sys :=
  match LJ.Cache.fromUrl S.digest S.useCache base url ((net s.asked).get url) s.cache with
  | (o, c) => (o, ⟨c, if S.asks base url s.cache then s.asked + 1 else s.asked⟩)

/-- model.rs:270-273 and 297-300, opening a source, and its lines for a consumer which asks for `asked` of them. -/
def Setup.read (net : Nat → Net t) (source : Source t) (json : Bool) (asked : List (Ev Unit) → Nat) (s : Sys) :
    Outcome E (List (Ev Unit)) × Sys :=
  match source with
  | .loc _ _ =>
    match S.localOpen source with
    | .error e => (.error e, s)
    | .ok reader => (.ok (reader json), s)
  | .remote pre url =>
    match baseOf pre.toNat url with
    | .panic => (.panic, s)
    | .error () => (.error S.netError, s)
    | .ok base =>
      match S.fromUrl net base url s with
      | (none, s) => (.error S.netError, s)
      | (some o, s) =>
        match S.consume json asked o s.cache with
        | (lines, c) => (.ok lines, { s with cache := c })

/-! ### Listing -/

/-- urls.rs:41 and 55 -/
def baseLen (url : Url t) : Nat := LJ.Paths.byteLen (LJ.Paths.trimEnd (· == '/') url.val.toList) + 1

/-- urls.rs:40-59 `httpdir_iter`.  The length of a prefix is below 2^64. -/
def Setup.httpdir (net : Nat → Net t) (url : Url t) (s : Sys) : List (Except E (Source t)) × Sys :=
  match LJ.Cache.httpdirIter S.digest url ((net s.asked).list url) s.cache with
  | (urls, c) =>
    (match urls with
      | some urls => urls.map fun u => .ok (.remote (UInt64.ofNat (baseLen url)) u)
      | none => [.error S.netError],
     ⟨c, if (LJ.Cache.httpdirGet S.digest url s.cache).isSome then s.asked else s.asked + 1⟩)

/-- model.rs:381-390 `get_sources_iter` and zuul.rs:128-130 `sources_iter` -/
def Setup.list (net : Nat → Net t) (c : Content t) (s : Sys) : List (Except E (Source t)) × Sys :=
  match c with
  | .file source => ([.ok source], s)
  | .directory (.loc n path) => (S.localList (.loc n path), s)
  | .directory (.remote _ url) => S.httpdir net url s
  | .zuul b => S.httpdir net b.logUrl s

/-- model.rs:366-379 `get_sources` -/
def Setup.getSources (net : Nat → Net t) (c : Content t) (s : Sys) : Except (ListErr E (Content t)) (List (Source t)) × Sys :=
  match S.list net c s with
  | (l, s) =>
    (match LJ.Report.collectOk (l.filter (LJ.Report.keepSource S.valid)) with
      | .error e => .error (.failed e)
      | .ok [] => .error (.empty c)
      | .ok sources => .ok sources, s)

variable [DecidableEq N]

/-- model.rs:394-401, the loops of `group_sources` -/
def Setup.groupInto (net : Nat → Net t) : List (Content t) → List (N × List (Source t)) → Sys →
    Except (ListErr E (Content t)) (List (N × List (Source t))) × Sys
  | [], g, s => (.ok g, s)
  | c :: cs, g, s =>
    match S.getSources net c s with
    | (.error e, s) => (.error e, s)
    | (.ok sources, s) => Setup.groupInto net cs (sources.foldl (fun g x => LJ.Report.push (S.nameOf x) x g) g) s

/-! ### Training -/

omit [DecidableEq N] in
/-- model.rs:269-277, opening and adding the sources. -/
def Setup.trainSources (net : Nat → Net t) (json : Bool) : List (Source t) → Trainer → Sys → Outcome E Trainer × Sys
  | [], tr, s => (.ok tr, s)
  | x :: xs, tr, s =>
    match S.read net x json (trainAsked (S.env [])) s with
    | (.panic, s) => (.panic, s)
    | (.error e, s) => (.error e, s)
    | (.ok lines, s) => Setup.trainSources net json xs (tr.add (S.env []) lines).2 s

/-- model.rs:263-267, whether the first source is json. -/
def Setup.firstJson : List (Source t) → Bool
  | x :: _ => S.isJson x
  | [] => false

/-- model.rs:260-288 `Index::train` -/
def Setup.trainIndex (net : Nat → Net t) (sources : List (Source t)) (s : Sys) : Outcome E (Index (Source t)) × Sys :=
  match S.trainSources net (S.firstJson sources) sources Trainer.new s with
  | (.panic, s) => (.panic, s)
  | (.error e, s) => (.error e, s)
  | (.ok tr, s) => (.ok ⟨sources, tr.complete.chunks, tr.complete.lineCount, tr.complete.byteCount⟩, s)

/-- model.rs:416-427, one index per group. -/
def Setup.trainGroups (net : Nat → Net t) : List (N × List (Source t)) → Sys → Outcome E (List (N × Index (Source t))) × Sys
  | [], s => (.ok [], s)
  | (n, xs) :: g, s =>
    match S.trainIndex net xs s with
    | (.panic, s) => (.panic, s)
    | (.error e, s) => (.error e, s)
    | (.ok index, s) =>
      match Setup.trainGroups net g s with
      | (.panic, s) => (.panic, s)
      | (.error e, s) => (.error e, s)
      | (.ok indexes, s) => (.ok ((n, index) :: indexes), s)

/-- model.rs:409-433 `Model::train`; `order` is the order of the `drain`. -/
def Setup.train (net : Nat → Net t) (order : List (N × List (Source t)) → List (N × List (Source t))) (baselines : List (Content t))
    (s : Sys) : Outcome (Fail E (Content t)) (Model (Content t) (Source t) N) × Sys :=
  match S.groupInto net baselines [] s with
  | (.error e, s) => (.error (.sources e), s)
  | (.ok g, s) =>
    match S.trainGroups net (order g) s with
    | (.panic, s) => (.panic, s)
    | (.error e, s) => (.error (.read e), s)
    | (.ok indexes, s) => (.ok ⟨baselines, indexes⟩, s)

/-! ### The report -/

/-- model.rs:480-489, the anomalies, the error, and the final state of the processor.  A panic is `none`. -/
def Setup.inspect (index : Index (Source t)) (lines : List (Ev Unit)) (skip : List Str) :
    Option (List (AnomalyContext D) × Option (LJ.Process.Err Unit) × St D) :=
  match LJ.Process.process (S.env index.chunks) skip lines with
  | (anomalies, .finished, s) => some (anomalies, none, s)
  | (anomalies, .failed e, s) => some (anomalies, some e, s)
  | (_, .panicked, _) => none
  | (_, .timeout, _) => none

/-- model.rs:475-513, the sources of a group. -/
def Setup.reportSources (net : Nat → Net t) (name : N) (index : Index (Source t)) : List (Source t) → List Str →
    Report (Content t) (Source t) N D E Unit → Sys → Option (Report (Content t) (Source t) N D E Unit) × Sys
  | [], _, r, s => (some r, s)
  | x :: xs, skip, r, s =>
    match S.read net x (S.isJson x) (processAsked (S.env index.chunks) skip) s with
    | (.panic, s) => (none, s)
    | (.error e, s) => (some { r with readErrors := r.readErrors ++ [(x, .opening e)] }, s)
    | (.ok lines, s) =>
      match S.inspect index lines skip with
      | none => (none, s)
      | some (anomalies, err, st) =>
        Setup.reportSources net name index xs st.skipLines (LJ.Report.record name index x anomalies err st r) s

/-- model.rs:472-516, a group. -/
def Setup.reportGroup (net : Nat → Net t) (m : Model (Content t) (Source t) N) (group : N × List (Source t))
    (r : Report (Content t) (Source t) N D E Unit) (s : Sys) : Option (Report (Content t) (Source t) N D E Unit) × Sys :=
  match LJ.Report.lookupOrSingle m.indexes group.1 with
  | some index => S.reportSources net group.1 index group.2 [] r s
  | none => (some { r with indexErrors := r.indexErrors ++ [group.2] }, s)

/-- model.rs:471, the loop over the groups. -/
def Setup.reportGroups (net : Nat → Net t) (m : Model (Content t) (Source t) N) : List (N × List (Source t)) →
    Report (Content t) (Source t) N D E Unit → Sys → Option (Report (Content t) (Source t) N D E Unit) × Sys
  | [], r, s => (some r, s)
  | g :: gs, r, s =>
    match S.reportGroup net m g r s with
    | (none, s) => (none, s)
    | (some r, s) => Setup.reportGroups net m gs r s

/-- model.rs:462-530 `Model::report`; `order` is the order of the `drain`, a panic is `none`. -/
def Setup.report (net : Nat → Net t) (m : Model (Content t) (Source t) N) (order : List (N × List (Source t)) → List (N × List (Source t)))
    (target : Content t) (s : Sys) : Option (Except (ListErr E (Content t)) (Report (Content t) (Source t) N D E Unit)) × Sys :=
  match S.groupInto net [target] [] s with
  | (.error e, s) => (some (.error e), s)
  | (.ok g, s) =>
    match S.reportGroups net m (order g) ⟨target, m.baselines, [], [], [], [], 0, 0⟩ s with
    | (none, s) => (none, s)
    | (some r, s) => (some (.ok r), s)

/-- main.rs:217-276, a comparison: the baselines are trained, then the target is reported. -/
def Setup.compare (net : Nat → Net t) (order order' : List (N × List (Source t)) → List (N × List (Source t)))
    (baselines : List (Content t)) (target : Content t) (s : Sys) :
    Outcome (Fail E (Content t)) (Report (Content t) (Source t) N D E Unit) × Sys :=
  match S.train net order baselines s with
  | (.panic, s) => (.panic, s)
  | (.error e, s) => (.error e, s)
  | (.ok m, s) =>
    match S.report net m order' target s with
    | (none, s) => (.panic, s)
    | (some (.error e), s) => (.error (.sources e), s)
    | (some (.ok r), s) => (.ok r, s)

end
end LJ.Remote

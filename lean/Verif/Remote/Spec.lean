/-
The vocabulary of the properties of remote comparisons.
-/
import Verif.Remote.Model
import Verif.Cache.Spec
namespace LJ.Remote
open LJ.Codec (Bytes Texts Url Source Content)
open LJ.Cache (State Remote)
open LJ.Report (Report)
open LJ.Iterator.Spec (Blocks pieces)

/-- No read of the body fails. -/
def Steady (r : Remote) : Prop := .fail ∉ r.grants

/-- Every line of the data, JSON or not, is shorter than the 6000 bytes above which lines are dropped. -/
def Short (d : Bytes) : Prop := ∀ json, ∀ p ∈ pieces json d, p.1.length < 6000

section
variable {t : Texts} {N D E : Type}

/-- A response which comes can be read to its end, and its lines are short. -/
def Good (net : Nat → Net t) : Prop := ∀ k url resp, (net k).get url = some resp → Steady resp.body ∧ Short resp.body.rest

/-- The reads of a cached file are blocks of its data. -/
def CutOk (S : Setup t N D E) : Prop := ∀ d, Blocks (S.cut d) ∧ (S.cut d).flatten = d

/-- The search gives each line its own distance, and one distance per line (`Verif/Index`). -/
def SearchOk (S : Setup t N D E) : Prop := ∀ chunks, ∃ dist, LJ.Process.Spec.Pointwise (S.search chunks) dist

/-- Every source of the target could be opened. -/
def AllOpened (r : Report (Content t) (Source t) N D E Unit) : Prop := ∀ x e, (x, .opening e) ∉ r.readErrors

/-- Two reports with the same content, listed in any order: the hash maps of two runs are not drained in the same order. -/
structure SameReport (r r' : Report (Content t) (Source t) N D E Unit) : Prop where
  target : r.target = r'.target
  baselines : r.baselines = r'.baselines
  logs : r.logReports.Perm r'.logReports
  indexes : r.indexReports.Perm r'.indexReports
  unknown : r.indexErrors.Perm r'.indexErrors
  errors : r.readErrors.Perm r'.readErrors
  lines : r.totalLineCount = r'.totalLineCount
  anomalies : r.totalAnomalyCount = r'.totalAnomalyCount

/-- One run of the program: the network during the run, the orders of its hash maps, and what it compares. -/
structure Use (t : Texts) (N : Type) where
  net : Nat → Net t
  order : List (N × List (Source t)) → List (N × List (Source t))
  order' : List (N × List (Source t)) → List (N × List (Source t))
  baselines : List (Content t)
  target : Content t

/-- Runs of the program, one after the other, whatever they give. -/
def uses [DecidableEq N] (S : Setup t N D E) : List (Use t N) → Sys → Sys
  | [], s => s
  | u :: us, s => uses S us (S.compare u.net u.order u.order' u.baselines u.target s).2

/-! ### Servers whose content does not change -/

/-- What the servers hold: the data of the files, the files of the directories, and the success of a HEAD. -/
structure Site (t : Texts) where
  docs : Url t → Option Bytes
  dirs : Url t → Option (List (Url t))
  heads : Url t → Option Bool := fun _ => none

/-- The network gives what the servers hold at every request, in any number of reads. -/
def Serves (site : Site t) (net : Nat → Net t) : Prop := ∀ k url,
  ((net k).get url).map (fun r => r.body.rest) = site.docs url ∧ (∀ resp, (net k).get url = some resp → Steady resp.body) ∧
    (net k).list url = site.dirs url

/-- Every line of the data is a text without the marker at which the processor stops (process.rs:153). -/
def Unmarked (S : Setup t N D E) (d : Bytes) : Prop :=
  ∀ json, ∀ p ∈ pieces json d, ∃ raw, S.decode p.1 = some raw ∧ LJ.Process.contains LJ.Process.MARKER raw = false

/-- The files of the servers, among the URLs `U`, have short lines of text without the marker. -/
def Clean (U : String → Prop) (S : Setup t N D E) (site : Site t) : Prop := ∀ url d, U url.val → site.docs url = some d → Short d ∧ Unmarked S d

/-- A source, if it is remote, is among the URLs `U`. -/
def KnownSource (U : String → Prop) : Source t → Prop
  | .loc _ _ => True
  | .remote _ url => U url.val

/-- The same, of what is compared. -/
def KnownContent (U : String → Prop) : Content t → Prop
  | .file source => KnownSource U source
  | .directory source => KnownSource U source
  | .zuul b => U b.logUrl.val

/-- The URLs `U` of logs contain all that is listed; they are among the URLs `V`, with the bases of the cache
(urls.rs:32-36). -/
structure Known (U V : String → Prop) (S : Setup t N D E) (site : Site t) : Prop where
  within : ∀ u, U u → V u
  listed : ∀ url urls, site.dirs url = some urls → ∀ u ∈ urls, U u.val
  local' : ∀ source x, .ok x ∈ S.localList source → KnownSource U x
  base : ∀ pre (url b : Url t), U url.val → baseOf pre url = .ok b → V b.val

/-- What is assumed of the program and of the servers: `U` are the URLs of logs, `V` all the URLs. -/
structure Stable (U V : String → Prop) (S : Setup t N D E) (site : Site t) : Prop where
  digest : LJ.Cache.GoodDigest S.digest V
  cut : CutOk S
  search : SearchOk S
  known : Known U V S site
  clean : Clean U S site

/-- The program with `LOGREDUCE_CACHE` set, or not. -/
def Setup.on (S : Setup t N D E) (b : Bool) : Setup t N D E := { S with useCache := b }

/-- Runs of the program, each one with `LOGREDUCE_CACHE` set or not. -/
def mixed [DecidableEq N] (S : Setup t N D E) : List (Bool × Use t N) → Sys → Sys
  | [], s => s
  | (b, u) :: us, s => mixed S us ((S.on b).compare u.net u.order u.order' u.baselines u.target s).2

/-- A run on these servers -/
structure Use.On (U : String → Prop) (site : Site t) (u : Use t N) : Prop where
  net : Serves site u.net
  order : ∀ g, (u.order g).Perm g
  order' : ∀ g, (u.order' g).Perm g
  baselines : ∀ c ∈ u.baselines, KnownContent U c
  target : KnownContent U u.target

end
end LJ.Remote

/-
Model of the crawler: `httpdir/src/httpdir.rs`.

The site is a function from URLs to the outcome of `http_list`: the page does not change during a crawl.
The workers, the channel and the consumer are a transition system, and a schedule is the list of its
choices: which worker (or the consumer) does its next action.  An action is one access to the shared
state: taking a job, sending a message, submitting a job, loading a counter.
-/
import Verif.Paths.Model
namespace LJ.Crawler
open LJ.Paths (Str startsWith endsWith)

/-- `url::Url`: its path, which is ASCII, and all the rest (scheme, host, query). -/
structure Url (O : Type) where
  origin : O
  path : Str
deriving DecidableEq, Repr

/-- The outcome of httpdir.rs:243-255 `http_list`: the links of the page, an error, or a panic of the worker. -/
inductive Page (O E : Type) where
  | links (urls : List (Url O))
  | error (e : E)
  | panic
deriving DecidableEq, Repr

variable {O E : Type}

/-- httpdir.rs:54-61 `Visitor::visit`, with the `min_len` of the visitor -/
def visit (minLen : Nat) (url : Url O) : Option Nat := if url.path.length > minLen then some url.path.length else none

/-- httpdir.rs:229-240 `path_dir` -/
def pathDir (url : Url O) : Option (Url O) :=
  if endsWith url.path ['/'] then some url
  else if endsWith url.path "/index.html".toList then some { url with path := url.path.take (url.path.length - 10) }
  else none

/-- httpdir.rs:152: the system configuration directory -/
def isEtc (url : Url O) : Bool := endsWith url.path "/etc/".toList

/-- httpdir.rs:64-68 `Message` -/
inductive Msg (O E : Type) where
  | file (url : Url O)
  | error (e : E)
  | done
deriving DecidableEq, Repr

/-- A worker running a job (httpdir.rs:148-169): about to fetch a page, going through the links of a page
with the visitor of the page, or about to leave the job. -/
inductive Worker (O : Type) where
  | fetching (url : Url O)
  | links (minLen : Nat) (urls : List (Url O))
  | ending
deriving DecidableEq, Repr

/-- The pool and the channel.  A job is the URL to fetch: its visitor is the length of its path. -/
structure State (O E : Type) where
  queued : List (Url O)
  active : List (Worker O)
  chan : List (Msg O E)
  panics : Nat
deriving DecidableEq, Repr

/-- httpdir.rs:134-148 `process`: a job is submitted if the visitor allows it. -/
def process (minLen : Nat) (url : Url O) (s : State O E) : State O E :=
  match visit minLen url with
  | some _ => { s with queued := s.queued ++ [url] }
  | none => s

/-- httpdir.rs:128-131 `start` -/
def start (url : Url O) : State O E := process 0 url ⟨[], [], [], 0⟩

/-- The next action of a worker: what it becomes, or `none` when it is free again. -/
def act (site : Url O → Page O E) (w : Worker O) (s : State O E) : Option (Worker O) × State O E :=
  match w with
  | .fetching url =>
    match site url with
    -- httpdir.rs:141-150: the jobs see the visitor made by `visit`
    | .links urls => (some (.links url.path.length urls), s)
    -- httpdir.rs:168
    | .error e => (some .ending, { s with chan := s.chan ++ [.error e] })
    | .panic => (none, { s with panics := s.panics + 1 })
  | .links minLen (url :: urls) =>
    -- httpdir.rs:151-162
    if isEtc url then (some (.links minLen urls), s)
    else
      match pathDir url with
      | some dir => (some (.links minLen urls), process minLen dir s)
      | none => (some (.links minLen urls), { s with chan := s.chan ++ [.file url] })
  -- httpdir.rs:163-164
  | .links _ [] => (some .ending, { s with chan := s.chan ++ [.done] })
  | .ending => (none, s)

/-- One choice of the scheduler. -/
inductive Choice where
  /-- a free worker takes the first job -/
  | take
  /-- the worker `i` of the running ones does its next action -/
  | run (i : Nat)
deriving DecidableEq, Repr

/-- httpdir.rs:88: the number of workers -/
def WORKERS : Nat := 4

/-- One transition of the pool; `none` when the choice is not possible. -/
def step (site : Url O → Page O E) (c : Choice) (s : State O E) : Option (State O E) :=
  match c with
  | .take =>
    match s.queued with
    | [] => none
    | url :: q => if s.active.length < WORKERS then some { s with queued := q, active := s.active ++ [.fetching url] } else none
  | .run i =>
    match s.active[i]? with
    | none => none
    | some w =>
      match act site w s with
      | (some w', s') => some { s' with active := s'.active.set i w' }
      | (none, s') => some { s' with active := s'.active.eraseIdx i }

/-- A schedule -/
def exec (site : Url O → Page O E) : List Choice → State O E → Option (State O E)
  | [], s => some s
  | c :: cs, s => (step site c s).bind (exec site cs)

/-- `ThreadPool::join` waits for this: no job is queued or running. -/
def Idle (s : State O E) : Prop := s.queued = [] ∧ s.active = []

instance (s : State O E) : Decidable (Idle s) := inferInstanceAs (Decidable (_ ∧ _))

/-- httpdir.rs:112: the files before the first error, if any; the messages `done` are flattened. -/
def collect : List (Msg O E) → Except E (List (Url O))
  | [] => .ok []
  | .file u :: ms =>
    match collect ms with
    | .ok us => .ok (u :: us)
    | .error e => .error e
  | .error e :: _ => .error e
  | .done :: ms => collect ms

/-- The errors of `list`: one of a page, or a panic. -/
inductive ListError (E : Type) where
  | page (e : E)
  | panicked
deriving DecidableEq, Repr

/-- httpdir.rs:103-114 `list`, what it does once `join` returned -/
def listResult (s : State O E) : Except (ListError E) (List (Url O)) :=
  if s.panics > 0 then .error .panicked
  else
    match collect s.chan with
    | .ok us => .ok us
    | .error e => .error (.page e)

/-! ### The iterator -/

/-- Where the consumer is in httpdir.rs:200-226 `next`. -/
inductive Pc where
  /-- about to `try_recv` -/
  | poll
  /-- the channel was empty, about to load `active_count` -/
  | empty
  /-- about to load `queued_count` -/
  | loaded (active : Nat)
  /-- waiting in `recv_timeout` -/
  | waiting
  /-- `next` returned `None` -/
  | finished
deriving DecidableEq, Repr

/-- What the iterator yields. -/
inductive Item (O E : Type) where
  | file (url : Url O)
  | error (e : E)
  | panicked
deriving DecidableEq, Repr

/-- The iterator: the pool, and what was yielded. -/
structure Walk (O E : Type) where
  pool : State O E
  pc : Pc
  abort : Bool
  yielded : List (Item O E)
deriving DecidableEq, Repr

/-- httpdir.rs:117-126 `walk` -/
def startWalk (url : Url O) : Walk O E := ⟨start url, .poll, false, []⟩

/-- A message is received: it is yielded, or `next` goes on. -/
def receive (m : Msg O E) (ms : List (Msg O E)) (w : Walk O E) : Walk O E :=
  let w := { w with pool := { w.pool with chan := ms }, pc := .poll }
  match m with
  | .file u => { w with yielded := w.yielded ++ [.file u] }
  | .error e => { w with yielded := w.yielded ++ [.error e] }
  | .done => w

/-- One choice: the pool, the consumer, or the time-out of `recv_timeout`. -/
inductive WalkChoice where
  | pool (c : Choice)
  | consumer
  | timeout
deriving DecidableEq, Repr

/-- httpdir.rs:212-218, when `is_done` is false: a panic is yielded once, or the consumer waits. -/
def notDone (w : Walk O E) : Walk O E :=
  if w.pool.panics > 0 then { w with abort := true, yielded := w.yielded ++ [.panicked], pc := .poll }
  else { w with pc := .waiting }

/-- One action of the consumer -/
def consume (w : Walk O E) : Option (Walk O E) :=
  match w.pc with
  -- httpdir.rs:201-206
  | .poll =>
    match w.pool.chan with
    | m :: ms => some (receive m ms w)
    | [] => some { w with pc := .empty }
  -- httpdir.rs:189-194 `is_done`, called at 209
  | .empty => if w.abort then some { w with pc := .finished } else some { w with pc := .loaded w.pool.active.length }
  | .loaded active =>
    if active + w.pool.queued.length = 0 ∧ w.pool.panics = 0 then some { w with pc := .finished } else some (notDone w)
  -- httpdir.rs:218-224
  | .waiting =>
    match w.pool.chan with
    | m :: ms => some (receive m ms w)
    | [] => none
  | .finished => none

/-- One transition of the pool and the consumer -/
def walkStep (site : Url O → Page O E) (c : WalkChoice) (w : Walk O E) : Option (Walk O E) :=
  match c with
  | .pool c => (step site c w.pool).map fun p => { w with pool := p }
  | .consumer => consume w
  | .timeout => if w.pc = .waiting ∧ w.pool.chan.isEmpty then some { w with pc := .poll } else none

/-- A schedule of the pool and the consumer -/
def walkExec (site : Url O → Page O E) : List WalkChoice → Walk O E → Option (Walk O E)
  | [], w => some w
  | c :: cs, w => (walkStep site c w).bind (walkExec site cs)

/-! ### The links of a page -/

/-- httpdir.rs:260: the first character of a link -/
def linkStart (c : Char) : Bool := c == '\\' || c == '/' || c.isAlphanum

/-- httpdir.rs:260: the match of `<a href="([\\/a-zA-Z0-9][^"]+)">` at the start of a text: the group, and
what follows.  The group ends at the first quote, since it has none. -/
def anchor (s : Str) : Option (Str × Str) :=
  if startsWith s "<a href=\"".toList then
    let s := s.drop 9
    let link := s.takeWhile (· != '"')
    let after := s.dropWhile (· != '"')
    match link with
    | c :: _ :: _ => if linkStart c && startsWith after "\">".toList then some (link, after.drop 2) else none
    | _ => none
  else none

/-- httpdir.rs:263-264 `captures_iter`: the leftmost matches which do not overlap.  `skip` is the number of
characters which are left in the last match. -/
def anchors : Nat → Str → List Str
  | _, [] => []
  | skip + 1, _ :: s => anchors skip s
  | 0, c :: s =>
    match anchor (c :: s) with
    | some (link, after) => link :: anchors (s.length - after.length) s
    | none => anchors 0 s

/-- httpdir.rs:257-272 `parse_index_of`, with `Url::join` -/
def parseIndexOf (join : Str → Option (Url O)) (page : Str) : Option (List (Url O)) := (anchors 0 page).mapM join

end LJ.Crawler

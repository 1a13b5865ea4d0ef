/-
What is claimed of the zuul builds, independently of how the program does it.
-/
import Verif.Zuul.Model
namespace LJ.Zuul.Spec
open LJ.Zuul
open LJ.Paths (Str)

variable {env : Env}

/-! ### Calendar -/

/-- The day after a day -/
def nextDay (y : Int) (m d : Nat) : Int × Nat × Nat :=
  if d < monthDays y m then (y, m, d + 1) else if m < 12 then (y, m + 1, 1) else (y + 1, 1, 1)

/-- A time, to the second -/
def toSecond (t : DateTime) : DateTime :=
  { t with nanos := 0, valid := by have := t.valid; omega }

/-! ### The choice of a baseline -/

/-- The builds which can be the baseline of `target`, where `head` is the availability of the logs -/
structure Eligible (target : Target env) (head : Url env → Option Bool) (b : Build env) : Prop where
  logs : ∃ u, b.logUrl = some u ∧ head u = some true
  reference : ∃ u, b.refUrl = some u
  other : b.uuid ≠ target.uuid
  /-- a build of the same project which is not for a change can not be compared -/
  comparable : b.project = target.project → ∃ c, b.change = some c

/-- A build of the same change -/
def SameChange (self : Target env) (b : Build env) : Prop := b.project = self.project ∧ b.change = some self.change

/-- The age of a build, in days -/
def age (now : Int) (b : Build env) : Int := max 0 (now - b.endTime.date)

/-- The points of a condition -/
noncomputable def points (p : Prop) (n : Int) : Int := open Classical in if p then n else 0

/-- The score of a build -/
noncomputable def score (self : Target env) (now : Int) (b : Build env) : Int :=
  points (SameChange self b) (-500) + points (b.project = self.project ∧ b.change ≠ some self.change) 50
    + points (b.branch = self.branch) 50 + points ("gate".toList <:+: b.pipeline ∨ "periodic".toList <:+: b.pipeline) 50
    + points (b.voting = true) 10 - age now b

/-- `b` is the first of the best eligible builds. -/
def Best (self : Target env) (now : Int) (head : Url env → Option Bool) (samples : List (Build env)) (b : Build env) : Prop :=
  ∃ i : Nat, samples[i]? = some b ∧ Eligible self head b ∧
    ∀ (j : Nat) c, samples[j]? = some c → Eligible self head c →
      score self now c ≤ score self now b ∧ (j < i → score self now c < score self now b)

/-- `t` is the content of the build `b`. -/
structure ContentOf (api : Url env) (b : Build env) (t : Target env) : Prop where
  api : t.api = api
  uuid : t.uuid = b.uuid
  jobName : t.jobName = b.jobName
  project : t.project = b.project
  branch : t.branch = b.branch
  result : t.result = b.result
  pipeline : t.pipeline = b.pipeline
  endTime : t.endTime = b.endTime
  logUrl : b.logUrl = some t.logUrl
  refUrl : b.refUrl = some t.refUrl
  change : b.change = some t.change

/-! ### URLs -/

/-- The identifier of a build -/
def Uid (s : Str) : Prop := s.length = 32 ∧ ∀ c ∈ s, ('a' ≤ c ∧ c ≤ 'z') ∨ ('A' ≤ c ∧ c ≤ 'Z') ∨ ('0' ≤ c ∧ c ≤ '9')

/-- The start of a path: what is before some segments -/
def Dir (pre : Str) : Prop := pre = [] ∨ ∃ p, pre = '/' :: p

/-! ### JSON -/

/-- The list of what decodes -/
inductive Kept : List Json → List (Build env) → Prop
  | nil : Kept [] []
  | keep {x xs b bs} : decodeBuild x = some b → Kept xs bs → Kept (x :: xs) (b :: bs)
  | skip {x xs bs} : decodeBuild (env := env) x = none → Kept xs bs → Kept (x :: xs) bs

end LJ.Zuul.Spec

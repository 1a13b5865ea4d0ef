/-
What the trainer and the processor are supposed to do, in terms of the whole list of lines.
-/
import Verif.Process.Model
import Mathlib.Data.List.Forall2
namespace LJ.Process.Spec

/-- A line of a source: its text and its number. -/
structure Line where
  text : Str
  num : Nat
deriving DecidableEq, Repr

/-- The elements whose key was not seen before. -/
def firsts {α : Type} (key : α → Str) : List Str → List α → List α
  | _, [] => []
  | seen, x :: xs => if key x ∈ seen then firsts key seen xs else x :: firsts key (key x :: seen) xs

/-- The anomalies of a source, `seen` being the tokens of the previous sources: the first lines with
their tokens, when the distance of these tokens is over the threshold. -/
def anomalies {D : Type} (tok : Str → Str) (dist : Str → D) (over : D → Bool) (seen : List Str) (ls : List Line) :
    List (Anomaly D) :=
  ((firsts (fun l => tok l.text) seen ls).filter fun l => over (dist (tok l.text))).map fun l =>
    ⟨dist (tok l.text), l.num, l.text⟩

/-- The positions of the anomalies of a source, counted from 0. -/
def positions {D : Type} (tok : Str → Str) (dist : Str → D) (over : D → Bool) (seen : List Str) (ls : List Line) : List Nat :=
  ((firsts (fun x => tok x.1.text) seen ls.zipIdx).filter fun x => over (dist (tok x.1.text))).map Prod.snd

/-- `R` holds between the consecutive elements. -/
def Consecutive {α : Type} (R : α → α → Prop) (l : List α) : Prop :=
  ∀ pre x y post, l = pre ++ x :: y :: post → R x y

/-- A window of a source: the line `i`, `b` lines before it and `a` lines after it. -/
structure Window where
  i : Nat
  b : Nat
  a : Nat
deriving DecidableEq, Repr

/-- The context `c` shows the window `w` of the lines `ls`. -/
def Shows {D : Type} (tok : Str → Str) (dist : Str → D) (ls : List Line) (c : AnomalyContext D) (w : Window) : Prop :=
  ∃ pre bef l aft post, ls = pre ++ bef ++ l :: (aft ++ post) ∧
    pre.length + bef.length = w.i ∧ bef.length = w.b ∧ aft.length = w.a ∧
    c.before = bef.map Line.text ∧ c.after = aft.map Line.text ∧
    c.anomaly = ⟨dist (tok l.text), l.num, l.text⟩

/-- Where a source is cut in chunks: `pos` lines were read, `u` new ones and `b` in total since the
last cut.  A chunk ends with its 512th new line, or with a repeated line when it has more than 5120
lines. -/
def cuts {α : Type} (key : α → Str) : List Str → Nat → Nat → Nat → List α → List Nat
  | _, _, _, _, [] => []
  | seen, pos, u, b, x :: xs =>
    if key x ∈ seen then
      if 5120 < b + 1 then (pos + 1) :: cuts key seen (pos + 1) 0 0 xs
      else cuts key seen (pos + 1) u (b + 1) xs
    else if u + 1 = 512 then (pos + 1) :: cuts key (key x :: seen) (pos + 1) 0 0 xs
    else cuts key (key x :: seen) (pos + 1) (u + 1) (b + 1) xs

/-- The windows shown by contexts, given the positions of the anomalies. -/
def windows {D : Type} (ps : List Nat) (cs : List (AnomalyContext D)) : List Window :=
  List.zipWith (fun p c => ⟨p, c.before.length, c.after.length⟩) ps cs

/-- The reader returns lines which are text. -/
def Reads (decode : Bytes → Option Str) (lines : List LogLine) (src : List Line) : Prop :=
  List.Forall₂ (fun l s => decode l.1 = some s.text ∧ l.2 = s.num) lines src

/-- No line announces the log classifier itself. -/
def NoMarker (src : List Line) : Prop := ∀ l ∈ src, ¬ "TASK [log-classify".toList <:+: l.text

/-- The search handles each target on its own, as all the indexes do (C20). -/
def Pointwise {D : Type} (search : List Str → List D) (dist : Str → D) : Prop := ∀ ts, search ts = ts.map dist

/-- The lines a reader returns before it fails, as bytes and text. -/
def readable {ε : Type} (decode : Bytes → Option Str) : List (Ev ε) → List (Bytes × Str)
  | [] => []
  | .error _ :: _ => []
  | .ok l :: r =>
    match decode l.1 with
    | none => []
    | some t => (l.1, t) :: readable decode r

/-- The lines of a reader which may be shown: those returned before it fails, without the lines which
announce the log classifier. -/
def visible {ε : Type} (decode : Bytes → Option Str) : List (Ev ε) → List Line
  | [] => []
  | .error _ :: _ => []
  | .ok l :: r =>
    match decode l.1 with
    | none => []
    | some t => if "TASK [log-classify".toList <:+: t then visible decode r else ⟨t, l.2⟩ :: visible decode r

end LJ.Process.Spec

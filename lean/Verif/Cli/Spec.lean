/-
What the commands are supposed to do with models and files.
-/
import Verif.Cli.Model
namespace LJ.Cli.Spec
variable {P I C M R Er : Type} (w : World P I C M R Er)

/-- The contents of the inputs. -/
inductive Inputs : List I → List C → Prop
  | nil : Inputs [] []
  | cons {i c is cs} : w.fromInput i = .ok c → Inputs is cs → Inputs (i :: is) (c :: cs)

/-- The baselines are those given, or else those discovered. -/
inductive Baselines (content : C) : Option (List I) → List C → Prop
  | given {is cs} : Inputs w is cs → Baselines content (some is) cs
  | discovered {cs} : w.discover content = .ok cs → Baselines content none cs

/-- A file which can be seen. -/
def Visible (fs : Fs P) (p : P) : Prop := fs.denied p = false ∧ ∃ b, fs.files p = some b

/-- The model to use: the one in the file when the file is there (and no baselines are given), otherwise a model
trained on the baselines. -/
inductive Chosen (fs : Fs P) (content : C) : Option P → Option (List I) → M → Prop
  | loaded {p b m} : fs.denied p = false → fs.files p = some b → w.decModel b = .ok m → Chosen fs content (some p) none m
  | trained {path bs cs m} : (∀ p, path = some p → ¬ Visible fs p) → Baselines w content bs cs → w.train cs = .ok m → Chosen fs content path bs m

/-- A saved model is read back, and what is read from a part of it is the model or an error. -/
structure Format : Prop where
  round : ∀ m b, w.encModel m = .ok b → w.decModel b = .ok m
  truncated : ∀ m b n m', w.encModel m = .ok b → w.decModel (b.take n) = .ok m' → m' = m

/-- The paths written by the report. -/
def ReportPath (cache : Bool) (report : Option P) (p : P) : Prop := report = some p ∨ (cache = true ∧ ∃ f, report = some f ∧ p = w.withJson f)

/-- A file can be created there. -/
def CanCreate (fs : Fs P) (p : P) : Prop := fs.denied p = false ∧ w.createErr p = none

/-- There is room for `n` bytes. -/
def Room (p : P) (n : Nat) : Prop := ∀ k, w.limit p = some k → n ≤ k

/-- A compressed file can be saved: it can be created, the value can be serialised, and there is room for all but the
last bytes. -/
def CanSave (fs : Fs P) (p : P) (enc : Except Er Bytes) : Prop :=
  CanCreate w fs p ∧ ∃ b, enc = .ok b ∧ Room w p (b.length - w.held b)

/-- The outcome is shown: printed, or written as a page (and a raw report when `cache`). -/
inductive Shown (cache : Bool) (fs : Fs P) (m : M) (content : C) : Option P → Prop
  | live : w.live content m = .ok () → Shown cache fs m content none
  | page {file r page} : w.report m content = .ok r → (cache = true → CanSave w fs (w.withJson file) (w.encReport r)) →
      w.render r = .ok page → CanCreate w fs file → Room w file page.length → Shown cache fs m content (some file)

/-- All the steps of the command succeed. -/
def Success (cache : Bool) (fs : Fs P) (report path : Option P) (bs : Option (List I)) (input : I) : Prop :=
  ∃ content m, w.fromInput input = .ok content ∧ Chosen w fs content path bs m ∧
    (∀ p, path = some p → ¬ Visible fs p → CanSave w fs p (w.encModel m)) ∧ Shown w cache fs m content report

end LJ.Cli.Spec

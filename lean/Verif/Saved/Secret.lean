/-
C139: the file of a saved model has nothing of what the normalisation removes from the baselines, but the count of the bytes.
-/
import Verif.Saved.Toy
import Verif.Report.Secret
import Verif.Render.Lemmas
namespace LJ.Saved
open LJ.Process (Str Ev Cfg toyL)
open LJ.Codec (Texts Source Content demoTexts)
open LJ.Report.Spec (SameLine SameSize SameOpen SameButBytes)
variable {t : Texts} {E ε : Type} {cfg : Cfg} {hashing : Bool}

namespace Spec

/-- The bytes of the file which is saved after a training, if it succeeds. -/
noncomputable def fileOf (cfg : Cfg) (hashing : Bool) (clocks : Clocks) (order : List (String × List (Source t)) → List (String × List (Source t)))
    (o : Sources t E ε) (baselines : List (Content t)) : Option LJ.Codec.Bytes :=
  match LJ.Report.train (o.world cfg hashing) order baselines with
  | .ok m => (keep cfg hashing clocks m).bind (LJ.Codec.model t).enc
  | .error _ => none

/-- The model without its counts of bytes. -/
def noBytes (s : LJ.Codec.Model t) : LJ.Codec.Duration × List (Content t) × List (String × LJ.Codec.Index t) :=
  (s.createdAt, s.baselines, s.indexes.pairs.map fun p => (p.1, { p.2 with byteCount := 0 }))

/-- The sources which are learned from. -/
def sources (o : Sources t E ε) (baselines : List (Content t)) : List (Source t) := baselines.flatMap fun c => LJ.Report.Spec.validSources o.valid (o.list c)

/-- The tokens of a line. -/
def tok (cfg : Cfg) (hashing : Bool) (line : Str) : Str := if hashing then LJ.Tokenizer.process cfg.wd line else line

end Spec
open Spec (fileOf noBytes sources tok)

/-- the pairs which are saved, from those of the model -/
theorem keep_pairs {clocks : Clocks} {m : LJ.Report.Model (Content t) (Source t) String} (hn : (m.indexes.map Prod.fst).Nodup) {s : LJ.Codec.Model t}
    (h : keep cfg hashing clocks m = some s) : s.createdAt = clocks.model ∧ s.baselines = m.baselines ∧
      List.Forall₂ (fun x p => keepOne cfg hashing clocks x = some p) m.indexes s.indexes.pairs := by
  unfold keep at h
  obtain ⟨ps, h1, rfl⟩ := Option.map_eq_some_iff.1 h
  rw [LJ.Render.mapM_iff] at h1
  refine ⟨rfl, rfl, ?_⟩
  have e : ps.map Prod.fst = m.indexes.map Prod.fst := by
    clear h hn
    generalize m.indexes = xs at h1
    induction h1 with
    | nil => rfl
    | cons hx _ ih =>
      rw [List.map_cons, List.map_cons, ih]
      unfold keepOne at hx
      obtain ⟨_, _, rfl⟩ := Option.map_eq_some_iff.1 hx
      rfl
  show List.Forall₂ _ _ (LJ.Codec.Map.ofPairs ps).pairs
  rw [LJ.Render.ofPairs_pairs (by rw [e]; exact hn)]
  exact h1

theorem noBytes_pairs {clocks : Clocks} {xs xs' : List (String × LJ.Report.Index (Source t))}
    (h : List.Forall₂ (fun x x' => x.1 = x'.1 ∧ x.2.sources = x'.2.sources ∧ x.2.chunks = x'.2.chunks ∧ x.2.lineCount = x'.2.lineCount) xs xs') :
    ∀ {ps ps' : List (String × LJ.Codec.Index t)}, List.Forall₂ (fun x p => keepOne cfg hashing clocks x = some p) xs ps →
      List.Forall₂ (fun x p => keepOne cfg hashing clocks x = some p) xs' ps' →
      ps.map (fun p => (p.1, { p.2 with byteCount := 0 })) = ps'.map (fun p => (p.1, { p.2 with byteCount := 0 })) := by
  induction h with
  | nil =>
    intro ps ps' h1 h2
    cases h1
    cases h2
    rfl
  | @cons x x' xs xs' hx _ ih =>
    intro ps ps' h1 h2
    cases h1 with
    | cons a1 b1 =>
    cases h2 with
    | cons a2 b2 =>
    rw [List.map_cons, List.map_cons, ih b1 b2]
    congr 1
    obtain ⟨n, i⟩ := x
    obtain ⟨n', i'⟩ := x'
    obtain ⟨e1, e2, e3, e4⟩ := hx
    simp only at e1 e2 e3 e4
    subst e1
    unfold keepOne at a1 a2
    simp only at a1 a2
    rw [e3] at a1
    obtain ⟨k, c1, rfl⟩ := Option.map_eq_some_iff.1 a1
    rw [c1] at a2
    cases a2
    simp only [e2, e4]

/-- C139: two trainings on the same sources, the lines of which have one by one the same normalised text, fail in the same way, or leave in memory, to be saved, models which differ at
most in the counts of bytes. -/
theorem C139_memory (clocks : Clocks) (o : Sources t E ε) {f : Source t → Except E (Bool → List (Ev ε))}
    {order : List (String × List (Source t)) → List (String × List (Source t))} (ho : ∀ g, (order g).Perm g) (baselines : List (Content t))
    (h : ∀ s ∈ sources o baselines, SameOpen (SameLine (tok cfg hashing) cfg.decode) (o.openSource s) (f s)) :
    match LJ.Report.train (o.world cfg hashing) order baselines, LJ.Report.train (Sources.world { o with openSource := f } cfg hashing) order baselines with
    | .ok m, .ok m' => ∃ s s', keep cfg hashing clocks m = some s ∧ keep cfg hashing clocks m' = some s' ∧ noBytes s = noBytes s'
    | .error e, .error e' => e = e'
    | _, _ => False := by
  have ht : (o.world cfg hashing).tokenize = tok cfg hashing := by
    funext x
    cases hashing <;> rfl
  have key := LJ.Report.C139_train (w := o.world cfg hashing) (o := f) ho baselines (by rw [ht]; exact h)
  have hw : Sources.world { o with openSource := f } cfg hashing = { o.world cfg hashing with openSource := f } := rfl
  rw [hw]
  cases e : LJ.Report.train (o.world cfg hashing) order baselines with
  | error a =>
    cases e' : LJ.Report.train { o.world cfg hashing with openSource := f } order baselines with
    | error a' => rw [e, e'] at key; exact key
    | ok m' => rw [e, e'] at key; exact key.elim
  | ok m =>
    cases e' : LJ.Report.train { o.world cfg hashing with openSource := f } order baselines with
    | error a' => rw [e, e'] at key; exact key.elim
    | ok m' =>
      rw [e, e'] at key
      obtain ⟨s, hk, _⟩ := keep_trained clocks ho e
      obtain ⟨s', hk', _⟩ := keep_trained (o := { o with openSource := f }) clocks ho e'
      refine ⟨s, s', hk, hk', ?_⟩
      obtain ⟨n1, _⟩ := ((LJ.Report.C75_train ho baselines).2 m e).2
      obtain ⟨n2, _⟩ := ((LJ.Report.C75_train ho baselines).2 m' e').2
      obtain ⟨a1, a2, a3⟩ := keep_pairs n1 hk
      obtain ⟨b1, b2, b3⟩ := keep_pairs n2 hk'
      unfold noBytes
      rw [a1, b1, a2, b2, key.1, noBytes_pairs key.2 a3 b3]

/-- C139: when the lines have also one by one the same number of bytes, the same file is saved, byte for byte. -/
theorem C139_file (clocks : Clocks) (o : Sources t E ε) {f : Source t → Except E (Bool → List (Ev ε))}
    {order : List (String × List (Source t)) → List (String × List (Source t))} (ho : ∀ g, (order g).Perm g) (baselines : List (Content t))
    (h : ∀ s ∈ sources o baselines, SameOpen (fun e e' => SameLine (tok cfg hashing) cfg.decode e e' ∧ SameSize e e') (o.openSource s) (f s)) :
    fileOf cfg hashing clocks order o baselines = fileOf cfg hashing clocks order { o with openSource := f } baselines := by
  have ht : (o.world cfg hashing).tokenize = tok cfg hashing := by
    funext x
    cases hashing <;> rfl
  have key := LJ.Report.C139_equal (w := o.world cfg hashing) (o := f) ho baselines (by rw [ht]; exact h)
  unfold fileOf
  rw [key]
  rfl

/-- What is read of the sources, and the same with another password. -/
def login (password : String) : Sources demoTexts Unit Unit :=
  { toySources with openSource := fun _ => .ok fun _ => [.ok (toyL ("login password=" ++ password) 1), .ok (toyL "started" 2)] }

theorem login_line {fp : LJ.Index.FP} : tok (toyCfg fp) true "login password=hunter2".toList = tok (toyCfg fp) true "login password=dragons".toList := by
  have h : LJ.Tokenizer.process (fun _ => true) "login password=hunter2".toList = LJ.Tokenizer.process (fun _ => true) "login password=dragons".toList := by decide +kernel
  simp only [tok, toyCfg, if_true]
  exact h

/-- The hypotheses are met: the passwords are not learned, and the file has neither of them. -/
example (fp : LJ.Index.FP) : fileOf (toyCfg fp) true toyClocks id (login "hunter2") [.file (toySource "a")] = fileOf (toyCfg fp) true toyClocks id (login "dragons") [.file (toySource "a")] := by
  refine C139_file toyClocks (login "hunter2") (f := (login "dragons").openSource) (fun _ => .refl _) _ fun _ _ _ => .cons ⟨?_, ?_⟩ (.cons ⟨?_, rfl⟩ .nil)
  · have h1 : (toyCfg fp).decode (toyL "login password=hunter2" 1).1 = some "login password=hunter2".toList := by
      simp only [toyCfg]
      decide +kernel
    have h2 : (toyCfg fp).decode (toyL "login password=dragons" 1).1 = some "login password=dragons".toList := by
      simp only [toyCfg]
      decide +kernel
    show SameLine _ _ (.ok (toyL "login password=hunter2" 1)) (.ok (toyL "login password=dragons" 1))
    simp only [SameLine, h1, h2]
    exact login_line
  · show (toyL "login password=hunter2" 1).1.length = (toyL "login password=dragons" 1).1.length
    decide +kernel
  · simp only [SameLine]
    cases (toyCfg fp).decode (toyL "started" 2).1 <;> trivial

end LJ.Saved

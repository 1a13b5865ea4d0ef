/-
C93 for the command: the page of a run with a saved model is the page of a run which trains.
-/
import Verif.Saved.Props
import Verif.Cli.Status
namespace LJ.Saved
open LJ.Process (Str Ev Cfg)
open LJ.Codec (Texts Source Content)
open LJ.Cli (World Fs alone process)
open LJ.Cli.Spec (Format Visible ReportPath Chosen)

variable {t : Texts} {E ε P I Er : Type}

/-- The compression of `flate2`: what the decoder gives for the bytes of a file before it fails or ends. -/
structure Gzip where
  enc : List UInt8 → List UInt8
  dec : List UInt8 → List UInt8
  /-- a whole file gives back what was compressed -/
  whole : ∀ b, dec (enc b) = b
  /-- a part of a file gives a part of it -/
  part : ∀ b n, dec ((enc b).take n) <+: b

/-- The errors of training, listing, and of a panic or a value which can't be saved, as the command sees them. -/
structure Failures (t : Texts) (E Er : Type) where
  train : LJ.Report.Fail E (Content t) → Er
  list : LJ.Report.ListErr E (Content t) → Er
  other : Er

/-- How an execution of the program varies: the clocks, and the orders of the maps. -/
structure Execution (t : Texts) where
  clocks : Clocks
  train : List (String × List (Source t)) → List (String × List (Source t))
  report : List (String × List (Source t)) → List (String × List (Source t))

/-- main.rs:217-277 with the training, the reports and the files of this directory; the rest of `w` is as in `Verif/Cli`. -/
noncomputable def commands (w : World P I (Content t) (LJ.Codec.Model t) (Rep t E ε) Er) (cfg : Cfg) (o : Sources t E ε) (gz : Gzip)
    (f : Failures t E Er) (x : Execution t) : World P I (Content t) (LJ.Codec.Model t) (Rep t E ε) Er :=
  { w with
    train := fun cs =>
      match LJ.Report.train (o.world cfg true) x.train cs with
      | .error e => .error (f.train e)
      | .ok m => match keep cfg true x.clocks m with | some s => .ok s | none => .error f.other
    report := fun m c =>
      match report cfg o m x.report c with
      | some (.ok r) => .ok r
      | some (.error e) => .error (f.list e)
      | none => .error f.other
    encModel := fun m => match (LJ.Codec.model t).enc m with | some b => .ok (gz.enc b) | none => .error f.other
    decModel := fun b => match LJ.Codec.load (LJ.Codec.model t) (gz.dec b) with | some m => .ok m | none => .error f.other }

/-- These files are read back. -/
theorem commands_format (w : World P I (Content t) (LJ.Codec.Model t) (Rep t E ε) Er) (cfg : Cfg) (o : Sources t E ε) (gz : Gzip)
    (f : Failures t E Er) (x : Execution t) : Format (commands w cfg o gz f x) := by
  have henc : ∀ m b, (commands w cfg o gz f x).encModel m = .ok b → ∃ c, (LJ.Codec.model t).enc m = some c ∧ b = gz.enc c := by
    intro m b h
    simp only [commands] at h
    split at h
    · rename_i c h'; cases h; exact ⟨c, h', rfl⟩
    · cases h
  constructor
  · intro m b h
    obtain ⟨c, hc, rfl⟩ := henc m b h
    have := (LJ.Codec.C70_model t hc []).2
    rw [List.append_nil] at this
    simp only [commands, gz.whole, this]
  · intro m b n m' h h'
    obtain ⟨c, hc, rfl⟩ := henc m b h
    by_cases e : gz.dec ((gz.enc c).take n) = c
    · have := (LJ.Codec.C70_model t hc []).2
      rw [List.append_nil] at this
      simp only [commands, e, this] at h'
      cases h'
      rfl
    · have := (LJ.Codec.C80_truncated t).1 m c _ hc (gz.part c n) e
      simp only [commands, this] at h'
      cases h'

theorem inputs_unique {w w' : World P I (Content t) (LJ.Codec.Model t) (Rep t E ε) Er} (h : w.fromInput = w'.fromInput) {is : List I} {cs cs' : List (Content t)}
    (h1 : LJ.Cli.Spec.Inputs w is cs) (h2 : LJ.Cli.Spec.Inputs w' is cs') : cs = cs' := by
  induction h1 generalizing cs' with
  | nil => cases h2; rfl
  | @cons i c is cs hi _ ih =>
    cases h2 with
    | @cons _ c' _ cs' hi' hs =>
      rw [h, hi'] at hi
      cases hi
      rw [ih hs]

/-- Two trainings give models with the same reports. -/
theorem trained_same {w : World P I (Content t) (LJ.Codec.Model t) (Rep t E ε) Er} {cfg : Cfg} {o : Sources t E ε} {gz : Gzip}
    {f : Failures t E Er} {x x' : Execution t} (hx : ∀ g, (x.train g).Perm g) (hx' : ∀ g, (x'.train g).Perm g) (hf : cfg.fp.IsF32) {cs : List (Content t)}
    {m m' : LJ.Codec.Model t} (h1 : (commands w cfg o gz f x).train cs = .ok m) (h2 : (commands w cfg o gz f x').train cs = .ok m') :
    ∀ order target, report cfg o m order target = report cfg o m' order target := by
  simp only [commands] at h1 h2
  rcases LJ.Report.C39_train (w := o.world cfg true) hx hx' cs with ⟨e1, e2, a1, a2⟩ | ⟨m1, m2, a1, a2, a3, a4, a5⟩
  · rw [a1] at h1; cases h1
  · rw [a1] at h1
    rw [a2] at h2
    simp only at h1 h2
    obtain ⟨s1, k1, r1⟩ := C93_memory hf o x.clocks hx a1
    obtain ⟨s2, k2, r2⟩ := C93_memory hf o x'.clocks hx' a2
    rw [k1] at h1
    rw [k2] at h2
    cases h1
    cases h2
    intro order target
    rw [r1, r2]
    exact LJ.Report.C39_model a3 a5 a4 order target

/-- A run trains on given baselines and saves the model.  Later, a run with the saved model and a run which trains on the same baselines, on the same
target, write the same page, if they succeed: when the files read did not change, the page does not depend on whether the model was saved. -/
theorem C93_runs [DecidableEq P] {w : World P I (Content t) (LJ.Codec.Model t) (Rep t E ε) Er} {cfg : Cfg} (hf : cfg.fp.IsF32) {o : Sources t E ε} {gz : Gzip}
    {f : Failures t E Er} {x1 x2 x3 : Execution t} (hx1 : ∀ g, (x1.train g).Perm g) (hx3 : ∀ g, (x3.train g).Perm g) (hr : x2.report = x3.report)
    {fs fs3 : Fs P} {p : P} {is : List I} {cache1 cache2 cache3 : Bool} {report1 : Option P} {file2 file3 : P} {path3 : Option P} {input1 target : I}
    {m : LJ.Codec.Model t} (hp : ¬ Visible fs p) (hrep : ¬ ReportPath w cache1 report1 p) (hroom : w.limit p = none)
    (h1 : (process (commands w cfg o gz f x1) alone cache1 fs report1 (some p) (some is) input1).model = some m)
    (h2 : (process (commands w cfg o gz f x2) alone cache2
      (process (commands w cfg o gz f x1) alone cache1 fs report1 (some p) (some is) input1).fs (some file2) (some p) none target).result = .ok ())
    (h3 : (process (commands w cfg o gz f x3) alone cache3 fs3 (some file3) path3 (some is) target).result = .ok ()) :
    ∃ page, (process (commands w cfg o gz f x2) alone cache2
        (process (commands w cfg o gz f x1) alone cache1 fs report1 (some p) (some is) input1).fs (some file2) (some p) none target).fs.files file2 = some page ∧
      (process (commands w cfg o gz f x3) alone cache3 fs3 (some file3) path3 (some is) target).fs.files file3 = some page := by
  have hload := LJ.Cli.C67_saved (commands_format w cfg o gz f x1) cache1 (some is) input1 hp hrep hroom h1
  obtain ⟨c1, _, ch1⟩ := LJ.Cli.C67_model _ _ _ _ _ _ _ h1
  obtain ⟨c2, m2, r2, page2, a1, a2, a3, a4, a5, _⟩ := LJ.Cli.C89_page _ _ _ _ _ h2
  obtain ⟨c3, m3, r3, page3, b1, b2, b3, b4, b5, _⟩ := LJ.Cli.C89_page _ _ _ _ _ h3
  -- the model of the second run is the saved one
  have hm2 : m2 = m := by
    unfold LJ.Cli.load LJ.Cli.readFile at hload
    generalize (process (commands w cfg o gz f x1) alone cache1 fs report1 (some p) (some is) input1).fs = fs' at hload a2
    cases hd : fs'.denied p with
    | true => rw [hd] at hload; cases hload
    | false =>
      rw [hd] at hload
      simp only [Bool.false_eq_true, if_false] at hload
      cases hfile : fs'.files p with
      | none => rw [hfile] at hload; cases hload
      | some b =>
        rw [hfile] at hload
        cases a2 with
        | loaded _ hb hdec =>
          rw [hfile] at hb
          cases hb
          have hload : (commands w cfg o gz f x1).decModel b = .ok m := hload
          have : (commands w cfg o gz f x1).decModel b = .ok m2 := hdec
          rw [hload] at this
          cases this
          rfl
        | trained hn _ _ => exact absurd ⟨hd, b, hfile⟩ (hn p rfl)
  subst hm2
  have hc : c2 = c3 := by
    have e : w.fromInput target = .ok c2 := a1
    have e' : w.fromInput target = .ok c3 := b1
    rw [e] at e'
    cases e'
    rfl
  subst hc
  -- the two trainings
  obtain ⟨cs, i1, t1⟩ : ∃ cs, LJ.Cli.Spec.Inputs (commands w cfg o gz f x1) is cs ∧ (commands w cfg o gz f x1).train cs = .ok m2 := by
    cases ch1 with
    | trained _ hb ht => cases hb with | given hi => exact ⟨_, hi, ht⟩
  obtain ⟨cs', i3, t3⟩ : ∃ cs, LJ.Cli.Spec.Inputs (commands w cfg o gz f x3) is cs ∧ (commands w cfg o gz f x3).train cs = .ok m3 := by
    cases b2 with
    | trained _ hb ht => cases hb with | given hi => exact ⟨_, hi, ht⟩
  have := inputs_unique (w := commands w cfg o gz f x1) (w' := commands w cfg o gz f x3) rfl i1 i3
  subst this
  have hsame := trained_same hx1 hx3 hf t1 t3
  have hrr : r2 = r3 := by
    simp only [commands] at a3 b3
    rw [hr, hsame] at a3
    rw [a3] at b3
    cases b3
    rfl
  subst hrr
  have hpage : page2 = page3 := by
    have e : w.render r2 = .ok page2 := a4
    have e' : w.render r2 = .ok page3 := b4
    rw [e] at e'
    cases e'
    rfl
  subst hpage
  exact ⟨page2, a5, b5⟩

end LJ.Saved

/-
Cases which meet the hypotheses of C93.
-/
import Verif.Saved.Runs
namespace LJ.Saved
open LJ.Process (Str Ev Cfg toyL)
open LJ.Codec (Texts Source Content demoTexts stringBytes)
open LJ.Cli (World Fs alone process)
open LJ.Cli.Spec (Format Visible ReportPath Chosen)

/-- a local file -/
def toySource (name : String) : Source demoTexts := .loc 0 (stringBytes name)

/-- Two files: `a` has one line, the others have two. -/
def toySources : Sources demoTexts Unit Unit where
  list | .file s => [.ok s] | _ => []
  valid _ := true
  nameOf _ := "n"
  isJson _ := false
  openSource
    | .loc _ p => if p = stringBytes "a" then .ok fun _ => [.ok (toyL "p" 1)] else .ok fun _ => [.ok (toyL "p" 1), .ok (toyL "q" 2)]
    | _ => .error ()

/-- the program, with any arithmetic -/
def toyCfg (fp : LJ.Index.FP) : Cfg := ⟨LJ.Process.toy.decode, fun _ => true, fun s => s.length, fp⟩

/-- the model of `a` -/
def toyModel : LJ.Report.Model (Content demoTexts) (Source demoTexts) String :=
  ⟨[.file (toySource "a")], [("n", ⟨[toySource "a"], [[LJ.Tokenizer.process (fun _ => true) "p".toList]], 1, 1⟩)]⟩

theorem toyTrained (fp : LJ.Index.FP) : LJ.Report.train (toySources.world (toyCfg fp) true) id [.file (toySource "a")] = .ok toyModel := rfl

theorem toySaveable : Spec.Saveable toyModel where
  utf8 := by decide +kernel
  fits := by decide +kernel

/-- clocks which are all at 0 -/
def toyClocks : Clocks := ⟨⟨0, 0⟩, fun _ => (⟨0, 0⟩, ⟨0, 0⟩)⟩

/-- The hypotheses of `C93_report` hold of this training. -/
example {fp : LJ.Index.FP} (hf : fp.IsF32) : ∃ s b, keep (toyCfg fp) true toyClocks toyModel = some s ∧ (LJ.Codec.model demoTexts).enc s = some b :=
  let ⟨s, b, h1, h2, _⟩ := C93_report (cfg := toyCfg fp) hf toySources toyClocks (fun _ => List.Perm.refl _) (toyTrained fp) toySaveable
  ⟨s, b, h1, h2⟩

/-- a compression which adds nothing -/
def toyGzip : Gzip where
  enc b := b
  dec b := b
  whole _ := rfl
  part _ _ := List.take_prefix _ _

/-- The commands around: paths are numbers, inputs are names of files, and a page only tells the number of lines. -/
def toyCommands : World Nat String (Content demoTexts) (LJ.Codec.Model demoTexts) (Rep demoTexts Unit Unit) Unit where
  fromInput s := .ok (.file (toySource s))
  discover _ := .ok []
  train _ := .error ()
  report _ _ := .error ()
  live _ _ := .ok ()
  render r := .ok [UInt8.ofNat r.totalLineCount]
  encModel _ := .error ()
  decModel _ := .error ()
  encReport _ := .ok []
  withJson p := p + 1
  createErr _ := none
  limit _ := none
  held _ := 0
  notFound := ()
  permission := ()
  noSpace := ()
  ambiguous := ()
  noModelPath := ()

def toyExecution : Execution demoTexts := ⟨toyClocks, id, id⟩

def toyFailures : Failures demoTexts Unit Unit := ⟨fun _ => (), fun _ => (), ()⟩

noncomputable def toyWorld (fp : LJ.Index.FP) : World Nat String (Content demoTexts) (LJ.Codec.Model demoTexts) (Rep demoTexts Unit Unit) Unit :=
  commands toyCommands (toyCfg fp) toySources toyGzip toyFailures toyExecution

theorem toyReport {fp : LJ.Index.FP} (hf : fp.IsF32) {s : LJ.Codec.Model demoTexts} (hk : keep (toyCfg fp) true toyClocks toyModel = some s) :
    ∃ r, (toyWorld fp).report s (.file (toySource "b")) = .ok r := by
  obtain ⟨s', h1, h2⟩ := C93_memory (cfg := toyCfg fp) hf toySources toyClocks (fun _ => List.Perm.refl _) (toyTrained fp)
  rw [hk] at h1
  cases h1
  obtain ⟨res, a1, a2⟩ := LJ.Report.report_total (LJ.Report.searchOk_indexWorld (cfg := toyCfg fp) (hashing := true) (list := toySources.list)
    (valid := toySources.valid) (nameOf := toySources.nameOf) (isJson := toySources.isJson) (openSource := toySources.openSource) hf.standard) toyModel id
    (fun _ => List.Perm.refl _) (.file (toySource "b"))
  obtain ⟨r, rfl⟩ := a2.2 ⟨fun e h => by simp [LJ.Report.indexWorld, toySources] at h, by simp [LJ.Report.indexWorld, toySources, LJ.Report.Spec.validSources]⟩
  refine ⟨r, ?_⟩
  have e : report (toyCfg fp) toySources s id (.file (toySource "b")) = some (.ok r) := by rw [h2]; exact a1
  simp only [toyWorld, commands, toyExecution, e]

/-- A world without files. -/
def toyFiles : Fs Nat := ⟨fun _ => none, fun _ => false⟩

theorem model_of_ok {P I C M R Er : Type} [DecidableEq P] {w : World P I C M R Er} {cache : Bool} {fs : Fs P} {report path : Option P} {bs : Option (List I)} {input : I}
    (h : (process w alone cache fs report path bs input).result = .ok ()) : ∃ m, (process w alone cache fs report path bs input).model = some m := by
  unfold process at h ⊢
  split at h
  · cases h
  · split at h
    · cases h
    · split at h
      · cases h
      · exact ⟨_, rfl⟩

/-- The hypotheses of `C93_runs` hold: the model of `a` is saved in the file 5, then used for `b`, and `a` and `b` are compared without it. -/
example {fp : LJ.Index.FP} (hf : fp.IsF32) : ∃ m, ¬ Visible toyFiles 5 ∧
    (process (toyWorld fp) alone false toyFiles none (some 5) (some ["a"]) "b").model = some m ∧
    (process (toyWorld fp) alone false (process (toyWorld fp) alone false toyFiles none (some 5) (some ["a"]) "b").fs (some 7) (some 5) none "b").result = .ok () ∧
    (process (toyWorld fp) alone false toyFiles (some 7) none (some ["a"]) "b").result = .ok () := by
  obtain ⟨s, b, k1, k2, _⟩ := C93_report (cfg := toyCfg fp) hf toySources toyClocks (fun _ => List.Perm.refl _) (toyTrained fp) toySaveable
  obtain ⟨r, hr⟩ := toyReport hf k1
  have htrain : (toyWorld fp).train [.file (toySource "a")] = .ok s := by
    simp only [toyWorld, commands, toyExecution, toyTrained, k1]
  have henc : (toyWorld fp).encModel s = .ok b := by
    simp only [toyWorld, commands, k2, toyGzip]
  have hbase : LJ.Cli.Spec.Baselines (toyWorld fp) (.file (toySource "b")) (some ["a"]) [.file (toySource "a")] := .given (.cons rfl .nil)
  have hvis : ¬ Visible toyFiles 5 := by rintro ⟨_, b, h⟩; cases h
  have hsave : ∀ fs : Fs Nat, fs.denied = (fun _ => false) → LJ.Cli.Spec.CanSave (toyWorld fp) fs 5 ((toyWorld fp).encModel s) := fun fs hd =>
    ⟨⟨by rw [hd], rfl⟩, b, henc, nofun⟩
  have h1 : (process (toyWorld fp) alone false toyFiles none (some 5) (some ["a"]) "b").result = .ok () := by
    refine (LJ.Cli.C89_status _ _ _ _ _ _).2 ⟨.file (toySource "b"), s, rfl, .trained ?_ hbase htrain, ?_, .live rfl⟩
    · rintro p ⟨⟩; exact hvis
    · rintro p ⟨⟩ _; exact hsave _ rfl
  obtain ⟨m, hm⟩ := model_of_ok h1
  have hms : m = s := by
    obtain ⟨c, _, hch⟩ := LJ.Cli.C67_model _ _ _ _ _ _ _ hm
    cases hch with
    | trained _ hb ht =>
      cases hb with
      | given hi =>
        cases hi with
        | cons h1 h2 =>
          cases h2
          cases h1
          rw [htrain] at ht
          cases ht
          rfl
  subst hms
  have hload := LJ.Cli.C67_saved (commands_format toyCommands (toyCfg fp) toySources toyGzip toyFailures toyExecution) false (some ["a"]) "b" hvis
    (by rintro (h | ⟨h, _⟩) <;> cases h) rfl hm
  have hden := LJ.Cli.process_denied (w := toyWorld fp) false toyFiles none (some 5) (some ["a"]) "b"
  refine ⟨m, hvis, hm, ?_, ?_⟩
  · have hload : LJ.Cli.load (toyWorld fp) (process (toyWorld fp) alone false toyFiles none (some 5) (some ["a"]) "b").fs 5 = .ok m := hload
    generalize (process (toyWorld fp) alone false toyFiles none (some 5) (some ["a"]) "b").fs = fs' at hload hden ⊢
    have hd : fs'.denied = fun _ => false := hden
    obtain ⟨c, hc, hdec⟩ : ∃ c, fs'.files 5 = some c ∧ (toyWorld fp).decModel c = .ok m := by
      unfold LJ.Cli.load LJ.Cli.readFile at hload
      rw [hd] at hload
      cases hfile : fs'.files 5 with
      | none => rw [hfile] at hload; cases hload
      | some c => rw [hfile] at hload; exact ⟨c, rfl, hload⟩
    refine (LJ.Cli.C89_status _ _ _ _ _ _).2 ⟨.file (toySource "b"), m, rfl, .loaded (by rw [hd]) hc hdec, ?_, ?_⟩
    · rintro p ⟨⟩ hn; exact absurd ⟨by rw [hd], c, hc⟩ hn
    · exact .page hr nofun rfl ⟨by rw [hd], rfl⟩ nofun
  · refine (LJ.Cli.C89_status _ _ _ _ _ _).2 ⟨.file (toySource "b"), m, rfl, .trained nofun hbase htrain, nofun, ?_⟩
    exact .page hr nofun rfl ⟨rfl, rfl⟩ nofun

end LJ.Saved

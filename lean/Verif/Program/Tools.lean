/-
C121: the status of the commands which compare nothing: `test` and the debug commands.
-/
import Verif.Program.Props
import Verif.Program.Toy
import Verif.Cli.DatasetProps
namespace LJ.Program
open LJ.Process (Str Bytes Ev)
open LJ.Paths (Input Res)
open LJ.Output (OutputMode println decimal)
open LJ.Cli (Fs)
open Spec (Orders sourcesOf)
variable {C S N D E ε : Type} [DecidableEq N] {T : Tool C S N D E ε}

/-! ### Specification -/

/-- The commands which compare nothing and train nothing. -/
def Tooling : Command → Prop
  | .test _ | .debugGroups _ | .debugTokenizer _ | .debugIndexname _ | .debugIterator _ => True
  | _ => False

/-- A dataset passes: its `inf.yaml` is read, its two files are there, the good one can be learnt and the
failed one read to its end, and the anomalies are the expected ones. -/
def DatasetPasses {C S N D E ε Y : Type} [DecidableEq N] (w : LJ.Report.World C S N D E ε) (source : Str → S) (f : LJ.Dataset.Files Y) : Prop :=
  ∃ expected paths good fail index reader, f.inf = .ok expected ∧ f.dir = .ok (paths.map .ok) ∧
    LJ.Dataset.Spec.FirstWith "good".toList paths good ∧ LJ.Dataset.Spec.FirstWith "fail".toList paths fail ∧
    w.valid (source good) = true ∧ LJ.Report.trainIndex w [source good] = .ok index ∧ w.openSource (source fail) = .ok reader ∧
    let run := LJ.Process.process (LJ.Report.envOf w index.chunks) [] (reader (w.isJson (source fail)))
    run.2.1 = .finished ∧ LJ.Dataset.Spec.Passes expected (LJ.Dataset.linesOf run.1)

/-! ### The files are left as they are -/

/-- These commands write no file. -/
theorem C121_files (mode : OutputMode) (cache : Bool) (fs : Fs Str) {args : Args} (h : Tooling args.command) :
    (T.run mode cache fs args).fs = fs ∧ (T.run mode cache fs args).model = none := by
  unfold Tool.run
  cases hc : args.command <;> rw [hc] at h <;> first | exact ⟨rfl, rfl⟩ | exact absurd h id

/-! ### `test` -/

/-- `test` succeeds exactly when every dataset passes; it panics or fails otherwise.  `files` are the files of each
dataset, `w` the files and the hashing index. -/
theorem C121_test {C' S' N' D' E' ε' Y : Type} [DecidableEq N'] {w : LJ.Report.World C' S' N' D' E' ε'}
    {order : List (N' × List S') → List (N' × List S')} (ho : ∀ g, (order g).Perm g) (hs : LJ.Report.SearchOk w) (file : Str → C')
    (source : Str → S') (hf : ∀ p, w.list (file p) = [.ok (source p)]) (empty : N') (files : Str → LJ.Dataset.Files Y) (datasets : List Str)
    (hT : (T.test datasets).2 = (LJ.Dataset.testDatasets w order file source empty (datasets.map files)).map fun r => r.isOk)
    (mode : OutputMode) (cache : Bool) (fs : Fs Str) (report model : Option Str) :
    ((T.run mode cache fs ⟨report, model, .test datasets⟩).result = .ok () ↔ ∀ d ∈ datasets, DatasetPasses w source (files d)) ∧
    (T.run mode cache fs ⟨report, model, .test datasets⟩).printed = (T.test datasets).1 := by
  refine ⟨?_, rfl⟩
  have h1 : (T.run mode cache fs ⟨report, model, .test datasets⟩).result = .ok () ↔ (T.test datasets).2 = some true := by
    show testResult (T.test datasets).2 = .ok () ↔ _
    rcases (T.test datasets).2 with _ | _ | _ <;> simp [testResult]
  have h2 : (T.test datasets).2 = some true ↔ LJ.Dataset.testDatasets w order file source empty (datasets.map files) = some (.ok ()) := by
    rw [hT]
    rcases LJ.Dataset.testDatasets w order file source empty (datasets.map files) with _ | e | u
    · simp
    · simp [Except.isOk, Except.toBool]
    · cases u; simp [Except.isOk, Except.toBool]
  rw [h1, h2, (LJ.Dataset.C68_datasets file source empty (datasets.map files)).1]
  simp only [List.forall_mem_map]
  constructor
  · intro h d hd
    obtain ⟨expected, he, hp⟩ := h d hd
    obtain ⟨paths, good, fail, index, reader, a1, a2, a3, a4, a5, a6, a7⟩ := (LJ.Dataset.C68_process ho hs file source hf empty _ _).1 hp
    exact ⟨expected, paths, good, fail, index, reader, he, a1, a2, a3, a4, a5, a6, a7⟩
  · intro h d hd
    obtain ⟨expected, paths, good, fail, index, reader, he, a1, a2, a3, a4, a5, a6, a7⟩ := h d hd
    exact ⟨expected, he, (LJ.Dataset.C68_process ho hs file source hf empty _ _).2 ⟨paths, good, fail, index, reader, a1, a2, a3, a4, a5, a6, a7⟩⟩

/-! ### `debug-groups` -/

theorem ofRes_ok {α : Type} {r : Res α} {x : α} : (ofRes r : Except (Problem C E) α) = .ok x ↔ r = .ok x := by
  cases r <;> simp [ofRes]

/-- `debug-groups` succeeds exactly when its target can be found and listed, and has a source which is kept; it prints
nothing otherwise. -/
theorem C121_groups (mode : OutputMode) (cache : Bool) (fs : Fs Str) (report model : Option Str) (target : Str) :
    let d := T.run mode cache fs ⟨report, model, .debugGroups target⟩
    (d.result = .ok () ↔ ∃ content, T.fromInput (Input.fromString target) = .ok content ∧
      LJ.Report.Spec.Usable T.logs.valid (T.logs.list content)) ∧ (d.result ≠ .ok () → d.printed = []) := by
  have e : T.run mode cache fs ⟨report, model, .debugGroups target⟩ = keep fs (T.debugGroups (Input.fromString target)) := rfl
  rw [e]
  unfold Tool.debugGroups keep
  cases hi : (ofRes (T.fromInput (Input.fromString target)) : Except (Problem C E) C) with
  | error x =>
    refine ⟨iff_of_false (by simp) ?_, fun _ => rfl⟩
    rintro ⟨content, hc, _⟩
    rw [hc] at hi
    cases hi
  | ok content =>
    have hc := ofRes_ok.1 hi
    simp only
    cases hg : LJ.Report.groupSources T.logs [content] with
    | error x =>
      refine ⟨iff_of_false (by simp) ?_, fun _ => rfl⟩
      rintro ⟨content', hc', hu⟩
      rw [hc] at hc'
      cases hc'
      obtain ⟨g, h, _⟩ := LJ.Report.C35_groups (w := T.logs) (cs := [content]) (by
        intro c hm; rw [List.mem_singleton] at hm; subst hm; exact hu)
      rw [hg] at h; cases h
    | ok gs =>
      refine ⟨iff_of_true rfl ⟨content, hc, (LJ.Report.groupSources_ok_iff hg).1 content (by simp)⟩, fun h => absurd rfl h⟩

/-! ### `debug-iterator` -/

/-- `debug-iterator` succeeds exactly when its path can be found and listed, and the first source it keeps can be opened.
It then prints one text for each line, and nothing otherwise; it always has a source to print. -/
theorem C121_iterator (mode : OutputMode) (cache : Bool) (fs : Fs Str) (report model : Option Str) (path : Str) :
    let d := T.run mode cache fs ⟨report, model, .debugIterator path⟩
    (∀ content s ss reader, T.fromInput (.path path) = .ok content → LJ.Report.Spec.Usable T.logs.valid (T.logs.list content) →
      sourcesOf T content = s :: ss → T.logs.openSource s = .ok reader →
        d.result = .ok () ∧ d.printed = (reader (T.logs.isJson s)).map T.iterLine) ∧
    (d.result = .ok () → ∃ content s ss reader, T.fromInput (.path path) = .ok content ∧
      LJ.Report.Spec.Usable T.logs.valid (T.logs.list content) ∧ sourcesOf T content = s :: ss ∧ T.logs.openSource s = .ok reader) ∧
    (d.result ≠ .ok () → d.printed = []) := by
  have e : T.run mode cache fs ⟨report, model, .debugIterator path⟩ = keep fs (T.debugIterator path) := rfl
  rw [e]
  unfold Tool.debugIterator keep
  cases hi : (ofRes (T.fromInput (.path path)) : Except (Problem C E) C) with
  | error x =>
    refine ⟨?_, by simp, fun _ => rfl⟩
    intro content s ss reader hc
    rw [hc] at hi
    cases hi
  | ok content =>
    have hc := ofRes_ok.1 hi
    simp only
    rw [hc]
    by_cases hu : LJ.Report.Spec.Usable T.logs.valid (T.logs.list content)
    · rw [LJ.Report.getSources_ok hu]
      simp only
      obtain ⟨s, ss, hss⟩ : ∃ s ss, LJ.Report.Spec.validSources T.logs.valid (T.logs.list content) = s :: ss := by
        cases h : LJ.Report.Spec.validSources T.logs.valid (T.logs.list content) with
        | nil => exact absurd h hu.2
        | cons s ss => exact ⟨s, ss, rfl⟩
      have hss' : sourcesOf T content = s :: ss := hss
      rw [hss]
      simp only [Tool.debugFirst]
      cases ho : T.logs.openSource s with
      | error x =>
        refine ⟨?_, by simp, fun _ => rfl⟩
        rintro content' s' ss' reader hc' _ hs' ho'
        cases hc'
        rw [hss'] at hs'
        cases hs'
        rw [ho] at ho'; cases ho'
      | ok reader =>
        refine ⟨?_, fun _ => ⟨content, s, ss, reader, rfl, hu, hss', ho⟩, fun h => absurd rfl h⟩
        rintro content' s' ss' reader' hc' _ hs' ho'
        cases hc'
        rw [hss'] at hs'
        cases hs'
        rw [ho] at ho'
        cases ho'
        exact ⟨rfl, rfl⟩
    · obtain ⟨x, hx⟩ : ∃ x, LJ.Report.getSources T.logs content = .error x := by
        rcases LJ.Report.getSources_err hu with ⟨e, _, h⟩ | ⟨_, _, h⟩ <;> exact ⟨_, h⟩
      rw [hx]
      refine ⟨?_, by simp, fun _ => rfl⟩
      rintro content' s' ss' reader' hc' hu'
      cases hc'
      exact absurd hu' hu

/-! ### The others -/

/-- `debug-tokenizer` and `debug-indexname` always succeed, and print what the tokenizer and the index name give. -/
theorem C121_pure (mode : OutputMode) (cache : Bool) (fs : Fs Str) (report model : Option Str) (x : Str) :
    ((T.run mode cache fs ⟨report, model, .debugTokenizer x⟩).result = .ok () ∧
      (T.run mode cache fs ⟨report, model, .debugTokenizer x⟩).printed = [T.tokenizer x ++ ['\n', '\n']]) ∧
    (T.run mode cache fs ⟨report, model, .debugIndexname x⟩).result = .ok () ∧
      (T.run mode cache fs ⟨report, model, .debugIndexname x⟩).printed = [T.indexName x ++ ['\n']] := by
  refine ⟨⟨rfl, ?_⟩, rfl, rfl⟩
  show [println (T.tokenizer x ++ ['\n'])] = _
  simp [println]

/-! ### Cases -/

/-- the tool of the examples, with files which can't be opened, or not read to the end, and the datasets of `toyWorld` -/
def brokenTool (openSource : Nat → Except Unit (Bool → List (Ev Unit))) (sets : Str → LJ.Dataset.Files Unit) : Tool Unit Nat Nat Nat Unit Unit :=
  { toyTool with
    logs := { toyTool.logs with openSource := openSource }
    test := fun ds => ([], (LJ.Dataset.testDatasets LJ.Dataset.toyWorld id id id [] (ds.map sets)).map fun r => r.isOk) }

/-- the dataset `good` passes, `bad` does not, `worse` has an entry which can't be read -/
def toySets (d : Str) : LJ.Dataset.Files Unit :=
  if d = "good".toList then ⟨.ok ["memory".toList], .ok LJ.Dataset.toyDir⟩
  else if d = "bad".toList then ⟨.ok [], .ok LJ.Dataset.toyDir⟩
  else ⟨.ok ["memory".toList], .ok (.error () :: LJ.Dataset.toyDir)⟩

/-- `test` with one, two and three datasets -/
example : ((brokenTool (fun _ => .error ()) toySets).run .quiet false ⟨fun _ => none, fun _ => false⟩ ⟨none, none, .test ["good".toList]⟩).result = .ok () ∧
    ((brokenTool (fun _ => .error ()) toySets).run .quiet false ⟨fun _ => none, fun _ => false⟩ ⟨none, none, .test ["good".toList, "bad".toList]⟩).result = .error .dataset ∧
    ((brokenTool (fun _ => .error ()) toySets).run .quiet false ⟨fun _ => none, fun _ => false⟩ ⟨none, none, .test ["worse".toList, "bad".toList]⟩).result = .error .panic := by
  refine ⟨?_, ?_, ?_⟩ <;> decide +kernel

/-- the hypotheses of `C121_test` -/
example : (∀ g : List (Str × List Str), (id g).Perm g) ∧ LJ.Report.SearchOk LJ.Dataset.toyWorld ∧ (∀ p, LJ.Dataset.toyWorld.list (id p) = [.ok (id p)]) ∧
    ∀ ds, ((brokenTool (fun _ => .error ()) toySets).test ds).2 =
      (LJ.Dataset.testDatasets LJ.Dataset.toyWorld id id id [] (ds.map toySets)).map fun r => r.isOk :=
  ⟨fun _ => .rfl, LJ.Dataset.toyWorld_search, fun _ => rfl, fun _ => rfl⟩

/-- An error met while the file is read is printed among the lines, and the command succeeds. -/
theorem C121_unread (mode : OutputMode) (cache : Bool) (fs : Fs Str) :
    let d := (brokenTool (fun _ => .ok fun _ => [.ok ([120], 1), .error ()]) toySets).run mode cache fs ⟨none, none, .debugIterator "x".toList⟩
    d.result = .ok () ∧ d.printed.length = 2 := ⟨rfl, rfl⟩

/-- a file which can't be opened -/
example (mode : OutputMode) (cache : Bool) (fs : Fs Str) :
    let d := (brokenTool (fun _ => .error ()) toySets).run mode cache fs ⟨none, none, .debugIterator "x".toList⟩
    d.result = .error (.opening ()) ∧ d.printed = [] := ⟨rfl, rfl⟩

end LJ.Program

/-
C130: exactly what the live output prints, whatever the listing, the readers and the model.
-/
import Verif.Output.Live
import Verif.Report.Exact
namespace LJ.Output
open LJ.Process (Str Anomaly AnomalyContext Err Ev Env process toyL Stop)
open LJ.Report (World Index Model lookupOrSingle getSources envOf inspect SearchOk stopErr)
open LJ.Report.Spec (validSources Usable)

variable {C S N D E ε : Type} [DecidableEq N]

namespace Spec

/-- A number. -/
def digits (n : Nat) : Str := Nat.toDigits 10 n

/-- A line around an anomaly. -/
def around (line : Str) (num : Nat) : Str := "   ".toList ++ digits num ++ " | ".toList ++ line ++ ['\n']

/-- The number given to the first line of the context of an anomaly (too small by one, see C66). -/
def firstNum (c : AnomalyContext D) : Nat := c.anomaly.pos - (c.before.length + 1)

/-- An anomaly and the lines around it.  The lines are numbered from the first number before it, and from its own number after it. -/
def printedAround (score : D → Str) (c : AnomalyContext D) : List Str :=
  (c.before.zipIdx (firstNum c)).map (fun x => around x.1 x.2) ++
    [score c.anomaly.distance ++ " ".toList ++ digits c.anomaly.pos ++ " | ".toList ++ c.anomaly.line ++ ['\n']] ++
    (c.after.zipIdx c.anomaly.pos).map fun x => around x.1 x.2

/-- The anomalies of a source, with dashes between two of them unless the numbers of the second follow those of the first. -/
def blocks (score : D → Str) : List (AnomalyContext D) → List Str
  | [] => []
  | [c] => printedAround score c
  | c :: d :: cs => printedAround score c ++ (if c.anomaly.pos + c.after.length = firstNum d then [] else ["--\n".toList]) ++ blocks score (d :: cs)

/-- What becomes of a source. -/
inductive Outcome (S D E ε : Type) where
  | noBaseline (source : S)
  | closed (source : S) (e : E)
  | inspected (source : S) (anomalies : List (AnomalyContext D)) (error : Option (Err ε)) (lines : Nat)

/-- A text of progress, on a terminal. -/
def onTerminal (mode : OutputMode) (msg : Str) : List Str :=
  if mode = .fastTerminal then ["\r\x1b[1;33m[+]\x1b[0m ".toList ++ msg] else []

/-- What is printed for a source.  On a terminal, its name, and an empty line before what is found in it. -/
def Outcome.text (lb : LiveLabels C S D E ε) (mode : OutputMode) : Outcome S D E ε → List Str
  | .noBaseline s => [" -> No baselines for ".toList ++ lb.source s ++ ['\n']]
  | .closed s e => onTerminal mode ("Inspecting ".toList ++ lb.source s) ++ ["Could not read ".toList ++ lb.source s ++ ": ".toList ++ lb.openErr e ++ ['\n']]
  | .inspected s [] none _ => onTerminal mode ("Inspecting ".toList ++ lb.source s)
  | .inspected s anomalies error _ =>
    onTerminal mode ("Inspecting ".toList ++ lb.source s) ++ (if mode = .fastTerminal then [['\n']] else []) ++ blocks lb.score anomalies ++
      (match error with
      | none => []
      | some e => ["Could not read ".toList ++ lb.source s ++ ": ".toList ++ lb.readErr e ++ ['\n']])

/-- The lines and the anomalies counted. -/
def Outcome.lines : Outcome S D E ε → Nat
  | .inspected _ _ _ n => n
  | _ => 0

def Outcome.count : Outcome S D E ε → Nat
  | .inspected _ as _ _ => as.length
  | _ => 0

/-- The progress of this source is still on the line of the cursor, or an error of opening was printed. -/
def Outcome.unfinished : Outcome S D E ε → Bool
  | .noBaseline _ => false
  | .closed _ _ => true
  | .inspected _ as e _ => as.isEmpty && e.isNone

/-- The error which ends the reading of a source. -/
def failure : Stop ε → Option (Err ε)
  | .failed e => some e
  | _ => none

/-- The sources are inspected one by one, each alone, until one which has a baseline and can't be opened.  `dist` gives the distance to the
baseline of a name, if there is one. -/
def outcomes (tok : Str → Str) (dist : N → Option (Str → D)) (over : D → Bool) (decode : LJ.Process.Bytes → Option Str) (nameOf : S → N)
    (content : S → Except E (List (Ev ε))) : List S → List (Outcome S D E ε)
  | [] => []
  | s :: ss =>
    match dist (nameOf s) with
    | none => .noBaseline s :: outcomes tok dist over decode nameOf content ss
    | some f =>
      match content s with
      | .error e => [.closed s e]
      | .ok evs =>
        let spec := LJ.Process.Spec.shown tok f over decode (.start []) evs
        .inspected s spec.1 (failure spec.2.1) spec.2.2.read :: outcomes tok dist over decode nameOf content ss

/-- All that is printed for a target: the texts of the outcomes in order, then on a terminal the last progress is erased if nothing was printed
after it, and the totals are shown. -/
def live (lb : LiveLabels C S D E ε) (mode : OutputMode) (content : C) (os : List (Outcome S D E ε)) : List Str :=
  os.flatMap (Outcome.text lb mode) ++
    (if mode = .fastTerminal ∧ (os.getLast?.all Outcome.unfinished) then ["\r\x1b[K".toList] else []) ++
    onTerminal mode (lb.content content ++ ": Reduced from ".toList ++ digits (os.map Outcome.lines).sum ++ " to ".toList ++ digits (os.map Outcome.count).sum)

end Spec
open Spec (firstNum around printedAround blocks Outcome outcomes)

theorem decimal_digits (n : Nat) : decimal n = Spec.digits n := rfl

theorem printContextFrom_eq (pos : Nat) (xs : List Str) : ∀ i, printContextFrom pos i xs = (xs.zipIdx (pos + i)).map fun x => around x.1 x.2 := by
  induction xs with
  | nil => intro i; rfl
  | cons x xs ih =>
    intro i
    rw [printContextFrom, ih, List.zipIdx_cons, List.map_cons]
    rfl

theorem startingPos_eq (c : AnomalyContext D) : startingPos c.anomaly.pos (1 + c.before.length) = firstNum c := by
  unfold startingPos firstNum
  split <;> omega

theorem printAnomaly_eq (lb : LiveLabels C S D E ε) (last : Option Nat) (c : AnomalyContext D) :
    printAnomaly lb last c = (dashes last (firstNum c) ++ printedAround lb.score c, c.anomaly.pos + c.after.length) := by
  unfold printAnomaly printedAround printContext println
  simp only [startingPos_eq, printContextFrom_eq, Nat.add_zero, decimal_digits, List.append_assoc]

theorem dashes_some (l n : Nat) : dashes (some l) n = if l = n then [] else ["--\n".toList] := by
  unfold dashes
  by_cases h : l = n <;> simp [h, println]

theorem printAnomalies_eq (lb : LiveLabels C S D E ε) : ∀ (cs : List (AnomalyContext D)) (last : Option Nat),
    printAnomalies lb last cs = (match cs with | [] => [] | c :: _ => dashes last (firstNum c)) ++ blocks lb.score cs
  | [], _ => rfl
  | [c], last => by
    rw [printAnomalies, printAnomaly_eq]
    simp only [printAnomalies, blocks, List.append_nil]
  | c :: d :: cs, last => by
    rw [printAnomalies, printAnomaly_eq]
    simp only
    rw [printAnomalies_eq lb (d :: cs)]
    simp only [blocks, dashes_some, List.append_assoc]

theorem progress_spec (mode : OutputMode) (msg : Str) : progress mode msg = Spec.onTerminal mode msg := by
  cases mode <;> rfl

theorem failure_eq (x : Stop ε) : Spec.failure x = stopErr x := by cases x <;> rfl

theorem sep_eq (mode : OutputMode) : progressSep mode true = if mode = .fastTerminal then [['\n']] else [] := by
  cases mode <;> rfl

theorem inspected_text (lb : LiveLabels C S D E ε) (mode : OutputMode) (s : S) (as : List (AnomalyContext D)) (err : Option (Err ε)) (n : Nat) :
    progress mode ("Inspecting ".toList ++ lb.source s) ++ progressSep mode (!as.isEmpty || err.isSome) ++ printAnomalies lb none as ++ readErrLines lb s err =
      Outcome.text lb mode (.inspected s as err n) := by
  rw [progress_spec, printAnomalies_eq]
  cases as with
  | nil =>
    cases err with
    | none =>
      have : progressSep mode false = [] := by cases mode <;> rfl
      show _ ++ progressSep mode false ++ _ ++ [] = _
      rw [this]
      simp only [blocks, List.append_nil]
      rfl
    | some e =>
      show _ ++ progressSep mode true ++ ([] ++ _) ++ [couldNotRead lb s (lb.readErr e)] = _
      rw [sep_eq, couldNotRead_eq]
      rfl
  | cons a as =>
    cases err with
    | none =>
      show _ ++ progressSep mode true ++ ([] ++ _) ++ [] = _
      rw [sep_eq]
      rfl
    | some e =>
      show _ ++ progressSep mode true ++ ([] ++ _) ++ [couldNotRead lb s (lb.readErr e)] = _
      rw [sep_eq, couldNotRead_eq]
      rfl

variable {w : World C S N D E ε}

/-- the loop over the sources prints the texts of the outcomes -/
theorem liveSources_outcomes (hs : SearchOk w) (lb : LiveLabels C S D E ε) (mode : OutputMode) (m : Model C S N) {dist : N → Option (Str → D)}
    (hd : ∀ n, match lookupOrSingle m.indexes n with
      | some i => ∃ f, dist n = some f ∧ LJ.Process.Spec.Pointwise (w.search i.chunks) f
      | none => dist n = none) :
    ∀ (ss : List S) (st : Live), ∃ st', liveSources w lb mode m ss st = some st' ∧
      let os := outcomes w.tokenize dist w.over w.decode w.nameOf (LJ.Report.content w) ss
      st'.out = st.out ++ os.flatMap (Outcome.text lb mode) ∧ st'.lineCount = st.lineCount + (os.map Outcome.lines).sum ∧
      st'.anomalyCount = st.anomalyCount + (os.map Outcome.count).sum ∧
      (mode = .fastTerminal → st'.sepShown = match os.getLast? with | some o => !o.unfinished | none => st.sepShown) := by
  intro ss
  induction ss with
  | nil => intro st; exact ⟨st, rfl, by simp [outcomes]⟩
  | cons s ss ih =>
    intro st
    have hn := hd (w.nameOf s)
    rw [liveSources]
    have hlast : ∀ (o : Outcome S D E ε) (os : List (Outcome S D E ε)) (b b' : Bool), b = !o.unfinished →
        (match os.getLast? with | some o => !o.unfinished | none => b) = match (o :: os).getLast? with | some o => !o.unfinished | none => b' := by
      intro o os b b' h
      cases os with
      | nil => simpa using h
      | cons x xs => rw [List.getLast?_cons_cons]; cases hx : (x :: xs).getLast? with
        | none => simp at hx
        | some y => rfl
    cases hi : lookupOrSingle m.indexes (w.nameOf s) with
    | none =>
      rw [hi] at hn
      have e : liveOne w lb mode m s st = some (true, noBaselines lb s st) := by unfold liveOne; rw [hi]
      rw [e]
      obtain ⟨st', h1, h2, h3, h4, h5⟩ := ih (noBaselines lb s st)
      refine ⟨st', h1, ?_⟩
      simp only [outcomes, hn]
      refine ⟨?_, ?_, ?_, fun hm => ?_⟩
      · rw [h2, noBaselines_out, List.flatMap_cons, List.append_assoc]
        rfl
      · rw [h3]; simp [Outcome.lines, noBaselines]
      · rw [h4]; simp [Outcome.count, noBaselines]
      · rw [h5 hm]
        exact hlast _ _ _ st.sepShown rfl
    | some index =>
      rw [hi] at hn
      obtain ⟨f, hf, hpt⟩ := hn
      cases ho : w.openSource s with
      | error e =>
        have hos : outcomes w.tokenize dist w.over w.decode w.nameOf (LJ.Report.content w) (s :: ss) = [.closed s e] := by
          simp only [outcomes, hf, LJ.Report.content, ho]
        have htext : sourceText w lb mode m s = Outcome.text lb mode (.closed s e : Outcome S D E ε) := by
          unfold sourceText
          rw [hi, ho]
          show progress mode _ ++ _ = _
          rw [progress_spec]
          rfl
        have hone : liveOne w lb mode m s st = _ := liveOne_blocked lb mode m ⟨by rw [hi]; rfl, e, ho⟩ st
        rw [hone, htext, hos]
        exact ⟨_, rfl, by rw [List.flatMap_singleton], rfl, rfl, fun _ => rfl⟩
      | ok reader =>
        have e : liveOne w lb mode m s st = liveSource w lb mode index s st := by unfold liveOne; rw [hi]
        rw [e]
        unfold liveSource
        simp only [ho]
        rw [LJ.Report.inspect_some hs]
        simp only
        obtain ⟨p1, p2, _, p4, _⟩ := LJ.Report.process_congr (env := envOf w index.chunks) (ε := ε) hpt [] [] (fun _ => .rfl) (reader (w.isJson s))
        generalize hp : process (envOf w index.chunks) [] (reader (w.isJson s)) = p at p1 p2 p4
        obtain ⟨as, stop, ps⟩ := p
        simp only at p1 p2 p4 ⊢
        obtain ⟨st', h1, h2, h3, h4, h5⟩ := ih ⟨st.out ++ progress mode ("Inspecting ".toList ++ lb.source s) ++
          progressSep mode (!as.isEmpty || (stopErr stop).isSome) ++ printAnomalies lb none as ++ readErrLines lb s (stopErr stop),
          mode.inlined && (!as.isEmpty || (stopErr stop).isSome), st.lineCount + ps.lineCount, st.anomalyCount + as.length⟩
        refine ⟨st', h1, ?_⟩
        simp only [outcomes, hf, LJ.Report.content, ho]
        have q1 : (LJ.Process.Spec.shown w.tokenize f w.over w.decode (.start []) (reader (w.isJson s))).1 = as := p1.symm
        have q2 : (LJ.Process.Spec.shown w.tokenize f w.over w.decode (.start []) (reader (w.isJson s))).2.1 = stop := p2.symm
        have q4 : (LJ.Process.Spec.shown w.tokenize f w.over w.decode (.start []) (reader (w.isJson s))).2.2.read = ps.lineCount := p4.symm
        rw [q1, q2, q4]
        rw [failure_eq]
        refine ⟨?_, ?_, ?_, fun hm => ?_⟩
        · rw [h2, List.flatMap_cons]
          simp only [List.append_assoc]
          congr 1
          simp only [← List.append_assoc]
          congr 1
          exact inspected_text lb mode s as (stopErr stop) ps.lineCount
        · rw [h3]; simp [Outcome.lines, Nat.add_assoc]
        · rw [h4]; simp [Outcome.count, Nat.add_assoc]
        · rw [h5 hm]
          refine hlast _ _ _ st.sepShown ?_
          rw [hm]
          unfold Outcome.unfinished OutputMode.inlined
          cases as <;> cases stopErr stop <;> rfl

/-- C130.  For every listing, every result of the opening and reading of the sources, every model and every output mode: when the target can be
listed, exactly these texts are printed. -/
theorem C130_live (hs : SearchOk w) (lb : LiveLabels C S D E ε) (mode : OutputMode) (m : Model C S N) {content : C} (hu : Usable w.valid (w.list content))
    {dist : N → Option (Str → D)}
    (hd : ∀ n, match lookupOrSingle m.indexes n with
      | some i => ∃ f, dist n = some f ∧ LJ.Process.Spec.Pointwise (w.search i.chunks) f
      | none => dist n = none) :
    processLive w lb mode content m = some (.ok (Spec.live lb mode content
      (outcomes w.tokenize dist w.over w.decode w.nameOf (LJ.Report.content w) (validSources w.valid (w.list content))))) := by
  obtain ⟨st', h1, h2, h3, h4, h5⟩ := liveSources_outcomes hs lb mode m hd (validSources w.valid (w.list content)) ⟨[], false, 0, 0⟩
  unfold processLive
  rw [LJ.Report.getSources_ok hu]
  simp only [h1]
  simp only [Nat.zero_add, List.nil_append] at h2 h3 h4 h5
  generalize outcomes w.tokenize dist w.over w.decode w.nameOf (LJ.Report.content w) (validSources w.valid (w.list content)) = os at h2 h3 h4 h5
  unfold liveEnd Spec.live
  rw [h2, h3, h4, progress_spec]
  simp only [decimal_digits]
  congr 4
  by_cases hm : mode = .fastTerminal
  · rw [h5 hm, hm]
    cases os.getLast? with
    | none => rfl
    | some o => cases hu : o.unfinished <;> simp [hu, OutputMode.inlined]
  · cases mode <;> simp_all [OutputMode.inlined]

/-- the target 1 of `world1`, in a terminal -/
example : processLive LJ.Report.world1 liveLabels .fastTerminal 1 LJ.Report.model1 =
    some (.ok (["\r\x1b[1;33m[+]\x1b[0m Inspecting a2".toList, "\n".toList, "   0 | p\n".toList, "99 2 | q\n".toList] ++
      ["\r\x1b[1;33m[+]\x1b[0m Inspecting b2".toList] ++ ["\r\x1b[1;33m[+]\x1b[0m Inspecting a3".toList, "\n".toList, "99 1 | r\n".toList, "99 2 | q\n".toList] ++
      ["\r\x1b[1;33m[+]\x1b[0m Dir: Reduced from 6 to 3".toList])) := by
  refine (C130_live (w := LJ.Report.world1) (LJ.Report.small_search _ _) liveLabels .fastTerminal LJ.Report.model1 (content := 1)
    (by constructor
        · intro e he; simp [LJ.Report.world1, LJ.Report.small, LJ.Report.list1] at he
        · decide +kernel)
    (dist := fun n => (lookupOrSingle LJ.Report.model1.indexes n).map fun (i : LJ.Report.Index String) (t : Str) => if t ∈ i.chunks.flatten then 0 else 1)
    (by intro n
        cases hl : lookupOrSingle LJ.Report.model1.indexes n with
        | none => rfl
        | some i => exact ⟨_, rfl, fun _ => rfl⟩)).trans ?_
  decide +kernel

end LJ.Output

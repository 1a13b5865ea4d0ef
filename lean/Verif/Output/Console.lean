/-
Properties of the live output: C66 (line numbers) and C81 (every source is accounted for).
-/
import Verif.Output.Props
import Verif.Report.Props
namespace LJ.Output
open LJ.Process (Str Anomaly AnomalyContext Err Env LogLine process runWindows toy toyDist toyL toyS)
open LJ.Process.Spec (Line Window Shows Reads NoMarker Pointwise)
open LJ.Iterator (allLines build fromReads ascii)
open LJ.Iterator.Spec (Blocks)
open LJ.Report (World Index Model ListErr lookupOrSingle getSources envOf inspect SearchOk)
open Spec (block rows gap pageFrom page Numbered html console shifted Row)

variable {C S N D E ε : Type} {tok : Str → Str} {dist : Str → D}

/-! ### C66: the live output shows the lines with their numbers -/

theorem printAnomaly_page (lb : LiveLabels C S D E ε) {src : List Line} (hpos : ∀ l ∈ src, 0 < l.num)
    {c : AnomalyContext D} {w : Window} {prev : Option (List Line)} {last : Option Nat} (hs : Shows tok dist src c w)
    (hn : Numbered (block src w)) (hr : Remembers prev last) :
    ∃ n, printAnomaly lb last c = ((gap prev (block src w) ++ rows src w).map (fun r => console (lb.score ∘ dist ∘ tok) (shifted r)), n) ∧
      lastNum (block src w) = some n := by
  obtain ⟨bef, l, aft, e, hb, h1, h2, h3, h4, h5, h6, h7, h8, h9⟩ := window_facts hs hn hpos
  refine ⟨l.num + aft.length, ?_, h8⟩
  have hstart : startingPos l.num (1 + bef.length) = l.num - 1 - bef.length := by
    unfold startingPos
    split <;> omega
  have eb : printContext (l.num - 1 - bef.length) (bef.map Line.text) =
      bef.map fun l => println ("   ".toList ++ decimal (l.num - 1) ++ " | ".toList ++ l.text) := by
    rw [printContext, printContextFrom_ok, numberedFrom_lines _ 1 bef _ (by simpa using h5)]
  have ea : printContext l.num (aft.map Line.text) =
      aft.map fun l => println ("   ".toList ++ decimal (l.num - 1) ++ " | ".toList ++ l.text) := by
    rw [printContext, printContextFrom_ok, numberedFrom_lines _ 1 aft _ (by simpa using h6)]
  have es : dashes last (l.num - 1 - bef.length) = (gap prev (block src w)).map (fun r => console (lb.score ∘ dist ∘ tok) (shifted r)) := by
    rcases hr with ⟨rfl, rfl⟩ | ⟨x, n, rfl, rfl, hx⟩
    · rfl
    · rw [gap_eq _ hx h7]
      rfl
  unfold printAnomaly
  rw [h3, h1, h2]
  simp only [List.length_map]
  rw [hstart, eb, ea, es, List.map_append, rows_map _ e hb]
  rw [List.append_assoc (_ ++ _), List.append_assoc (List.map _ (gap prev (block src w))), List.singleton_append]
  rfl

theorem printAnomalies_page (lb : LiveLabels C S D E ε) {src : List Line} (hpos : ∀ l ∈ src, 0 < l.num)
    {cs : List (AnomalyContext D)} {ws : List Window} (h : List.Forall₂ (Shows tok dist src) cs ws) :
    (∀ w ∈ ws, Numbered (block src w)) → ∀ prev last, Remembers prev last →
      printAnomalies lb last cs = (pageFrom src prev ws).map (fun r => console (lb.score ∘ dist ∘ tok) (shifted r)) := by
  induction h with
  | nil => intros; rfl
  | @cons c w cs ws hc _ ih =>
    intro hn prev last hr
    obtain ⟨n, h1, h2⟩ := printAnomaly_page lb hpos hc (hn w (by simp)) hr
    have h3 := ih (fun w hw => hn w (by simp [hw])) (some (block src w)) (some n) (.inr ⟨_, _, rfl, rfl, h2⟩)
    simp only [printAnomalies, pageFrom]
    rw [h1, h3, List.map_append (l₂ := pageFrom src (some (block src w)) ws)]

/-- C66 in full: the anomalies of a file are printed as the page made of the windows around the
anomalies, each line with its own number. -/
def C66 : Prop :=
  ∀ (checks json : Bool) (lb : LiveLabels Unit Unit Nat Unit Unit) (env : Env Nat) (dist : Str → Nat), Pointwise env.search dist →
    ∀ reads, Blocks reads → ∀ src, Reads env.decode (allLines (ε := Unit) (build checks) json (fromReads reads)).1 src → NoMarker src → ∀ skip,
      printAnomalies lb none (process env skip ((allLines (ε := Unit) (build checks) json (fromReads reads)).1.map (Except.ok (ε := Unit)))).1 =
        (page src (runWindows env dist skip (allLines (ε := Unit) (build checks) json (fromReads reads)).1 src)).map
          (console (lb.score ∘ dist ∘ env.tokenize))

/-- What holds: when the lines of each window have consecutive numbers, the output has the right lines,
the right numbers for the anomalies and the right separators, but every context line is printed with its
number minus one. -/
theorem C66_partial (lb : LiveLabels C S D E ε) {env : Env D} (hs : Pointwise env.search dist) (skip : List Str) {lines : List LogLine}
    {src : List Line} (hr : Reads env.decode lines src) (hm : NoMarker src) (hpos : ∀ l ∈ src, 0 < l.num)
    (hn : ∀ w ∈ runWindows env dist skip lines src, Numbered (block src w)) :
    printAnomalies lb none (process env skip (lines.map (Except.ok (ε := Unit)))).1 =
      ((page src (runWindows env dist skip lines src)).map shifted).map (console (lb.score ∘ dist ∘ env.tokenize)) := by
  rw [List.map_map]
  exact printAnomalies_page lb hpos (run_shows hs skip hr hm) hn none none (.inl ⟨rfl, rfl⟩)

/-- Labels for the examples. -/
def toyLive : LiveLabels Unit Unit Nat Unit Unit where
  content _ := "Dir".toList
  source _ := "file".toList
  openErr _ := "not found".toList
  readErr _ := "bad".toList
  score d := decimal (99 * d)

example : (process toy [] ([toyL "a" 1, toyL "X" 2, toyL "b" 3].map (Except.ok (ε := Unit)))).1.map (fun c => (c.before.length, c.after.length)) = [(1, 1)] := by
  decide +kernel
example : ∀ w ∈ runWindows toy toyDist [] [toyL "a" 1, toyL "X" 2, toyL "b" 3] [toyS "a" 1, toyS "X" 2, toyS "b" 3],
    Numbered (block [toyS "a" 1, toyS "X" 2, toyS "b" 3] w) := by decide +kernel

/-- An ordinary file of two lines: the line 1 is printed as the line 0. -/
theorem C66_line_zero : allLines (ε := Unit) (build true) false (fromReads [ascii "a\nX\nb\n"]) = ([toyL "a" 1, toyL "X" 2, toyL "b" 3], .finished) ∧
    printAnomalies toyLive none (process toy [] ([toyL "a" 1, toyL "X" 2, toyL "b" 3].map (Except.ok (ε := Unit)))).1 =
      ["   0 | a\n".toList, "99 2 | X\n".toList, "   2 | b\n".toList] :=
  ⟨LJ.Iterator.allLines_of_drainN (n := 20) (by decide +kernel), by decide +kernel⟩

/-- C66 is false, even for ordinary files. -/
theorem C66_false : ¬ C66 := by
  intro h
  have e := C66_line_zero.1
  have := h true false toyLive toy toyDist LJ.Process.toy_pointwise [ascii "a\nX\nb\n"] (by unfold Blocks; decide +kernel)
    [toyS "a" 1, toyS "X" 2, toyS "b" 3] (by rw [e]; decide +kernel) (by rw [LJ.Process.noMarker_iff]; decide +kernel) []
  rw [e] at this
  have h2 := C66_line_zero.2
  rw [this] at h2
  revert h2
  decide +kernel

end LJ.Output

/-
Properties of the live output over all the sources: C81 (every source is accounted for) and C84 (nothing
of the report is missing from the live output).
-/
import Verif.Output.Console
import Verif.Report.Witness
namespace LJ.Output
open LJ.Process (Str Anomaly AnomalyContext Err Ev Env process toyL Stop)
open LJ.Process.Spec (Pointwise)
open LJ.Report (World Index Model ListErr lookupOrSingle getSources envOf inspect SearchOk stopErr inspect_some Report LogReport report small)
open LJ.Report.Spec (validSources Usable)

variable {C S N D E ε : Type} [DecidableEq N]

namespace Spec

/-- The message for a source which can't be read. -/
def cantRead (source err : Str) : Str := "Could not read ".toList ++ source ++ ": ".toList ++ err ++ ['\n']

/-- The message for a source without baseline. -/
def noBaseline (source : Str) : Str := " -> No baselines for ".toList ++ source ++ ['\n']

/-- The source `s` is accounted for in the output: there is a message that it has no baseline, or that it
can't be opened, or its anomalies are printed together and there is a message for the error which ends it,
if any.  The anomalies are those found when no line was seen before. -/
def Accounted (w : World C S N D E ε) (lb : LiveLabels C S D E ε) (m : Model C S N) (out : List Str) (s : S) : Prop :=
  match lookupOrSingle m.indexes (w.nameOf s) with
  | none => noBaseline (lb.source s) ∈ out
  | some index =>
    match w.openSource s with
    | .error e => cantRead (lb.source s) (lb.openErr e) ∈ out
    | .ok reader =>
      let p := process (envOf w index.chunks) [] (reader (w.isJson s))
      printAnomalies lb none p.1 <:+: out ∧ ∀ e, p.2.1 = .failed e → cantRead (lb.source s) (lb.readErr e) ∈ out

end Spec
open Spec (Accounted cantRead noBaseline)

/-! ### The text of a source -/

/-- the lines and the anomalies found in a source -/
def found (w : World C S N D E ε) (m : Model C S N) (s : S) : Nat × Nat :=
  match lookupOrSingle m.indexes (w.nameOf s), w.openSource s with
  | some index, .ok reader =>
    let p := process (envOf w index.chunks) [] (reader (w.isJson s))
    (p.2.2.lineCount, p.1.length)
  | _, _ => (0, 0)

/-- the text of a source -/
def sourceText (w : World C S N D E ε) (lb : LiveLabels C S D E ε) (mode : OutputMode) (m : Model C S N) (s : S) : List Str :=
  match lookupOrSingle m.indexes (w.nameOf s) with
  | none => [noBaseline (lb.source s)]
  | some index =>
    match w.openSource s with
    | .error e => progress mode ("Inspecting ".toList ++ lb.source s) ++ [cantRead (lb.source s) (lb.openErr e)]
    | .ok reader =>
      let p := process (envOf w index.chunks) [] (reader (w.isJson s))
      progress mode ("Inspecting ".toList ++ lb.source s) ++ progressSep mode (!p.1.isEmpty || (stopErr p.2.1).isSome) ++
        printAnomalies lb none p.1 ++ readErrLines lb s (stopErr p.2.1)

/-- the source stops the loop -/
def Blocked (w : World C S N D E ε) (m : Model C S N) (s : S) : Prop :=
  (lookupOrSingle m.indexes (w.nameOf s)).isSome ∧ ∃ e, w.openSource s = .error e

variable {w : World C S N D E ε}

theorem couldNotRead_eq (lb : LiveLabels C S D E ε) (s : S) (t : Str) : couldNotRead lb s t = cantRead (lb.source s) t := by
  unfold couldNotRead println cantRead
  simp only [List.append_assoc]

theorem noBaselines_out (lb : LiveLabels C S D E ε) (s : S) (st : Live) : (noBaselines lb s st).out = st.out ++ [noBaseline (lb.source s)] := by
  unfold noBaselines println noBaseline
  simp only [List.append_assoc]

theorem liveOne_open (hs : SearchOk w) (lb : LiveLabels C S D E ε) (mode : OutputMode) (m : Model C S N) {s : S} (hb : ¬ Blocked w m s) (st : Live) :
    ∃ sep, liveOne w lb mode m s st =
      some (true, ⟨st.out ++ sourceText w lb mode m s, sep, st.lineCount + (found w m s).1, st.anomalyCount + (found w m s).2⟩) := by
  unfold liveOne sourceText found
  cases hi : lookupOrSingle m.indexes (w.nameOf s) with
  | none =>
    refine ⟨true, ?_⟩
    have := noBaselines_out lb s st
    simp only [Nat.add_zero]
    rw [← this]
    rfl
  | some index =>
    cases ho : w.openSource s with
    | error e => exact absurd ⟨by rw [hi]; rfl, e, ho⟩ hb
    | ok reader =>
      simp only [liveSource, ho]
      rw [inspect_some hs]
      simp only [List.append_assoc]
      exact ⟨_, rfl⟩

theorem liveOne_blocked (lb : LiveLabels C S D E ε) (mode : OutputMode) (m : Model C S N) {s : S} (hb : Blocked w m s) (st : Live) :
    liveOne w lb mode m s st = some (false, ⟨st.out ++ sourceText w lb mode m s, false, st.lineCount, st.anomalyCount⟩) := by
  obtain ⟨h1, e, h2⟩ := hb
  obtain ⟨index, h1⟩ := Option.isSome_iff_exists.1 h1
  unfold liveOne sourceText
  simp only [h1, liveSource, h2]
  rw [couldNotRead_eq, List.append_assoc]

/-- the loop over sources of which none stops it -/
theorem liveSources_open (hs : SearchOk w) (lb : LiveLabels C S D E ε) (mode : OutputMode) (m : Model C S N) :
    ∀ (ss : List S), (∀ s ∈ ss, ¬ Blocked w m s) → ∀ (rest : List S) (st : Live), ∃ sep, liveSources w lb mode m (ss ++ rest) st =
      liveSources w lb mode m rest ⟨st.out ++ ss.flatMap (sourceText w lb mode m), sep, st.lineCount + (ss.map fun s => (found w m s).1).sum,
        st.anomalyCount + (ss.map fun s => (found w m s).2).sum⟩
  | [], _, rest, st => ⟨st.sepShown, by simp⟩
  | s :: ss, h, rest, st => by
    obtain ⟨sep, e⟩ := liveOne_open hs lb mode m (h s (by simp)) st
    obtain ⟨sep', e'⟩ := liveSources_open hs lb mode m ss (fun s hs => h s (by simp [hs])) rest
      ⟨st.out ++ sourceText w lb mode m s, sep, st.lineCount + (found w m s).1, st.anomalyCount + (found w m s).2⟩
    refine ⟨sep', ?_⟩
    rw [List.cons_append, liveSources, e]
    simp only
    rw [e']
    simp only [List.flatMap_cons, List.map_cons, List.sum_cons, List.append_assoc, Nat.add_assoc]

/-- the texts of a source account for it -/
theorem accounted_text (lb : LiveLabels C S D E ε) (mode : OutputMode) (m : Model C S N) (s : S) :
    Accounted w lb m (sourceText w lb mode m s) s := by
  unfold Accounted sourceText
  cases hi : lookupOrSingle m.indexes (w.nameOf s) with
  | none => simp
  | some index =>
    cases ho : w.openSource s with
    | error e => simp
    | ok reader =>
      simp only
      refine ⟨?_, fun e he => ?_⟩
      · exact ⟨_, _, rfl⟩
      · apply List.mem_append_right
        rw [he, stopErr, readErrLines, couldNotRead_eq]
        exact List.mem_singleton.2 rfl

theorem accounted_infix {lb : LiveLabels C S D E ε} {m : Model C S N} {s : S} {xs ys : List Str} (h : xs <:+: ys) (ha : Accounted w lb m xs s) :
    Accounted w lb m ys s := by
  unfold Accounted at ha ⊢
  cases hi : lookupOrSingle m.indexes (w.nameOf s) with
  | none => simp only [hi] at ha ⊢; exact h.subset ha
  | some index =>
    cases ho : w.openSource s with
    | error e => simp only [hi, ho] at ha ⊢; exact h.subset ha
    | ok reader =>
      simp only [hi, ho] at ha ⊢
      exact ⟨ha.1.trans h, fun e he => h.subset (ha.2 e he)⟩

theorem infix_flatMap {α β : Type} (f : α → List β) {xs : List α} {x : α} (h : x ∈ xs) : f x <:+: xs.flatMap f := by
  obtain ⟨a, b, rfl⟩ := List.append_of_mem h
  exact ⟨a.flatMap f, b.flatMap f, by simp⟩

/-- the totals shown at the end -/
def totals (lb : LiveLabels C S D E ε) (mode : OutputMode) (content : C) (lines anomalies : Nat) : List Str :=
  progress mode (lb.content content ++ ": Reduced from ".toList ++ decimal lines ++ " to ".toList ++ decimal anomalies)

/-! ### C81: every source is accounted for in the live output -/

/-- C81 in full: when the sources of the content are known, the run succeeds and its output accounts for each
of them. -/
def C81 : Prop :=
  ∀ (w : World Nat String String Nat Unit Unit) (lb : LiveLabels Nat String Nat Unit Unit) (mode : OutputMode) (content : Nat)
    (m : Model Nat String String), SearchOk w → Usable w.valid (w.list content) →
    ∃ out, processLive w lb mode content m = some (.ok out) ∧ ∀ s ∈ validSources w.valid (w.list content), Accounted w lb m out s

/-- What holds: the sources up to the first one which has an index and can't be opened are accounted for.
What is missing: the sources after it. -/
theorem C81_partial (hs : SearchOk w) (lb : LiveLabels C S D E ε) (mode : OutputMode) (m : Model C S N) {content : C}
    (hu : Usable w.valid (w.list content)) :
    ∃ out, processLive w lb mode content m = some (.ok out) ∧
      ∀ pre s post, validSources w.valid (w.list content) = pre ++ s :: post →
        (∀ t ∈ pre, (lookupOrSingle m.indexes (w.nameOf t)).isSome → ∃ r, w.openSource t = .ok r) →
        Accounted w lb m out s := by
  have hsrc := LJ.Report.getSources_ok hu
  have hblk : ∀ pre : List S, (∀ t ∈ pre, (lookupOrSingle m.indexes (w.nameOf t)).isSome → ∃ r, w.openSource t = .ok r) →
      ∀ t ∈ pre, ¬ Blocked w m t := by
    rintro pre h t ht ⟨h1, e, h2⟩
    obtain ⟨r, hr⟩ := h t ht h1
    rw [hr] at h2
    cases h2
  -- the state after any prefix which is not blocked
  have hall : ∀ (ss : List S) (st : Live), ∃ st', liveSources w lb mode m ss st = some st' ∧ st.out <+: st'.out ∧
      ∀ pre s post, ss = pre ++ s :: post → (∀ t ∈ pre, ¬ Blocked w m t) → sourceText w lb mode m s <:+: st'.out := by
    intro ss
    induction ss with
    | nil => exact fun st => ⟨st, rfl, List.prefix_rfl, fun pre s post e => by cases pre <;> cases e⟩
    | cons x xs ih =>
      intro st
      rw [liveSources]
      by_cases hb : Blocked w m x
      · rw [liveOne_blocked lb mode m hb]
        refine ⟨_, rfl, ⟨_, rfl⟩, ?_⟩
        intro pre s post e hp
        cases pre with
        | nil => cases e; exact ⟨st.out, [], by simp⟩
        | cons p pre => cases e; exact absurd hb (hp _ (by simp))
      · obtain ⟨sep, e⟩ := liveOne_open hs lb mode m hb st
        rw [e]
        obtain ⟨st', h1, h2, h3⟩ := ih ⟨st.out ++ sourceText w lb mode m x, sep, st.lineCount + (found w m x).1, st.anomalyCount + (found w m x).2⟩
        refine ⟨st', h1, (List.prefix_append _ _).trans h2, ?_⟩
        intro pre s post e hp
        cases pre with
        | nil =>
          cases e
          exact List.IsInfix.trans ⟨st.out, [], by simp⟩ h2.isInfix
        | cons p pre => cases e; exact h3 pre s post rfl fun t ht => hp t (by simp [ht])
  obtain ⟨st', h1, _, h3⟩ := hall (validSources w.valid (w.list content)) ⟨[], false, 0, 0⟩
  refine ⟨liveEnd lb mode content st', by unfold processLive; rw [hsrc]; simp only; rw [h1], ?_⟩
  intro pre s post e hp
  refine accounted_infix ?_ (accounted_text lb mode m s)
  refine (h3 pre s post e (hblk pre hp)).trans ?_
  exact ⟨[], _, by unfold liveEnd; rw [List.nil_append, List.append_assoc]⟩

/-- When all the sources with an index can be opened, the output is made of the texts of the sources, in
their order, and of the totals of the lines and of the anomalies.  The line of the progress is erased on a terminal only. -/
theorem C81_totals (hs : SearchOk w) (lb : LiveLabels C S D E ε) (mode : OutputMode) (m : Model C S N) {content : C}
    (hu : Usable w.valid (w.list content))
    (ho : ∀ t ∈ validSources w.valid (w.list content), (lookupOrSingle m.indexes (w.nameOf t)).isSome → ∃ r, w.openSource t = .ok r) :
    ∃ clear, (clear = [] ∨ mode = .fastTerminal ∧ clear = ["\r\x1b[K".toList]) ∧ processLive w lb mode content m = some (.ok ((validSources w.valid (w.list content)).flatMap (sourceText w lb mode m) ++ clear ++
      totals lb mode content ((validSources w.valid (w.list content)).map fun s => (found w m s).1).sum
        ((validSources w.valid (w.list content)).map fun s => (found w m s).2).sum)) := by
  have hb : ∀ t ∈ validSources w.valid (w.list content), ¬ Blocked w m t := by
    rintro t ht ⟨h1, e, h2⟩
    obtain ⟨r, hr⟩ := ho t ht h1
    rw [hr] at h2
    cases h2
  obtain ⟨sep, e⟩ := liveSources_open hs lb mode m _ hb [] ⟨[], false, 0, 0⟩
  rw [List.append_nil] at e
  refine ⟨if mode.inlined && !sep then ["\r\x1b[K".toList] else [], ?_, ?_⟩
  · split
    · rename_i h
      refine .inr ⟨?_, rfl⟩
      cases mode with
      | fastTerminal => rfl
      | debug => cases h
      | quiet => cases h
    · exact .inl rfl
  unfold processLive
  rw [LJ.Report.getSources_ok hu]
  simp only
  rw [e, liveSources]
  simp only [liveEnd, List.nil_append, Nat.zero_add, totals]

/-- The error of the listing is the error of the run. -/
theorem C81_error (lb : LiveLabels C S D E ε) (mode : OutputMode) (m : Model C S N) {content : C} (hu : ¬ Usable w.valid (w.list content)) :
    ∃ e, processLive w lb mode content m = some (.error e) := by
  unfold processLive
  rcases LJ.Report.getSources_err hu with ⟨e, _, he⟩ | ⟨_, _, he⟩ <;> rw [he] <;> exact ⟨_, rfl⟩

/-- Labels for the examples. -/
def liveLabels : LiveLabels Nat String Nat Unit Unit where
  content _ := "Dir".toList
  source s := s.toList
  openErr _ := "not found".toList
  readErr _ := "bad".toList
  score d := decimal (99 * d)

/-- a source without index, a source with an anomaly, a source that can't be opened and a source with an
anomaly -/
def world2 : World Nat String String Nat Unit Unit :=
  small (fun _ => [.ok "z1", .ok "a1", .ok "a2", .ok "b1"]) [("a1", fun _ => [.ok (toyL "x" 1)]), ("b1", fun _ => [.ok (toyL "y" 1)])]

def model2 : Model Nat String String := ⟨[], [("a", ⟨[], [], 0, 0⟩), ("b", ⟨[], [], 0, 0⟩)]⟩

theorem live2 : processLive world2 liveLabels .quiet 0 model2 =
    some (.ok [" -> No baselines for z1\n".toList, "99 1 | x\n".toList, "Could not read a2: not found\n".toList]) := by decide +kernel

example : Usable world2.valid (world2.list 0) ∧ validSources world2.valid (world2.list 0) = ["z1", "a1"] ++ "a2" :: ["b1"] ∧
    ∀ t ∈ ["z1", "a1"], (lookupOrSingle model2.indexes (world2.nameOf t)).isSome → ∃ r, world2.openSource t = .ok r := by
  refine ⟨⟨?_, by decide +kernel⟩, by decide +kernel, ?_⟩
  · intro e h
    simp [world2, small] at h
  · intro t ht h
    simp only [List.mem_cons, List.not_mem_nil, or_false] at ht
    rcases ht with rfl | rfl
    · exact absurd h (by decide +kernel)
    · exact ⟨_, rfl⟩

/-- C81 is false: a source which can't be opened hides the anomalies of all the sources after it. -/
theorem C81_false : ¬ C81 := by
  intro h
  obtain ⟨out, h1, h2⟩ := h world2 liveLabels .quiet 0 model2 (LJ.Report.small_search _ _) ⟨by intro e h; simp [world2, small] at h, by decide +kernel⟩
  rw [live2] at h1
  cases h1
  have := h2 "b1" (by decide +kernel)
  unfold Accounted at this
  have hi : lookupOrSingle model2.indexes (world2.nameOf "b1") = some ⟨[], [], 0, 0⟩ := by decide +kernel
  have ho : world2.openSource "b1" = .ok fun _ => [.ok (toyL "y" 1)] := rfl
  simp only [hi, ho] at this
  have h3 := this.1.subset (a := "99 1 | y\n".toList) (by decide +kernel)
  revert h3
  decide +kernel

/-- For a source read to its end, the lines and the anomalies of the totals are those of the source. -/
theorem C81_found (hs : SearchOk w) {m : Model C S N} {s : S} {index : Index S} (hi : lookupOrSingle m.indexes (w.nameOf s) = some index)
    {reader : Bool → List (Ev ε)} (ho : w.openSource s = .ok reader) {lines : List LJ.Process.LogLine} (hl : reader (w.isJson s) = lines.map Except.ok)
    {src : List LJ.Process.Spec.Line} (hr : LJ.Process.Spec.Reads w.decode lines src) (hm : LJ.Process.Spec.NoMarker src) :
    ∃ dist, Pointwise (w.search index.chunks) dist ∧
      found w m s = (src.length, (LJ.Process.Spec.anomalies w.tokenize dist w.over [] src).length) := by
  obtain ⟨dist, hd⟩ := hs index.chunks
  refine ⟨dist, hd, ?_⟩
  unfold found
  simp only [hi, ho, hl]
  have h1 := (LJ.Process.C25_anomalies (env := envOf w index.chunks) (ε := ε) hd [] hr hm).1
  have h2 := (LJ.Process.C25_counts (env := envOf w index.chunks) (ε := ε) hd [] hr hm).1
  rw [h2, ← List.length_map (f := fun c : AnomalyContext D => c.anomaly), h1]
  rfl

/-! ### C84: the live output shows the anomalies of the report -/

/-- with more lines already seen there are fewer new lines -/
theorem firsts_mono {α : Type} {key : α → Str} : ∀ (xs : List α) {s s' : List Str}, s ⊆ s' →
    (LJ.Process.Spec.firsts key s' xs).Sublist (LJ.Process.Spec.firsts key s xs)
  | [], _, _, _ => .slnil
  | x :: xs, s, s', h => by
    unfold LJ.Process.Spec.firsts
    by_cases h1 : key x ∈ s
    · rw [if_pos h1, if_pos (h h1)]
      exact firsts_mono xs h
    · rw [if_neg h1]
      by_cases h2 : key x ∈ s'
      · rw [if_pos h2]
        exact (firsts_mono xs (List.cons_subset.2 ⟨h2, h⟩)).trans (List.sublist_cons_self _ _)
      · rw [if_neg h2]
        exact (firsts_mono xs (List.cons_subset_cons _ h)).cons_cons _

/-- the anomalies of a source among those found alone -/
theorem anomalies_mono {tok : Str → Str} {dist : Str → D} {over : D → Bool} (seen : List Str) (src : List LJ.Process.Spec.Line) :
    (LJ.Process.Spec.anomalies tok dist over seen src).Sublist (LJ.Process.Spec.anomalies tok dist over [] src) :=
  ((firsts_mono src (List.nil_subset seen)).filter _).map _

theorem printAnomalies_mem (lb : LiveLabels C S D E ε) {c : AnomalyContext D} :
    ∀ (cs : List (AnomalyContext D)) (last : Option Nat), c ∈ cs →
      lb.score c.anomaly.distance ++ " ".toList ++ decimal c.anomaly.pos ++ " | ".toList ++ c.anomaly.line ++ ['\n'] ∈ printAnomalies lb last cs
  | x :: xs, last, h => by
    rw [printAnomalies]
    simp only
    rcases List.mem_cons.1 h with rfl | h
    · apply List.mem_append_left
      unfold printAnomaly
      simp [println]
    · exact List.mem_append_right _ (printAnomalies_mem lb xs _ h)

/-- The log reports are the results of the processor. -/
theorem logReport_process (hs : SearchOk w) {m : Model C S N} {order : List (N × List S) → List (N × List S)} (ho : ∀ g, (order g).Perm g)
    {target : C} {r : Report C S N D E ε} (h : report w m order target = some (.ok r)) {l : LogReport S N D} (hl : l ∈ r.logReports) :
    ∃ index reader seen, lookupOrSingle m.indexes (w.nameOf l.source) = some index ∧ w.openSource l.source = .ok reader ∧
      l.anomalies = (process (envOf w index.chunks) seen (reader (w.isJson l.source))).1 := by
  obtain ⟨_, h2, _⟩ := LJ.Report.C37_logs hs ho h
  obtain ⟨_, _, hn, index, hix, _⟩ := h2 l hl
  obtain ⟨gs, hp, rfl⟩ := LJ.Report.report_ok hs ho h
  simp only [LJ.Report.total, LJ.Report.emptyReport, List.nil_append] at hl
  obtain ⟨g, hg, hl⟩ := List.mem_flatMap.1 hl
  have hname := (LJ.Report.groupLogs_spec hl).1
  have hfor : LJ.Report.indexFor m g = some index := by
    unfold LJ.Report.indexFor
    rw [← hname]
    exact hix
  unfold LJ.Report.groupLogs LJ.Report.groupRuns at hl
  rw [hfor] at hl
  obtain ⟨x, hx, hl⟩ := List.mem_filterMap.1 hl
  rcases (LJ.Report.runs_mem hx).2 with ⟨e, _, e2⟩ | ⟨reader, skip, e1, e2⟩
  · rw [e2] at hl; cases hl
  · have hsrc : x.source = l.source := by
      rw [e2] at hl
      simp only [LJ.Report.Run.log] at hl
      split at hl
      · cases hl
      · cases hl; rfl
    rw [hsrc] at e1 e2
    refine ⟨index, reader, skip, by rw [← hn]; exact hix, e1, ?_⟩
    rw [e2] at hl
    simp only [LJ.Report.Run.log] at hl
    split at hl
    · cases hl
    · injection hl with hl
      rw [← hl]

/-- When the sources of the target can be opened and the source of a log report can be read to its end, every
anomaly of the log report is a line of the live output. -/
theorem C84_live_has_report (hs : SearchOk w) (lb : LiveLabels C S D E ε) (mode : OutputMode) {m : Model C S N}
    {order : List (N × List S) → List (N × List S)} (ho : ∀ g, (order g).Perm g)
    {target : C} {r : Report C S N D E ε} (h : report w m order target = some (.ok r))
    (hopen : ∀ t ∈ validSources w.valid (w.list target), ∃ r, w.openSource t = .ok r) {l : LogReport S N D} (hl : l ∈ r.logReports)
    (hread : ∀ reader, w.openSource l.source = .ok reader → ∃ lines src, reader (w.isJson l.source) = lines.map Except.ok ∧
      LJ.Process.Spec.Reads w.decode lines src ∧ LJ.Process.Spec.NoMarker src) :
    ∃ out, processLive w lb mode target m = some (.ok out) ∧ ∀ a ∈ l.anomalies.map (·.anomaly),
      lb.score a.distance ++ " ".toList ++ decimal a.pos ++ " | ".toList ++ a.line ++ ['\n'] ∈ out := by
  have hu : Usable w.valid (w.list target) := by
    obtain ⟨res, h1, h2⟩ := LJ.Report.report_total hs m order ho target
    rw [h] at h1
    cases h1
    exact h2.1 ⟨r, rfl⟩
  obtain ⟨out, h1, h2⟩ := C81_partial hs lb mode m hu
  refine ⟨out, h1, ?_⟩
  obtain ⟨index, reader, seen, hi, ho', hp⟩ := logReport_process hs ho h hl
  have hmem := ((LJ.Report.C37_logs hs ho h).2.1 l hl).2.1
  obtain ⟨pre, post, e⟩ := List.append_of_mem hmem
  have hacc := h2 pre l.source post e fun t ht _ => hopen t (by rw [e]; simp [ht])
  unfold Accounted at hacc
  simp only [hi, ho'] at hacc
  obtain ⟨lines, src, e1, hr, hm⟩ := hread reader ho'
  obtain ⟨dist, hd⟩ := hs index.chunks
  rw [e1] at hacc hp
  have a1 := (LJ.Process.C25_anomalies (env := envOf w index.chunks) (ε := ε) hd seen hr hm).1
  have a2 := (LJ.Process.C25_anomalies (env := envOf w index.chunks) (ε := ε) hd [] hr hm).1
  intro a ha
  rw [hp, a1] at ha
  have ha := (anomalies_mono seen src).subset ha
  rw [← a2] at ha
  obtain ⟨c, hc, rfl⟩ := List.mem_map.1 ha
  exact hacc.1.subset (printAnomalies_mem lb _ none hc)

example : (∀ t ∈ validSources LJ.Report.world1.valid (LJ.Report.world1.list 1), ∃ r, LJ.Report.world1.openSource t = .ok r) ∧
    processLive LJ.Report.world1 liveLabels .fastTerminal 1 LJ.Report.model1 =
      some (.ok ["\r\x1b[1;33m[+]\x1b[0m Inspecting a2".toList, "\n".toList, "   0 | p\n".toList, "99 2 | q\n".toList,
        "\r\x1b[1;33m[+]\x1b[0m Inspecting b2".toList, "\r\x1b[1;33m[+]\x1b[0m Inspecting a3".toList, "\n".toList, "99 1 | r\n".toList,
        "99 2 | q\n".toList, "\r\x1b[1;33m[+]\x1b[0m Dir: Reduced from 6 to 3".toList]) := by
  refine ⟨?_, by decide +kernel⟩
  intro t ht
  have : t ∈ ["a2", "b2", "a3"] := by
    have e : validSources LJ.Report.world1.valid (LJ.Report.world1.list 1) = ["a2", "b2", "a3"] := by decide +kernel
    rw [← e]; exact ht
  simp only [List.mem_cons, List.not_mem_nil, or_false] at this
  rcases this with rfl | rfl | rfl <;> exact ⟨_, rfl⟩

end LJ.Output

/-
C100: the lines printed by `debug-iterator`.  C101: what `diff` shows for two local logs.  C102: `path` is `diff` with the `.0` file.
-/
import Verif.Program.LocalSpec
import Verif.Program.Props
import Verif.Whole.Props
import Verif.Output.Console
import Verif.Output.Attributes
import Verif.Process.Full
namespace LJ.Program
open LJ.Process (Str Bytes Ev AnomalyContext)
open LJ.Process.Spec (Line Window Consecutive Shows)
open LJ.Paths (Input Res Outside Content Source)
open LJ.Whole (Machine Local)
open LJ.Output (OutputMode println decimal)
open LJ.Cli (Fs)
open Spec (Calm Orders sourcesOf NoModelFile lineList Log New Contexts LongContexts)
variable {M : Machine} {X : Outside Empty} {G : PageMaker} {T : Tool Local Source Str ℝ Unit Unit}

/-! ### Inputs -/

theorem fromString_path {s : Str} (h : ¬ "http".toList <+: s) : Input.fromString s = .path s := by
  unfold Input.fromString LJ.Paths.startsWith
  rw [if_neg]
  rw [List.isPrefixOf_iff_prefix]
  exact h

/-- a path is a URL when it starts with `http`, with or without `.0` -/
theorem http_dot (p : Str) : "http".toList <+: p ++ ".0".toList ↔ "http".toList <+: p := by
  have e1 : "http".toList = ['h', 't', 't', 'p'] := by decide +kernel
  have e2 : ".0".toList = ['.', '0'] := by decide +kernel
  rw [e1, e2]
  rcases p with _ | ⟨a, _ | ⟨b, _ | ⟨c, _ | ⟨d, p⟩⟩⟩⟩ <;> simp [List.cons_prefix_cons]

theorem localInput_file {p : Str} (hd : X.isDir p = false) (hf : X.isFile p = true) : localInput X (.path p) = .ok (.file p) := by
  unfold localInput LJ.Paths.fromInput LJ.Paths.fromPathStr
  simp only [hd, hf, Bool.false_eq_true, if_false, if_true, toLocal]

theorem localInput_log {p : Str} {ls : List Str} (h : Log M X p ls) : localInput X (Input.fromString p) = .ok (.file p) := by
  rw [fromString_path h.url]
  exact localInput_file h.dir h.file

/-! ### Windows -/

theorem lineList_num (ls : List Str) : (lineList ls).map (·.num) = List.range' 1 ls.length := by
  unfold lineList
  rw [List.map_map, ← List.zipIdx_map_snd 1 ls]
  rfl

theorem lineList_get {ls : List Str} {k : Nat} {x : Line} : (lineList ls)[k]? = some x ↔ ls[k]? = some x.text ∧ x.num = k + 1 := by
  unfold lineList
  rw [List.getElem?_map, List.getElem?_zipIdx]
  cases ls[k]? with
  | none => simp
  | some y =>
    cases x
    simp only [Option.map_some, Option.some.injEq, Line.mk.injEq]
    rw [Nat.add_comm 1 k]
    constructor
    · rintro ⟨rfl, rfl⟩; exact ⟨rfl, rfl⟩
    · rintro ⟨rfl, rfl⟩; exact ⟨rfl, rfl⟩

theorem lineList_numbered (ls : List Str) (w : Window) : LJ.Output.Spec.Numbered (LJ.Output.Spec.block (lineList ls) w) := by
  unfold LJ.Output.Spec.Numbered LJ.Output.Spec.block
  refine ⟨1 + (w.i - w.b), ?_⟩
  rw [List.map_take, List.map_drop, lineList_num, List.drop_range']
  have hl : (lineList ls).length = ls.length := by simp [lineList]
  rw [List.length_take, List.length_drop, hl, Nat.mul_one]
  refine List.ext_getElem (by simp) fun k h1 h2 => ?_
  simp

theorem positions_new (tok : Str → Str) (dist : Str → ℝ) (ls : List Str) (k : Nat) :
    (k ∈ LJ.Process.Spec.positions tok dist (fun d => decide (d > LJ.Process.THRESHOLD)) [] (lineList ls) ↔ New tok dist ls k) := by
  unfold LJ.Process.Spec.positions New
  rw [List.mem_map]
  constructor
  · rintro ⟨⟨x, n⟩, hx, rfl⟩
    rw [List.mem_filter, decide_eq_true_eq, LJ.Whole.firsts_mem] at hx
    obtain ⟨⟨i, h1, _, h3⟩, hd⟩ := hx
    rw [List.getElem?_zipIdx, Option.map_eq_some_iff] at h1
    obtain ⟨y, hy, e⟩ := h1
    cases e
    refine ⟨x.text, ?_, ?_, hd⟩
    · simpa using (lineList_get.1 hy).1
    · intro j hj l' hl'
      simp only [Nat.zero_add] at hj
      exact h3 j hj (⟨l', j + 1⟩, j) (by
        rw [List.getElem?_zipIdx, (lineList_get (x := ⟨l', j + 1⟩)).2 ⟨hl', rfl⟩]; simp)
  · rintro ⟨l, h1, h2, hd⟩
    refine ⟨(⟨l, k + 1⟩, k), ?_, rfl⟩
    rw [List.mem_filter, decide_eq_true_eq, LJ.Whole.firsts_mem]
    refine ⟨⟨k, ?_, by simp, ?_⟩, hd⟩
    · rw [List.getElem?_zipIdx, (lineList_get (x := ⟨l, k + 1⟩)).2 ⟨h1, rfl⟩]; simp
    · intro j hj y hy
      rw [List.getElem?_zipIdx, Option.map_eq_some_iff] at hy
      obtain ⟨z, hz, e⟩ := hy
      cases e
      exact h2 j hj _ (lineList_get.1 hz).1

theorem positions_sorted (tok : Str → Str) (dist : Str → ℝ) (over : ℝ → Bool) (ls : List Line) :
    (LJ.Process.Spec.positions tok dist over [] ls).Pairwise (· < ·) := by
  unfold LJ.Process.Spec.positions
  refine List.Pairwise.sublist (List.Sublist.map Prod.snd (List.filter_sublist.trans (LJ.Process.firsts_sublist _ _))) ?_
  rw [List.zipIdx_map_snd]
  exact List.pairwise_lt_range'

theorem shows_bounds {tok : Str → Str} {dist : Str → ℝ} {src : List Line} {cs : List (AnomalyContext ℝ)} {ws : List Window}
    (h : List.Forall₂ (Shows tok dist src) cs ws) : ∀ w ∈ ws, w.b ≤ w.i ∧ w.i + w.a + 1 ≤ src.length := by
  induction h with
  | nil => intro w hw; cases hw
  | cons hx _ ih =>
    intro w hw
    rcases List.mem_cons.1 hw with rfl | hw
    · obtain ⟨pre, bef, l, aft, post, e, h1, h2, h3, _⟩ := hx
      rw [e]
      simp only [List.length_append, List.length_cons]
      omega
    · exact ih w hw

/-! ### Training on a log -/

theorem log_sources {p : Str} {ls : List Str} (h : Log M X p ls) :
    LJ.Report.Spec.Usable M.world.valid (M.world.list (.file p)) ∧
    LJ.Report.Spec.validSources M.world.valid (M.world.list (.file p)) = [.loc 0 (some p)] := by
  have := LJ.Whole.file_hasTexts (text := fun _ => LJ.Whole.numbered ls) h.valid (LJ.Whole.file_hasLines h.bytes h.lines h.json)
  exact LJ.Whole.hasTexts_sources this

theorem log_group {p : Str} {ls : List Str} (h : Log M X p ls) :
    LJ.Report.groupSources M.world [.file p] = .ok [(M.world.nameOf (.loc 0 (some p)), [.loc 0 (some p)])] := by
  obtain ⟨hu, hs⟩ := log_sources h
  unfold LJ.Report.groupSources LJ.Report.groupInto
  rw [LJ.Report.getSources_ok hu, hs]
  rfl

theorem perm_single {α : Type} {o : List α → List α} (ho : ∀ g, (o g).Perm g) (x : α) : o [x] = [x] := List.perm_singleton.1 (ho [x])

theorem train_log (hM : LJ.Whole.Spec.Ordinary M) (ho : Orders T) {a : Str} {la : List Str} (ha : Log M X a la) :
    ∃ i : LJ.Report.Index Source, (localTool M X G T).train [.file a] = .ok ⟨[.file a], [(M.world.nameOf (.loc 0 (some a)), i)]⟩ ∧
      ∀ x, x ∈ i.chunks.flatten ↔ x ∈ la.map M.tok := by
  obtain ⟨i, h1, _, h3⟩ := LJ.Whole.trainIndex_texts hM (text := fun _ => LJ.Whole.numbered la) (ss := [.loc 0 (some a)]) (by
    intro s hs
    rw [List.mem_singleton] at hs
    subst hs
    exact LJ.Whole.file_hasLines ha.bytes ha.lines ha.json)
  refine ⟨i, ?_, fun x => ?_⟩
  · have : LJ.Report.train M.world T.trainOrder [.file a] = .ok ⟨[.file a], [(M.world.nameOf (.loc 0 (some a)), i)]⟩ := by
      unfold LJ.Report.train
      simp only [log_group ha, perm_single ho.train, LJ.Report.trainGroups, h1]
    unfold Tool.train
    have this' : LJ.Report.train (localTool M X G T).logs (localTool M X G T).trainOrder [.file a] = _ := this
    rw [this']
  · rw [h3]
    simp only [List.flatMap_cons, List.flatMap_nil, List.append_nil]
    have : (LJ.Whole.numbered la).map (fun l => M.tok l.text) = la.map M.tok := by
      unfold LJ.Whole.numbered
      rw [List.map_map]
      conv => rhs; rw [← List.zipIdx_map_fst 1 la, List.map_map]
      rfl
    rw [this]

/-! ### Inspecting a log -/

/-- what is found in a log with an index which knows the token lines `known` -/
theorem inspect_log (hM : LJ.Whole.Spec.Ordinary M) {b : Str} {lb : List Str} (hb : Log M X b lb) (hmark : ∀ l ∈ lb, ¬ "TASK [log-classify".toList <:+: l)
    {i : LJ.Report.Index Source} {known : List Str} (hi : ∀ x, x ∈ i.chunks.flatten ↔ x ∈ known) :
    ∃ reader outs s dist ws, M.world.openSource (.loc 0 (some b)) = .ok reader ∧ LJ.Whole.Spec.Near M.hash known dist ∧
      LJ.Report.inspect M.world i (.loc 0 (some b)) reader [] = some (outs, none, s) ∧ s.lineCount = lb.length ∧
      List.Forall₂ (Shows M.tok dist (lineList lb)) outs ws ∧ (∀ k, k ∈ ws.map (·.i) ↔ New M.tok dist lb k) ∧ (ws.map (·.i)).Pairwise (· < ·) ∧
      LongContexts lb.length ws ∧ (lb.length < 512 → Contexts lb.length ws) := by
  have hl := LJ.Whole.file_hasLines hb.bytes hb.lines hb.json
  obtain ⟨reader, lines, h1, h2, h3⟩ := LJ.Whole.hasLines_read hM hl
  obtain ⟨dist, d1, d2⟩ := LJ.Whole.index_near hM.fp i.chunks
  have hlen : (lineList lb).length = lb.length := by simp [lineList]
  have hm : LJ.Process.Spec.NoMarker (lineList lb) := by
    intro l hl
    obtain ⟨x, hx, rfl⟩ := List.mem_map.1 hl
    exact hmark x.1 (List.fst_mem_of_mem_zipIdx hx)
  obtain ⟨outs, ws, s, e1, e2, e3, e4, e5, e6, e7, e8, e9, e10, e11, _⟩ :=
    LJ.Process.run_full (env := LJ.Report.envOf M.world i.chunks) Unit d1 [] (src := lineList lb) h3 hm
  have hb2 := shows_bounds e5
  rw [hlen] at hb2
  refine ⟨reader, outs, s, dist, ws, h1, LJ.Whole.near_congr hi d2, ?_, by rw [e11, hlen], e5, ?_, ?_, ⟨?_, e8, ?_⟩, fun hs => ⟨e8, ?_, ?_⟩⟩
  · unfold LJ.Report.inspect
    rw [LJ.Whole.hasLines_json hl, h2, e1]
  · intro k
    rw [e3]
    exact positions_new M.tok dist lb k
  · rw [e3]
    exact positions_sorted _ _ _ _
  · exact fun w hw => ⟨(e6 w hw).1, (e6 w hw).2, hb2 w hw⟩
  · intro pre x y post e
    obtain ⟨r1, _, r3, r4, _⟩ := e7 pre x y post e
    exact ⟨r3, r4, r1⟩
  · intro pre x y post e
    obtain ⟨r1, r2, r3, r4, r5⟩ := e7 pre x y post e
    refine ⟨r3, ?_⟩
    rcases r5 with r5 | ⟨c, hc, _⟩
    · have := (e6 y (by rw [e]; simp)).1
      omega
    · rw [LJ.Process.cuts_short _ _ _ _ _ _ (by omega) (by omega)] at hc
      cases hc
  · intro w hw
    rcases e9 w hw with h | ⟨h, _⟩
    · rw [hlen] at h; exact h
    · rw [LJ.Process.cuts_short _ _ _ _ _ _ (by omega) (by omega)] at h
      cases h

/-! ### C101: the comparison of two logs -/

theorem lookup_one {V : Type} (n k : Str) (v : V) : LJ.Report.lookupOrSingle [(n, v)] k = some v := by
  rw [LJ.Report.C36_lookup _ (by simp)]
  by_cases h : k = n
  · exact .inl (by rw [h]; exact List.mem_singleton.2 rfl)
  · exact .inr ⟨by simp [h], n, rfl⟩

/-- the live output, when the standard output is not a terminal -/
theorem live_log {mode : OutputMode} (hmode : mode ≠ .fastTerminal) {b : Str} {lb : List Str} (hb : Log M X b lb) {n : Str} {i : LJ.Report.Index Source}
    {reader : Bool → List (Ev Unit)} {outs : List (AnomalyContext ℝ)} {s : LJ.Process.St ℝ} (h1 : M.world.openSource (.loc 0 (some b)) = .ok reader)
    (h2 : LJ.Report.inspect M.world i (.loc 0 (some b)) reader [] = some (outs, none, s)) (cs : List Local) :
    (localTool M X G T).liveRun mode (.file b) ⟨cs, [(n, i)]⟩ = (LJ.Output.printAnomalies T.live none outs, .ok ()) := by
  obtain ⟨hu, hs⟩ := log_sources hb
  have hp : ∀ msg, LJ.Output.progress mode msg = [] := by
    intro msg
    cases mode with
    | fastTerminal => exact absurd rfl hmode
    | debug => rfl
    | quiet => rfl
  have hin : mode.inlined = false := by
    cases mode with
    | fastTerminal => exact absurd rfl hmode
    | debug => rfl
    | quiet => rfl
  have : LJ.Output.processLive M.world T.live mode (.file b) ⟨cs, [(n, i)]⟩ = some (.ok (LJ.Output.printAnomalies T.live none outs)) := by
    unfold LJ.Output.processLive
    rw [LJ.Report.getSources_ok hu, hs]
    simp only [LJ.Output.liveSources, LJ.Output.liveOne, lookup_one, LJ.Output.liveSource, h1, h2]
    simp [LJ.Output.liveEnd, hp, hin, LJ.Output.progressSep, LJ.Output.readErrLines]
  have this' : LJ.Output.processLive (localTool M X G T).logs (localTool M X G T).live mode (.file b) ⟨cs, [(n, i)]⟩ = _ := this
  unfold Tool.liveRun
  rw [this']

/-- What `diff a b` prints, when the standard output is not a terminal: nothing but the new lines of `b`, in order, each with its number and its
context, with a line of dashes between the contexts which are not adjacent; the command succeeds and leaves the files.  The numbers of the lines of
the contexts are too small by one (C66). -/
theorem C101_diff (hM : LJ.Whole.Spec.Ordinary M) (ho : Orders T) {a b : Str} {la lb : List Str} (ha : Log M X a la) (hb : Log M X b lb)
    (hmark : ∀ l ∈ lb, ¬ "TASK [log-classify".toList <:+: l) {mode : OutputMode} (hmode : mode ≠ .fastTerminal) (cache : Bool) (fs : Fs Str) :
    let d := (localTool M X G T).run mode cache fs ⟨none, none, .diff [a] b⟩
    d.result = .ok () ∧ d.fs = fs ∧ ∃ dist ws, LJ.Whole.Spec.Near M.hash (la.map M.tok) dist ∧
      (∀ k, k ∈ ws.map (·.i) ↔ New M.tok dist lb k) ∧ (ws.map (·.i)).Pairwise (· < ·) ∧
      LongContexts lb.length ws ∧ (lb.length < 512 → Contexts lb.length ws) ∧
      d.printed = (LJ.Output.Spec.page (lineList lb) ws).map fun r =>
        LJ.Output.Spec.console (fun l => T.live.score (dist (M.tok l))) (LJ.Output.Spec.shifted r) := by
  obtain ⟨i, hi1, hi2⟩ := train_log (G := G) hM ho ha
  obtain ⟨reader, outs, s, dist, ws, h1, h2, h3, h4, h5, h6, h7, h8, h9⟩ := inspect_log hM hb hmark hi2
  have hlive := live_log (G := G) (T := T) hmode hb (n := M.world.nameOf (.loc 0 (some a))) h1 h3 [.file a]
  have fa : (localTool M X G T).fromInput (Input.fromString a) = .ok (.file a) := localInput_log ha
  have fb : (localTool M X G T).fromInput (Input.fromString b) = .ok (.file b) := localInput_log hb
  have hrun : LJ.Cli.process ((localTool M X G T).cli mode) LJ.Cli.alone cache fs none none (some [Input.fromString a]) (Input.fromString b) =
      ⟨.ok (), some ⟨[.file a], [(M.world.nameOf (.loc 0 (some a)), i)]⟩, fs⟩ := by
    have e0 : ((localTool M X G T).cli mode).fromInput (Input.fromString a) = .ok (.file a) := by
      show ofRes _ = _
      rw [fa]; rfl
    have e1 : ((localTool M X G T).cli mode).fromInput (Input.fromString b) = .ok (.file b) := by
      show ofRes _ = _
      rw [fb]; rfl
    have e2 : ((localTool M X G T).cli mode).train [.file a] = .ok ⟨[.file a], [(M.world.nameOf (.loc 0 (some a)), i)]⟩ := hi1
    have e3 : ((localTool M X G T).cli mode).live (.file b) ⟨[.file a], [(M.world.nameOf (.loc 0 (some a)), i)]⟩ = .ok () := congrArg Prod.snd hlive
    unfold LJ.Cli.process LJ.Cli.getModel LJ.Cli.makeModel LJ.Cli.findBaselines LJ.Cli.fromInputs LJ.Cli.fromInputs
    simp only [e0, e1, e2, LJ.Cli.saveModel, LJ.Cli.inspect, LJ.Cli.alone, id, e3]
  have hd : (localTool M X G T).run mode cache fs ⟨none, none, .diff [a] b⟩ =
      ⟨LJ.Output.printAnomalies T.live none outs, .ok (), some ⟨[.file a], [(M.world.nameOf (.loc 0 (some a)), i)]⟩, fs⟩ := by
    unfold Tool.run Tool.process
    simp only [List.map_cons, List.map_nil, hrun]
    unfold Tool.printed
    simp only [fb, Tool.inspectText, hlive, modelText_none hmode, List.nil_append]
  simp only [hd]
  refine ⟨trivial, trivial, dist, ws, h2, h6, h7, h8, h9, ?_⟩
  refine LJ.Output.printAnomalies_page T.live ?_ h5 (fun w _ => lineList_numbered lb w) none none (.inl ⟨rfl, rfl⟩)
  intro l hl
  obtain ⟨x, hx, rfl⟩ := List.mem_map.1 hl
  exact List.le_snd_of_mem_zipIdx hx

/-- Nothing is printed when no line is new. -/
theorem C101_quiet (hM : LJ.Whole.Spec.Ordinary M) (ho : Orders T) {a b : Str} {la lb : List Str} (ha : Log M X a la) (hb : Log M X b lb)
    (hmark : ∀ l ∈ lb, ¬ "TASK [log-classify".toList <:+: l) (hsame : ∀ l ∈ lb, M.tok l ∈ la.map M.tok) {mode : OutputMode} (hmode : mode ≠ .fastTerminal)
    (cache : Bool) (fs : Fs Str) : ((localTool M X G T).run mode cache fs ⟨none, none, .diff [a] b⟩).printed = [] := by
  obtain ⟨_, _, dist, ws, h2, h6, _, _, _, h⟩ := C101_diff (G := G) hM ho ha hb hmark hmode cache fs
  have : ws = [] := by
    cases ws with
    | nil => rfl
    | cons w ws =>
      obtain ⟨l, h1, _, h3⟩ := (h6 w.i).1 (.head _)
      have := LJ.Whole.near_known h2 (hsame l (List.mem_of_getElem? h1))
      linarith
  rw [h, this]
  rfl

/-! ### The page -/

/-- the report of a log -/
theorem report_log (ho : Orders T) {a b : Str} {lb : List Str} (hb : Log M X b lb) {i : LJ.Report.Index Source} {n : Str}
    {reader : Bool → List (Ev Unit)} {outs : List (AnomalyContext ℝ)} {s : LJ.Process.St ℝ} (h1 : M.world.openSource (.loc 0 (some b)) = .ok reader)
    (h2 : LJ.Report.inspect M.world i (.loc 0 (some b)) reader [] = some (outs, none, s)) (hs : s.lineCount = lb.length) :
    ∃ r, (localTool M X G T).report ⟨[.file a], [(n, i)]⟩ (.file b) = .ok r ∧ r.target = .file b ∧ r.baselines = [.file a] ∧
      r.logReports = (if outs = [] then [] else [⟨s.lineCount, s.byteCount, outs, .loc 0 (some b), M.world.nameOf (.loc 0 (some b))⟩]) ∧
      r.indexErrors = [] ∧ r.readErrors = [] ∧ r.totalLineCount = lb.length ∧ r.totalAnomalyCount = outs.length := by
  have key : ∃ r, LJ.Report.report M.world ⟨[.file a], [(n, i)]⟩ T.reportOrder (.file b) = some (.ok r) ∧ r.target = .file b ∧ r.baselines = [.file a] ∧
      r.logReports = (if outs = [] then [] else [⟨s.lineCount, s.byteCount, outs, .loc 0 (some b), M.world.nameOf (.loc 0 (some b))⟩]) ∧
      r.indexErrors = [] ∧ r.readErrors = [] ∧ r.totalLineCount = lb.length ∧ r.totalAnomalyCount = outs.length := by
    unfold LJ.Report.report
    simp only [log_group hb, perm_single ho.report, LJ.Report.reportGroups, LJ.Report.reportGroup, lookup_one, LJ.Report.reportSources, h1, h2]
    refine ⟨_, rfl, ?_⟩
    unfold LJ.Report.record LJ.Report.recordErr
    cases outs with
    | nil => simp [hs]
    | cons o os => simp [hs, LJ.Report.recordIndex]
  obtain ⟨r, h, hr⟩ := key
  refine ⟨r, ?_, hr⟩
  have this' : LJ.Report.report (localTool M X G T).logs ⟨[.file a], [(n, i)]⟩ (localTool M X G T).reportOrder (.file b) = _ := h
  unfold Tool.report
  rw [this']

theorem document_container {checks : Bool} {sc : LJ.Output.Scale ℝ} {css version : Str} {lb : LJ.Output.Labels Local Source Str}
    {r : LJ.Report.Report Local Source Str ℝ Unit Unit} {c : LJ.Output.Node} (h : LJ.Output.container checks sc lb r = some c) :
    ∃ n, LJ.Output.document checks sc css version lb r = some n ∧ LJ.Output.Spec.Within c n := by
  unfold LJ.Output.document LJ.Output.body
  simp only [h, Option.bind_eq_bind, Option.bind_some]
  refine ⟨_, rfl, .inside (.tail _ (.head _)) (.inside (.tail _ (.head _)) .here)⟩

theorem name_log (p : Str) : M.world.nameOf (.loc 0 (some p)) = LJ.Paths.indexName p := by
  show ((Source.loc 0 (some p)).indexName).getD [] = _
  unfold Source.indexName
  have : (Source.loc 0 (some p)).getRelative = some p := by
    show LJ.Paths.sliceFrom p 0 = _
    unfold LJ.Paths.sliceFrom
    cases p <;> rfl
  rw [this]
  rfl

theorem progress_spec (mode : OutputMode) (msg : Str) : LJ.Output.progress mode msg = Spec.onTerminal mode msg := by
  cases mode <;> rfl

theorem loading_log (ho : Orders T) (mode : OutputMode) (fs : Fs Str) {a : Str} {la : List Str} (ha : Log M X a la) (content : Local) :
    (localTool M X G T).modelText mode fs none (some [Input.fromString a]) content =
      Spec.onTerminal mode ("Loading index ".toList ++ T.nameText (M.world.nameOf (.loc 0 (some a))) ++ " with ".toList ++ T.live.source (.loc 0 (some a))) := by
  have e0 : ((localTool M X G T).cli mode).fromInput (Input.fromString a) = .ok (.file a) := by
    show ofRes _ = _
    have : (localTool M X G T).fromInput (Input.fromString a) = .ok (.file a) := localInput_log ha
    rw [this]; rfl
  have hg : LJ.Report.groupSources (localTool M X G T).logs [.file a] = .ok [(M.world.nameOf (.loc 0 (some a)), [.loc 0 (some a)])] := log_group ha
  have hp : (localTool M X G T).trainOrder [(M.world.nameOf (.loc 0 (some a)), [.loc 0 (some a)])] = _ := perm_single ho.train _
  unfold Tool.modelText LJ.Cli.findBaselines LJ.Cli.fromInputs LJ.Cli.fromInputs Tool.trainText
  simp only [Option.any_none, Bool.false_eq_true, if_false, e0, hg, hp]
  unfold Tool.loading Tool.loading
  simp only [List.map_cons, List.map_nil, LJ.Output.joinComma, progress_spec]
  split <;> exact List.append_nil _

theorem printed_log (ho : Orders T) (mode : OutputMode) (cache : Bool) (fs : Fs Str) {args : Args} {file : Str} (h1 : args.report = some file)
    (h2 : args.model = none) {a b : Str} {la lb : List Str} (ha : Log M X a la) (hb : Log M X b lb) {n : Str} {cs : List Local} {i : LJ.Report.Index Source}
    {reader : Bool → List (Ev Unit)} (hr : M.world.openSource (.loc 0 (some b)) = .ok reader) {r : LJ.Report.Report Local Source Str ℝ Unit Unit}
    (h3 : (localTool M X G T).report ⟨cs, [(n, i)]⟩ (.file b) = .ok r) (h4 : (LJ.Cli.saveRaw ((localTool M X G T).cli mode) cache fs file r).1 = .ok ()) :
    (localTool M X G T).printed mode cache fs args (some [Input.fromString a]) (Input.fromString b) (some ⟨cs, [(n, i)]⟩) =
      Spec.onTerminal mode ("Loading index ".toList ++ T.nameText (M.world.nameOf (.loc 0 (some a))) ++ " with ".toList ++ T.live.source (.loc 0 (some a))) ++
        Spec.onTerminal mode ("Inspecting ".toList ++ T.live.source (.loc 0 (some b))) ++ [T.quote file ++ ": Writing report...\n".toList] := by
  have fb : (localTool M X G T).fromInput (Input.fromString b) = .ok (.file b) := localInput_log hb
  have hg : LJ.Report.groupSources (localTool M X G T).logs [.file b] = .ok [(M.world.nameOf (.loc 0 (some b)), [.loc 0 (some b)])] := log_group hb
  have hp : (localTool M X G T).reportOrder [(M.world.nameOf (.loc 0 (some b)), [.loc 0 (some b)])] = _ := perm_single ho.report _
  have hr' : (localTool M X G T).logs.openSource (.loc 0 (some b)) = .ok reader := hr
  have ht : (localTool M X G T).reportText mode ⟨cs, [(n, i)]⟩ (.file b) = Spec.onTerminal mode ("Inspecting ".toList ++ T.live.source (.loc 0 (some b))) := by
    unfold Tool.reportText
    simp only [h3, hg, hp, List.flatMap_cons, List.flatMap_nil, List.append_nil, Tool.visitGroup, lookup_one]
    unfold Tool.visits Tool.visits
    simp only [hr', List.append_nil, progress_spec]
    rfl
  unfold Tool.printed
  simp only [fb, h1, h2, loading_log ho mode fs ha, LJ.Cli.saveModel, Tool.inspectText, Tool.writingText, ht, h3, h4, List.append_assoc]
  congr 2
  rw [LJ.Output.println, List.append_assoc]
  rfl

/-- What `diff a b --report file` writes: a page with the target, the baseline and the number of lines and of new lines, and one item when there is a
new line (none otherwise), which shows the new lines of `b`, in order, each with its number and its context, with a line between the contexts which
are not adjacent.  A line says that the report is written, after the progress on a terminal, and no other file changes. -/
theorem C101_page (hM : LJ.Whole.Spec.Ordinary M) (ho : Orders T) {a b : Str} {la lb : List Str} (ha : Log M X a la) (hb : Log M X b lb)
    (hmark : ∀ l ∈ lb, ¬ "TASK [log-classify".toList <:+: l) (hlen : lb.length < 2 ^ 64) (mode : OutputMode) {fs : Fs Str} {file : Str}
    (hfile : fs.denied file = false ∧ T.noCreate file = false ∧ T.limit file = none) :
    let d := (localTool M X G T).run mode false fs ⟨some file, none, .diff [a] b⟩
    d.result = .ok () ∧
      d.printed = Spec.onTerminal mode ("Loading index ".toList ++ T.nameText (LJ.Paths.indexName a) ++ " with ".toList ++ T.live.source (.loc 0 (some a))) ++
        Spec.onTerminal mode ("Inspecting ".toList ++ T.live.source (.loc 0 (some b))) ++ [T.quote file ++ ": Writing report...\n".toList] ∧
      ∃ dist ws page c items, LJ.Whole.Spec.Near M.hash (la.map M.tok) dist ∧
      (∀ k, k ∈ ws.map (·.i) ↔ New M.tok dist lb k) ∧ (ws.map (·.i)).Pairwise (· < ·) ∧
      LongContexts lb.length ws ∧ (lb.length < 512 → Contexts lb.length ws) ∧
      (∀ p, d.fs.files p = if p = file then some (G.write page) else fs.files p) ∧
      LJ.Output.Spec.Within c page ∧ LJ.Output.Spec.ItemsOf c items ∧
      LJ.Output.Spec.Says c (G.labels.content (.file b)) ∧ LJ.Output.Spec.Says c (G.labels.content (.file a)) ∧
      (∃ pre, LJ.Output.Spec.Says c (pre ++ "% reduction (from ".toList ++ Nat.toDigits 10 lb.length ++ " to ".toList ++
        Nat.toDigits 10 ws.length ++ ")".toList)) ∧
      if ws = [] then items = [] else ∃ item, items = [item] ∧ LJ.Output.Spec.Says item (G.labels.relative (.loc 0 (some b))) ∧
        LJ.Output.Spec.Within (.elem "div" ["class=\"loglines\"".toList]
          ((LJ.Output.Spec.page (lineList lb) ws).map (LJ.Output.Spec.html G.scale (dist ∘ M.tok)))) item := by
  obtain ⟨i, hi1, hi2⟩ := train_log (G := G) hM ho ha
  obtain ⟨reader, outs, s, dist, ws, h1, h2, h3, h4, h5, h6, h7, h8, h9⟩ := inspect_log hM hb hmark hi2
  obtain ⟨r, r1, r2, r3, r4, r5, r6, r7, r8⟩ := report_log (G := G) (T := T) (a := a) ho hb (n := M.world.nameOf (.loc 0 (some a))) h1 h3 h4
  have hpos : ∀ l ∈ lineList lb, 0 < l.num := by
    intro l hl
    obtain ⟨x, hx, rfl⟩ := List.mem_map.1 hl
    exact List.le_snd_of_mem_zipIdx hx
  have hmax : ∀ l ∈ lineList lb, l.num < 2 ^ 64 := by
    intro l hl
    obtain ⟨x, hx, rfl⟩ := List.mem_map.1 hl
    have := List.snd_lt_add_of_mem_zipIdx hx
    show x.2 < 2 ^ 64
    omega
  have hlines : LJ.Output.renderLines G.checks G.scale outs = some ((LJ.Output.Spec.page (lineList lb) ws).map (LJ.Output.Spec.html G.scale (dist ∘ M.tok))) :=
    LJ.Output.renderFrom_page G.checks G.scale hpos hmax h5 (fun w _ => lineList_numbered lb w) none none (.inl ⟨rfl, rfl⟩)
  have hc : ∃ c, LJ.Output.container G.checks G.scale G.labels r = some c := by
    unfold LJ.Output.container
    rw [r4]
    split
    · exact ⟨_, rfl⟩
    · simp only [LJ.Output.renderReports, LJ.Output.renderContentReport, hlines, Option.bind_eq_bind, Option.bind_some]
      exact ⟨_, rfl⟩
  obtain ⟨c, hc⟩ := hc
  obtain ⟨page, p1, p2⟩ := document_container (css := G.css) (version := G.version) hc
  obtain ⟨items, i1, i2, i3⟩ := LJ.Output.C83_items hc
  obtain ⟨f1, f2, f3⟩ := LJ.Output.C83_info hc
  have fa : (localTool M X G T).fromInput (Input.fromString a) = .ok (.file a) := localInput_log ha
  have fb : (localTool M X G T).fromInput (Input.fromString b) = .ok (.file b) := localInput_log hb
  have hrun : LJ.Cli.process ((localTool M X G T).cli mode) LJ.Cli.alone false fs (some file) none (some [Input.fromString a]) (Input.fromString b) =
      ⟨.ok (), some ⟨[.file a], [(M.world.nameOf (.loc 0 (some a)), i)]⟩, LJ.Cli.put (LJ.Cli.put fs file []) file (G.write page)⟩ := by
    have e0 : ((localTool M X G T).cli mode).fromInput (Input.fromString a) = .ok (.file a) := by
      show ofRes _ = _
      rw [fa]; rfl
    have e1 : ((localTool M X G T).cli mode).fromInput (Input.fromString b) = .ok (.file b) := by
      show ofRes _ = _
      rw [fb]; rfl
    have e2 : ((localTool M X G T).cli mode).train [.file a] = .ok ⟨[.file a], [(M.world.nameOf (.loc 0 (some a)), i)]⟩ := hi1
    have e3 : ((localTool M X G T).cli mode).report ⟨[.file a], [(M.world.nameOf (.loc 0 (some a)), i)]⟩ (.file b) = .ok r := r1
    have e4 : ((localTool M X G T).cli mode).render r = .ok (G.write page) := by
      show ofOption _ (G.page r) = _
      unfold PageMaker.page
      rw [p1]; rfl
    have e5 : ((localTool M X G T).cli mode).createErr file = none := by
      show (if T.noCreate file then _ else _) = _
      rw [hfile.2.1]; rfl
    have e6 : LJ.Cli.written ((localTool M X G T).cli mode) file (G.write page) = G.write page := by
      unfold LJ.Cli.written
      have : ((localTool M X G T).cli mode).limit file = none := hfile.2.2
      rw [this]
    unfold LJ.Cli.process LJ.Cli.getModel LJ.Cli.makeModel LJ.Cli.findBaselines LJ.Cli.fromInputs LJ.Cli.fromInputs
    simp only [e0, e1, e2, LJ.Cli.saveModel, LJ.Cli.inspect, LJ.Cli.alone, id, LJ.Cli.writeReport, e3, LJ.Cli.saveRaw, LJ.Cli.writePage, e4,
      LJ.Cli.writeFile, LJ.Cli.create, e5, e6]
    simp [hfile.1]
  have hd : (localTool M X G T).run mode false fs ⟨some file, none, .diff [a] b⟩ =
      ⟨Spec.onTerminal mode ("Loading index ".toList ++ T.nameText (M.world.nameOf (.loc 0 (some a))) ++ " with ".toList ++ T.live.source (.loc 0 (some a))) ++
        Spec.onTerminal mode ("Inspecting ".toList ++ T.live.source (.loc 0 (some b))) ++ [T.quote file ++ ": Writing report...\n".toList], .ok (),
        some ⟨[.file a], [(M.world.nameOf (.loc 0 (some a)), i)]⟩, LJ.Cli.put (LJ.Cli.put fs file []) file (G.write page)⟩ := by
    unfold Tool.run Tool.process
    simp only [List.map_cons, List.map_nil, hrun]
    have := printed_log (G := G) ho mode false fs (args := ⟨some file, none, .diff [a] b⟩) rfl rfl ha hb (cs := [.file a]) (i := i) (n := M.world.nameOf (.loc 0 (some a))) h1 r1 rfl
    rw [this]
  have hl : outs.length = ws.length := h5.length_eq
  simp only [hd]
  refine ⟨trivial, by rw [name_log], dist, ws, page, c, items, h2, h6, h7, h8, h9, ?_, p2, i1, ?_, ?_, ?_, ?_⟩
  · intro p
    unfold LJ.Cli.put
    by_cases hp : p = file <;> simp [hp]
  · rw [r2] at f1; exact f1
  · rw [r3] at f2; simpa [List.intercalate] using f2
  · rw [r7, r8, hl] at f3; exact f3
  · split
    · rename_i hw
      have : outs = [] := by rw [hw] at hl; exact List.length_eq_zero_iff.1 hl
      rw [r4, if_pos this] at i2
      exact List.length_eq_zero_iff.1 i2
    · rename_i hw
      have ho' : outs ≠ [] := by
        rintro rfl
        exact hw (List.length_eq_zero_iff.1 hl.symm)
      rw [r4, if_neg ho'] at i2 i3
      obtain ⟨item, lines, j1, j2, j3, _, _, _, ⟨ch, j4, j5⟩, _⟩ := i3 0 _ rfl
      rw [hlines] at j2
      cases j2
      obtain ⟨item', e⟩ := List.length_eq_one_iff.1 i2
      rw [e] at j1 ⊢
      cases j1
      exact ⟨_, rfl, j3, LJ.Output.Within.trans j4 j5⟩

/-! ### C100: the lines of a file -/

/-- `debug-iterator` prints each line of the file which is not empty, in order, with its number. -/
theorem C100_lines (hM : LJ.Whole.Spec.Ordinary M) {p : Str} (hdir : X.isDir p = false) (hfile : X.isFile p = true) (hv : LJ.Paths.isValid p = true) {ls : List Line}
    (hl : LJ.Whole.Spec.HasLines M (.loc 0 (some p)) ls) (mode : OutputMode) (cache : Bool) (fs : Fs Str) (report model : Option Str) :
    let d := (localTool M X G T).run mode cache fs ⟨report, model, .debugIterator p⟩
    d.result = .ok () ∧ d.fs = fs ∧ d.printed = ls.map fun l => Nat.toDigits 10 l.num ++ " | ".toList ++ l.text ++ ['\n'] := by
  obtain ⟨hu, hs⟩ := LJ.Whole.hasTexts_sources (LJ.Whole.file_hasTexts (text := fun _ => ls) hv hl)
  obtain ⟨reader, lines, h1, h2, h3⟩ := LJ.Whole.hasLines_read hM hl
  have hp : ((lines.map Except.ok : List (Ev Unit)).map (localTool M X G T).iterLine) =
      ls.map fun l => Nat.toDigits 10 l.num ++ " | ".toList ++ l.text ++ ['\n'] := by
    clear h2 hl
    induction h3 with
    | nil => rfl
    | @cons x l xs ls hx _ ih =>
      have : (localTool M X G T).iterLine (.ok x) = Nat.toDigits 10 l.num ++ " | ".toList ++ l.text ++ ['\n'] := by
        have e : (localTool M X G T).logs.decode x.1 = some l.text := hx.1
        unfold Tool.iterLine
        simp only [hx.2, e]
        rfl
      rw [List.map_cons, List.map_cons, List.map_cons, this, ih]
  have hd : (localTool M X G T).debugIterator p = (ls.map fun l => Nat.toDigits 10 l.num ++ " | ".toList ++ l.text ++ ['\n'], .ok ()) := by
    have e1 : (localTool M X G T).fromInput (.path p) = .ok (.file p) := localInput_file hdir hfile
    have e2 : LJ.Report.getSources (localTool M X G T).logs (.file p) = .ok [.loc 0 (some p)] := by
      rw [← hs]; exact LJ.Report.getSources_ok hu
    have e3 : (localTool M X G T).logs.openSource (.loc 0 (some p)) = .ok reader := h1
    have e4 : (localTool M X G T).logs.isJson (.loc 0 (some p)) = false := LJ.Whole.hasLines_json hl
    unfold Tool.debugIterator
    simp only [e1, ofRes, e2, Tool.debugFirst, e3, e4, h2, hp]
  have : (localTool M X G T).run mode cache fs ⟨report, model, .debugIterator p⟩ = keep fs ((localTool M X G T).debugIterator p) := rfl
  simp only [this, hd, keep, and_self]

/-- The same for any file whose lines are short: a line which is not UTF-8 is replaced with an error, and the others are printed. -/
theorem C100_bytes (hM : LJ.Whole.Spec.Ordinary M) {p : Str} (hdir : X.isDir p = false) (hfile : X.isFile p = true) (hv : LJ.Paths.isValid p = true) {data : Bytes}
    (hb : M.files p = some data) (hshort : ∀ x ∈ LJ.Iterator.Spec.pieces (M.world.isJson (.loc 0 (some p))) data, x.1.length < 6000)
    (mode : OutputMode) (cache : Bool) (fs : Fs Str) (report model : Option Str) :
    let d := (localTool M X G T).run mode cache fs ⟨report, model, .debugIterator p⟩
    d.result = .ok () ∧ d.fs = fs ∧ d.printed = (LJ.Iterator.Spec.lines (M.world.isJson (.loc 0 (some p))) 6000 data).map fun x =>
      Nat.toDigits 10 x.2 ++ (match LJ.Whole.decode x.1 with | some t => " | ".toList ++ t | none => " | error: ".toList ++ T.utf8Err x.1) ++ ['\n'] := by
  have hp : ∀ x : LJ.Process.LogLine, (localTool M X G T).iterLine (.ok x) =
      Nat.toDigits 10 x.2 ++ (match LJ.Whole.decode x.1 with | some t => " | ".toList ++ t | none => " | error: ".toList ++ T.utf8Err x.1) ++ ['\n'] := by
    intro x
    have e : (localTool M X G T).logs.decode x.1 = LJ.Whole.decode x.1 := rfl
    unfold Tool.iterLine
    simp only [e]
    cases LJ.Whole.decode x.1 with
    | some t => simp [println, decimal]
    | none => simp only [println, decimal, List.append_assoc]; rfl
  have e1 : (localTool M X G T).fromInput (.path p) = .ok (.file p) := localInput_file hdir hfile
  have e2 : LJ.Report.getSources (localTool M X G T).logs (.file p) = .ok [.loc 0 (some p)] := by
    have hv' : LJ.Paths.isValid (Source.asStr (.loc 0 (some p))) = true := hv
    have h1 : LJ.Report.Spec.validSources M.world.valid (M.world.list (.file p)) = [.loc 0 (some p)] := by
      show LJ.Report.Spec.validSources _ (M.list (.file p)) = _
      simp [LJ.Whole.Machine.list, LJ.Report.Spec.validSources, LJ.Whole.Machine.world, LJ.Report.indexWorld, hv']
    rw [← h1]
    refine LJ.Report.getSources_ok (w := M.world) ⟨fun e => ?_, by rw [h1]; simp⟩
    show Except.error e ∉ M.list (.file p)
    simp [LJ.Whole.Machine.list]
  have e3 : (localTool M X G T).logs.openSource (.loc 0 (some p)) = _ := (LJ.Whole.world_open M _).trans (LJ.Whole.openSource_eq M 0 p)
  rw [hb] at e3
  have e4 : (localTool M X G T).logs.isJson (.loc 0 (some p)) = M.world.isJson (.loc 0 (some p)) := rfl
  have h2 : LJ.Whole.events (LJ.Iterator.allLines (LJ.Iterator.build M.checks) (M.world.isJson (.loc 0 (some p))) (LJ.Iterator.fromReads (M.cut p data))) =
      (LJ.Iterator.Spec.lines (M.world.isJson (.loc 0 (some p))) 6000 data).map (Except.ok : LJ.Process.LogLine → Ev Unit) := by
    rw [LJ.Iterator.C02_lines_spec Unit M.checks _ _ (hM.blocks p data) (LJ.Iterator.noOverflow_of_short (by rw [hM.whole]; exact hshort)), hM.whole]
    simp [LJ.Whole.events]
  have hd : (localTool M X G T).debugIterator p = ((LJ.Iterator.Spec.lines (M.world.isJson (.loc 0 (some p))) 6000 data).map fun x =>
      Nat.toDigits 10 x.2 ++ (match LJ.Whole.decode x.1 with | some t => " | ".toList ++ t | none => " | error: ".toList ++ T.utf8Err x.1) ++ ['\n'], .ok ()) := by
    unfold Tool.debugIterator
    simp only [e1, ofRes, e2, Tool.debugFirst, e3, e4, h2, List.map_map]
    exact congrArg (·, _) (List.map_congr_left fun x _ => hp x)
  have : (localTool M X G T).run mode cache fs ⟨report, model, .debugIterator p⟩ = keep fs ((localTool M X G T).debugIterator p) := rfl
  simp only [this, hd, keep, and_self]

/-- For a text file, each line has its number. -/
theorem C100_text (hM : LJ.Whole.Spec.Ordinary M) {p : Str} {ls : List Str} (hp : Log M X p ls) (mode : OutputMode) (cache : Bool) (fs : Fs Str) (report model : Option Str) :
    let d := (localTool M X G T).run mode cache fs ⟨report, model, .debugIterator p⟩
    d.result = .ok () ∧ d.fs = fs ∧ d.printed = (lineList ls).map fun l => Nat.toDigits 10 l.num ++ " | ".toList ++ l.text ++ ['\n'] :=
  C100_lines hM hp.dir hp.file hp.valid (LJ.Whole.file_hasLines hp.bytes hp.lines hp.json) mode cache fs report model

/-! ### C102: `path` -/

theorem discover_file (X : Outside Empty) (p : Str) : localDiscover X (.file p) = (match localInput X (.path (p ++ ".0".toList)) with
    | .ok c => .ok [c]
    | .err => .err
    | .panic => .panic) := by
  unfold localDiscover localInput LJ.Paths.discoverBaselines ofLocal
  simp only [LJ.Paths.fromInput, LJ.Paths.fromPathStr]
  cases X.isDir (p ++ ".0".toList) <;> cases X.isFile (p ++ ".0".toList) <;> rfl

/-- the discovered baselines are never an empty list -/
theorem discover_some (X : Outside Empty) (c : Local) : localDiscover X c ≠ .ok [] := by
  cases c with
  | directory p => intro h; cases h
  | file p =>
    rw [discover_file]
    cases localInput X (.path (p ++ ".0".toList)) <;> (intro h; cases h)

/-- C98 for the local files: only `diff` without a source has no baseline. -/
theorem C98_local (ho : Orders T) (mode : OutputMode) (cache : Bool) (fs : Fs Str) {args : Args}
    (hcmp : Spec.Compares args.command) (hsrc : ∀ dst, args.command ≠ .diff [] dst) (hmf : NoModelFile fs args.model)
    (h : ((localTool M X G T).run mode cache fs args).result = .ok ()) :
    ∃ m, ((localTool M X G T).run mode cache fs args).model = some m ∧ m.baselines ≠ [] ∧
      (∀ c ∈ m.baselines, ∀ s ∈ sourcesOf (localTool M X G T) c, ∃ n i, (n, i) ∈ m.indexes ∧ s ∈ i.sources) ∧ ∃ n i, (n, i) ∈ m.indexes ∧ i.sources ≠ [] :=
  C98_partial (T := localTool M X G T) ⟨ho.train, ho.report, ho.group⟩ (discover_some X) mode cache fs hcmp hsrc hmf h

/-- C102: without a model, `path p` does what `diff p.0 p` does, for each local file `p`. -/
def C102 : Prop := ∀ (M : Machine) (X : Outside Empty) (G : PageMaker) (T : Tool Local Source Str ℝ Unit Unit) (mode : OutputMode) (cache : Bool) (fs : Fs Str)
  (report : Option Str) (p : Str), X.isDir p = false → X.isFile p = true →
  (localTool M X G T).run mode cache fs ⟨report, none, .path p⟩ = (localTool M X G T).run mode cache fs ⟨report, none, .diff [p ++ ".0".toList] p⟩

/-- It does when the name of the file does not start with `http`; the model may be given, when its file does not exist.  Missing from C102: the names
which start with `http`. -/
theorem C102_partial {p : Str} (hdir : X.isDir p = false) (hfile : X.isFile p = true) (hurl : ¬ "http".toList <+: p) (mode : OutputMode) (cache : Bool)
    {fs : Fs Str} {model : Option Str} (hm : NoModelFile fs model) (report : Option Str) :
    (localTool M X G T).run mode cache fs ⟨report, model, .path p⟩ = (localTool M X G T).run mode cache fs ⟨report, model, .diff [p ++ ".0".toList] p⟩ := by
  have e1 : (localTool M X G T).fromInput (.path p) = .ok (.file p) := localInput_file hdir hfile
  have e2 : ((localTool M X G T).cli mode).fromInput (.path p) = .ok (.file p) := by
    show ofRes _ = _
    rw [e1]; rfl
  have e3 : LJ.Cli.makeModel ((localTool M X G T).cli mode) (.file p) none =
      LJ.Cli.makeModel ((localTool M X G T).cli mode) (.file p) (some [.path (p ++ ".0".toList)]) := by
    unfold LJ.Cli.makeModel LJ.Cli.findBaselines LJ.Cli.fromInputs LJ.Cli.fromInputs
    have a1 : ((localTool M X G T).cli mode).discover (.file p) = ofRes (localDiscover X (.file p)) := rfl
    have a2 : ((localTool M X G T).cli mode).fromInput (.path (p ++ ".0".toList)) = ofRes (localInput X (.path (p ++ ".0".toList))) := rfl
    simp only [a1, a2, discover_file]
    cases localInput X (.path (p ++ ".0".toList)) <;> rfl
  have e4 : LJ.Cli.getModel ((localTool M X G T).cli mode) fs (.file p) model none =
      LJ.Cli.getModel ((localTool M X G T).cli mode) fs (.file p) model (some [.path (p ++ ".0".toList)]) := by
    unfold LJ.Cli.getModel
    cases model with
    | none => exact e3
    | some q =>
      have hq : LJ.Cli.exists' fs q = false := by
        unfold LJ.Cli.exists'
        have := hm q rfl
        cases h1 : fs.denied q with
        | true => rfl
        | false =>
          cases h2 : fs.files q with
          | none => rfl
          | some b => exact (this ⟨h1, b, h2⟩).elim
      simp only [hq]
      exact e3
  have e5 : Input.fromString (p ++ ".0".toList) = .path (p ++ ".0".toList) := fromString_path (by rw [http_dot]; exact hurl)
  unfold Tool.run Tool.process
  simp only [List.map_cons, List.map_nil, fromString_path hurl, e5]
  have e6 : ∀ content : Local, content = .file p → (localTool M X G T).modelText mode fs model none content =
      (localTool M X G T).modelText mode fs model (some [.path (p ++ ".0".toList)]) content := by
    rintro _ rfl
    unfold Tool.modelText LJ.Cli.findBaselines LJ.Cli.fromInputs LJ.Cli.fromInputs
    have a1 : ((localTool M X G T).cli mode).discover (.file p) = ofRes (localDiscover X (.file p)) := rfl
    have a2 : ((localTool M X G T).cli mode).fromInput (.path (p ++ ".0".toList)) = ofRes (localInput X (.path (p ++ ".0".toList))) := rfl
    simp only [a1, a2, discover_file]
    cases localInput X (.path (p ++ ".0".toList)) <;> rfl
  unfold LJ.Cli.process Tool.printed
  simp only [e1, e2, e4, e6]

end LJ.Program

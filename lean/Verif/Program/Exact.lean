/-
C130: exactly what `diff` prints for files and directories of any content, in any mode.
-/
import Verif.Program.LocalProps
import Verif.Whole.Trees
import Verif.Output.Exact
import Verif.Output.Rows
import Verif.Process.Small
namespace LJ.Program
open LJ.Process (Str Bytes Ev)
open LJ.Paths (Input Res Outside Source)
open LJ.Whole (Machine Local)
open LJ.Output (OutputMode)
open LJ.Cli (Fs)
open Spec (Orders)
open LJ.Whole.Spec (sourcesOf CanList nameOf reads contentOf Distances)

namespace Spec

/-- The message of the training, for the sources of one name. -/
def loadingText (name : Str) (sources : List Str) : Str :=
  "Loading index ".toList ++ name ++ " with ".toList ++ ", ".toList.intercalate sources

/-- The sources of one name are visited until one which can't be opened. -/
def visited {S E V : Type} (content : S → Except E V) : List S → List S
  | [] => []
  | s :: ss => s :: match content s with
    | .error _ => []
    | .ok _ => visited content ss

/-- The lines of the files have numbers of 64 bits. -/
def Counted (M : Machine) (files : List Source) : Prop :=
  ∀ s ∈ files, ∀ evs, contentOf M s = .ok evs → ∀ x, .ok x ∈ evs → x.2 < 2 ^ 64

end Spec

theorem joinComma_eq (ts : List Str) : LJ.Output.joinComma ts = ", ".toList.intercalate ts := by
  induction ts with
  | nil => rfl
  | cons x ts ih =>
    cases ts with
    | nil => simp [LJ.Output.joinComma, List.intercalate]
    | cons y ts =>
      show x ++ ", ".toList ++ LJ.Output.joinComma (y :: ts) = _
      rw [ih]
      simp [List.intercalate, List.intersperse]

section
variable {C S N D E ε : Type} [DecidableEq N] {T : Tool C S N D E ε}

omit [DecidableEq N] in
theorem loading_all [DecidableEq N] (mode : OutputMode) : ∀ gs : List (N × List S), (∀ g ∈ gs, ∃ i, LJ.Report.trainIndex T.logs g.2 = .ok i) →
    T.loading mode gs = gs.flatMap fun g => Spec.onTerminal mode (Spec.loadingText (T.nameText g.1) (g.2.map T.live.source))
  | [], _ => rfl
  | (n, ss) :: gs, h => by
    obtain ⟨i, hi⟩ := h (n, ss) (.head _)
    unfold Tool.loading
    rw [hi, loading_all mode gs fun g hg => h g (.tail _ hg), List.flatMap_cons, progress_spec, joinComma_eq]
    rfl

/-- a training which succeeds prints one message for each name -/
theorem trainText_ok (ho : ∀ g, (T.trainOrder g).Perm g) (mode : OutputMode) {cs : List C} {m : LJ.Report.Model C S N} (h : T.train cs = .ok m) :
    ∃ groups, LJ.Report.Spec.IsPartition T.logs.nameOf (cs.flatMap fun c => LJ.Report.Spec.validSources T.logs.valid (T.logs.list c)) groups ∧
      T.trainText mode cs = groups.flatMap fun g => Spec.onTerminal mode (Spec.loadingText (T.nameText g.1) (g.2.map T.live.source)) := by
  have h' : LJ.Report.train T.logs T.trainOrder cs = .ok m := by
    unfold Tool.train at h
    cases ht : LJ.Report.train T.logs T.trainOrder cs with
    | error e => rw [ht] at h; cases h
    | ok m' => rw [ht] at h; cases h; rfl
  unfold LJ.Report.train at h'
  cases hg : LJ.Report.groupSources T.logs cs with
  | error e => rw [hg] at h'; cases h'
  | ok g =>
    rw [hg] at h'
    simp only at h'
    have hp := (LJ.Report.groupSources_ok_iff hg).2
    refine ⟨T.trainOrder g, ⟨((ho g).map Prod.fst).nodup_iff.2 hp.1, fun n ss => by rw [(ho g).mem_iff]; exact hp.2 n ss⟩, ?_⟩
    unfold Tool.trainText
    rw [hg]
    refine loading_all mode _ ?_
    rcases LJ.Report.trainGroups_spec (w := T.logs) (T.trainOrder g) with ⟨h1, _⟩ | ⟨_, _, e, _, h2⟩
    · exact h1
    · rw [h2] at h'; cases h'

end

variable {M : Machine} {X : Outside Empty} {G : PageMaker} {T : Tool Local Source Str ℝ Unit Unit}

theorem fromInputs_local (mode : OutputMode) : ∀ {src : List Str} {cs : List Local},
    src.map (fun s => localInput X (Input.fromString s)) = cs.map Res.ok →
    LJ.Cli.fromInputs ((localTool M X G T).cli mode) (src.map Input.fromString) = .ok cs
  | [], [], _ => rfl
  | [], _ :: _, h => by cases h
  | _ :: _, [], h => by cases h
  | s :: src, c :: cs, h => by
    rw [List.map_cons, List.map_cons, List.cons.injEq] at h
    have e0 : ((localTool M X G T).cli mode).fromInput (Input.fromString s) = .ok c := by
      show ofRes (localInput X (Input.fromString s)) = _
      rw [h.1]; rfl
    rw [List.map_cons, LJ.Cli.fromInputs, e0, fromInputs_local mode h.2]

/-- C130.  `diff` on files and directories of any content, JSON or not, read in any way, by a release build, when the baselines and the target can be listed
and the files of the baselines can be opened.  The command succeeds, leaves the files, and prints exactly the messages of the training, one for each name
of a file of the baselines, and then what `LJ.Output.Spec.live` says for the files of the target, with the distances to the tokens learned from the baselines. -/
theorem C130_diff (hrel : M.checks = false) (hfp : M.fp.Standard) (hblocks : ∀ p d, LJ.Iterator.Spec.Blocks (M.cut p d)) (ho : Orders T)
    {src : List Str} {dst : Str} {baselines : List Local} {target : Local}
    (hsrc : src.map (fun s => localInput X (Input.fromString s)) = baselines.map Res.ok) (hdst : localInput X (Input.fromString dst) = .ok target)
    (hl : ∀ c ∈ baselines, CanList M c) (hf : ∀ c ∈ baselines, ∀ s ∈ sourcesOf M c, reads M s ≠ none) (ht : CanList M target)
    (mode : OutputMode) (cache : Bool) (fs : Fs Str) :
    let d := (localTool M X G T).run mode cache fs ⟨none, none, .diff src dst⟩
    d.result = .ok () ∧ d.fs = fs ∧ ∃ dist groups, Distances M baselines dist ∧
      LJ.Report.Spec.IsPartition nameOf (baselines.flatMap (sourcesOf M)) groups ∧
      d.printed = (groups.flatMap fun g => Spec.onTerminal mode (Spec.loadingText (T.nameText g.1) (g.2.map T.live.source))) ++
        LJ.Output.Spec.live T.live mode target
          (LJ.Output.Spec.outcomes M.tok dist LJ.Whole.Spec.over LJ.Whole.decode nameOf (contentOf M) (sourcesOf M target)) := by
  obtain ⟨m, hm⟩ := LJ.Whole.train_contents hrel hblocks ho.train hl hf
  obtain ⟨dist, hd, hpt⟩ := LJ.Whole.trained_distances hrel hfp hblocks ho.train hm
  have hm' : (localTool M X G T).train baselines = .ok m := by
    unfold Tool.train
    have : LJ.Report.train (localTool M X G T).logs (localTool M X G T).trainOrder baselines = .ok m := hm
    rw [this]
  obtain ⟨groups, hg, htext⟩ := trainText_ok (T := localTool M X G T) ho.train mode hm'
  have hlive := LJ.Output.C130_live (w := M.world) (LJ.Report.searchOk_indexWorld hfp) T.live mode m (content := target) ht (dist := dist) (by
    intro n
    have h := hpt n
    cases hl : LJ.Report.lookupOrSingle m.indexes n with
    | none => rw [hl] at h; exact h
    | some i => rw [hl] at h; exact h)
  rw [LJ.Whole.content_of hrel hblocks, LJ.Whole.over_of] at hlive
  have hrun : (localTool M X G T).liveRun mode target m = (LJ.Output.Spec.live T.live mode target
      (LJ.Output.Spec.outcomes M.tok dist LJ.Whole.Spec.over LJ.Whole.decode nameOf (contentOf M) (sourcesOf M target)), .ok ()) := by
    unfold Tool.liveRun
    have : LJ.Output.processLive (localTool M X G T).logs (localTool M X G T).live mode target m = _ := hlive
    rw [this]
    rfl
  have e0 := fromInputs_local (M := M) (G := G) (T := T) mode hsrc
  have e1 : ((localTool M X G T).cli mode).fromInput (Input.fromString dst) = .ok target := by
    show ofRes (localInput X (Input.fromString dst)) = _
    rw [hdst]; rfl
  have e2 : ((localTool M X G T).cli mode).train baselines = .ok m := hm'
  have e3 : ((localTool M X G T).cli mode).live target m = .ok () := congrArg Prod.snd hrun
  have hp : LJ.Cli.process ((localTool M X G T).cli mode) LJ.Cli.alone cache fs none none (some (src.map Input.fromString)) (Input.fromString dst) =
      ⟨.ok (), some m, fs⟩ := by
    unfold LJ.Cli.process LJ.Cli.getModel LJ.Cli.makeModel LJ.Cli.findBaselines
    simp only [e0, e1, e2, LJ.Cli.saveModel, LJ.Cli.inspect, LJ.Cli.alone, id, e3]
  have fb : (localTool M X G T).fromInput (Input.fromString dst) = .ok target := hdst
  have hdone : (localTool M X G T).run mode cache fs ⟨none, none, .diff src dst⟩ =
      ⟨(localTool M X G T).trainText mode baselines ++ ((localTool M X G T).liveRun mode target m).1, .ok (), some m, fs⟩ := by
    unfold Tool.run Tool.process
    simp only [hp]
    unfold Tool.printed Tool.modelText LJ.Cli.findBaselines
    simp only [fb, Option.any_none, Bool.false_eq_true, if_false, e0, Tool.inspectText]
  simp only [hdone]
  refine ⟨trivial, trivial, dist, groups, hd, hg, ?_⟩
  rw [htext, hrun]
  rfl

/-! ### With a report file -/

theorem said_small {tok : Str → Str} {dist : Str → ℝ} {over : ℝ → Bool} {decode : Bytes → Option Str} {content : Source → Except Unit (List (Ev Unit))} :
    ∀ (ss : List Source) (seen : List Str), (∀ s ∈ ss, ∀ evs, content s = .ok evs → ∀ x, .ok x ∈ evs → x.2 < 2 ^ 64) →
      ∀ y ∈ LJ.Report.Spec.said tok dist over decode content seen ss, ∀ c ∈ y.anomalies, LJ.Output.Spec.Fits c
  | [], _, _ => by intro y hy; cases hy
  | s :: ss, seen, h => by
    intro y hy
    rw [LJ.Report.Spec.said] at hy
    cases hc : content s with
    | error e =>
      rw [hc] at hy
      rw [List.mem_singleton] at hy
      subst hy
      intro c hc; cases hc
    | ok evs =>
      rw [hc] at hy
      rcases List.mem_cons.1 hy with rfl | hy
      · intro c hcm
        obtain ⟨h1, h2, l, h3, _, h4, _⟩ := LJ.Process.C128_small seen evs c hcm
        have := h s (.head _) evs hc l h3
        exact ⟨by rw [← h4]; exact this, by omega, by omega⟩
      · exact said_small ss _ (fun t ht => h t (.tail _ ht)) y hy

theorem describes_fits {files : List Source} {dist : Str → Option (Str → ℝ)} {r : LJ.Report.Report Local Source Str ℝ Unit Unit}
    (h : LJ.Whole.Spec.Describes M files dist r) (hn : Spec.Counted M files) : ∀ l ∈ r.logReports, ∀ c ∈ l.anomalies, LJ.Output.Spec.Fits c := by
  intro l hl
  have hm : (l.source, l.anomalies, l.lineCount, l.byteCount) ∈
      (r.logReports.filter fun l' => decide (l'.indexName = l.indexName)).map (fun l => (l.source, l.anomalies, l.lineCount, l.byteCount)) :=
    List.mem_map.2 ⟨l, List.mem_filter.2 ⟨hl, by simp⟩, rfl⟩
  rw [h.logs] at hm
  obtain ⟨x, hx, e⟩ := List.mem_map.1 hm
  have hx := (List.mem_filter.1 hx).1
  have e : x.anomalies = l.anomalies := congrArg (fun y => y.2.1) e
  rw [← e]
  unfold LJ.Whole.Spec.said at hx
  cases hd : dist l.indexName with
  | none => rw [hd] at hx; cases hx
  | some f =>
    rw [hd] at hx
    exact said_small _ [] (fun s hs => hn s (List.mem_filter.1 hs).1) x hx

theorem visits_all (hrel : M.checks = false) (hblocks : ∀ p d, LJ.Iterator.Spec.Blocks (M.cut p d)) (mode : OutputMode) : ∀ ss : List Source,
    (localTool M X G T).visits mode ss = (Spec.visited (contentOf M) ss).flatMap fun s => Spec.onTerminal mode ("Inspecting ".toList ++ T.live.source s)
  | [] => rfl
  | s :: ss => by
    have h : LJ.Report.content M.world s = contentOf M s := congrFun (LJ.Whole.content_of hrel hblocks) s
    unfold LJ.Report.content at h
    rw [Tool.visits, Spec.visited, List.flatMap_cons, progress_spec]
    congr 1
    cases ho : M.world.openSource s with
    | error e =>
      have ho' : (localTool M X G T).logs.openSource s = .error e := ho
      rw [ho] at h
      rw [ho', ← h]
      rfl
    | ok reader =>
      have ho' : (localTool M X G T).logs.openSource s = .ok reader := ho
      rw [ho] at h
      rw [ho', ← h]
      exact visits_all hrel hblocks mode ss

/-- C130.  `diff --report file`, on the same files and directories, for lines with numbers of 64 bits, when the file can be written.  The messages of the training and of the inspection are
printed, then the one which says that the report is written; the file has a page with the target, the baselines, the totals of the report and one item for each file with anomalies, whose
rows are exactly those of `LJ.Output.Spec.anomalyNodes`; the report is the one described by `LJ.Whole.Spec.Describes`. -/
theorem C130_report (hrel : M.checks = false) (hfp : M.fp.Standard) (hblocks : ∀ p d, LJ.Iterator.Spec.Blocks (M.cut p d)) (hG : G.checks = false) (ho : Orders T)
    {src : List Str} {dst : Str} {baselines : List Local} {target : Local}
    (hsrc : src.map (fun s => localInput X (Input.fromString s)) = baselines.map Res.ok) (hdst : localInput X (Input.fromString dst) = .ok target)
    (hl : ∀ c ∈ baselines, CanList M c) (hf : ∀ c ∈ baselines, ∀ s ∈ sourcesOf M c, reads M s ≠ none) (ht : CanList M target)
    (hn : Spec.Counted M (sourcesOf M target)) (mode : OutputMode) {fs : Fs Str} {file : Str}
    (hfile : fs.denied file = false ∧ T.noCreate file = false ∧ T.limit file = none) :
    let d := (localTool M X G T).run mode false fs ⟨some file, none, .diff src dst⟩
    d.result = .ok () ∧ ∃ dist groups targets r page c items, Distances M baselines dist ∧
      LJ.Report.Spec.IsPartition nameOf (baselines.flatMap (sourcesOf M)) groups ∧ LJ.Report.Spec.IsPartition nameOf (sourcesOf M target) targets ∧
      d.printed = (groups.flatMap fun g => Spec.onTerminal mode (Spec.loadingText (T.nameText g.1) (g.2.map T.live.source))) ++
        (targets.flatMap fun g => if dist g.1 = none then [] else
          (Spec.visited (contentOf M) g.2).flatMap fun s => Spec.onTerminal mode ("Inspecting ".toList ++ T.live.source s)) ++ [Spec.announce T file] ∧
      LJ.Whole.Spec.Describes M (sourcesOf M target) dist r ∧
      (∀ p, d.fs.files p = if p = file then some (G.write page) else fs.files p) ∧
      LJ.Output.Spec.Within c page ∧ LJ.Output.Spec.ItemsOf c items ∧ items.length = r.logReports.length ∧
      LJ.Output.Spec.Says c (G.labels.content target) ∧ LJ.Output.Spec.Says c (", ".toList.intercalate (baselines.map G.labels.content)) ∧
      (∃ pre, LJ.Output.Spec.Says c (pre ++ "% reduction (from ".toList ++ Nat.toDigits 10 r.totalLineCount ++ " to ".toList ++
        Nat.toDigits 10 (r.logReports.map fun l => l.anomalies.length).sum ++ ")".toList)) ∧
      ∀ (i : Nat) l, r.logReports[i]? = some l → ∃ item, items[i]? = some item ∧ LJ.Output.Spec.Says item (G.labels.relative l.source) ∧
        LJ.Output.Spec.Within (.elem "div" ["class=\"loglines\"".toList] (LJ.Output.Spec.anomalyNodes G.scale l.anomalies)) item := by
  obtain ⟨m, hm⟩ := LJ.Whole.train_contents hrel hblocks ho.train hl hf
  obtain ⟨dist, hd, hpt⟩ := LJ.Whole.trained_distances hrel hfp hblocks ho.train hm
  obtain ⟨r, hr, hdesc⟩ := LJ.Whole.report_describes hrel hfp hblocks ho.report ht hpt
  have hm' : (localTool M X G T).train baselines = .ok m := by
    unfold Tool.train
    have : LJ.Report.train (localTool M X G T).logs (localTool M X G T).trainOrder baselines = .ok m := hm
    rw [this]
  have hr' : (localTool M X G T).report m target = .ok r := by
    unfold Tool.report
    have : LJ.Report.report (localTool M X G T).logs m (localTool M X G T).reportOrder target = some (.ok r) := hr
    rw [this]
  have hbase : m.baselines = baselines := ((LJ.Report.C75_train (w := M.world) ho.train baselines).2 m hm).1
  obtain ⟨t1, _, t2, t3⟩ := LJ.Report.C37_totals (w := M.world) (LJ.Report.searchOk_indexWorld hfp) ho.report hr
  obtain ⟨groups, hg, htext⟩ := trainText_ok (T := localTool M X G T) ho.train mode hm'
  have hfits := describes_fits hdesc hn
  obtain ⟨c, hc⟩ := (LJ.Output.C83_made G.scale G.labels r).1
  rw [← hG] at hc
  obtain ⟨page, p1, p2⟩ := document_container (css := G.css) (version := G.version) hc
  obtain ⟨items, i1, i2, i3⟩ := LJ.Output.C83_items hc
  obtain ⟨f1, f2, f3⟩ := LJ.Output.C83_info hc
  -- the target
  obtain ⟨tg, htg1, htg2⟩ : ∃ tg, LJ.Report.groupSources M.world [target] = .ok tg ∧ LJ.Report.Spec.IsPartition nameOf (sourcesOf M target) tg := by
    obtain ⟨tg, h1, h2⟩ := LJ.Report.C35_groups (w := M.world) (cs := [target]) (fun c hc => by rw [List.mem_singleton] at hc; subst hc; exact ht)
    refine ⟨tg, h1, ?_⟩
    simp only [List.flatMap_cons, List.flatMap_nil, List.append_nil] at h2
    exact h2
  have hvisit : (localTool M X G T).reportText mode m target = ((T.reportOrder tg).flatMap fun g => if dist g.1 = none then [] else
          (Spec.visited (contentOf M) g.2).flatMap fun s => Spec.onTerminal mode ("Inspecting ".toList ++ T.live.source s)) := by
    have htg' : LJ.Report.groupSources (localTool M X G T).logs [target] = .ok tg := htg1
    unfold Tool.reportText
    rw [hr', htg']
    show List.flatMap _ (T.reportOrder tg) = _
    refine List.flatMap_congr ?_
    intro g _
    unfold Tool.visitGroup
    have h := hpt g.1
    cases hlk : LJ.Report.lookupOrSingle m.indexes g.1 with
    | none =>
      rw [hlk] at h
      rw [if_pos h]
    | some i =>
      rw [hlk] at h
      obtain ⟨f, h, _⟩ := h
      rw [if_neg (by rw [h]; exact nofun)]
      exact visits_all hrel hblocks mode g.2
  have e0 := fromInputs_local (M := M) (G := G) (T := T) mode hsrc
  have e1 : ((localTool M X G T).cli mode).fromInput (Input.fromString dst) = .ok target := by
    show ofRes (localInput X (Input.fromString dst)) = _
    rw [hdst]; rfl
  have e2 : ((localTool M X G T).cli mode).train baselines = .ok m := hm'
  have e3 : ((localTool M X G T).cli mode).report m target = .ok r := hr'
  have e4 : ((localTool M X G T).cli mode).render r = .ok (G.write page) := by
    show ofOption _ (G.page r) = _
    unfold PageMaker.page
    rw [p1]; rfl
  have e5 : ((localTool M X G T).cli mode).createErr file = none := by
    show (if T.noCreate file then _ else _) = _
    rw [hfile.2.1]; rfl
  have e6 : LJ.Cli.written ((localTool M X G T).cli mode) file (G.write page) = G.write page := by
    unfold LJ.Cli.written
    have : ((localTool M X G T).cli mode).limit file = none := hfile.2.2
    rw [this]
  have hp : LJ.Cli.process ((localTool M X G T).cli mode) LJ.Cli.alone false fs (some file) none (some (src.map Input.fromString)) (Input.fromString dst) =
      ⟨.ok (), some m, LJ.Cli.put (LJ.Cli.put fs file []) file (G.write page)⟩ := by
    unfold LJ.Cli.process LJ.Cli.getModel LJ.Cli.makeModel LJ.Cli.findBaselines
    simp only [e0, e1, e2, LJ.Cli.saveModel, LJ.Cli.inspect, LJ.Cli.alone, id, LJ.Cli.writeReport, e3, LJ.Cli.saveRaw, LJ.Cli.writePage, e4,
      LJ.Cli.writeFile, LJ.Cli.create, e5, e6]
    simp [hfile.1]
  have fb : (localTool M X G T).fromInput (Input.fromString dst) = .ok target := hdst
  have hann : LJ.Output.println ((localTool M X G T).quote file ++ ": Writing report...".toList) = Spec.announce T file := by
    unfold LJ.Output.println Spec.announce
    rw [List.append_assoc]
    rfl
  have hdone : (localTool M X G T).run mode false fs ⟨some file, none, .diff src dst⟩ =
      ⟨(localTool M X G T).trainText mode baselines ++ ((localTool M X G T).reportText mode m target ++ [Spec.announce T file]), .ok (), some m,
        LJ.Cli.put (LJ.Cli.put fs file []) file (G.write page)⟩ := by
    unfold Tool.run Tool.process
    simp only [hp]
    unfold Tool.printed Tool.modelText LJ.Cli.findBaselines
    simp only [fb, Option.any_none, Bool.false_eq_true, if_false, e0, Tool.inspectText, Tool.writingText, LJ.Cli.saveModel, hr', LJ.Cli.saveRaw, hann]
  simp only [hdone]
  refine ⟨trivial, dist, groups, T.reportOrder tg, r, page, c, items, hd, hg,
    ⟨((ho.report tg).map Prod.fst).nodup_iff.2 htg2.1, fun n ss => by rw [(ho.report tg).mem_iff]; exact htg2.2 n ss⟩, ?_, hdesc, ?_, p2, i1, i2, ?_, ?_, ?_, ?_⟩
  · rw [htext, hvisit, List.append_assoc]
    rfl
  · intro p
    unfold LJ.Cli.put
    by_cases hp : p = file <;> simp [hp]
  · rw [t2] at f1; exact f1
  · rw [t3, hbase] at f2; exact f2
  · rw [t1] at f3; exact f3
  · intro i l hil
    obtain ⟨item, lines, j1, j2, j3, _, _, _, ⟨ch, j4, j5⟩, _⟩ := i3 i l hil
    rw [hG, LJ.Output.C130_rows G.scale l.anomalies (hfits l (List.mem_of_getElem? hil))] at j2
    cases j2
    exact ⟨item, j1, j3, LJ.Output.Within.trans j4 j5⟩

/-! ### `debug-iterator` -/

/-- C100, for every content: `debug-iterator` opens the first file of the listing and prints the lines which the iterator gives for its reads, over-long lines
included (C125): a text which is not UTF-8 is replaced with an error.  Without access to this file, nothing is printed. -/
theorem C100_exact (hrel : M.checks = false) (hblocks : ∀ p d, LJ.Iterator.Spec.Blocks (M.cut p d)) {p : Str} {target : Local}
    (hp : localInput X (.path p) = .ok target) (ht : CanList M target) (mode : OutputMode) (cache : Bool) (fs : Fs Str) (report model : Option Str) :
    let d := (localTool M X G T).run mode cache fs ⟨report, model, .debugIterator p⟩
    d.fs = fs ∧ ∃ s, (sourcesOf M target).head? = some s ∧
      match contentOf M s with
      | .ok evs => d.result = .ok () ∧ d.printed = evs.map fun x => match x with
        | .ok (bytes, nr) => Nat.toDigits 10 nr ++ (match LJ.Whole.decode bytes with | some t => " | ".toList ++ t | none => " | error: ".toList ++ T.utf8Err bytes) ++ ['\n']
        | .error e => T.readErr e ++ ['\n']
      | .error e => d.result = .error (.opening e) ∧ d.printed = [] := by
  have e1 : (localTool M X G T).fromInput (.path p) = .ok target := hp
  have e2 : LJ.Report.getSources (localTool M X G T).logs target = .ok (sourcesOf M target) := LJ.Report.getSources_ok (w := M.world) ht
  have hne : sourcesOf M target ≠ [] := ht.2
  have hiter : ∀ x : Ev Unit, (localTool M X G T).iterLine x = match x with
      | .ok (bytes, nr) => Nat.toDigits 10 nr ++ (match LJ.Whole.decode bytes with | some t => " | ".toList ++ t | none => " | error: ".toList ++ T.utf8Err bytes) ++ ['\n']
      | .error e => T.readErr e ++ ['\n'] := by
    intro x
    cases x with
    | error e => rfl
    | ok x =>
      have e : (localTool M X G T).logs.decode x.1 = LJ.Whole.decode x.1 := rfl
      unfold Tool.iterLine
      simp only [e]
      cases LJ.Whole.decode x.1 with
      | some t => simp [LJ.Output.println, LJ.Output.decimal]
      | none => simp only [LJ.Output.println, LJ.Output.decimal, List.append_assoc]; rfl
  have hrun : (localTool M X G T).run mode cache fs ⟨report, model, .debugIterator p⟩ = keep fs ((localTool M X G T).debugIterator p) := rfl
  have hdbg : (localTool M X G T).debugIterator p = (localTool M X G T).debugFirst p (sourcesOf M target) := by
    unfold Tool.debugIterator
    simp only [e1, ofRes, e2]
  simp only [hrun, hdbg]
  cases hs : sourcesOf M target with
  | nil => exact absurd hs hne
  | cons s ss =>
    refine ⟨rfl, s, rfl, ?_⟩
    have h : LJ.Report.content M.world s = contentOf M s := congrFun (LJ.Whole.content_of hrel hblocks) s
    unfold LJ.Report.content at h
    rw [← h]
    cases ho : M.world.openSource s with
    | error e =>
      have ho' : (localTool M X G T).logs.openSource s = .error e := ho
      simp only [Tool.debugFirst, ho', keep, and_self]
    | ok reader =>
      have ho' : (localTool M X G T).logs.openSource s = .ok reader := ho
      simp only [Tool.debugFirst, ho', keep, true_and]
      exact List.map_congr_left fun x _ => hiter x

end LJ.Program

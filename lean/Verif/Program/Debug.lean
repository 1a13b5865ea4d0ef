/-
C137: the debug commands tell what a comparison uses.
-/
import Verif.Program.LocalProps
import Verif.Program.Tools
import Verif.Whole.Trees
import Verif.Report.Once
namespace LJ.Program
open LJ.Process (Str Bytes)
open LJ.Paths (Input Res Outside Source)
open LJ.Output (OutputMode)
open LJ.Cli (Fs)
open LJ.Whole (Machine Local)
open LJ.Report (train report)
open Spec (Log Orders LinearLe)
variable {M : Machine} {X : Outside Empty} {G : PageMaker} {T : Tool Local Source Str ℝ Unit Unit}

namespace Spec

/-- What a command prints, when the standard output is not a terminal. -/
noncomputable def prints (T : Tool Local Source Str ℝ Unit Unit) (fs : Fs Str) (cmd : Command) : List Str := (T.run .quiet false fs ⟨none, none, cmd⟩).printed

end Spec

theorem prints_tokens (fs : Fs Str) (l : Str) : Spec.prints (localTool M X G T) fs (.debugTokenizer l) = [M.tok l ++ ['\n', '\n']] :=
  (C121_pure (T := localTool M X G T) .quiet false fs none none l).1.2

theorem prints_name (fs : Fs Str) (p : Str) : Spec.prints (localTool M X G T) fs (.debugIndexname p) = [LJ.Paths.indexName p ++ ['\n']] :=
  (C121_pure (T := localTool M X G T) .quiet false fs none none p).2.2

theorem tokens_inj {fs : Fs Str} {l l' : Str}
    (h : Spec.prints (localTool M X G T) fs (.debugTokenizer l) = Spec.prints (localTool M X G T) fs (.debugTokenizer l')) : M.tok l = M.tok l' := by
  rw [prints_tokens, prints_tokens] at h
  exact List.append_cancel_right (List.singleton_inj.1 h)

/-- C137.  When `debug-tokenizer` prints for each line of a log what it prints for some line of another one, `diff` shows nothing. -/
theorem C137_quiet (hM : LJ.Whole.Spec.Ordinary M) (ho : Orders T) {a b : Str} {la lb : List Str} (ha : Log M X a la) (hb : Log M X b lb)
    (hmark : ∀ l ∈ lb, ¬ "TASK [log-classify".toList <:+: l) (fs : Fs Str)
    (h : ∀ l ∈ lb, ∃ l' ∈ la, Spec.prints (localTool M X G T) fs (.debugTokenizer l) = Spec.prints (localTool M X G T) fs (.debugTokenizer l')) :
    Spec.prints (localTool M X G T) fs (.diff [a] b) = [] := by
  refine C101_quiet hM ho ha hb hmark (fun l hl => ?_) (by decide) false fs
  obtain ⟨l', h1, h2⟩ := h l hl
  exact List.mem_map.2 ⟨l', h1, (tokens_inj h2).symm⟩

/-- The anomalies of a report for a name. -/
def Spec.anomaliesOf (r : LJ.Report.Report Local Source Str ℝ Unit Unit) (n : Str) : List (LJ.Process.AnomalyContext ℝ) :=
  (r.logReports.filter fun l => l.indexName = n).flatMap (·.anomalies)

theorem found_anomalies (r : LJ.Report.Report Local Source Str ℝ Unit Unit) (n : Str) :
    LJ.Report.found M.world r n = (Spec.anomaliesOf r n).map fun a => (M.tok a.anomaly.line, a.anomaly.distance) := by
  unfold LJ.Report.found Spec.anomaliesOf
  rw [List.map_flatMap]
  rfl

/-- C137.  `debug-tokenizer` prints different texts for the lines which a comparison of files or directories reports for a name, whatever their content is;
and it prints none of these texts for a line which was learned for this name. -/
theorem C137_tokens (hrel : M.checks = false) (hfp : M.fp.Standard) (hblocks : ∀ p d, LJ.Iterator.Spec.Blocks (M.cut p d))
    {o1 o2 : List (Str × List Source) → List (Str × List Source)} (h1 : ∀ g, (o1 g).Perm g) (h2 : ∀ g, (o2 g).Perm g) {baselines : List Local} {target : Local}
    {m : LJ.Report.Model Local Source Str} {r : LJ.Report.Report Local Source Str ℝ Unit Unit} (hm : train M.world o1 baselines = .ok m)
    (hr : report M.world m o2 target = some (.ok r)) (fs : Fs Str) (n : Str) :
    ((Spec.anomaliesOf r n).map fun a => Spec.prints (localTool M X G T) fs (.debugTokenizer a.anomaly.line)).Nodup ∧
    ∀ a ∈ Spec.anomaliesOf r n, ∃ tokens, LJ.Whole.Spec.known M baselines n = some tokens ∧
      ∀ l, M.tok l ∈ tokens →
        Spec.prints (localTool M X G T) fs (.debugTokenizer l) ≠ Spec.prints (localTool M X G T) fs (.debugTokenizer a.anomaly.line) := by
  have hs : LJ.Report.SearchOk M.world := LJ.Report.searchOk_indexWorld hfp
  obtain ⟨g1, g2⟩ := LJ.Report.C33_report (w := M.world) hs h2 hr n
  obtain ⟨dist, hd, hpt⟩ := LJ.Whole.trained_distances hrel hfp hblocks h1 hm
  rw [found_anomalies] at g1 g2
  constructor
  · rw [List.map_map] at g1
    simp only [prints_tokens]
    have e : ((Spec.anomaliesOf r n).map fun a => [M.tok a.anomaly.line ++ ['\n', '\n']]) =
        ((Spec.anomaliesOf r n).map fun a => M.tok a.anomaly.line).map fun t => [t ++ ['\n', '\n']] := by rw [List.map_map]; rfl
    rw [e]
    exact (List.nodup_map_iff (f := fun t : Str => [t ++ ['\n', '\n']]) fun a b h => List.append_cancel_right (List.singleton_inj.1 h)).2 g1
  · intro a ha
    obtain ⟨i, f, hi, hf, hall⟩ := g2 (by intro h; rw [List.map_eq_nil_iff] at h; rw [h] at ha; cases ha)
    have hpt' := hpt n
    have hd' := hd n
    rw [hi] at hpt'
    obtain ⟨f', e1, hf'⟩ := hpt'
    cases hk : LJ.Whole.Spec.known M baselines n with
    | none => rw [hk] at hd'; rw [hd'] at e1; cases e1
    | some tokens =>
      rw [hk] at hd'
      obtain ⟨f'', e2, hnear⟩ := hd'
      rw [e1] at e2
      cases e2
      refine ⟨tokens, rfl, fun l hl h => ?_⟩
      have hov := hall (M.tok a.anomaly.line, a.anomaly.distance) (List.mem_map_of_mem ha)
      have hff : f (M.tok a.anomaly.line) = f' (M.tok a.anomaly.line) := by
        have a1 := hf [M.tok a.anomaly.line]
        have a2 := hf' [M.tok a.anomaly.line]
        rw [a1] at a2
        simpa using a2
      have ht := tokens_inj h
      have hb : M.tok a.anomaly.line ∈ tokens := ht ▸ hl
      have := LJ.Whole.near_known hnear hb
      apply this
      rw [← hff]
      have h3 : a.anomaly.distance > LJ.Process.THRESHOLD := of_decide_eq_true hov.2
      have h4 : a.anomaly.distance = f (M.tok a.anomaly.line) := hov.1
      rw [← h4]; exact h3

/-- the name of a log report is the one of its file, which is in the target -/
theorem log_of_target (hfp : M.fp.Standard) {o : List (Str × List Source) → List (Str × List Source)} (ho : ∀ g, (o g).Perm g) {target : Local}
    {m : LJ.Report.Model Local Source Str} {r : LJ.Report.Report Local Source Str ℝ Unit Unit} (hr : report M.world m o target = some (.ok r))
    {l : LJ.Report.LogReport Source Str ℝ} (hl : l ∈ r.logReports) :
    l.source ∈ LJ.Whole.Spec.sourcesOf M target ∧ LJ.Whole.Spec.nameOf l.source = l.indexName := by
  obtain ⟨gs, hp, rfl⟩ := LJ.Report.report_ok (w := M.world) (LJ.Report.searchOk_indexWorld hfp) ho hr
  simp only [LJ.Report.total, LJ.Report.emptyReport, List.nil_append] at hl
  obtain ⟨g, hg, hl⟩ := List.mem_flatMap.1 hl
  obtain ⟨e1, e2, _⟩ := LJ.Report.groupLogs_spec hl
  have h := ((hp.2 g.1 g.2).1 hg).2
  rw [h, List.mem_filter, decide_eq_true_eq] at e2
  exact ⟨e2.1, e2.2.trans e1.symm⟩

/-- C137.  The name which a report gives to a file with anomalies is what `debug-indexname` prints for its path in the target, and `debug-groups` shows the file in
the line of this name, with exactly the files of the target whose path has the same name. -/
theorem C137_names (hfp : M.fp.Standard) (hle : LinearLe T.le) (hor : Orders T) {o : List (Str × List Source) → List (Str × List Source)}
    (ho : ∀ g, (o g).Perm g) {content : Local} {target : Str} (hi : localInput X (Input.fromString target) = .ok content)
    {m : LJ.Report.Model Local Source Str} {r : LJ.Report.Report Local Source Str ℝ Unit Unit} (hr : report M.world m o content = some (.ok r))
    (hu : LJ.Whole.Spec.CanList M content) {l : LJ.Report.LogReport Source Str ℝ} (hl : l ∈ r.logReports) (fs : Fs Str) :
    (∀ rel, l.source.getRelative = some rel → Spec.prints (localTool M X G T) fs (.debugIndexname rel) = [l.indexName ++ ['\n']]) ∧
    ∃ ss, T.showName l.indexName ++ ": ".toList ++ T.showSources ss ++ ['\n'] ∈ Spec.prints (localTool M X G T) fs (.debugGroups target) ∧
      l.source ∈ ss ∧
      ∀ s rel, s.getRelative = some rel → (s ∈ ss ↔ s ∈ LJ.Whole.Spec.sourcesOf M content ∧
        Spec.prints (localTool M X G T) fs (.debugIndexname rel) = [l.indexName ++ ['\n']]) := by
  obtain ⟨e1, e2⟩ := log_of_target hfp ho hr hl
  have hname : ∀ (s : Source) rel, s.getRelative = some rel → LJ.Whole.Spec.nameOf s = LJ.Paths.indexName rel := by
    intro s rel h
    unfold LJ.Whole.Spec.nameOf Source.indexName
    rw [h]
    rfl
  refine ⟨fun rel h => ?_, ?_⟩
  · rw [prints_name, ← e2, hname _ _ h]
  · obtain ⟨names, _, h2, h3, _⟩ := C99_groups (T := localTool M X G T) hle ⟨hor.train, hor.report, hor.group⟩ .quiet false fs none none (target := target)
      (content := content) hi hu
    refine ⟨(LJ.Whole.Spec.sourcesOf M content).filter fun s => LJ.Whole.Spec.nameOf s = l.indexName, ?_, ?_, ?_⟩
    · show _ ∈ ((localTool M X G T).run .quiet false fs ⟨none, none, .debugGroups target⟩).printed
      rw [h3]
      exact List.mem_map.2 ⟨l.indexName, (h2 _).2 ⟨l.source, e1, e2⟩, rfl⟩
    · exact List.mem_filter.2 ⟨e1, by simpa using e2⟩
    · intro s rel h
      rw [List.mem_filter, decide_eq_true_eq, prints_name, hname _ _ h, List.singleton_inj]
      exact ⟨fun ⟨a, b⟩ => ⟨a, by rw [b]⟩, fun ⟨a, b⟩ => ⟨a, List.append_cancel_right b⟩⟩

theorem visible_event {decode : Bytes → Option Str} {l : LJ.Process.Spec.Line} (r : List (LJ.Process.Ev Unit)) (h : l ∈ LJ.Process.Spec.visible decode r) :
    ∃ bytes, .ok (bytes, l.num) ∈ r ∧ decode bytes = some l.text := by
  induction r with
  | nil => cases h
  | cons x r ih =>
    cases x with
    | error e => cases h
    | ok x =>
      unfold LJ.Process.Spec.visible at h
      cases hd : decode x.1 with
      | none => rw [hd] at h; cases h
      | some t =>
        rw [hd] at h
        simp only at h
        have rest : l ∈ LJ.Process.Spec.visible decode r → ∃ bytes, .ok (bytes, l.num) ∈ (.ok x :: r : List (LJ.Process.Ev Unit)) ∧ decode bytes = some l.text := by
          intro h
          obtain ⟨b, h1, h2⟩ := ih h
          exact ⟨b, .tail _ h1, h2⟩
        split at h
        · exact rest h
        · rcases List.mem_cons.1 h with rfl | h
          · exact ⟨x.1, .head _, hd⟩
          · exact rest h

/-- an anomaly is one of the lines of its file -/
theorem anomaly_event (hfp : M.fp.Standard) {o : List (Str × List Source) → List (Str × List Source)} (ho : ∀ g, (o g).Perm g) {target : Local}
    {m : LJ.Report.Model Local Source Str} {r : LJ.Report.Report Local Source Str ℝ Unit Unit} (hr : report M.world m o target = some (.ok r))
    {l : LJ.Report.LogReport Source Str ℝ} (hl : l ∈ r.logReports) {a : LJ.Process.AnomalyContext ℝ} (ha : a ∈ l.anomalies) :
    ∃ reader bytes, M.world.openSource l.source = .ok reader ∧ .ok (bytes, a.anomaly.pos) ∈ reader (M.world.isJson l.source) ∧
      M.world.decode bytes = some a.anomaly.line := by
  obtain ⟨gs, hp, rfl⟩ := LJ.Report.report_ok (w := M.world) (LJ.Report.searchOk_indexWorld hfp) ho hr
  simp only [LJ.Report.total, LJ.Report.emptyReport, List.nil_append] at hl
  obtain ⟨g, hg, hl⟩ := List.mem_flatMap.1 hl
  unfold LJ.Report.groupLogs LJ.Report.groupRuns at hl
  cases hi : LJ.Report.indexFor m g with
  | none => rw [hi] at hl; cases hl
  | some index =>
    rw [hi] at hl
    obtain ⟨run, hrun, hlog⟩ := List.mem_filterMap.1 hl
    obtain ⟨_, hcase⟩ := LJ.Report.runs_mem hrun
    rcases hcase with ⟨e, _, hc⟩ | ⟨reader, skip, h1, hc⟩
    · rw [hc] at hlog; cases hlog
    · rw [hc] at hlog
      unfold LJ.Report.Run.log at hlog
      simp only at hlog
      split at hlog
      · cases hlog
      · cases hlog
        obtain ⟨dist, hd⟩ := (LJ.Report.searchOk_indexWorld hfp : LJ.Report.SearchOk M.world) index.chunks
        obtain ⟨ws, g1, _⟩ := LJ.Process.C26_any (env := LJ.Report.envOf M.world index.chunks) hd skip (reader (M.world.isJson run.source))
        have key : ∀ {cs : List (LJ.Process.AnomalyContext ℝ)} {ws : List LJ.Process.Spec.Window} {ls : List LJ.Process.Spec.Line},
            List.Forall₂ (LJ.Process.Spec.Shows M.tok dist ls) cs ws → a ∈ cs → ∃ l ∈ ls, a.anomaly.line = l.text ∧ a.anomaly.pos = l.num := by
          intro cs ws ls h hc
          induction h with
          | nil => cases hc
          | cons hh _ ih =>
            rcases List.mem_cons.1 hc with rfl | hc
            · obtain ⟨_, _, l, _, _, e0, _, _, _, _, _, e⟩ := hh
              exact ⟨l, by rw [e0]; simp, by rw [e], by rw [e]⟩
            · exact ih hc
        obtain ⟨v, hv, e1, e2⟩ := key g1 ha
        obtain ⟨bytes, h2, h3⟩ := visible_event _ hv
        exact ⟨reader, bytes, h1, by rw [e2]; exact h2, by rw [e1]; exact h3⟩

/-- C137.  `debug-iterator` prints each of the anomalies of the first file of the target, with its number. -/
theorem C137_lines (hfp : M.fp.Standard) {o : List (Str × List Source) → List (Str × List Source)} (ho : ∀ g, (o g).Perm g) {content : Local} {path : Str}
    (hi : localInput X (.path path) = .ok content) {m : LJ.Report.Model Local Source Str} {r : LJ.Report.Report Local Source Str ℝ Unit Unit}
    (hr : report M.world m o content = some (.ok r)) (hu : LJ.Whole.Spec.CanList M content) {l : LJ.Report.LogReport Source Str ℝ} (hl : l ∈ r.logReports)
    (hfirst : (LJ.Whole.Spec.sourcesOf M content).head? = some l.source) {a : LJ.Process.AnomalyContext ℝ} (ha : a ∈ l.anomalies) (fs : Fs Str) :
    Nat.toDigits 10 a.anomaly.pos ++ " | ".toList ++ a.anomaly.line ++ ['\n'] ∈ Spec.prints (localTool M X G T) fs (.debugIterator path) := by
  obtain ⟨reader, bytes, h1, h2, h3⟩ := anomaly_event hfp ho hr hl ha
  obtain ⟨ss, hss⟩ : ∃ ss, LJ.Whole.Spec.sourcesOf M content = l.source :: ss := by
    cases h : LJ.Whole.Spec.sourcesOf M content with
    | nil => rw [h] at hfirst; cases hfirst
    | cons s ss => rw [h] at hfirst; cases hfirst; exact ⟨ss, rfl⟩
  have h := ((C121_iterator (T := localTool M X G T) .quiet false fs none none path).1 content l.source ss reader hi hu hss h1).2
  unfold Spec.prints
  rw [h]
  refine List.mem_map.2 ⟨_, h2, ?_⟩
  have e : (localTool M X G T).logs.decode bytes = some a.anomaly.line := h3
  simp only [Tool.iterLine, e, LJ.Output.println, LJ.Output.decimal]

end LJ.Program

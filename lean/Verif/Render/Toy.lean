/-
C95 and C96 for reports in memory, pages for which they are false, and cases which meet the hypotheses of C94.
-/
import Verif.Render.Props
import Verif.Saved.Toy
namespace LJ.Render
open LJ.Process (Str)
open LJ.Codec (Texts Source Content Duration bytesString stringBytes demoTexts)
open LJ.Output (Labels Node f32Scale document)
open LJ.Output.Spec (OneAttribute AllAttributes LinkTo Place)
open LJ.Cli (Fs alone)

variable {t : Texts} {checks : Bool} {fl : ℝ → ℝ} {css version : Str} {fm : Formats}

/-! ### The parts of a page -/

theorem page_some {x : LJ.Codec.Report t} {n : Node} (h : page checks fl css version fm x = some n) :
    ∃ r, reportOf x = some r ∧ document checks (f32Scale fl) css version (labels fm x.createdAt x.runTime) r = some n := by
  unfold page at h
  split at h
  · exact Option.bind_eq_some_iff.1 h
  · cases h

theorem reportOf_some {x : LJ.Codec.Report t} {r : LJ.Report.Report (Content t) (Source t) String ℝ Empty Empty} (h : reportOf x = some r) :
    r.logReports.map (fun l => (l.source, l.indexName)) = x.logReports.map (fun l => (l.source, l.indexName)) ∧
    r.indexReports = x.indexReports.pairs.map fun p => (p.1, p.2.sources) := by
  unfold reportOf at h
  obtain ⟨ls, h1, rfl⟩ := Option.map_eq_some_iff.1 h
  refine ⟨?_, rfl⟩
  rw [mapM_iff] at h1
  clear h
  show ls.map _ = _
  generalize x.logReports = ks at h1 ⊢
  induction h1 with
  | nil => rfl
  | cons hk _ ih =>
    rw [List.map_cons, List.map_cons, ih]
    congr 1
    unfold logReportOf at hk
    obtain ⟨as, _, rfl⟩ := Option.map_eq_some_iff.1 hk
    rfl

/-! ### C95: attributes -/

/-- The attributes of the page of a report are single attributes exactly when the quote is neither in the names of the indexes of the reported files,
nor in their paths and URLs, nor in those of the first three baselines of their indexes. -/
theorem C95_report {x : LJ.Codec.Report t} {n : Node} (h : page checks fl css version fm x = some n) :
    AllAttributes OneAttribute n ↔ ∀ l ∈ x.logReports, '"' ∉ l.indexName.toList ∧ '"' ∉ asStr l.source ∧
      ∀ i, x.indexReports.pairs.lookup l.indexName = some i → ∀ s ∈ i.sources.take 3, '"' ∉ asStr s := by
  obtain ⟨r, h1, h2⟩ := page_some h
  obtain ⟨h3, h4⟩ := reportOf_some h1
  rw [LJ.Output.C95_partial h2]
  have hlook : ∀ (ps : List (String × LJ.Codec.IndexReport t)) k, (ps.map fun p => (p.1, p.2.sources)).lookup k = (ps.lookup k).map (·.sources) := by
    intro ps k
    induction ps with
    | nil => rfl
    | cons p ps ih =>
      rw [List.map_cons, List.lookup_cons, List.lookup_cons]
      cases k == p.1 <;> simp [ih]
  have both : ∀ (P : Source t × String → Prop), (∀ l ∈ r.logReports, P (l.source, l.indexName)) ↔ ∀ l ∈ x.logReports, P (l.source, l.indexName) := by
    intro P
    have e1 : (∀ l ∈ r.logReports, P (l.source, l.indexName)) ↔ ∀ q ∈ r.logReports.map (fun l => (l.source, l.indexName)), P q := by simp
    have e2 : (∀ l ∈ x.logReports, P (l.source, l.indexName)) ↔ ∀ q ∈ x.logReports.map (fun l => (l.source, l.indexName)), P q := by simp
    rw [e1, e2, h3]
  rw [h4]
  refine (both fun q => '"' ∉ q.2.toList ∧ '"' ∉ asStr q.1 ∧ ∀ ss, (x.indexReports.pairs.map fun p => (p.1, p.2.sources)).lookup q.2 = some ss →
    ∀ s ∈ ss.take 3, '"' ∉ asStr s).trans ?_
  refine forall₂_congr fun l _ => and_congr_right fun _ => and_congr_right fun _ => ?_
  rw [hlook]
  constructor
  · intro h i hi; exact h _ (by rw [hi]; rfl)
  · rintro h ss hss
    obtain ⟨i, hi, rfl⟩ := Option.map_eq_some_iff.1 hss
    exact h i hi

/-- C95: each attribute of the elements of a page is one attribute, whatever the report. -/
def C95 : Prop := ∀ (t : Texts) (checks : Bool) (fl : ℝ → ℝ) (css version : Str) (fm : Formats) (x : LJ.Codec.Report t) (n : Node),
  page checks fl css version fm x = some n → AllAttributes OneAttribute n

/-! ### C96: links inside the page -/

/-- The link to the model of a reported file leads nowhere. -/
theorem C96_report {x : LJ.Codec.Report t} {n : Node} (h : page checks fl css version fm x = some n) {l : LJ.Codec.LogReport t} (hl : l ∈ x.logReports) :
    LinkTo n ("model_".toList ++ l.indexName.toList) ∧ ¬ Place n ("model_".toList ++ l.indexName.toList) := by
  obtain ⟨r, h1, h2⟩ := page_some h
  obtain ⟨h3, _⟩ := reportOf_some h1
  have hm : (l.source, l.indexName) ∈ r.logReports.map fun l => (l.source, l.indexName) := by
    rw [h3]; exact List.mem_map.2 ⟨l, hl, rfl⟩
  obtain ⟨k, hk, e⟩ := List.mem_map.1 hm
  have := LJ.Output.C96_dangling h2 hk
  have e2 : k.indexName = l.indexName := (Prod.mk.inj e).2
  rw [e2] at this
  exact this

/-- C96: each link inside a page leads to a place of the page. -/
def C96 : Prop := ∀ (t : Texts) (checks : Bool) (fl : ℝ → ℝ) (css version : Str) (fm : Formats) (x : LJ.Codec.Report t) (n : Node),
  page checks fl css version fm x = some n → ∀ p, p ≠ [] → LinkTo n p → Place n p

/-! ### A report -/

/-- A report of one file, with one anomaly of distance 1. -/
def toyBytes (path : List UInt8) : LJ.Codec.Report demoTexts :=
  ⟨⟨1, 2⟩, ⟨3, 4⟩, .file (.loc 0 path), [.file (.loc 0 (stringBytes "old"))],
   [⟨⟨1, 1⟩, 2, 10, [⟨["before"], ⟨1065353216, 2, "line"⟩, []⟩], .loc 0 path, "n"⟩], ⟨[("n", ⟨⟨1, 1⟩, [.loc 0 (stringBytes "old")]⟩)], by simp⟩, [], [], 2, 1⟩

def toyReport (file : String) : LJ.Codec.Report demoTexts := toyBytes (stringBytes file)

def toyFormats : Formats := ⟨fun _ => [], fun _ => [], fun _ _ => []⟩

theorem one_value : ∃ d, LJ.Python.f32Value 1065353216 = some d := by
  unfold LJ.Python.f32Value
  have e1 : ¬ (1065353216 : UInt32).toNat / 2 ^ 23 % 256 = 255 := by decide +kernel
  have e2 : ¬ (1065353216 : UInt32).toNat / 2 ^ 23 % 256 = 0 := by decide +kernel
  simp only [e1, e2, if_false]
  exact ⟨_, rfl⟩

/-- Its page is made. -/
theorem toyPageBytes (path : List UInt8) (h : (relative (t := demoTexts) (.loc 0 path)).isSome = true) (fl : ℝ → ℝ) (css version : Str) (fm : Formats) :
    ∃ n, page false fl css version fm (toyBytes path) = some n := by
  obtain ⟨d, hd⟩ := one_value
  have hdis : displayable (toyBytes path).target (toyBytes path).baselines ((toyBytes path).logReports.map (·.source)) = true := by
    obtain ⟨s, hs⟩ := Option.isSome_iff_exists.1 h
    have e1 : (contentText (toyBytes path).target).isSome = true := by simp [toyBytes, contentText, sourceText, hs]
    have e2 : (toyBytes path).baselines.all (fun c => (contentText c).isSome) = true := by
      show [Content.file (t := demoTexts) (.loc 0 (stringBytes "old"))].all (fun c => (contentText c).isSome) = true
      decide +kernel
    unfold displayable
    rw [e1, e2]
    show ([Source.loc (t := demoTexts) 0 path].all fun s => (relative s).isSome) = true
    simp [h]
  have hrep : ∃ r, reportOf (toyBytes path) = some r := by
    obtain ⟨ls, hls⟩ := mapM_total (f := logReportOf (t := demoTexts)) (xs := (toyBytes path).logReports) (by
      intro l hl
      obtain rfl := List.mem_singleton.1 hl
      obtain ⟨as, has⟩ := mapM_total (f := anomalyOf) (xs := [⟨["before"], ⟨1065353216, 2, "line"⟩, []⟩]) (by
        intro a ha
        obtain rfl := List.mem_singleton.1 ha
        exact ⟨_, by unfold anomalyOf; rw [hd]; rfl⟩)
      exact ⟨_, by unfold logReportOf; rw [has]; rfl⟩)
    exact ⟨_, by unfold reportOf; rw [hls]; rfl⟩
  obtain ⟨r, hr⟩ := hrep
  unfold page
  rw [if_pos hdis, hr, Option.bind_some]
  exact LJ.Output.document_made.2 (LJ.Output.C83_made _ _ _).1

theorem toyPage (file : String) (h : (relative (t := demoTexts) (.loc 0 (stringBytes file))).isSome = true) (fl : ℝ → ℝ) (css version : Str) (fm : Formats) :
    ∃ n, page false fl css version fm (toyReport file) = some n := toyPageBytes _ h fl css version fm

/-- a name of a file with a quote -/
def quoted : String := "x\" onclick=\"alert(1)"

/-- In the page of a file whose name has a quote, the name makes an attribute of its own: C95 does not hold. -/
theorem C95_false : ¬ C95 := by
  intro h
  obtain ⟨n, hn⟩ := toyPage quoted (by decide +kernel) id [] [] toyFormats
  have := ((C95_report hn).1 (h _ _ _ _ _ _ _ _ hn) _ (.head _)).2.1
  exact this (by decide +kernel)

/-- A file whose name has no quote, and the first three baselines. -/
example : ∃ n, page false id [] [] toyFormats (toyReport "new") = some n ∧ AllAttributes OneAttribute n := by
  obtain ⟨n, hn⟩ := toyPage "new" (by decide +kernel) id [] [] toyFormats
  refine ⟨n, hn, (C95_report hn).2 ?_⟩
  intro l hl
  obtain rfl := List.mem_singleton.1 hl
  refine ⟨by decide +kernel, by decide +kernel, fun i hi s hs => ?_⟩
  have e : (toyReport "new").indexReports.pairs.lookup "n" = some ⟨⟨1, 1⟩, [.loc 0 (stringBytes "old")]⟩ := by
    simp [toyReport, toyBytes]
  have hi : (toyReport "new").indexReports.pairs.lookup "n" = some i := hi
  rw [e] at hi
  cases hi
  obtain rfl : s = .loc 0 (stringBytes "old") := by simpa using hs
  decide +kernel

/-- In every page with a reported file the link to its model leads nowhere: C96 does not hold. -/
theorem C96_false : ¬ C96 := by
  intro h
  obtain ⟨n, hn⟩ := toyPage "new" (by decide +kernel) id [] [] toyFormats
  obtain ⟨h1, h2⟩ := C96_report hn (l := ⟨⟨1, 1⟩, 2, 10, [⟨["before"], ⟨1065353216, 2, "line"⟩, []⟩], .loc 0 (stringBytes "new"), "n"⟩) (.head _)
  exact h2 (h _ _ _ _ _ _ _ _ hn _ (by decide +kernel) h1)

/-! ### C94 -/

/-- C94: after each run which writes a page and keeps the raw report beside it, with room on the disk for both, a file beside the page can be read back
and has the page. -/
def C94 : Prop := ∀ (t : Texts) (I Er : Type) (w : World t I Er) (gz : LJ.Saved.Gzip) (write : Node → List UInt8) (checks : Bool) (fl : ℝ → ℝ) (css version : Str)
  (fm : Formats) (other : Er) (fs : Fs Str) (file : Str) (path : Option Str) (bs : Option (List I)) (input : I),
  (∀ p, w.limit p = none) → (∀ p, fs.denied p = false) →
  (LJ.Cli.process (files w gz write checks fl css version fm other) alone true fs (some file) path bs input).result = .ok () →
  ∃ x, loadReport (files w gz write checks fl css version fm other) gz other
      (LJ.Cli.process (files w gz write checks fl css version fm other) alone true fs (some file) path bs input).fs (setExtension "json".toList file) = .ok x ∧
    ∃ n, page checks fl css version fm x = some n ∧
      (LJ.Cli.process (files w gz write checks fl css version fm other) alone true fs (some file) path bs input).fs.files file = some (write n)

/-- The command with one report. -/
def toyWorld (x : LJ.Codec.Report demoTexts) : World demoTexts Unit Unit where
  fromInput _ := .ok x.target
  discover _ := .ok x.baselines
  train _ := .ok LJ.Codec.demoModel
  report _ _ := .ok x
  live _ _ := .ok ()
  render _ := .error ()
  encModel _ := .ok []
  decModel _ := .error ()
  encReport _ := .error ()
  withJson p := p
  createErr _ := none
  limit _ := none
  held _ := 0
  notFound := ()
  permission := ()
  noSpace := ()
  ambiguous := ()
  noModelPath := ()

/-- A world without files. -/
def noFiles : Fs Str := ⟨fun _ => none, fun _ => false⟩

theorem toyEnc : ∃ b, (LJ.Codec.report demoTexts).enc (toyReport "new") = some b :=
  Option.isSome_iff_exists.1 (by decide +kernel)

/-- The run succeeds, for every name of the page. -/
theorem toyRun (write : Node → List UInt8) (file : Str) :
    (LJ.Cli.process (files (toyWorld (toyReport "new")) LJ.Saved.toyGzip write false id [] [] toyFormats ()) alone true noFiles (some file) none none ()).result = .ok () := by
  obtain ⟨n, hn⟩ := toyPage "new" (by decide +kernel) id [] [] toyFormats
  obtain ⟨b, hb⟩ := toyEnc
  refine (LJ.Cli.C89_status _ _ _ _ _ _).2 ⟨(toyReport "new").target, LJ.Codec.demoModel, rfl, .trained nofun (.discovered rfl) rfl, nofun, ?_⟩
  refine .page (page := write n) rfl (fun _ => ⟨⟨rfl, rfl⟩, b, ?_, nofun⟩) ?_ ⟨rfl, rfl⟩ nofun
  · simp only [files, hb, LJ.Saved.toyGzip]
  · simp only [files, hn]

/-- The page named `x.json` takes the place of its raw report: C94 does not hold. -/
theorem C94_false : ¬ C94 := by
  intro h
  have e : setExtension "json".toList "x.json".toList = "x.json".toList := by decide +kernel
  have hr := toyRun (fun _ => []) "x.json".toList
  obtain ⟨x, h1, _⟩ := h _ _ _ _ _ _ _ _ _ _ _ _ _ _ _ _ _ (fun _ => rfl) (fun _ => rfl) hr
  obtain ⟨_, _, y, pg, _, _, _, h4, h5, _⟩ := LJ.Cli.C89_page _ _ _ _ _ hr
  obtain ⟨n, _, rfl⟩ := render_ok h4
  unfold loadReport LJ.Cli.readFile at h1
  rw [e, h5] at h1
  split at h1
  · cases h1
  · rename_i b hb
    have hb' : b = [] := by
      split at hb
      · cases hb
      · exact (Except.ok.inj hb).symm
    rw [hb'] at h1
    have : LJ.Codec.load (LJ.Codec.report demoTexts) (LJ.Saved.toyGzip.dec []) = none := by decide +kernel
    rw [this] at h1
    cases h1

/-- The hypotheses of `C94_partial` and `C94_same` hold of this run, with the page `logs/x.html`. -/
example (write : Node → List UInt8) :
    (LJ.Cli.process (files (toyWorld (toyReport "new")) LJ.Saved.toyGzip write false id [] [] toyFormats ()) alone true noFiles (some "logs/x.html".toList) none none ()).result = .ok () ∧
    setExtension "json".toList "logs/x.html".toList ≠ "logs/x.html".toList ∧ Spec.PagePath "logs/x.html".toList :=
  ⟨toyRun _ _, by decide +kernel, "logs/".toList, "x".toList, by decide +kernel, .inr ⟨"logs".toList, by decide +kernel⟩, by decide, by decide⟩

/-- The first line of a file, when the index has no baseline. -/
theorem toyOne (env : LJ.Process.Env ℝ) (h1 : ∀ ts, env.search ts = ts.map fun _ => (1 : ℝ)) (h2 : env.over 1 = true)
    (h4 : env.decode (LJ.Process.toyL "q" 1).1 = some "q".toList) :
    ∃ st, LJ.Process.process (ε := Unit) env [] [.ok (LJ.Process.toyL "q" 1)] = ([⟨[], ⟨1, 1, "q".toList⟩, []⟩], .finished, st) ∧ st.lineCount = 1 ∧ st.byteCount = 1 := by
  have hm : LJ.Process.contains LJ.Process.MARKER "q".toList = false := by decide +kernel
  have e1 : (LJ.Process.toyL "q" 1).2 = 1 := rfl
  have e2 : (LJ.Process.toyL "q" 1).1.length = 1 := rfl
  generalize LJ.Process.toyL "q" 1 = l at *
  generalize "q".toList = q at *
  obtain ⟨b, n⟩ := l
  simp only at e1 e2 h4
  subst e1
  open LJ.Process in
  simp [process, collect, next, readAnomalies, St.new, h4, hm, St.count, St.push, St.full, CHUNK_SIZE, St.finish, St.flushTargets, St.doSearch, h1, onTarget, h2,
    LJ.Process.sliceFrom, scan, collectBefore, slice, texts, CTX_DISTANCE, rotateRight, lastAfter, St.reset, e2]

/-- A file of one line. -/
def oneLine : LJ.Saved.Sources demoTexts Unit Unit where
  list | .file s => [.ok s] | _ => []
  valid _ := true
  nameOf _ := "n"
  isJson _ := false
  openSource _ := .ok fun _ => [.ok (LJ.Process.toyL "q" 1)]

/-- The hypotheses of `C94_page` hold of a file of one line, compared with an index which has no lines: its report has one anomaly. -/
example {fp : LJ.Index.FP} : ∃ r l, LJ.Report.report (oneLine.world (LJ.Saved.toyCfg fp) true) ⟨[], [("n", ⟨[], [], 0, 0⟩)]⟩ id (.file (LJ.Saved.toySource "b")) = some (.ok r) ∧
    Spec.Fits r ∧ Spec.Shown r ∧ r.logReports = [l] ∧ l.anomalies.length = 1 := by
  obtain ⟨st, h1, h2, h3⟩ := toyOne (LJ.Report.envOf (oneLine.world (LJ.Saved.toyCfg fp) true) []) (by
    intro ts
    show ((List.foldlM (LJ.Process.ChunkIndex.add (LJ.Saved.toyCfg fp)) (LJ.Process.newIndex true) []).bind fun i => i.search (LJ.Saved.toyCfg fp) ts).getD [] = _
    have := LJ.Index.viaChunks_eq (hash := (LJ.Saved.toyCfg fp).hash) fp [] ts
    show (LJ.Index.viaChunks fp (LJ.Saved.toyCfg fp).hash [] ts).getD [] = _
    rw [this]
    rfl) (by
    show decide ((1 : ℝ) > LJ.Process.THRESHOLD) = true
    rw [decide_eq_true_eq]
    unfold LJ.Process.THRESHOLD
    norm_num) (by show LJ.Process.toy.decode (LJ.Process.toyL "q" 1).1 = some "q".toList; decide +kernel)
  have hi : LJ.Report.inspect (oneLine.world (LJ.Saved.toyCfg fp) true) ⟨[], [], 0, 0⟩ (LJ.Saved.toySource "b") (fun _ => [.ok (LJ.Process.toyL "q" 1)]) [] =
      some ([⟨[], ⟨1, 1, "q".toList⟩, []⟩], none, st) := by
    unfold LJ.Report.inspect
    have h1' : LJ.Process.process (LJ.Report.envOf (oneLine.world (LJ.Saved.toyCfg fp) true) (⟨[], [], 0, 0⟩ : LJ.Report.Index (Source demoTexts)).chunks) []
        ((fun _ => [.ok (LJ.Process.toyL "q" 1)]) ((oneLine.world (LJ.Saved.toyCfg fp) true).isJson (LJ.Saved.toySource "b"))) = _ := h1
    rw [h1']
  refine ⟨⟨.file (LJ.Saved.toySource "b"), [], [⟨st.lineCount, st.byteCount, [⟨[], ⟨1, 1, "q".toList⟩, []⟩], LJ.Saved.toySource "b", "n"⟩], [("n", [])], [], [], 0 + st.lineCount, 1⟩, _,
    ?_, ⟨by rw [h2]; norm_num, by norm_num, ?_⟩, ⟨?_, nofun, ?_⟩, rfl, rfl⟩
  · unfold LJ.Report.report
    have hg : LJ.Report.groupSources (oneLine.world (LJ.Saved.toyCfg fp) true) [.file (LJ.Saved.toySource "b")] = .ok [("n", [LJ.Saved.toySource "b"])] := rfl
    rw [hg]
    simp only [id, LJ.Report.reportGroups, LJ.Report.reportGroup]
    have hl : LJ.Report.lookupOrSingle [("n", (⟨[], [], 0, 0⟩ : LJ.Report.Index (Source demoTexts)))] "n" = some ⟨[], [], 0, 0⟩ := rfl
    rw [hl]
    have ho : (oneLine.world (LJ.Saved.toyCfg fp) true).openSource (LJ.Saved.toySource "b") = .ok fun _ => [.ok (LJ.Process.toyL "q" 1)] := rfl
    simp only [LJ.Report.reportSources, ho, hi]
    rfl
  · intro l hl
    obtain rfl := List.mem_singleton.1 hl
    refine ⟨by show st.lineCount < _; rw [h2]; norm_num, by show st.byteCount < _; rw [h3]; norm_num, fun a ha => ?_⟩
    obtain rfl := List.mem_singleton.1 ha
    norm_num
  · have : (contentText (Content.file (LJ.Saved.toySource "b"))).isSome = true := by decide +kernel
    exact Option.isSome_iff_ne_none.1 this
  · intro l hl
    obtain rfl := List.mem_singleton.1 hl
    have : (relative (LJ.Saved.toySource "b")).isSome = true := by decide +kernel
    exact Option.isSome_iff_ne_none.1 this

end LJ.Render

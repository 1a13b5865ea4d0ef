/-
C94: the page of a saved report is the page of the report.
-/
import Verif.Render.Lemmas
import Verif.Output.Live
import Verif.Output.Attributes
import Verif.Index.F32Props
import Verif.Cli.Status
namespace LJ.Render
open LJ.Process (Str Cfg Ev process)
open LJ.Process.Spec (Pointwise)
open LJ.Codec (Texts Source Content Duration bytesString)
open LJ.Output (Labels Node f32Scale document)
open LJ.Index (IsF32)
open LJ.Report (indexWorld envOf SearchOk)
open LJ.Cli (Fs alone)

variable {t : Texts} {E ε I Er : Type}

/-! ### The distances are numbers of `f32` -/

theorem cosine_bound (hash : Str → Nat) (a b : Str) : |LJ.Index.Spec.cosine (LJ.Index.Spec.vec hash a) (LJ.Index.Spec.vec hash b)| ≤ 1 := by
  have pos : 0 < √(LJ.Index.Spec.dot (LJ.Index.Spec.vec hash a) (LJ.Index.Spec.vec hash a)) * √(LJ.Index.Spec.dot (LJ.Index.Spec.vec hash b) (LJ.Index.Spec.vec hash b)) :=
    mul_pos (Real.sqrt_pos.2 (LJ.Index.dot_pos hash a)) (Real.sqrt_pos.2 (LJ.Index.dot_pos hash b))
  unfold LJ.Index.Spec.cosine
  rw [abs_div, abs_of_pos pos, div_le_one pos, abs_le]
  refine ⟨?_, LJ.Index.cauchy _ _⟩
  have h := LJ.Index.cauchy (fun k => -LJ.Index.Spec.vec hash a k) (LJ.Index.Spec.vec hash b)
  have e1 : LJ.Index.Spec.dot (fun k => -LJ.Index.Spec.vec hash a k) (LJ.Index.Spec.vec hash b) = -LJ.Index.Spec.dot (LJ.Index.Spec.vec hash a) (LJ.Index.Spec.vec hash b) := by
    unfold LJ.Index.Spec.dot; rw [← Finset.sum_neg_distrib]; refine Finset.sum_congr rfl fun k _ => by push_cast; ring
  have e2 : LJ.Index.Spec.dot (fun k => -LJ.Index.Spec.vec hash a k) (fun k => -LJ.Index.Spec.vec hash a k) = LJ.Index.Spec.dot (LJ.Index.Spec.vec hash a) (LJ.Index.Spec.vec hash a) := by
    unfold LJ.Index.Spec.dot; refine Finset.sum_congr rfl fun k _ => by push_cast; ring
  rw [e1, e2] at h
  linarith

theorem rowDistance_f32 {fp : LJ.Index.FP} (hf : fp.IsF32) (hash : Str → Nat) (bs : List Str) (l : Str) :
    IsF32 (LJ.Index.rowDistance fp (bs.map (LJ.Index.rowOf fp hash)) (LJ.Index.rowOf fp hash l)) := by
  rcases (LJ.Index.rowDistance_least fp (bs.map (LJ.Index.rowOf fp hash)) (LJ.Index.rowOf fp hash l)).1 with h | ⟨r, hr, _, e⟩
  · rw [Set.mem_singleton_iff.1 h]
    have := LJ.Index.isF32_nat (n := 1) (by norm_num)
    simpa using this
  · obtain ⟨b, _, rfl⟩ := List.mem_map.1 hr
    rw [e]
    refine (hf.nearest _ ?_).1
    have h1 := LJ.Index.dot_err (hash := hash) hf.standard b l 260000 (by rw [← LJ.Index.size_val]; exact LJ.Index.vecOf_length_le l)
    have h2 := cosine_bound hash b l
    have hu : LJ.Index.u = 1 / 16777216 := rfl
    rw [hu] at h1
    rw [abs_le] at h1 h2 ⊢
    norm_num at h1 ⊢
    constructor <;> linarith [h1.1, h1.2, h2.1, h2.2]

theorem search_f32 {cfg : Cfg} (hf : cfg.fp.IsF32) {hashing : Bool} {C S N E ε : Type} {list : C → List (Except E S)} {valid : S → Bool} {nameOf : S → N} {isJson : S → Bool}
    {openSource : S → Except E (Bool → List (Ev ε))} (chunks : List (List Str)) :
    ∃ dist, Pointwise ((indexWorld cfg hashing list valid nameOf isJson openSource).search chunks) dist ∧ ∀ l, IsF32 (dist l) := by
  cases hashing with
  | false =>
    refine ⟨fun _ => 0, ?_, fun _ => LJ.Index.isF32_zero⟩
    intro ts
    show ((List.foldlM (LJ.Process.ChunkIndex.add cfg) .noop chunks).bind fun i => i.search cfg ts).getD [] = _
    rw [LJ.Process.foldl_noop]
    show List.replicate ts.length (0 : ℝ) = _
    rw [List.map_const']
  | true =>
    have hb := fun ts => LJ.Index.viaChunks_eq (hash := cfg.hash) cfg.fp chunks ts
    have hfold : ∀ ts, ((List.foldlM (LJ.Process.ChunkIndex.add cfg) (LJ.Process.newIndex true) chunks).bind fun i => i.search cfg ts) =
        LJ.Index.viaChunks cfg.fp cfg.hash chunks ts := by
      intro ts
      show ((List.foldlM (LJ.Process.ChunkIndex.add cfg) (.hashingTrick LJ.Index.HashingIndex.new) chunks).bind fun i => i.search cfg ts) = _
      rw [LJ.Process.foldl_hashing]
      unfold LJ.Index.viaChunks LJ.Index.HashingIndex.build
      cases chunks.foldlM (LJ.Index.HashingIndex.add cfg.fp cfg.hash) LJ.Index.HashingIndex.new <;> rfl
    refine ⟨fun l => LJ.Index.rowDistance cfg.fp (chunks.flatten.map (LJ.Index.rowOf cfg.fp cfg.hash)) (LJ.Index.rowOf cfg.fp cfg.hash l), ?_, fun l => rowDistance_f32 hf _ _ _⟩
    intro ts
    show ((List.foldlM (LJ.Process.ChunkIndex.add cfg) (LJ.Process.newIndex true) chunks).bind fun i => i.search cfg ts).getD [] = _
    rw [hfold, hb]
    rfl

/-- The distances of a report are numbers of `f32`. -/
theorem made_f32 {cfg : Cfg} (hf : cfg.fp.IsF32) {hashing : Bool} {o : LJ.Saved.Sources t E ε} {m : LJ.Report.Model (Content t) (Source t) String}
    {order : List (String × List (Source t)) → List (String × List (Source t))} (ho : ∀ g, (order g).Perm g) {target : Content t} {r : LJ.Saved.Rep t E ε}
    (h : LJ.Report.report (o.world cfg hashing) m order target = some (.ok r)) : ∀ l ∈ r.logReports, ∀ a ∈ l.anomalies, IsF32 a.anomaly.distance := by
  intro l hl a ha
  have hs : SearchOk (o.world cfg hashing) := LJ.Report.searchOk_indexWorld hf.standard
  obtain ⟨index, reader, seen, _, _, e⟩ := LJ.Output.logReport_process hs ho h hl
  obtain ⟨dist, hd, h1⟩ := search_f32 (cfg := cfg) hf (hashing := hashing) (list := o.list) (valid := o.valid) (nameOf := o.nameOf) (isJson := o.isJson)
    (openSource := o.openSource) index.chunks
  obtain ⟨ws, g1, _g2⟩ := LJ.Process.C26_any (ε := ε) (env := envOf (o.world cfg hashing) index.chunks) hd seen (reader ((o.world cfg hashing).isJson l.source))
  clear _g2
  rw [e] at ha
  generalize (process (envOf (o.world cfg hashing) index.chunks) seen (reader ((o.world cfg hashing).isJson l.source))).1 = cs at g1 ha
  induction g1 with
  | nil => cases ha
  | cons hx _ ih =>
    rcases List.mem_cons.1 ha with rfl | ha
    · obtain ⟨pre, bef, l, aft, post, _, _, _, _, _, _, e7⟩ := hx
      rw [e7]
      exact h1 _
    · exact ih ha

namespace Spec
/-- The numbers of a report fit in the `usize` of a 64-bit machine. -/
structure Fits {C S N D E ε : Type} (r : LJ.Report.Report C S N D E ε) : Prop where
  lines : r.totalLineCount < 2 ^ 64
  anomalies : r.totalAnomalyCount < 2 ^ 64
  logs : ∀ l ∈ r.logReports, l.lineCount < 2 ^ 64 ∧ l.byteCount < 2 ^ 64 ∧ ∀ a ∈ l.anomalies, a.anomaly.pos < 2 ^ 64
/-- The texts of a report can be cut where its sources say. -/
structure Shown (r : LJ.Saved.Rep t E ε) : Prop where
  target : contentText r.target ≠ none
  baselines : ∀ c ∈ r.baselines, contentText c ≠ none
  sources : ∀ l ∈ r.logReports, relative l.source ≠ none
end Spec
open Spec (Fits Shown)

/-- The report in memory of a target has the distances, the lines, the names and the numbers of the report: its page is the page of the report. -/
theorem C94_page {cfg : Cfg} (hf : cfg.fp.IsF32) {hashing : Bool} {o : LJ.Saved.Sources t E ε} {m : LJ.Report.Model (Content t) (Source t) String}
    {order : List (String × List (Source t)) → List (String × List (Source t))} (ho : ∀ g, (order g).Perm g) {target : Content t} {r : LJ.Saved.Rep t E ε}
    (h : LJ.Report.report (o.world cfg hashing) m order target = some (.ok r)) (hfit : Fits r) (cl : Clocks t) (text : LJ.Report.ReadErr E ε → String) :
    ∃ x, keepReport cl text r = some x ∧ ∀ checks fl css version fm,
      page checks fl css version fm x = if displayable r.target r.baselines (r.logReports.map (·.source)) then
        document checks (f32Scale fl) css version (labels fm cl.createdAt cl.runTime) r else none := by
  have hs : SearchOk (o.world cfg hashing) := LJ.Report.searchOk_indexWorld hf.standard
  obtain ⟨x, hx⟩ := keep_total (cl := cl) (text := text) (made_f32 hf ho h) hfit.logs hfit.lines hfit.anomalies
  refine ⟨x, hx, fun checks fl css version fm => ?_⟩
  have hb := report_back (LJ.Report.C37_logs hs ho h).1 hx
  have hparts : x.target = r.target ∧ x.baselines = r.baselines ∧ x.logReports.map (·.source) = r.logReports.map (·.source) ∧
      x.createdAt = cl.createdAt ∧ x.runTime = cl.runTime := by
    unfold keepReport at hx
    split at hx
    · rename_i ls n a h1 h2 h3
      cases hx
      refine ⟨rfl, rfl, ?_, rfl, rfl⟩
      rw [mapM_iff] at h1
      clear hb
      show ls.map (·.source) = _
      generalize r.logReports = rs at h1 ⊢
      induction h1 with
      | nil => rfl
      | cons hk _ ih =>
        rw [List.map_cons, List.map_cons, ih]
        congr 1
        unfold keepLog at hk
        split at hk
        · cases hk; rfl
        · cases hk
    · cases hx
  obtain ⟨p1, p2, p3, p4, p5⟩ := hparts
  unfold page
  rw [p1, p2, p3, p4, p5, hb, Option.bind_some, document_pageReport]

theorem displayable_iff (r : LJ.Saved.Rep t E ε) : displayable r.target r.baselines (r.logReports.map (·.source)) = true ↔ Shown r := by
  unfold displayable
  rw [Bool.and_eq_true, Bool.and_eq_true, List.all_eq_true, List.all_eq_true]
  constructor
  · rintro ⟨⟨h1, h2⟩, h3⟩
    refine ⟨fun e => (by rw [e] at h1; cases h1), fun c hc e => ?_, fun l hl e => ?_⟩
    · have := h2 c hc; rw [e] at this; cases this
    · have := h3 l.source (List.mem_map_of_mem (f := (·.source)) hl); rw [e] at this; cases this
  · intro h
    refine ⟨⟨Option.isSome_iff_ne_none.2 h.target, fun c hc => Option.isSome_iff_ne_none.2 (h.baselines c hc)⟩, fun s hs => ?_⟩
    obtain ⟨l, hl, rfl⟩ := List.mem_map.1 hs
    exact Option.isSome_iff_ne_none.2 (h.sources l hl)

/-- A built-in release makes a page of a report exactly when its texts can be cut. -/
theorem C94_made {cfg : Cfg} (hf : cfg.fp.IsF32) {hashing : Bool} {o : LJ.Saved.Sources t E ε} {m : LJ.Report.Model (Content t) (Source t) String}
    {order : List (String × List (Source t)) → List (String × List (Source t))} (ho : ∀ g, (order g).Perm g) {target : Content t} {r : LJ.Saved.Rep t E ε}
    (h : LJ.Report.report (o.world cfg hashing) m order target = some (.ok r)) (hfit : Fits r) (cl : Clocks t) (text : LJ.Report.ReadErr E ε → String) :
    ∃ x, keepReport cl text r = some x ∧ ∀ fl css version fm, (∃ n, page false fl css version fm x = some n) ↔ Shown r := by
  obtain ⟨x, hx, hp⟩ := C94_page hf ho h hfit cl text
  refine ⟨x, hx, fun fl css version fm => ?_⟩
  rw [hp, ← displayable_iff]
  constructor
  · rintro ⟨n, hn⟩
    by_contra hd
    rw [if_neg hd] at hn
    cases hn
  · intro hd
    rw [if_pos hd]
    exact LJ.Output.document_made.2 (LJ.Output.C83_made _ _ _).1

/-! ### The `render` program -/

section
variable {w : World t I Er} {gz : LJ.Saved.Gzip} {write : Node → List UInt8} {checks : Bool} {fl : ℝ → ℝ} {css version : Str} {fm : Formats} {other : Er}

theorem render_ok {x : LJ.Codec.Report t} {pg : List UInt8} (h : (files w gz write checks fl css version fm other).render x = .ok pg) :
    ∃ n, page checks fl css version fm x = some n ∧ pg = write n := by
  simp only [files] at h
  split at h
  · rename_i n hn; cases h; exact ⟨n, hn, rfl⟩
  · cases h

/-- What is saved loads back. -/
theorem load_saved {fs : Fs Str} {p : Str} {x : LJ.Codec.Report t} {b : List UInt8} (h : (files w gz write checks fl css version fm other).encReport x = .ok b)
    (hsee : fs.denied p = false) (hfile : fs.files p = some b) : loadReport (files w gz write checks fl css version fm other) gz other fs p = .ok x := by
  simp only [files] at h
  split at h
  · rename_i c hc
    cases h
    have := (LJ.Codec.C70_report t hc []).2
    rw [List.append_nil] at this
    unfold loadReport LJ.Cli.readFile
    simp only [hsee, hfile, Bool.false_eq_true, if_false, gz.whole, this]
  · cases h

/-- A run which writes a page and keeps the raw report beside it (`LOGREDUCE_CACHE`), with room on the disk for it.  Later, while the raw report is there, the
`render` program makes from it the same page again, under the name of the raw report with the extension `html`.  What is missing: see `C94_false`. -/
theorem C94_partial {fs fs' : Fs Str} {file : Str} {path : Option Str} {bs : Option (List I)} {input : I} {prog : Str}
    (h : (LJ.Cli.process (files w gz write checks fl css version fm other) alone true fs (some file) path bs input).result = .ok ())
    (hne : setExtension "json".toList file ≠ file) (hroom : w.limit (setExtension "json".toList file) = none)
    (hsame : fs'.files (setExtension "json".toList file) =
      (LJ.Cli.process (files w gz write checks fl css version fm other) alone true fs (some file) path bs input).fs.files (setExtension "json".toList file))
    (hsee : fs'.denied (setExtension "json".toList file) = false)
    (hcan : fs'.denied (setExtension "html".toList file) = false ∧ w.createErr (setExtension "html".toList file) = none ∧ w.limit (setExtension "html".toList file) = none) :
    ∃ content m x n, w.fromInput input = .ok content ∧ w.report m content = .ok x ∧ page checks fl css version fm x = some n ∧
      (LJ.Cli.process (files w gz write checks fl css version fm other) alone true fs (some file) path bs input).fs.files file = some (write n) ∧
      main (files w gz write checks fl css version fm other) gz other fs' [prog, setExtension "json".toList file] =
        (.ok (), LJ.Cli.put fs' (setExtension "html".toList file) (write n)) := by
  obtain ⟨content, m, x, pg, h1, _, h3, h4, h5, h6⟩ := LJ.Cli.C89_page _ _ _ _ _ h
  obtain ⟨b, k, b1, _, b3, b4⟩ := h6 rfl hne
  obtain ⟨n, hn, rfl⟩ := render_ok h4
  have hk : b.take k = b := List.take_of_length_le (b3 fun k hk => by
    have hk : w.limit (setExtension "json".toList file) = some k := hk
    rw [hroom] at hk; cases hk)
  rw [hk] at b4
  have hl := load_saved (fs := fs') b1 hsee (hsame.trans b4)
  refine ⟨content, m, x, n, h1, h3, hn, h5, ?_⟩
  show renderFile _ gz other fs' (setExtension "json".toList file) = _
  have hw : (files w gz write checks fl css version fm other).render x = .ok (write n) := h4
  unfold renderFile
  rw [hl]
  have hhtml : setExtension "html".toList (setExtension "json".toList file) = setExtension "html".toList file := C94_twice ⟨by decide, by decide, by decide⟩ file
  simp only [LJ.Cli.writePage, hw, hhtml]
  have hc : LJ.Cli.create (files w gz write checks fl css version fm other) fs' (setExtension "html".toList file) =
      .ok (LJ.Cli.put fs' (setExtension "html".toList file) []) := LJ.Cli.create_iff.2 ⟨⟨hcan.1, hcan.2.1⟩, rfl⟩
  have hwr : LJ.Cli.written (files w gz write checks fl css version fm other) (setExtension "html".toList file) (write n) = write n := by
    unfold LJ.Cli.written
    have : (files w gz write checks fl css version fm other).limit (setExtension "html".toList file) = none := hcan.2.2
    rw [this]
  unfold LJ.Cli.writeFile
  rw [hc]
  simp only [hwr, lt_self_iff_false, if_false]
  congr 1
  unfold LJ.Cli.put
  congr 1
  funext q
  by_cases e : q = setExtension "html".toList file <;> simp only [e, if_true, if_false]

/-- When the page has the extension `html`, the `render` program leaves it as it is. -/
theorem C94_same {fs : Fs Str} {file : Str} {path : Option Str} {bs : Option (List I)} {input : I} {prog : Str}
    (h : (LJ.Cli.process (files w gz write checks fl css version fm other) alone true fs (some file) path bs input).result = .ok ())
    (hpage : Spec.PagePath file) (hroom : w.limit (setExtension "json".toList file) = none) (hroom' : w.limit file = none)
    (hsee : ∀ p, (LJ.Cli.process (files w gz write checks fl css version fm other) alone true fs (some file) path bs input).fs.denied p = false)
    (hcan : w.createErr file = none) :
    main (files w gz write checks fl css version fm other) gz other
        (LJ.Cli.process (files w gz write checks fl css version fm other) alone true fs (some file) path bs input).fs [prog, setExtension "json".toList file] =
      (.ok (), (LJ.Cli.process (files w gz write checks fl css version fm other) alone true fs (some file) path bs input).fs) := by
  have hhtml : setExtension "html".toList file = file := (C94_html file).2 (.inr hpage)
  have hne : setExtension "json".toList file ≠ file := by
    obtain ⟨dir, name, rfl, p1, p2, p3⟩ := hpage
    have hx : Spec.Extension "html".toList := ⟨by decide, by decide, by decide⟩
    have e1 := splitLast_file p1 p2 hx
    have e2 : dir ++ name ++ ".html".toList = dir ++ (name ++ '.' :: "html".toList) := by rw [List.append_assoc]; rfl
    rw [e2, setExtension_file (by rw [e1]; exact newName hx), e1, stem_ext p3 hx.2.2]
    intro e
    exact absurd (List.append_cancel_left (List.append_cancel_left e)) (by decide)
  obtain ⟨content, m, x, n, _, _, _, h5, h6⟩ := C94_partial (prog := prog) h hne hroom rfl (hsee _) (by rw [hhtml]; exact ⟨hsee _, hcan, hroom'⟩)
  rw [h6, hhtml]
  congr 1
  unfold LJ.Cli.put
  congr 1
  funext q
  split
  · rename_i e; rw [e, h5]
  · rfl

end
end LJ.Render

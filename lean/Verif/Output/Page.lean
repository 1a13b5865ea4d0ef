/-
Properties of the HTML report: C82 (colours and scores) and C83 (what the page has for each log report).
-/
import Verif.Output.Props
import Verif.Report.Witness
namespace LJ.Output
open LJ.Process (Str Anomaly AnomalyContext Ev Env process)
open LJ.Process.Spec (Pointwise)
open LJ.Report (World envOf indexWorld Report LogReport)
open Spec (html Row)

/-! ### C82: colours and scores -/

/-- report.rs:356-357 with `fl` the rounding of `f32`: the multiplication is rounded, `as usize` drops
the fraction and is 0 for the negative numbers. -/
noncomputable def f32Scale (fl : ℝ → ℝ) : Scale ℝ where
  score d := ⌊fl (d * 99)⌋₊
  color d := ⌊fl (d * 255)⌋₊

namespace Spec
/-- a digit of a CSS colour -/
def HexDigit (c : Char) : Prop := c ∈ "0123456789ABCDEF".toList
/-- a decimal digit -/
def Digit (c : Char) : Prop := c ∈ "0123456789".toList

instance (c : Char) : Decidable (HexDigit c) := by unfold HexDigit; infer_instance
instance (c : Char) : Decidable (Digit c) := by unfold Digit; infer_instance
end Spec
open Spec (HexDigit Digit)

theorem hex_two : ∀ n < 256, 16 ≤ n → (upperHex n).length = 2 ∧ ∀ c ∈ upperHex n, HexDigit c := by decide +kernel

theorem dec_two : ∀ n < 100, 10 ≤ n → (decimal n).length = 2 ∧ ∀ c ∈ decimal n, Digit c := by decide +kernel

theorem scaled {fl : ℝ → ℝ} (hr : LJ.Index.Rounding fl) (hmono : Monotone fl) {d : ℝ} (k lo : ℕ) (hk : k ≤ 2 ^ 24)
    (hlo : (lo : ℝ) ≤ LJ.Process.THRESHOLD * k) (hlk : lo ≤ k) (h0 : d > LJ.Process.THRESHOLD) (h1 : d ≤ 1) :
    lo ≤ ⌊fl (d * k)⌋₊ ∧ ⌊fl (d * k)⌋₊ ≤ k := by
  have hk0 : (0 : ℝ) ≤ k := Nat.cast_nonneg k
  constructor
  · apply Nat.le_floor
    rw [← hr.nat lo (hlk.trans hk)]
    apply hmono
    nlinarith
  · apply Nat.floor_le_of_le
    rw [← hr.nat k hk]
    apply hmono
    rw [hr.nat k hk]
    nlinarith

/-- A distance between the threshold and 1 gives a colour between 76 and 255 and a score between 29 and
99, with the roundings of `f32`. -/
theorem C82_range {fl : ℝ → ℝ} (hr : LJ.Index.Rounding fl) (hmono : Monotone fl) {d : ℝ} (h0 : d > LJ.Process.THRESHOLD) (h1 : d ≤ 1) :
    (76 ≤ (f32Scale fl).color d ∧ (f32Scale fl).color d ≤ 255) ∧ 29 ≤ (f32Scale fl).score d ∧ (f32Scale fl).score d ≤ 99 := by
  have a := scaled hr hmono 255 76 (by norm_num) (by unfold LJ.Process.THRESHOLD; norm_num) (by norm_num) h0 h1
  have b := scaled hr hmono 99 29 (by norm_num) (by unfold LJ.Process.THRESHOLD; norm_num) (by norm_num) h0 h1
  push_cast at a b
  exact ⟨a, b⟩

/-- A higher distance has no lower colour and no lower score. -/
theorem C82_monotone {fl : ℝ → ℝ} (hmono : Monotone fl) {d e : ℝ} (h : d ≤ e) :
    (f32Scale fl).color d ≤ (f32Scale fl).color e ∧ (f32Scale fl).score d ≤ (f32Scale fl).score e :=
  ⟨Nat.floor_mono (hmono (by linarith)), Nat.floor_mono (hmono (by linarith))⟩

variable {C S N E ε : Type} {cfg : LJ.Process.Cfg} {hashing : Bool} {list : C → List (Except E S)} {valid : S → Bool}
  {nameOf : S → N} {isJson : S → Bool} {openSource : S → Except E (Bool → List (Ev ε))}

/-- the distances of the indexes of the program are at most 1, whatever the rounding -/
theorem index_at_most_one (chunks : List (List Str)) :
    ∃ dist, Pointwise ((indexWorld cfg hashing list valid nameOf isJson openSource).search chunks) dist ∧ ∀ t, dist t ≤ 1 := by
  cases hashing with
  | false =>
    refine ⟨fun _ => 0, ?_, fun _ => by norm_num⟩
    intro ts
    show ((List.foldlM (LJ.Process.ChunkIndex.add cfg) .noop chunks).bind fun i => i.search cfg ts).getD [] = _
    rw [LJ.Process.foldl_noop]
    show List.replicate ts.length (0 : ℝ) = _
    rw [List.map_const']
  | true =>
    have hb := fun ts => LJ.Index.viaChunks_eq (hash := cfg.hash) cfg.fp chunks ts
    have hfold : ∀ ts, ((List.foldlM (LJ.Process.ChunkIndex.add cfg) (LJ.Process.newIndex true) chunks).bind fun i => i.search cfg ts) =
        LJ.Index.viaChunks cfg.fp cfg.hash chunks ts := by
      intro ts
      show ((List.foldlM (LJ.Process.ChunkIndex.add cfg) (.hashingTrick LJ.Index.HashingIndex.new) chunks).bind fun i => i.search cfg ts) = _
      rw [LJ.Process.foldl_hashing]
      unfold LJ.Index.viaChunks LJ.Index.HashingIndex.build
      cases chunks.foldlM (LJ.Index.HashingIndex.add cfg.fp cfg.hash) LJ.Index.HashingIndex.new <;> rfl
    refine ⟨fun t => LJ.Index.rowDistance cfg.fp (chunks.flatten.map (LJ.Index.rowOf cfg.fp cfg.hash)) (LJ.Index.rowOf cfg.fp cfg.hash t), ?_, ?_⟩
    · intro ts
      show ((List.foldlM (LJ.Process.ChunkIndex.add cfg) (LJ.Process.newIndex true) chunks).bind fun i => i.search cfg ts).getD [] = _
      rw [hfold, hb]
      rfl
    · exact fun t => (LJ.Index.rowDistance_least cfg.fp _ _).2 (.inl (Set.mem_singleton 1))

/-- The distances of the anomalies found by the processor are over the threshold and at most 1, for every
source, errors included, and any rounding. -/
theorem C82_distance (chunks : List (List Str)) (skip : List Str) (r : List (Ev ε)) :
    ∀ c ∈ (process (envOf (indexWorld cfg hashing list valid nameOf isJson openSource) chunks) skip r).1,
      c.anomaly.distance > LJ.Process.THRESHOLD ∧ c.anomaly.distance ≤ 1 := by
  obtain ⟨dist, hd, h1⟩ := index_at_most_one (cfg := cfg) (hashing := hashing) (list := list) (valid := valid) (nameOf := nameOf)
    (isJson := isJson) (openSource := openSource) chunks
  obtain ⟨ws, g1, _, _, g4⟩ := LJ.Process.C26_any (ε := ε)
    (env := envOf (indexWorld cfg hashing list valid nameOf isJson openSource) chunks) hd skip r
  intro c hc
  refine ⟨of_decide_eq_true (g4 c hc), ?_⟩
  have : ∀ cs ws, List.Forall₂ (LJ.Process.Spec.Shows (envOf (indexWorld cfg hashing list valid nameOf isJson openSource) chunks).tokenize dist
      (LJ.Process.Spec.visible (envOf (indexWorld cfg hashing list valid nameOf isJson openSource) chunks).decode r)) cs ws →
      ∀ c ∈ cs, c.anomaly.distance ≤ 1 := by
    intro cs ws h
    induction h with
    | nil => simp
    | cons hx _ ih =>
      intro c hc
      rcases List.mem_cons.1 hc with rfl | hc
      · obtain ⟨pre, bef, l, aft, post, e1, _, _, _, _, _, e7⟩ := hx
        rw [e7]
        exact h1 _
      · exact ih c hc
  exact this _ _ g1 c hc

/-- In the page, every anomaly found by the processor has a CSS colour of six digits and a score of two
digits. -/
theorem C82_colours {fl : ℝ → ℝ} (hr : LJ.Index.Rounding fl) (hmono : Monotone fl) (chunks : List (List Str)) (skip : List Str) (r : List (Ev ε)) :
    ∀ c ∈ (process (envOf (indexWorld cfg hashing list valid nameOf isJson openSource) chunks) skip r).1,
      ∃ x y a b, HexDigit x ∧ HexDigit y ∧ Digit a ∧ Digit b ∧
        anomalyNode (f32Scale fl) c.anomaly = .elem "pre" ["style=\"color: #".toList ++ [x, y] ++ "0000\"".toList]
          [.text ([a, b] ++ " ".toList ++ Spec.right ' ' 4 (Nat.toDigits 10 c.anomaly.pos) ++ " | ".toList ++ c.anomaly.line)] := by
  intro c hc
  obtain ⟨h0, h1⟩ := C82_distance chunks skip r c hc
  obtain ⟨⟨a1, a2⟩, b1, b2⟩ := C82_range hr hmono h0 h1
  obtain ⟨l1, c1⟩ := hex_two _ (Nat.lt_succ_of_le a2) (by omega)
  obtain ⟨l2, c2⟩ := dec_two _ (Nat.lt_succ_of_le b2) (by omega)
  obtain ⟨x, y, hxy⟩ := List.length_eq_two.1 l1
  obtain ⟨a, b, hab⟩ := List.length_eq_two.1 l2
  refine ⟨x, y, a, b, c1 x (by rw [hxy]; simp), c1 y (by rw [hxy]; simp), c2 a (by rw [hab]; simp), c2 b (by rw [hab]; simp), ?_⟩
  unfold anomalyNode padLeft
  rw [hxy, hab]
  rfl

/-- Exact arithmetic is a rounding, and the distance 1 has the colour FF0000. -/
example : LJ.Index.Rounding id ∧ Monotone (id : ℝ → ℝ) ∧ (f32Scale id).color 1 = 255 ∧ upperHex 255 = "FF".toList ∧ decimal 99 = "99".toList :=
  ⟨LJ.Index.rounding_id, monotone_id, by simp [f32Scale], by decide +kernel, by decide +kernel⟩

/-- A distance under 16/255 (a report edited by hand) has no valid colour: the digit is preceded by a space. -/
example : padLeft ' ' 2 (upperHex 10) = " A".toList := by decide +kernel

/-! ### C83: the items of the page -/

namespace Spec
/-- A node of a tree. -/
inductive Within (x : Node) : Node → Prop
  | here : Within x x
  | inside {tag : String} {attrs : List Str} {children : List Node} {c : Node} : c ∈ children → Within x c → Within x (.elem tag attrs children)

/-- The page is a list of items: its second part. -/
def ItemsOf (page : Node) (items : List Node) : Prop :=
  ∃ info, page = .elem "div" ["class=\"container\"".toList, "style='width: 100%'".toList]
    [info, .elem "div" ["class=\"list-group list-view-pf list-view-pf-view\"".toList] items]

/-- A text of the node. -/
def Says (page : Node) (t : Str) : Prop := Within (.text t) page

/-- A link of the node. -/
def Links (page : Node) (url text : Str) : Prop := Within (.elem "a" ["href=\"".toList ++ url ++ "\"".toList] [.text text]) page
end Spec
open Spec (Within ItemsOf Says Links)

theorem Within.trans {x y z : Node} (h1 : Within x y) (h2 : Within y z) : Within x z := by
  induction h2 with
  | here => exact h1
  | inside hc _ ih => exact .inside hc ih

section
variable {C S N D E ε : Type} [DecidableEq N]

theorem renderReports_items (checks : Bool) (sc : Scale D) (lb : Labels C S N) (ir : List (N × List S)) :
    ∀ (ls : List (LogReport S N D)) (expand : Bool) {items : List Node}, renderReports checks sc lb ir expand ls = some items →
      items.length = ls.length ∧ ∀ i l, ls[i]? = some l → ∃ item, items[i]? = some item ∧
        renderContentReport checks sc lb l (ir.lookup l.indexName) (expand && i == 0) = some item
  | [], _, items, h => by
    cases h
    exact ⟨rfl, fun i l hl => by simp at hl⟩
  | l :: ls, expand, items, h => by
    rw [renderReports] at h
    cases h1 : renderContentReport checks sc lb l (ir.lookup l.indexName) expand with
    | none => simp only [h1, Option.bind_eq_bind, Option.bind_none] at h; cases h
    | some item =>
      cases h2 : renderReports checks sc lb ir false ls with
      | none => simp only [h1, h2, Option.bind_eq_bind, Option.bind_some, Option.bind_none] at h; cases h
      | some rest =>
        simp only [h1, h2, Option.bind_eq_bind, Option.bind_some, Option.some.injEq] at h
        subst h
        obtain ⟨e1, e2⟩ := renderReports_items checks sc lb ir ls false h2
        refine ⟨by simp [e1], ?_⟩
        intro i l' hl
        cases i with
        | zero =>
          cases hl
          exact ⟨item, rfl, by rw [← h1]; simp⟩
        | succ i =>
          obtain ⟨item', a1, a2⟩ := e2 i l' (by simpa using hl)
          exact ⟨item', by simpa using a1, by rw [← a2]; simp⟩

omit [DecidableEq N] in
theorem renderContentReport_some {checks : Bool} {sc : Scale D} {lb : Labels C S N} {l : LogReport S N D} {ix : Option (List S)} {expand : Bool}
    {item : Node} (h : renderContentReport checks sc lb l ix expand = some item) :
    ∃ lines, renderLines checks sc l.anomalies = some lines ∧
      item = .elem "div" [classAttr (if expand then "list-group-item list-view-pf-expand-active" else "list-group-item"), "id=\"TODO\"".toList]
        [itemHeader lb l expand,
         .elem "div" [classAttr (if expand then "list-group-item-container container-fluid" else "list-group-item-container container-fluid hidden")]
          (closeIcon :: samples lb ix ++ [.elem "div" [classAttr "loglines"] lines])] := by
  unfold renderContentReport at h
  cases h1 : renderLines checks sc l.anomalies with
  | none => simp only [h1, Option.bind_eq_bind, Option.bind_none] at h; cases h
  | some lines =>
    simp only [h1, Option.bind_eq_bind, Option.bind_some, Option.some.injEq] at h
    exact ⟨lines, rfl, h.symm⟩

/-- the class of the second part of an item -/
theorem item_class (i : Nat) :
    classAttr (if (i == 0) = true then "list-group-item-container container-fluid" else "list-group-item-container container-fluid hidden") =
      if i = 0 then "class=\"list-group-item-container container-fluid\"".toList else
        "class=\"list-group-item-container container-fluid hidden\"".toList := by
  by_cases hi : i = 0
  · subst hi; decide +kernel
  · rw [if_neg hi, if_neg (by simpa using hi)]; decide +kernel

omit [DecidableEq N] in
theorem header_parts (lb : Labels C S N) (l : LogReport S N D) (expand : Bool) :
    Says (itemHeader lb l expand) (lb.relative l.source) ∧ Links (itemHeader lb l expand) (lb.location l.source) "file".toList ∧
    Within (.elem "strong" [] [.text (Nat.toDigits 10 l.anomalies.length)]) (itemHeader lb l expand) ∧
    Links (itemHeader lb l expand) ("#model_".toList ++ lb.name l.indexName) (lb.name l.indexName) := by
  have up : ∀ {x y : Node}, Within x y → y ∈ [heading lb l, modelInfo lb l, fileInfo lb l, countInfo l] → Within x (itemHeader lb l expand) :=
    fun h hy => .inside (.tail _ (.head _)) (.inside (.tail _ (.head _)) (.inside hy h))
  refine ⟨up (y := heading lb l) ?_ (.head _), up (y := fileInfo lb l) ?_ (.tail _ (.tail _ (.head _))),
    up (y := countInfo l) ?_ (.tail _ (.tail _ (.tail _ (.head _)))), up (y := modelInfo lb l) ?_ (.tail _ (.head _))⟩
  · exact .inside (.head _) (.inside (.head _) .here)
  · exact .inside (.tail _ (.head _)) .here
  · exact .inside (.tail _ (.head _)) .here
  · exact .inside (.tail _ (.head _)) .here

omit [DecidableEq N] in
theorem samples_links (lb : Labels C S N) (sources : List S) {s : S} (h : s ∈ sources.take 3) :
    ∃ n, samples lb (some sources) = [n] ∧ Links n (lb.location s) (lb.location s) :=
  ⟨_, rfl, .inside (.tail _ (.head _)) (.inside (List.mem_map.2 ⟨s, h, rfl⟩) (.inside (.head _) .here))⟩

omit [DecidableEq N] in
theorem item_parts (lb : Labels C S N) (l : LogReport S N D) (expand : Bool) (ix : Option (List S)) (lines : List Node) (a b c : Str) :
    let item : Node := .elem "div" [a, b] [itemHeader lb l expand, .elem "div" [c] (closeIcon :: samples lb ix ++ [.elem "div" [classAttr "loglines"] lines])]
    Says item (lb.relative l.source) ∧ Links item (lb.location l.source) "file".toList ∧
        Within (.elem "strong" [] [.text (Nat.toDigits 10 l.anomalies.length)]) item ∧
        Links item ("#model_".toList ++ lb.name l.indexName) (lb.name l.indexName) ∧
        (∃ children, Within (.elem "div" ["class=\"loglines\"".toList] lines) (.elem "div" [c] children) ∧ Within (.elem "div" [c] children) item) ∧
        (∀ sources, ix = some sources → ∀ s ∈ sources.take 3, Links item (lb.location s) (lb.location s)) := by
  intro item
  obtain ⟨h1, h2, h3, h4⟩ := header_parts lb l expand
  have hcl : classAttr "loglines" = "class=\"loglines\"".toList := by decide +kernel
  refine ⟨.inside (.head _) h1, .inside (.head _) h2, .inside (.head _) h3, .inside (.head _) h4, ?_, ?_⟩
  · rw [← hcl]
    exact ⟨_, .inside (List.mem_append_right _ (.head _)) .here, .inside (.tail _ (.head _)) .here⟩
  · rintro sources rfl s hm
    obtain ⟨n, e, hn⟩ := samples_links lb sources hm
    refine .inside (.tail _ (.head _)) (.inside (List.mem_append_left _ (.tail _ ?_)) hn)
    rw [e]
    exact .head _

/-- The page has one item per log report, in their order.  Each item has the path, the link to the file, the
number of anomalies, the name of the model and the lines of its log report; it is hidden unless it is
the first; and it has links to the first three baseline sources of the index report. -/
theorem C83_items {checks : Bool} {sc : Scale D} {lb : Labels C S N} {r : Report C S N D E ε} {page : Node}
    (h : container checks sc lb r = some page) :
    ∃ items, ItemsOf page items ∧ items.length = r.logReports.length ∧
      ∀ i l, r.logReports[i]? = some l → ∃ item lines, items[i]? = some item ∧ renderLines checks sc l.anomalies = some lines ∧
        Says item (lb.relative l.source) ∧ Links item (lb.location l.source) "file".toList ∧
        Within (.elem "strong" [] [.text (Nat.toDigits 10 l.anomalies.length)]) item ∧
        Links item ("#model_".toList ++ lb.name l.indexName) (lb.name l.indexName) ∧
        (∃ children, Within (.elem "div" ["class=\"loglines\"".toList] lines) (.elem "div" [if i = 0 then
            "class=\"list-group-item-container container-fluid\"".toList else
            "class=\"list-group-item-container container-fluid hidden\"".toList] children) ∧
          Within (.elem "div" [if i = 0 then
            "class=\"list-group-item-container container-fluid\"".toList else
            "class=\"list-group-item-container container-fluid hidden\"".toList] children) item) ∧
        (∀ sources, r.indexReports.lookup l.indexName = some sources → ∀ s ∈ sources.take 3, Links item (lb.location s) (lb.location s)) := by
  unfold container at h
  cases h1 : renderReports checks sc lb r.indexReports true r.logReports with
  | none => simp only [h1, Option.bind_eq_bind, Option.bind_none] at h; cases h
  | some items =>
    simp only [h1, Option.bind_eq_bind, Option.bind_some, Option.some.injEq] at h
    subst h
    obtain ⟨e1, e2⟩ := renderReports_items checks sc lb r.indexReports r.logReports true h1
    refine ⟨items, ⟨infoTable lb r, rfl⟩, e1, ?_⟩
    intro i l hl
    obtain ⟨item, a1, a2⟩ := e2 i l hl
    rw [Bool.true_and] at a2
    obtain ⟨lines, b1, rfl⟩ := renderContentReport_some a2
    refine ⟨_, lines, a1, b1, ?_⟩
    rw [← item_class i]
    exact item_parts lb l _ _ lines _ _ _

/-- The page has the target, the baselines and the totals. -/
theorem C83_info {checks : Bool} {sc : Scale D} {lb : Labels C S N} {r : Report C S N D E ε} {page : Node}
    (h : container checks sc lb r = some page) :
    Says page (lb.content r.target) ∧ Says page (", ".toList.intercalate (r.baselines.map lb.content)) ∧
    ∃ pre, Says page (pre ++ "% reduction (from ".toList ++ Nat.toDigits 10 r.totalLineCount ++ " to ".toList ++
      Nat.toDigits 10 r.totalAnomalyCount ++ ")".toList) := by
  unfold container at h
  cases h1 : renderReports checks sc lb r.indexReports true r.logReports with
  | none => simp only [h1, Option.bind_eq_bind, Option.bind_none] at h; cases h
  | some items =>
    simp only [h1, Option.bind_eq_bind, Option.bind_some, Option.some.injEq] at h
    subst h
    have cell : ∀ (rows : List (List Str)) (row : List Str) (t : Str), row ∈ rows → t ∈ row → Says (table rows) t := by
      intro rows row t h1 h2
      unfold table
      refine .inside (List.mem_singleton.2 rfl) (.inside (List.mem_singleton.2 rfl) ?_)
      exact .inside (List.mem_map.2 ⟨row, h1, rfl⟩) (.inside (List.mem_map.2 ⟨t, h2, rfl⟩) (.inside (List.mem_singleton.2 rfl) .here))
    have hj : ∀ xs : List Str, joinComma xs = ", ".toList.intercalate xs := by
      intro xs
      induction xs with
      | nil => rfl
      | cons x xs ih =>
        cases xs with
        | nil => simp [joinComma, List.intercalate]
        | cons y ys => rw [joinComma, ih]; simp [List.intercalate, List.intersperse]
    have up : ∀ t, Says (infoTable lb r) t → ∀ attrs x, Says (.elem "div" attrs [infoTable lb r, x]) t :=
      fun t ht attrs x => .inside (by simp) ht
    refine ⟨up _ ?_ _ _, up _ ?_ _ _, lb.reduction r.totalAnomalyCount r.totalLineCount, up _ ?_ _ _⟩
    · exact cell _ ["Target".toList, lb.content r.target] _ (by simp) (by simp)
    · rw [← hj]
      exact cell _ ["Baselines".toList, joinComma (r.baselines.map lb.content)] _ (by simp) (by simp)
    · exact cell _ ["Result".toList, _] _ (.tail _ (.tail _ (.tail _ (.tail _ (.head _))))) (.tail _ (.head _))

/-- A release build always makes the page; a debug build makes it when every anomaly has a number greater than
the number of its lines of context before it. -/
theorem C83_made (sc : Scale D) (lb : Labels C S N) (r : Report C S N D E ε) :
    (∃ page, container false sc lb r = some page) ∧
    ((∀ l ∈ r.logReports, ∀ c ∈ l.anomalies, c.anomaly.pos + c.after.length < 2 ^ 64) →
      ((∃ page, container true sc lb r = some page) ↔ ∀ l ∈ r.logReports, ∀ c ∈ l.anomalies, c.before.length < c.anomaly.pos)) := by
  have key : ∀ checks, (∃ page, container checks sc lb r = some page) ↔ ∀ l ∈ r.logReports, (renderLines checks sc l.anomalies).isSome := by
    intro checks
    have loop : ∀ (ls : List (LogReport S N D)) (expand : Bool), (renderReports checks sc lb r.indexReports expand ls).isSome ↔
        ∀ l ∈ ls, (renderLines checks sc l.anomalies).isSome := by
      intro ls
      induction ls with
      | nil => intro _; simp [renderReports]
      | cons l ls ih =>
        intro expand
        rw [List.forall_mem_cons, ← ih false]
        cases h1 : renderLines checks sc l.anomalies with
        | none => simp [renderReports, renderContentReport, h1]
        | some lines =>
          cases h2 : renderReports checks sc lb r.indexReports false ls with
          | none => simp [renderReports, renderContentReport, h1, h2]
          | some rest => simp [renderReports, renderContentReport, h1, h2]
    rw [← loop r.logReports true]
    unfold container
    cases h1 : renderReports checks sc lb r.indexReports true r.logReports <;> simp
  refine ⟨(key false).2 fun l _ => ?_, fun hmax => (key true).trans ?_⟩
  · obtain ⟨nodes, h, _⟩ := C65_release_partial sc l.anomalies
    rw [h]; rfl
  · exact forall₂_congr fun l hl => C65_debug sc l.anomalies (hmax l hl)

end

/-- Labels for the example. -/
def pageLabels : Labels Nat String String where
  content n := decimal n
  relative s := s.toList
  location s := "/".toList ++ s.toList
  name n := n.toList
  createdAt := "now".toList
  runTime := "1 sec".toList
  reduction _ _ := "50".toList

/-- the report on the target of `Verif/Report/Witness.lean` has two log reports, and the page is made -/
example : (match LJ.Report.report LJ.Report.world1 LJ.Report.model1 List.reverse 1 with
    | some (.ok r) => r.logReports.length == 2 && (container true toyScale pageLabels r).isSome && r.indexReports.lookup "a" == some ["a1"]
    | _ => false) = true := by decide +kernel

end LJ.Output

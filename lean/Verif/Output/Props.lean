/-
Properties of the shown pages: C65 (HTML report) and C66 (live output).
-/
import Verif.Output.Lemmas
import Verif.Process.Props
import Verif.Process.Toy
import Verif.Iterator.Props
namespace LJ.Output
open LJ.Process (Str Anomaly AnomalyContext Err Env LogLine process runWindows toy toyDist toyL toyS)
open LJ.Process.Spec (Line Window Shows Reads NoMarker Pointwise)
open LJ.Iterator (allLines build fromReads ascii)
open LJ.Iterator.Spec (Blocks)
open Spec (block rows gap pageFrom page Numbered html console shifted Row)

variable {D ε : Type} {tok : Str → Str} {dist : Str → D}

/-! ### C65: the HTML report shows the lines with their numbers -/

/-- The previous block and the remembered position. -/
def Remembers (prev : Option (List Line)) (last : Option Nat) : Prop :=
  (prev = none ∧ last = none) ∨ ∃ x n, prev = some x ∧ last = some n ∧ lastNum x = some n

theorem renderAnomaly_page (checks : Bool) (sc : Scale D) {src : List Line} (hpos : ∀ l ∈ src, 0 < l.num) (hmax : ∀ l ∈ src, l.num < 2 ^ 64)
    {c : AnomalyContext D} {w : Window} {prev : Option (List Line)} {last : Option Nat} (hs : Shows tok dist src c w)
    (hn : Numbered (block src w)) (hr : Remembers prev last) :
    ∃ n, renderAnomaly checks sc last c = some ((gap prev (block src w) ++ rows src w).map (html sc (dist ∘ tok)), n) ∧
      lastNum (block src w) = some n := by
  obtain ⟨bef, l, aft, e, hb, h1, h2, h3, h4, h5, h6, h7, h8, h9⟩ := window_facts hs hn hpos
  refine ⟨l.num + aft.length, ?_, h8⟩
  have hlast : l.num + aft.length < 2 ^ 64 := by
    obtain ⟨x, hx, hx2⟩ := getLast_num h6
    rw [← hx2]
    exact hmax x (h9 x (List.mem_append_right _ (List.mem_of_getLast? hx)))
  have eb : renderContext checks (l.num - 1 - bef.length) (bef.map Line.text) = some (bef.map fun l => contextNode l.num l.text) := by
    rw [renderContext, renderContextFrom_ok _ _ _ _ (by rw [List.length_map]; omega)]
    rw [numberedFrom_lines contextNode 0 bef _ (by simpa using h5)]
    rfl
  have ea : renderContext checks l.num (aft.map Line.text) = some (aft.map fun l => contextNode l.num l.text) := by
    rw [renderContext, renderContextFrom_ok _ _ _ _ (by rw [List.length_map]; omega)]
    rw [numberedFrom_lines contextNode 0 aft _ (by simpa using h6)]
    rfl
  have es : separator last (l.num - 1 - bef.length) = (gap prev (block src w)).map (html sc (dist ∘ tok)) := by
    rcases hr with ⟨rfl, rfl⟩ | ⟨x, n, rfl, rfl, hx⟩
    · rfl
    · rw [gap_eq _ hx h7]
      rfl
  unfold renderAnomaly
  rw [h3, h1, h2]
  simp only [List.length_map]
  simp only [usub_ok checks (show 1 ≤ l.num by omega), usub_ok checks (show bef.length ≤ l.num - 1 by omega), eb, ea, uadd_ok checks hlast,
    Option.bind_eq_bind, Option.bind_some]
  rw [es, List.map_append, rows_map _ e hb]
  simp only [List.append_assoc, List.singleton_append]
  rfl

theorem renderFrom_page (checks : Bool) (sc : Scale D) {src : List Line} (hpos : ∀ l ∈ src, 0 < l.num) (hmax : ∀ l ∈ src, l.num < 2 ^ 64)
    {cs : List (AnomalyContext D)} {ws : List Window} (h : List.Forall₂ (Shows tok dist src) cs ws) :
    (∀ w ∈ ws, Numbered (block src w)) → ∀ prev last, Remembers prev last →
      renderFrom checks sc last cs = some ((pageFrom src prev ws).map (html sc (dist ∘ tok))) := by
  induction h with
  | nil => intros; rfl
  | @cons c w cs ws hc _ ih =>
    intro hn prev last hr
    obtain ⟨n, h1, h2⟩ := renderAnomaly_page checks sc hpos hmax hc (hn w (by simp)) hr
    have h3 := ih (fun w hw => hn w (by simp [hw])) (some (block src w)) (some n) (.inr ⟨_, _, rfl, rfl, h2⟩)
    simp only [renderFrom, pageFrom]
    simp only [h1, h3, Option.bind_eq_bind, Option.bind_some, List.map_append]

/-- The contexts show the windows of the run. -/
theorem run_shows {env : Env D} (hs : Pointwise env.search dist) (skip : List Str) {lines : List LogLine} {src : List Line}
    (hr : Reads env.decode lines src) (hm : NoMarker src) :
    List.Forall₂ (Shows env.tokenize dist src) (process env skip (lines.map (Except.ok (ε := Unit)))).1 (runWindows env dist skip lines src) := by
  obtain ⟨ws, h1, h2, _⟩ := LJ.Process.C26_windows (ε := Unit) hs skip hr hm
  have := LJ.Process.windows_unique h2
  rw [h1] at this
  unfold runWindows
  rw [← this]
  exact h2

/-- C65 in full: the report of a file, whatever its bytes and the sizes of the reads, is the page made of
the windows around the anomalies, each line with its own number, with a separator between the windows
which are not adjacent; it does not panic. -/
def C65 : Prop :=
  ∀ (checks json : Bool) (sc : Scale Nat) (env : Env Nat) (dist : Str → Nat), Pointwise env.search dist →
    ∀ reads, Blocks reads → ∀ src, Reads env.decode (allLines (ε := Unit) (build checks) json (fromReads reads)).1 src → NoMarker src → ∀ skip,
      renderLines checks sc (process env skip ((allLines (ε := Unit) (build checks) json (fromReads reads)).1.map (Except.ok (ε := Unit)))).1 =
        some ((page src (runWindows env dist skip (allLines (ε := Unit) (build checks) json (fromReads reads)).1 src)).map
          (html sc (dist ∘ env.tokenize)))

/-- C65 holds when the lines of each window have consecutive numbers: for every source, in debug and
release builds.  Missing: windows around blank lines, discarded long lines and lines cut in pieces
(`C65_false`). -/
theorem C65_partial (checks : Bool) (sc : Scale D) {env : Env D} (hs : Pointwise env.search dist) (skip : List Str) {lines : List LogLine}
    {src : List Line} (hr : Reads env.decode lines src) (hm : NoMarker src) (hpos : ∀ l ∈ src, 0 < l.num) (hmax : ∀ l ∈ src, l.num < 2 ^ 64)
    (hn : ∀ w ∈ runWindows env dist skip lines src, Numbered (block src w)) :
    renderLines checks sc (process env skip (lines.map (Except.ok (ε := Unit)))).1 =
      some ((page src (runWindows env dist skip lines src)).map (html sc (dist ∘ env.tokenize))) :=
  renderFrom_page checks sc hpos hmax (run_shows hs skip hr hm) hn none none (.inl ⟨rfl, rfl⟩)

/-- A scale for the examples. -/
def toyScale : Scale Nat := ⟨fun d => 99 * d, fun d => 255 * d⟩

/-- The text of a node. -/
def label : Node → Str
  | .elem _ _ (.text s :: _) => s
  | .elem tag _ _ => tag.toList
  | .text s => s

instance (b : List Line) : Decidable (Numbered b) :=
  decidable_of_iff (b = [] ∨ b.map Line.num = List.range' ((b.map Line.num).headD 0) b.length) (by
    constructor
    · rintro (rfl | h)
      · exact ⟨0, rfl⟩
      · exact ⟨_, h⟩
    · rintro ⟨n, h⟩
      cases b with
      | nil => exact .inl rfl
      | cons x xs =>
        refine .inr ?_
        have h' := h
        simp only [List.map_cons, List.length_cons, List.range'_succ, List.cons.injEq] at h'
        rw [h]
        simp [List.range'_succ])

example : ∀ w ∈ runWindows toy toyDist [] LJ.Process.lines1 LJ.Process.src1, Numbered (block LJ.Process.src1 w) := by decide +kernel
example : page LJ.Process.src1 (runWindows toy toyDist [] LJ.Process.lines1 LJ.Process.src1) =
    [.line false 1 "a".toList, .line false 2 "b".toList, .line true 3 "X1".toList, .line false 4 "c".toList, .line false 5 "X1".toList,
      .line true 6 "X2".toList, .line false 7 "d".toList] := by decide +kernel
example : (renderLines true toyScale (process toy [] ([toyL "a" 1, toyL "X1" 2, toyL "b" 3, toyL "c" 4, toyL "d" 5, toyL "e" 6, toyL "f" 7, toyL "g" 8, toyL "h" 9, toyL "X2" 10].map
    (Except.ok (ε := Unit)))).1).map (·.map label) =
    some ["      1 | a".toList, "99    2 | X1".toList, "      3 | b".toList, "      4 | c".toList, "      5 | d".toList, "hr".toList,
      "      7 | f".toList, "      8 | g".toList, "      9 | h".toList, "99   10 | X2".toList] := by decide +kernel

/-- A blank line before an anomaly: the line 1 is shown as the line 2. -/
theorem C65_blank_line : allLines (ε := Unit) (build true) false (fromReads [ascii "a\n\nX\n"]) = ([toyL "a" 1, toyL "X" 3], .finished) ∧
    (renderLines true toyScale (process toy [] ([toyL "a" 1, toyL "X" 3].map (Except.ok (ε := Unit)))).1).map (·.map label) =
      some ["      2 | a".toList, "99    3 | X".toList] :=
  ⟨LJ.Iterator.allLines_of_drainN (n := 20) (by decide +kernel), by decide +kernel⟩

/-- A line cut in pieces: a debug build panics, a release build shows a huge number. -/
theorem C65_pieces : allLines (ε := Unit) (build true) false (fromReads [ascii "a\\nX\n"]) = ([toyL "a" 1, toyL "X" 1], .finished) ∧
    (renderLines true toyScale (process toy [] ([toyL "a" 1, toyL "X" 1].map (Except.ok (ε := Unit)))).1).map (·.map label) = none ∧
    (renderLines false toyScale (process toy [] ([toyL "a" 1, toyL "b" 1, toyL "X" 1].map (Except.ok (ε := Unit)))).1).map (·.map label) =
      some ["   18446744073709551615 | a".toList, "      0 | b".toList, "99    1 | X".toList] :=
  ⟨LJ.Iterator.allLines_of_drainN (n := 20) (by decide +kernel), by decide +kernel, by decide +kernel⟩

/-- C65 is false. -/
theorem C65_false : ¬ C65 := by
  intro h
  have e := C65_pieces.1
  have := h true false toyScale toy toyDist LJ.Process.toy_pointwise [ascii "a\\nX\n"] (by unfold Blocks; decide +kernel) [toyS "a" 1, toyS "X" 1]
    (by rw [e]; decide +kernel) (by rw [LJ.Process.noMarker_iff]; decide +kernel) []
  rw [e] at this
  have h2 := C65_pieces.2.1
  rw [this] at h2
  cases h2

/-! #### Release builds -/

/-- The text after the number: what follows the first bar. -/
def afterBar : Str → Str
  | [] => []
  | '|' :: ' ' :: r => r
  | _ :: r => afterBar r

/-- The text of the line a node shows. -/
def shownText : Node → Option Str
  | .elem "pre" _ [.text s] => some (afterBar s)
  | _ => none

theorem afterBar_skip (pre : Str) (h : '|' ∉ pre) (r : Str) : afterBar (pre ++ "| ".toList ++ r) = r := by
  induction pre with
  | nil => rfl
  | cons c pre ih =>
    simp only [List.mem_cons, not_or] at h
    have : afterBar (c :: (pre ++ "| ".toList ++ r)) = afterBar (pre ++ "| ".toList ++ r) := by
      rw [afterBar]
      rintro r' hr _
      exact h.1 hr.symm
    rw [List.cons_append, List.cons_append, this, ih h.2]

theorem bar_not_decimal (n : Nat) : '|' ∉ decimal n := by
  intro h
  have := Nat.isDigit_of_mem_toDigits (by decide) (by decide) h
  revert this
  decide

theorem bar_not_pad {c : Char} (hc : c ≠ '|') {w : Nat} {s : Str} (h : '|' ∉ s) : '|' ∉ padLeft c w s := by
  simp only [padLeft, List.mem_append, List.mem_replicate, not_or, not_and]
  exact ⟨fun _ e => hc e.symm, h⟩

theorem shownText_context (n : Nat) (t : Str) : shownText (contextNode n t) = some t := by
  have e : "   ".toList ++ padLeft ' ' 4 (decimal n) ++ " | ".toList ++ t = ("   ".toList ++ padLeft ' ' 4 (decimal n) ++ [' ']) ++ "| ".toList ++ t := by
    simp
  simp only [shownText, contextNode, e]
  rw [afterBar_skip]
  simp only [List.mem_append, not_or]
  exact ⟨⟨by decide, bar_not_pad (by decide) (bar_not_decimal n)⟩, by decide⟩

theorem shownText_anomaly (sc : Scale D) (a : Anomaly D) : shownText (anomalyNode sc a) = some a.line := by
  have e : padLeft '0' 2 (decimal (sc.score a.distance)) ++ " ".toList ++ padLeft ' ' 4 (decimal a.pos) ++ " | ".toList ++ a.line =
      (padLeft '0' 2 (decimal (sc.score a.distance)) ++ " ".toList ++ padLeft ' ' 4 (decimal a.pos) ++ [' ']) ++ "| ".toList ++ a.line := by
    simp
  simp only [shownText, anomalyNode, e]
  rw [afterBar_skip]
  simp only [List.mem_append, not_or]
  exact ⟨⟨⟨bar_not_pad (by decide) (bar_not_decimal _), by decide⟩, bar_not_pad (by decide) (bar_not_decimal _)⟩, by decide⟩

theorem uadd_release (a b : Nat) : ∃ n, uadd false a b = some n := by
  unfold uadd; split
  · exact ⟨_, rfl⟩
  · exact ⟨_, rfl⟩

theorem usub_release (a b : Nat) : ∃ n, usub false a b = some n := by
  unfold usub; split
  · exact ⟨_, rfl⟩
  · exact ⟨_, rfl⟩

theorem renderContextFrom_release (pos : Nat) (xs : List Str) : ∀ idx, ∃ nodes, renderContextFrom false pos idx xs = some nodes ∧
    nodes.filterMap shownText = xs := by
  induction xs with
  | nil => exact fun idx => ⟨[], rfl, rfl⟩
  | cons x xs ih =>
    intro idx
    obtain ⟨nodes, h1, h2⟩ := ih (idx + 1)
    obtain ⟨p, hp⟩ := uadd_release pos 1
    obtain ⟨n, hn⟩ := uadd_release p idx
    refine ⟨contextNode n x :: nodes, ?_, ?_⟩
    · simp only [renderContextFrom, hp, hn, h1, Option.bind_eq_bind, Option.bind_some]
    · rw [List.filterMap_cons_some (shownText_context n x), h2]

theorem separator_text (last : Option Nat) (n : Nat) : (separator last n).filterMap shownText = [] := by
  unfold separator
  split
  · split <;> rfl
  · rfl

/-- A release build always renders the anomalies: the texts of the lines are right and in order, and the
anomalies have their own numbers, whatever the source.  Missing: the numbers of the context lines. -/
theorem C65_release_partial (sc : Scale D) (cs : List (AnomalyContext D)) :
    ∃ nodes, renderLines false sc cs = some nodes ∧
      nodes.filterMap shownText = cs.flatMap (fun c => c.before ++ [c.anomaly.line] ++ c.after) ∧
      ∀ c ∈ cs, html sc (fun _ => c.anomaly.distance) (.line true c.anomaly.pos c.anomaly.line) ∈ nodes := by
  unfold renderLines
  generalize none = last
  induction cs generalizing last with
  | nil => exact ⟨[], rfl, rfl, by simp⟩
  | cons c cs ih =>
    obtain ⟨p, hp⟩ := usub_release c.anomaly.pos 1
    obtain ⟨start, hs⟩ := usub_release p c.before.length
    obtain ⟨bef, hb, hb'⟩ := renderContextFrom_release start c.before 0
    obtain ⟨aft, ha, ha'⟩ := renderContextFrom_release c.anomaly.pos c.after 0
    obtain ⟨last', hl⟩ := uadd_release c.anomaly.pos c.after.length
    obtain ⟨nodes, h1, h2, h3⟩ := ih (some last')
    refine ⟨separator last start ++ bef ++ [anomalyNode sc c.anomaly] ++ aft ++ nodes, ?_, ?_, ?_⟩
    · simp only [renderFrom, renderAnomaly, renderContext, hp, hs, hb, ha, hl, h1, Option.bind_eq_bind, Option.bind_some]
    · simp only [List.filterMap_append, separator_text, hb', ha', h2, List.filterMap_cons_some (shownText_anomaly sc c.anomaly), List.filterMap_nil,
        List.flatMap_cons, List.nil_append]
    · intro x hx
      rcases List.mem_cons.1 hx with rfl | hx
      · have : html sc (fun _ => x.anomaly.distance) (.line true x.anomaly.pos x.anomaly.line) = anomalyNode sc x.anomaly := rfl
        rw [this]
        simp
      · exact List.mem_append_right _ (h3 x hx)

/-- A debug build renders the anomalies exactly when no context has more lines before the anomaly than
there are line numbers (numbers far from the end of `usize`). -/
theorem C65_debug (sc : Scale D) (cs : List (AnomalyContext D)) (hmax : ∀ c ∈ cs, c.anomaly.pos + c.after.length < 2 ^ 64) :
    (renderLines true sc cs).isSome = true ↔ ∀ c ∈ cs, c.before.length < c.anomaly.pos := by
  unfold renderLines
  generalize none = last
  induction cs generalizing last with
  | nil => simp [renderFrom]
  | cons c cs ih =>
    have hc := hmax c (by simp)
    by_cases h : c.before.length < c.anomaly.pos
    · have e1 : renderContextFrom true (c.anomaly.pos - 1 - c.before.length) 0 c.before = some _ :=
        renderContextFrom_ok true (c.anomaly.pos - 1 - c.before.length) c.before 0 (by omega)
      have e2 : renderContextFrom true c.anomaly.pos 0 c.after = some _ :=
        renderContextFrom_ok true c.anomaly.pos c.after 0 (by omega)
      have e3 : ∃ nodes, renderAnomaly true sc last c = some (nodes, c.anomaly.pos + c.after.length) := by
        simp only [renderAnomaly, renderContext, usub_ok true (show 1 ≤ c.anomaly.pos by omega),
          usub_ok true (show c.before.length ≤ c.anomaly.pos - 1 by omega), e1, e2, uadd_ok true hc, Option.bind_eq_bind, Option.bind_some]
        exact ⟨_, rfl⟩
      obtain ⟨nodes, e3⟩ := e3
      have := ih (fun c hc => hmax c (by simp [hc])) (some (c.anomaly.pos + c.after.length))
      simp only [renderFrom, e3, Option.bind_eq_bind, Option.bind_some, List.forall_mem_cons, h, true_and]
      rw [← this]
      cases renderFrom true sc (some (c.anomaly.pos + c.after.length)) cs <;> simp
    · have e : renderAnomaly true sc last c = none := by
        by_cases h0 : c.anomaly.pos = 0
        · simp [renderAnomaly, usub, h0]
        · have h1 : usub true c.anomaly.pos 1 = some (c.anomaly.pos - 1) := usub_ok true (by omega)
          have h2 : usub true (c.anomaly.pos - 1) c.before.length = none := by
            unfold usub
            rw [if_neg (by omega), if_pos rfl]
          simp only [renderAnomaly, h1, h2, Option.bind_eq_bind, Option.bind_some, Option.bind_none]
      simp only [renderFrom, e, Option.bind_eq_bind, Option.bind_none, List.forall_mem_cons, h, false_and]
      simp

/-! #### Ordinary files -/

theorem split_text (t : LJ.Iterator.Bytes) (h1 : '\n'.toUInt8 ∉ t) (h2 : '\\'.toUInt8 ∉ t) (cur : LJ.Iterator.Bytes) (ln : Nat) (r : LJ.Iterator.Bytes) :
    LJ.Iterator.Spec.split false false false cur ln (t ++ r) = LJ.Iterator.Spec.split false false false (cur ++ t) ln r := by
  induction t generalizing cur with
  | nil => simp
  | cons c t ih =>
    simp only [List.mem_cons, not_or] at h1 h2
    rw [List.cons_append, LJ.Iterator.Spec.split]
    simp only [Bool.false_eq_true, if_false, if_neg (Ne.symm h2.1), if_neg (Ne.symm h1.1), Bool.false_and]
    rw [ih h1.2 h2.2, List.append_assoc, List.singleton_append]

/-- Lines terminated by line returns. -/
def fileOf (ls : List LJ.Iterator.Bytes) : LJ.Iterator.Bytes := ls.flatMap fun t => t ++ ['\n'.toUInt8]

theorem split_file (ls : List LJ.Iterator.Bytes) (h : ∀ t ∈ ls, '\n'.toUInt8 ∉ t ∧ '\\'.toUInt8 ∉ t) (ln : Nat) :
    LJ.Iterator.Spec.split false false false [] ln (fileOf ls) = ls.zipIdx ln ++ [([], ln + ls.length)] := by
  induction ls generalizing ln with
  | nil => rfl
  | cons t ls ih =>
    obtain ⟨h1, h2⟩ := h t (by simp)
    rw [fileOf, List.flatMap_cons, List.append_assoc, split_text t h1 h2, List.singleton_append, LJ.Iterator.Spec.split]
    simp only [Bool.false_eq_true, if_false]
    rw [if_neg (by decide), if_pos trivial, List.nil_append]
    have := ih (fun t ht => h t (by simp [ht])) (ln + 1)
    rw [fileOf] at this
    rw [this, List.zipIdx_cons, List.length_cons]
    simp only [List.cons_append]
    rw [Nat.add_right_comm, Nat.add_assoc]

/-- The lines of an ordinary file: numbered 1, 2, 3, … whatever the sizes of the reads. -/
theorem file_lines (checks : Bool) (ls : List LJ.Iterator.Bytes)
    (h : ∀ t ∈ ls, '\n'.toUInt8 ∉ t ∧ '\\'.toUInt8 ∉ t ∧ 0 < t.length ∧ t.length < 6000) (reads : List LJ.Iterator.Bytes) (hb : Blocks reads)
    (hf : reads.flatten = fileOf ls) :
    allLines (ε := Unit) (build checks) false (fromReads reads) = (ls.zipIdx 1, .finished) := by
  have hp : LJ.Iterator.Spec.pieces false reads.flatten = ls.zipIdx 1 ++ [([], 1 + ls.length)] := by
    rw [hf, LJ.Iterator.Spec.pieces, split_file ls (fun t ht => ⟨(h t ht).1, (h t ht).2.1⟩)]
  rw [LJ.Iterator.C02_lines_spec Unit checks false reads hb (LJ.Iterator.noOverflow_of_short (by
    rw [hp]
    intro p hp
    rcases List.mem_append.1 hp with hp | hp
    · exact (h p.1 (List.fst_mem_of_mem_zipIdx hp)).2.2.2
    · simp only [List.mem_singleton] at hp; subst hp; simp))]
  rw [LJ.Iterator.Spec.lines, hp, LJ.Iterator.Spec.keep, List.filter_append]
  have : (ls.zipIdx 1).filter (fun p => 0 < p.1.length && p.1.length ≤ 6000) = ls.zipIdx 1 := by
    rw [List.filter_eq_self]
    intro p hp
    obtain ⟨_, _, h3, h4⟩ := h p.1 (List.fst_mem_of_mem_zipIdx hp)
    simp only [Bool.and_eq_true, decide_eq_true_eq]
    omega
  rw [this]
  simp

theorem take_range' (k s n : Nat) : (List.range' s n).take k = List.range' s (min k n) := by
  induction n generalizing k s with
  | zero => simp
  | succ n ih =>
    cases k with
    | zero => simp
    | succ k => rw [List.range'_succ, List.take_succ_cons, ih, Nat.succ_min_succ, List.range'_succ]

/-- In a source with consecutive numbers, the windows have consecutive numbers. -/
theorem numbered_block {src : List Line} {k : Nat} (h : src.map Line.num = List.range' k src.length) (w : Window) : Numbered (block src w) := by
  refine ⟨k + (w.i - w.b), ?_⟩
  rw [block, List.map_take, List.map_drop, h, List.drop_range', take_range', List.length_take, List.length_drop, Nat.mul_one]

/-- The HTML report of a file of non empty lines of less than 6000 bytes, without backslash: every line
is shown with its number, whatever the sizes of the reads, the index and the lines already seen. -/
theorem C65_file_partial (checks : Bool) (sc : Scale D) {env : Env D} (hs : Pointwise env.search dist) (skip : List Str)
    (ls : List LJ.Iterator.Bytes) (h : ∀ t ∈ ls, '\n'.toUInt8 ∉ t ∧ '\\'.toUInt8 ∉ t ∧ 0 < t.length ∧ t.length < 6000)
    (hlen : ls.length < 2 ^ 63) (reads : List LJ.Iterator.Bytes) (hb : Blocks reads) (hf : reads.flatten = fileOf ls) {src : List Line}
    (hr : Reads env.decode (ls.zipIdx 1) src) (hm : NoMarker src) :
    renderLines checks sc (process env skip ((allLines (ε := Unit) (build checks) false (fromReads reads)).1.map (Except.ok (ε := Unit)))).1 =
      some ((page src (runWindows env dist skip (ls.zipIdx 1) src)).map (html sc (dist ∘ env.tokenize))) := by
  rw [file_lines checks ls h reads hb hf]
  have hnum : src.map Line.num = List.range' 1 src.length := by
    have h1 : src.map Line.num = (ls.zipIdx 1).map Prod.snd := by
      have : ∀ (a : List LogLine) (b : List Line), Reads env.decode a b → b.map Line.num = a.map Prod.snd := by
        intro a b hab
        induction hab with
        | nil => rfl
        | cons hx _ ih => simp only [List.map_cons, ih, hx.2]
      exact this _ _ hr
    have h2 : src.length = ls.length := by have := hr.length_eq; simpa using this.symm
    rw [h1, h2, List.zipIdx_map_snd]
  have hmem : ∀ l ∈ src, 0 < l.num ∧ l.num < 2 ^ 64 := by
    intro l hl
    have : l.num ∈ src.map Line.num := List.mem_map_of_mem hl
    rw [hnum, List.mem_range'_1] at this
    have h2 : src.length = ls.length := by have := hr.length_eq; simpa using this.symm
    omega
  exact C65_partial checks sc hs skip hr hm (fun l hl => (hmem l hl).1) (fun l hl => (hmem l hl).2) fun w _ => numbered_block hnum w

example : Reads toy.decode ([ascii "a", ascii "X"].zipIdx 1) [toyS "a" 1, toyS "X" 2] := by decide +kernel
example : [ascii "a", ascii "\nX\n"].flatten = fileOf [ascii "a", ascii "X"] := by decide +kernel

end LJ.Output

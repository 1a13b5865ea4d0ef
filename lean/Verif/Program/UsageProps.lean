/-
C124: the command line is read as it is written.
-/
import Verif.Program.Usage
namespace LJ.Program
open LJ.Process (Str)
open LJ.Cli (Fs)

namespace Spec

/-- A word which is not taken for an option: it does not start with a dash, or it is only a dash. -/
def Plain (w : Str) : Prop := w.head? ≠ some '-' ∨ w = ['-']

/-- The word which ends the options. -/
def ddash : Str := "--".toList

/-- The commands on one thing. -/
def singles : List (String × (Str → Command)) :=
  [("path", .path), ("url", .url), ("debug-groups", .debugGroups), ("debug-tokenizer", .debugTokenizer), ("debug-iterator", .debugIterator),
   ("debug-indexname", .debugIndexname)]

/-- The commands on a list of things. -/
def lists : List (String × (List Str → Command)) := [("train", .train), ("test", .test)]

/-- How a command is written, after the options. -/
inductive Words : List Str → Command → Prop where
  /-- `path w`, `path w --` and `path -- w` -/
  | one {n : String} {f : Str → Command} {w : Str} (h : (n, f) ∈ singles) (hw : Plain w) : Words [n.toList, w] (f w)
  | oneEnd {n : String} {f : Str → Command} {w : Str} (h : (n, f) ∈ singles) (hw : Plain w) : Words [n.toList, w, ddash] (f w)
  | oneDash {n : String} {f : Str → Command} {w : Str} (h : (n, f) ∈ singles) : Words [n.toList, ddash, w] (f w)
  /-- `train w1 w2 w3` and `train w1 -- w2 w3`, with at least one word -/
  | many {n : String} {f : List Str → Command} {ws : List Str} (h : (n, f) ∈ lists) (hw : ∀ w ∈ ws, Plain w) (h0 : ws ≠ []) :
      Words (n.toList :: ws) (f ws)
  | manyDash {n : String} {f : List Str → Command} {ws xs : List Str} (h : (n, f) ∈ lists) (hw : ∀ w ∈ ws, Plain w) (h0 : ws ++ xs ≠ []) :
      Words (n.toList :: (ws ++ ddash :: xs)) (f (ws ++ xs))
  /-- `diff w1 w2 w3 target`, `diff w1 w2 w3 target --` and `diff -- w1 w2 w3 target`; after `--` only the first word may start with a dash -/
  | diff {src : List Str} {dst : Str} (hs : ∀ w ∈ src, Plain w) (hd : Plain dst) : Words ("diff".toList :: (src ++ [dst])) (.diff src dst)
  | diffEnd {src : List Str} {dst : Str} (hs : ∀ w ∈ src, Plain w) (hd : Plain dst) : Words ("diff".toList :: (src ++ [dst, ddash])) (.diff src dst)
  | diffDash {src : List Str} {dst : Str} (h : ∀ w ∈ (src ++ [dst]).tail, Plain w) : Words ("diff".toList :: ddash :: (src ++ [dst])) (.diff src dst)
  /-- `journald range`, `journald start range` -/
  | journald {start : Option Str} {range : Str} (hs : ∀ w ∈ start, Plain w) (hr : Plain range) :
      Words ("journald".toList :: (start.toList ++ [range])) (.journald start range)
  | journaldEnd {start : Option Str} {range : Str} (hs : ∀ w ∈ start, Plain w) (hr : Plain range) :
      Words ("journald".toList :: (start.toList ++ [range, ddash])) (.journald start range)
  | journaldDash {range : Str} : Words ["journald".toList, ddash, range] (.journald none range)
  | currentBuild : Words ["current-build".toList] .currentBuild
  | currentBuildEnd : Words ["current-build".toList, ddash] .currentBuild

/-- How the options are written, before the command: each at most once, in any order. -/
inductive Options : List Str → Option Str → Option Str → Prop where
  | nil : Options [] none none
  | report {v : Str} {os : List Str} {m : Option Str} (hv : Plain v) (h : Options os none m) : Options ("--report".toList :: v :: os) (some v) m
  | reportEq {v : Str} {os : List Str} {m : Option Str} (h : Options os none m) : Options (("--report=".toList ++ v) :: os) (some v) m
  | model {v : Str} {os : List Str} {r : Option Str} (hv : Plain v) (h : Options os r none) : Options ("--model".toList :: v :: os) r (some v)
  | modelEq {v : Str} {os : List Str} {r : Option Str} (h : Options os r none) : Options (("--model=".toList ++ v) :: os) r (some v)

/-- The command line means these arguments. -/
def Line (argv : List Str) (a : Args) : Prop := ∃ os ws, argv = os ++ ws ∧ Options os a.report a.model ∧ Words ws a.command

end Spec

/-! ### The words of a command -/

theorem dashed_false {w : Str} : dashed w = false ↔ Spec.Plain w := by
  unfold dashed Spec.Plain
  by_cases h : w.head? = some '-' <;> simp [h]

theorem dashed_true {w : Str} : dashed w = true ↔ ¬ Spec.Plain w := by
  rw [← dashed_false]; simp

theorem ddash_dashed : dashed Spec.ddash = true := by decide

theorem plain_ne {w : Str} (h : Spec.Plain w) : w ≠ "--".toList := by
  rintro rfl
  rw [← dashed_false] at h
  exact absurd h (by decide)

/-- No value yet. -/
def none' : Values := fun _ => []

/-- The next word is a value. -/
def Shape.value (sh : Shape) (pos : Nat) (trailing : Bool) (got : Values) (w : Str) (ws : List Str) : Read :=
  match sh.many[sh.place pos trailing ws.head? - 1]? with
  | none => .usage
  | some true => sh.read (sh.place pos trailing ws.head?) trailing (got.add (sh.place pos trailing ws.head?) w) ws
  | some false =>
    if got (sh.place pos trailing ws.head?) = [] then
      sh.read (sh.place pos trailing ws.head? + 1) trailing (got.add (sh.place pos trailing ws.head?) w) ws
    else .unclear

theorem read_ddash (sh : Shape) (pos : Nat) (got : Values) (ws : List Str) :
    sh.read pos false got (Spec.ddash :: ws) = sh.read pos true got ws := by
  rw [Shape.read]; simp [Spec.ddash]

theorem read_trailing (sh : Shape) (pos : Nat) (got : Values) (w : Str) (ws : List Str) :
    sh.read pos true got (w :: ws) = sh.value pos true got w ws := by
  rw [Shape.read, Shape.value]; simp only [Bool.not_true, Bool.false_and, Bool.false_eq_true, if_false]; rfl

theorem read_plain (sh : Shape) (pos : Nat) (got : Values) {w : Str} (ws : List Str) (h : Spec.Plain w) :
    sh.read pos false got (w :: ws) = sh.value pos false got w ws := by
  have h1 : (w == "--".toList) = false := by simpa using plain_ne h
  rw [Shape.read, Shape.value, h1, dashed_false.2 h]
  simp only [Bool.and_false, Bool.false_eq_true, if_false]; rfl

theorem read_dashed (sh : Shape) (pos : Nat) (got g : Values) {w : Str} (ws : List Str) (h : ¬ Spec.Plain w) (h1 : w ≠ Spec.ddash) :
    sh.read pos false got (w :: ws) ≠ .values g := by
  have h1 : (w == "--".toList) = false := by simpa [Spec.ddash] using h1
  rw [Shape.read, h1, dashed_true.2 h]
  simp only [Bool.and_false, Bool.false_eq_true, if_false, Bool.not_false, Bool.and_true, if_true]
  split <;> exact fun h => by cases h

/-- Words which are values are read up to the end or to `--`. -/
theorem read_cases (sh : Shape) (pos : Nat) (got g : Values) (ws : List Str) (h : sh.read pos false got ws = .values g) :
    ws = [] ∨ (∃ xs, ws = Spec.ddash :: xs) ∨ ∃ w xs, ws = w :: xs ∧ Spec.Plain w := by
  rcases ws with _ | ⟨w, ws⟩
  · exact .inl rfl
  · by_cases h1 : w = Spec.ddash
    · exact .inr (.inl ⟨ws, by rw [h1]⟩)
    · by_cases h2 : Spec.Plain w
      · exact .inr (.inr ⟨w, ws, rfl, h2⟩)
      · exact absurd h (read_dashed sh pos got g ws h2 h1)

theorem read_nil (sh : Shape) (pos : Nat) (tr : Bool) (got g : Values) : sh.read pos tr got [] = .values g ↔ g = got := by
  rw [Shape.read]; exact ⟨fun h => by cases h; rfl, fun h => by rw [h]⟩

/-- No more value is taken. -/
theorem read_full (sh : Shape) (pos : Nat) (got g : Values) (ws : List Str) (h : ∀ tr w ws, sh.value pos tr got w ws = .usage ∨ sh.value pos tr got w ws = .unclear) :
    sh.read pos false got ws = .values g ↔ g = got ∧ (ws = [] ∨ ws = [Spec.ddash]) := by
  constructor
  · intro hr
    rcases read_cases sh pos got g ws hr with rfl | ⟨xs, rfl⟩ | ⟨w, xs, rfl, hw⟩
    · exact ⟨(read_nil ..).1 hr, .inl rfl⟩
    · rw [read_ddash] at hr
      rcases xs with _ | ⟨w, xs⟩
      · exact ⟨(read_nil ..).1 hr, .inr rfl⟩
      · rw [read_trailing] at hr
        rcases h true w xs with h | h <;> rw [h] at hr <;> cases hr
    · rw [read_plain _ _ _ _ hw] at hr
      rcases h false w xs with h | h <;> rw [h] at hr <;> cases hr
  · rintro ⟨rfl, rfl | rfl⟩
    · exact (read_nil ..).2 rfl
    · rw [read_ddash]; exact (read_nil ..).2 rfl

theorem read_full_trailing (sh : Shape) (pos : Nat) (got g : Values) (ws : List Str)
    (h : ∀ w ws, sh.value pos true got w ws = .usage ∨ sh.value pos true got w ws = .unclear) :
    sh.read pos true got ws = .values g ↔ g = got ∧ ws = [] := by
  constructor
  · intro hr
    rcases ws with _ | ⟨w, xs⟩
    · exact ⟨(read_nil ..).1 hr, rfl⟩
    · rw [read_trailing] at hr
      rcases h w xs with h | h <;> rw [h] at hr <;> cases hr
  · rintro ⟨rfl, rfl⟩; exact (read_nil ..).2 rfl

/-! ### Commands with one argument -/

theorem single_value (tr : Bool) (w : Str) (ws : List Str) :
    Shape.value ⟨[false], false⟩ 1 tr none' w ws = Shape.read ⟨[false], false⟩ 2 tr (none'.add 1 w) ws := by
  simp [Shape.value, Shape.place, none']

theorem single_full (got : Values) (tr : Bool) (w : Str) (ws : List Str) :
    Shape.value ⟨[false], false⟩ 2 tr got w ws = .usage ∨ Shape.value ⟨[false], false⟩ 2 tr got w ws = .unclear := by
  simp [Shape.value, Shape.place]

theorem read_single (ws : List Str) (w : Str) :
    (∃ got, Shape.read ⟨[false], false⟩ 1 false none' ws = .values got ∧ (got 1).head? = some w) ↔
      (ws = [w] ∧ Spec.Plain w) ∨ (ws = [w, Spec.ddash] ∧ Spec.Plain w) ∨ ws = [Spec.ddash, w] := by
  have h1 (a : Str) : ((none'.add 1 a) 1).head? = some a := by simp [Values.add, none']
  constructor
  · rintro ⟨got, h, hw⟩
    rcases read_cases _ _ _ _ _ h with rfl | ⟨xs, rfl⟩ | ⟨a, xs, rfl, ha⟩
    · cases (read_nil ..).1 h; simp [none'] at hw
    · rw [read_ddash] at h
      rcases xs with _ | ⟨a, xs⟩
      · cases (read_nil ..).1 h; simp [none'] at hw
      · rw [read_trailing, single_value, read_full_trailing _ _ _ _ _ (single_full _ true)] at h
        obtain ⟨rfl, rfl⟩ := h
        rw [h1] at hw; cases hw
        exact .inr (.inr rfl)
    · rw [read_plain _ _ _ _ ha, single_value, read_full _ _ _ _ _ (single_full _)] at h
      obtain ⟨rfl, h⟩ := h
      rw [h1] at hw; cases hw
      rcases h with rfl | rfl
      · exact .inl ⟨rfl, ha⟩
      · exact .inr (.inl ⟨rfl, ha⟩)
  · rintro (⟨rfl, h⟩ | ⟨rfl, h⟩ | rfl)
    · exact ⟨none'.add 1 w, by rw [read_plain _ _ _ _ h, single_value, read_full _ _ _ _ _ (single_full _)]; simp, h1 w⟩
    · exact ⟨none'.add 1 w, by rw [read_plain _ _ _ _ h, single_value, read_full _ _ _ _ _ (single_full _)]; simp, h1 w⟩
    · exact ⟨none'.add 1 w, by rw [read_ddash, read_trailing, single_value, read_full_trailing _ _ _ _ _ (single_full _ true)]; simp, h1 w⟩

/-! ### Commands with a list -/

theorem list_value (tr : Bool) (got : Values) (w : Str) (ws : List Str) :
    Shape.value ⟨[true], false⟩ 1 tr got w ws = Shape.read ⟨[true], false⟩ 1 tr (got.add 1 w) ws := by
  simp [Shape.value, Shape.place]

theorem read_list_trailing (ws : List Str) : ∀ (got g : Values), Shape.read ⟨[true], false⟩ 1 true got ws = .values g → g 1 = got 1 ++ ws := by
  induction ws with
  | nil => intro got g h; cases (read_nil ..).1 h; simp
  | cons w ws ih => intro got g h; rw [read_trailing, list_value] at h; rw [ih _ _ h]; simp [Values.add]

theorem read_list_trailing_ok (ws : List Str) : ∀ got : Values, ∃ g, Shape.read ⟨[true], false⟩ 1 true got ws = .values g := by
  induction ws with
  | nil => intro got; exact ⟨got, (read_nil ..).2 rfl⟩
  | cons w ws ih => intro got; rw [read_trailing, list_value]; exact ih _

theorem read_list (ws : List Str) : ∀ (got g : Values), Shape.read ⟨[true], false⟩ 1 false got ws = .values g →
    ((∀ w ∈ ws, Spec.Plain w) ∧ g 1 = got 1 ++ ws) ∨
      ∃ ps ys, ws = ps ++ Spec.ddash :: ys ∧ (∀ w ∈ ps, Spec.Plain w) ∧ g 1 = got 1 ++ (ps ++ ys) := by
  induction ws with
  | nil => intro got g h; cases (read_nil ..).1 h; exact .inl (by simp)
  | cons w ws ih =>
    intro got g h
    rcases read_cases _ _ _ _ _ h with h' | ⟨zs, h'⟩ | ⟨a, zs, h', ha⟩
    · cases h'
    · obtain ⟨rfl, rfl⟩ : w = Spec.ddash ∧ ws = zs := by simpa using h'
      rw [read_ddash] at h
      exact .inr ⟨[], ws, rfl, by simp, by rw [read_list_trailing _ _ _ h]; rfl⟩
    · obtain ⟨rfl, rfl⟩ : w = a ∧ ws = zs := by simpa using h'
      rw [read_plain _ _ _ _ ha, list_value] at h
      rcases ih _ _ h with ⟨h1, h2⟩ | ⟨ps, ys, h1, h2, h3⟩
      · refine .inl ⟨fun x hx => ?_, by rw [h2]; simp [Values.add]⟩
        rcases List.mem_cons.1 hx with rfl | hx
        · exact ha
        · exact h1 x hx
      · refine .inr ⟨w :: ps, ys, by rw [h1]; rfl, fun x hx => ?_, by rw [h3]; simp [Values.add]⟩
        rcases List.mem_cons.1 hx with rfl | hx
        · exact ha
        · exact h2 x hx

theorem read_list_plain (ps : List Str) : ∀ (got : Values) (xs : List Str), (∀ w ∈ ps, Spec.Plain w) →
    ∃ g, Shape.read ⟨[true], false⟩ 1 false got (ps ++ xs) = Shape.read ⟨[true], false⟩ 1 false g xs ∧ g 1 = got 1 ++ ps := by
  induction ps with
  | nil => intro got xs _; exact ⟨got, rfl, by simp⟩
  | cons p ps ih =>
    intro got xs h
    obtain ⟨g, h1, h2⟩ := ih (got.add 1 p) xs fun w hw => h w (by simp [hw])
    exact ⟨g, by rw [List.cons_append, read_plain _ _ _ _ (h p (by simp)), list_value, h1], by rw [h2]; simp [Values.add]⟩

/-! ### `diff` -/

/-- The arguments of `diff`. -/
abbrev diffShape : Shape := ⟨[true, false], true⟩

theorem diff_last (tr : Bool) (got : Values) (w : Str) (ws : List Str) (h : ws.head?.all dashed = true) (h2 : got 2 = []) :
    diffShape.value 1 tr got w ws = diffShape.read 3 tr (got.add 2 w) ws := by
  simp [Shape.value, Shape.place, h, h2]

theorem diff_more (tr : Bool) (got : Values) (w : Str) (ws : List Str) (h : ws.head?.all dashed = false) :
    diffShape.value 1 tr got w ws = diffShape.read 1 tr (got.add 1 w) ws := by
  simp [Shape.value, Shape.place, h]

theorem diff_full (got : Values) (h2 : got 2 ≠ []) (tr : Bool) (w : Str) (ws : List Str) :
    diffShape.value 3 tr got w ws = .usage ∨ diffShape.value 3 tr got w ws = .unclear := by
  cases tr <;> simp [Shape.value, Shape.place, h2]

theorem head_plain {ws : List Str} (h : ws.head?.all dashed = false) : ∃ w xs, ws = w :: xs ∧ Spec.Plain w := by
  rcases ws with _ | ⟨w, ws⟩
  · simp at h
  · exact ⟨w, ws, rfl, dashed_false.1 (by simpa using h)⟩

theorem read_diff_trailing (ws : List Str) : ∀ (got g : Values), got 2 = [] → diffShape.read 1 true got ws = .values g → ws ≠ [] →
    ∃ src dst, ws = src ++ [dst] ∧ (∀ w ∈ ws.tail, Spec.Plain w) ∧ g 1 = got 1 ++ src ∧ g 2 = [dst] := by
  induction ws with
  | nil => intro _ _ _ _ h; exact absurd rfl h
  | cons w ws ih =>
    intro got g h2 h _
    rw [read_trailing] at h
    by_cases hd : ws.head?.all dashed = true
    · rw [diff_last _ _ _ _ hd h2, read_full_trailing _ _ _ _ _ (diff_full _ (by simp [Values.add]) true)] at h
      obtain ⟨rfl, rfl⟩ := h
      exact ⟨[], w, rfl, by simp, by simp [Values.add], by simp [Values.add, h2]⟩
    · have hd : ws.head?.all dashed = false := by simpa using hd
      obtain ⟨v, xs, rfl, hv⟩ := head_plain hd
      rw [diff_more _ _ _ _ hd] at h
      obtain ⟨src, dst, h3, h4, h5, h6⟩ := ih _ _ (by simp [Values.add, h2]) h (by simp)
      refine ⟨w :: src, dst, by rw [h3]; rfl, fun x hx => ?_, by rw [h5]; simp [Values.add], h6⟩
      rcases List.mem_cons.1 (show x ∈ v :: xs from hx) with rfl | hx
      · exact hv
      · exact h4 x hx

theorem read_diff (ws : List Str) : ∀ (got g : Values), got 2 = [] → diffShape.read 1 false got ws = .values g → ws ≠ [] → ws.head? ≠ some Spec.ddash →
    ∃ src dst, (ws = src ++ [dst] ∨ ws = src ++ [dst, Spec.ddash]) ∧ (∀ w ∈ src, Spec.Plain w) ∧ Spec.Plain dst ∧ g 1 = got 1 ++ src ∧ g 2 = [dst] := by
  induction ws with
  | nil => intro _ _ _ _ h; exact absurd rfl h
  | cons w ws ih =>
    intro got g h2 h _ hne
    rcases read_cases _ _ _ _ _ h with h' | ⟨zs, h'⟩ | ⟨a, zs, h', ha⟩
    · cases h'
    · obtain ⟨rfl, rfl⟩ : w = Spec.ddash ∧ ws = zs := by simpa using h'
      exact absurd rfl hne
    · obtain ⟨rfl, rfl⟩ : w = a ∧ ws = zs := by simpa using h'
      rw [read_plain _ _ _ _ ha] at h
      by_cases hd : ws.head?.all dashed = true
      · rw [diff_last _ _ _ _ hd h2, read_full _ _ _ _ _ (diff_full _ (by simp [Values.add]))] at h
        obtain ⟨rfl, h⟩ := h
        refine ⟨[], w, ?_, by simp, ha, by simp [Values.add], by simp [Values.add, h2]⟩
        rcases h with rfl | rfl
        · exact .inl rfl
        · exact .inr rfl
      · have hd : ws.head?.all dashed = false := by simpa using hd
        obtain ⟨v, xs, rfl, hv⟩ := head_plain hd
        rw [diff_more _ _ _ _ hd] at h
        obtain ⟨src, dst, h3, h4, h5, h6, h7⟩ := ih _ _ (by simp [Values.add, h2]) h (by simp)
          (by simp only [List.head?_cons, ne_eq, Option.some.injEq]; exact plain_ne hv)
        refine ⟨w :: src, dst, ?_, fun x hx => ?_, h5, by rw [h6]; simp [Values.add], h7⟩
        · rcases h3 with h3 | h3
          · exact .inl (by rw [h3]; rfl)
          · exact .inr (by rw [h3]; rfl)
        · rcases List.mem_cons.1 hx with rfl | hx
          · exact ha
          · exact h4 x hx

theorem head_append {src : List Str} {dst : Str} (xs : List Str) (hs : ∀ w ∈ src, Spec.Plain w) (hd : Spec.Plain dst) :
    (src ++ dst :: xs).head?.all dashed = false := by
  rcases src with _ | ⟨w, src⟩
  · simpa using dashed_false.2 hd
  · simpa using dashed_false.2 (hs w (by simp))

theorem read_diff_ok (src : List Str) : ∀ (got : Values) (dst : Str) (xs : List Str), got 2 = [] → (∀ w ∈ src, Spec.Plain w) → Spec.Plain dst →
    xs.head?.all dashed = true →
    ∃ g, diffShape.read 1 false got (src ++ dst :: xs) = diffShape.read 3 false g xs ∧ g 1 = got 1 ++ src ∧ g 2 = [dst] := by
  induction src with
  | nil =>
    intro got dst xs h2 _ hd hx
    exact ⟨got.add 2 dst, by rw [List.nil_append, read_plain _ _ _ _ hd, diff_last _ _ _ _ hx h2], by simp [Values.add], by simp [Values.add, h2]⟩
  | cons s src ih =>
    intro got dst xs h2 hs hd hx
    have hs' : ∀ w ∈ src, Spec.Plain w := fun w hw => hs w (by simp [hw])
    obtain ⟨g, h3, h4, h5⟩ := ih (got.add 1 s) dst xs (by simp [Values.add, h2]) hs' hd hx
    exact ⟨g, by rw [List.cons_append, read_plain _ _ _ _ (hs s (by simp)), diff_more _ _ _ _ (head_append xs hs' hd), h3],
      by rw [h4]; simp [Values.add], h5⟩

theorem read_diff_trailing_ok (src : List Str) : ∀ (got : Values) (dst : Str), got 2 = [] → (∀ w ∈ (src ++ [dst]).tail, Spec.Plain w) →
    ∃ g, diffShape.read 1 true got (src ++ [dst]) = .values g ∧ g 1 = got 1 ++ src ∧ g 2 = [dst] := by
  induction src with
  | nil =>
    intro got dst h2 _
    refine ⟨got.add 2 dst, ?_, by simp [Values.add], by simp [Values.add, h2]⟩
    rw [List.nil_append, read_trailing, diff_last _ _ _ _ rfl h2]; exact (read_nil ..).2 rfl
  | cons s src ih =>
    intro got dst h2 h
    have h : ∀ w ∈ src ++ [dst], Spec.Plain w := h
    obtain ⟨g, h3, h4, h5⟩ := ih (got.add 1 s) dst (by simp [Values.add, h2]) fun w hw => h w (List.mem_of_mem_tail hw)
    exact ⟨g, by rw [List.cons_append, read_trailing,
        diff_more _ _ _ _ (head_append [] (fun w hw => h w (by simp [hw])) (h dst (by simp))), h3], by rw [h4]; simp [Values.add], h5⟩

/-! ### `journald` and `current-build` -/

/-- The arguments of `journald`. -/
abbrev journaldShape : Shape := ⟨[false, false], true⟩

theorem journald_last (got : Values) (w : Str) (ws : List Str) (h : ws.head?.all dashed = true) (h2 : got 2 = []) :
    journaldShape.value 1 false got w ws = journaldShape.read 3 false (got.add 2 w) ws := by
  simp [Shape.value, Shape.place, h, h2]

theorem journald_more (got : Values) (w : Str) (ws : List Str) (h : ws.head?.all dashed = false) (h1 : got 1 = []) :
    journaldShape.value 1 false got w ws = journaldShape.read 2 false (got.add 1 w) ws := by
  simp [Shape.value, Shape.place, h, h1]

theorem journald_second (got : Values) (w : Str) (ws : List Str) (h2 : got 2 = []) :
    journaldShape.value 2 false got w ws = journaldShape.read 3 false (got.add 2 w) ws := by
  simp [Shape.value, Shape.place, h2]

theorem journald_dash (got : Values) (w : Str) (ws : List Str) (h2 : got 2 = []) :
    journaldShape.value 1 true got w ws = journaldShape.read 3 true (got.add 2 w) ws := by
  simp [Shape.value, Shape.place, h2]

theorem journald_full (got : Values) (h2 : got 2 ≠ []) (tr : Bool) (w : Str) (ws : List Str) :
    journaldShape.value 3 tr got w ws = .usage ∨ journaldShape.value 3 tr got w ws = .unclear := by
  cases tr <;> simp [Shape.value, Shape.place, h2]

theorem read_journald (ws : List Str) (start : Option Str) (range : Str) :
    (∃ got, journaldShape.read 1 false none' ws = .values got ∧ (got 1).head? = start ∧ (got 2).head? = some range) ↔
      (((ws = start.toList ++ [range] ∨ ws = start.toList ++ [range, Spec.ddash]) ∧ (∀ w ∈ start, Spec.Plain w) ∧ Spec.Plain range) ∨
        (start = none ∧ ws = [Spec.ddash, range])) := by
  constructor
  · rintro ⟨got, h, h1, h2⟩
    rcases read_cases _ _ _ _ _ h with rfl | ⟨xs, rfl⟩ | ⟨a, xs, rfl, ha⟩
    · cases (read_nil ..).1 h; simp [none'] at h2
    · rw [read_ddash] at h
      rcases xs with _ | ⟨a, xs⟩
      · cases (read_nil ..).1 h; simp [none'] at h2
      · rw [read_trailing, journald_dash _ _ _ rfl, read_full_trailing _ _ _ _ _ (journald_full _ (by simp [Values.add]) true)] at h
        obtain ⟨rfl, rfl⟩ := h
        have h1 : start = none := by rw [← h1]; rfl
        have h2 : a = range := by simpa [Values.add, none'] using h2
        exact .inr ⟨h1, by rw [h2]⟩
    · rw [read_plain _ _ _ _ ha] at h
      by_cases hd : xs.head?.all dashed = true
      · rw [journald_last _ _ _ hd rfl, read_full _ _ _ _ _ (journald_full _ (by simp [Values.add]))] at h
        obtain ⟨rfl, h⟩ := h
        have h1 : start = none := by rw [← h1]; rfl
        have h2 : a = range := by simpa [Values.add, none'] using h2
        subst h1 h2
        refine .inl ⟨?_, by simp, ha⟩
        rcases h with rfl | rfl
        · exact .inl rfl
        · exact .inr rfl
      · have hd : xs.head?.all dashed = false := by simpa using hd
        obtain ⟨v, ys, rfl, hv⟩ := head_plain hd
        rw [journald_more _ _ _ hd rfl, read_plain _ _ _ _ hv, journald_second _ _ _ rfl,
          read_full _ _ _ _ _ (journald_full _ (by simp [Values.add]))] at h
        obtain ⟨rfl, h⟩ := h
        have h1 : some a = start := by simpa [Values.add, none'] using h1
        have h2 : v = range := by simpa [Values.add, none'] using h2
        subst h1 h2
        refine .inl ⟨?_, by simpa using ha, hv⟩
        rcases h with rfl | rfl
        · exact .inl rfl
        · exact .inr rfl
  · rintro (⟨h, hs, hr⟩ | ⟨rfl, rfl⟩)
    · have key (xs : List Str) (hx : xs = [] ∨ xs = [Spec.ddash]) (hw : ws = start.toList ++ range :: xs) :
          ∃ got, journaldShape.read 1 false none' ws = .values got ∧ (got 1).head? = start ∧ (got 2).head? = some range := by
        have hxd : xs.head?.all dashed = true := by rcases hx with rfl | rfl <;> decide
        rcases start with _ | s
        · refine ⟨none'.add 2 range, ?_, rfl, by simp [Values.add, none']⟩
          rw [hw, Option.toList_none, List.nil_append, read_plain _ _ _ _ hr, journald_last _ _ _ hxd rfl,
            read_full _ _ _ _ _ (journald_full _ (by simp [Values.add]))]
          exact ⟨rfl, hx⟩
        · refine ⟨(none'.add 1 s).add 2 range, ?_, by simp [Values.add, none'], by simp [Values.add, none']⟩
          rw [hw, Option.toList_some, List.singleton_append, read_plain _ _ _ _ (hs s rfl),
            journald_more _ _ _ (by simpa using dashed_false.2 hr) rfl, read_plain _ _ _ _ hr, journald_second _ _ _ rfl,
            read_full _ _ _ _ _ (journald_full _ (by simp [Values.add]))]
          exact ⟨rfl, hx⟩
      rcases h with h | h
      · exact key [] (.inl rfl) h
      · exact key [Spec.ddash] (.inr rfl) h
    · refine ⟨none'.add 2 range, ?_, rfl, by simp [Values.add, none']⟩
      rw [read_ddash, read_trailing, journald_dash _ _ _ rfl, read_full_trailing _ _ _ _ _ (journald_full _ (by simp [Values.add]) true)]
      exact ⟨rfl, rfl⟩

theorem empty_full (got : Values) (tr : Bool) (w : Str) (ws : List Str) :
    Shape.value ⟨[], false⟩ 1 tr got w ws = .usage ∨ Shape.value ⟨[], false⟩ 1 tr got w ws = .unclear := by
  simp [Shape.value, Shape.place]

/-! ### The commands -/

/-- A command and its words are read. -/
def Reads (sub : Shape × (Values → Option Command)) (ws : List Str) (c : Command) : Prop :=
  ∃ got, sub.1.read 1 false none' ws = .values got ∧ sub.2 got = some c

theorem reads_single {n : String} {f : Str → Command} (h : (n, f) ∈ Spec.singles) (ws : List Str) (c : Command) (hr : Reads (single f) ws c) :
    Spec.Words (n.toList :: ws) c := by
  obtain ⟨got, h1, h2⟩ := hr
  obtain ⟨w, h3, rfl⟩ := Option.map_eq_some_iff.1 h2
  rcases (read_single ws w).1 ⟨got, h1, h3⟩ with ⟨rfl, hp⟩ | ⟨rfl, hp⟩ | rfl
  · exact .one h hp
  · exact .oneEnd h hp
  · exact .oneDash h

theorem reads_list {n : String} {f : List Str → Command} (h : (n, f) ∈ Spec.lists) (ws : List Str) (c : Command) (hr : Reads (list f) ws c) :
    Spec.Words (n.toList :: ws) c := by
  obtain ⟨got, h1, h2⟩ := hr
  have h2 : (if got 1 = [] then none else some (f (got 1))) = some c := h2
  split at h2
  · cases h2
  · next h0 =>
    cases h2
    rcases read_list ws _ _ h1 with ⟨h3, h4⟩ | ⟨ps, ys, rfl, h3, h4⟩
    · have h4 : got 1 = ws := h4
      rw [h4] at h0 ⊢
      exact .many h h3 h0
    · have h4 : got 1 = ps ++ ys := h4
      rw [h4] at h0 ⊢
      exact .manyDash h h3 h0

theorem reads_diff (ws : List Str) (c : Command)
    (hr : Reads (diffShape, fun got => (got 2).head?.map (.diff (got 1))) ws c) : Spec.Words ("diff".toList :: ws) c := by
  obtain ⟨got, h1, h2⟩ := hr
  obtain ⟨dst, h3, rfl⟩ := Option.map_eq_some_iff.1 h2
  by_cases h0 : ws = []
  · subst h0; cases (read_nil ..).1 h1; simp [none'] at h3
  by_cases hd : ws.head? = some Spec.ddash
  · obtain ⟨xs, rfl⟩ : ∃ xs, ws = Spec.ddash :: xs := by
      rcases ws with _ | ⟨w, xs⟩
      · cases hd
      · cases hd; exact ⟨xs, rfl⟩
    rw [read_ddash] at h1
    by_cases hx : xs = []
    · subst hx; cases (read_nil ..).1 h1; simp [none'] at h3
    obtain ⟨src, d, rfl, h5, h6, h7⟩ := read_diff_trailing xs _ _ rfl h1 hx
    have h6 : got 1 = src := h6
    rw [h7] at h3; cases h3; rw [h6]
    exact .diffDash h5
  · obtain ⟨src, d, h4, h5, h8, h6, h7⟩ := read_diff ws _ _ rfl h1 h0 hd
    have h6 : got 1 = src := h6
    rw [h7] at h3; cases h3; rw [h6]
    rcases h4 with rfl | rfl
    · exact .diff h5 h8
    · exact .diffEnd h5 h8

theorem words_of_reads {n : Str} {sub : Shape × (Values → Option Command)} (hn : command n = some sub) (ws : List Str) (c : Command)
    (hr : Reads sub ws c) : Spec.Words (n :: ws) c := by
  unfold command at hn
  split at hn
  · next h => cases hn; subst h; exact reads_diff ws c hr
  split at hn
  · next h => cases hn; subst h; exact reads_single (by simp [Spec.singles]) ws c hr
  split at hn
  · next h => cases hn; subst h; exact reads_single (by simp [Spec.singles]) ws c hr
  split at hn
  · next h =>
    cases hn; subst h
    obtain ⟨got, h1, h2⟩ := hr
    obtain ⟨range, h3, rfl⟩ := Option.map_eq_some_iff.1 h2
    rcases (read_journald ws _ range).1 ⟨got, h1, rfl, h3⟩ with ⟨h4 | h4, h5, h6⟩ | ⟨h4, h5⟩
    · rw [h4]; exact .journald h5 h6
    · rw [h4]; exact .journaldEnd h5 h6
    · rw [h4, h5]; exact .journaldDash
  split at hn
  · next h =>
    cases hn; subst h
    obtain ⟨got, h1, h2⟩ := hr
    rw [read_full _ _ _ _ _ (empty_full _)] at h1
    cases h2
    rcases h1.2 with rfl | rfl
    · exact .currentBuild
    · exact .currentBuildEnd
  split at hn
  · next h => cases hn; subst h; exact reads_list (by simp [Spec.lists]) ws c hr
  split at hn
  · next h => cases hn; subst h; exact reads_list (by simp [Spec.lists]) ws c hr
  split at hn
  · next h => cases hn; subst h; exact reads_single (by simp [Spec.singles]) ws c hr
  split at hn
  · next h => cases hn; subst h; exact reads_single (by simp [Spec.singles]) ws c hr
  split at hn
  · next h => cases hn; subst h; exact reads_single (by simp [Spec.singles]) ws c hr
  split at hn
  · next h => cases hn; subst h; exact reads_single (by simp [Spec.singles]) ws c hr
  · cases hn

theorem command_single {n : String} {f : Str → Command} (h : (n, f) ∈ Spec.singles) : command n.toList = some (single f) := by
  simp only [Spec.singles, List.mem_cons, Prod.mk.injEq, List.not_mem_nil, or_false] at h
  rcases h with ⟨rfl, rfl⟩ | ⟨rfl, rfl⟩ | ⟨rfl, rfl⟩ | ⟨rfl, rfl⟩ | ⟨rfl, rfl⟩ | ⟨rfl, rfl⟩ <;> simp (decide := true) only [command, if_true, if_false]

theorem command_list {n : String} {f : List Str → Command} (h : (n, f) ∈ Spec.lists) : command n.toList = some (list f) := by
  simp only [Spec.lists, List.mem_cons, Prod.mk.injEq, List.not_mem_nil, or_false] at h
  rcases h with ⟨rfl, rfl⟩ | ⟨rfl, rfl⟩ <;> simp (decide := true) only [command, if_true, if_false]

theorem reads_of_words {ws : List Str} {c : Command} (h : Spec.Words ws c) : ∃ n xs sub, ws = n :: xs ∧ command n = some sub ∧ Reads sub xs c := by
  cases h with
  | one h hw =>
    obtain ⟨got, h1, h2⟩ := (read_single _ _).2 (.inl ⟨rfl, hw⟩)
    exact ⟨_, _, _, rfl, command_single h, got, h1, by simp [single, h2]⟩
  | oneEnd h hw =>
    obtain ⟨got, h1, h2⟩ := (read_single _ _).2 (.inr (.inl ⟨rfl, hw⟩))
    exact ⟨_, _, _, rfl, command_single h, got, h1, by simp [single, h2]⟩
  | oneDash h =>
    obtain ⟨got, h1, h2⟩ := (read_single _ _).2 (.inr (.inr rfl))
    exact ⟨_, _, _, rfl, command_single h, got, h1, by simp [single, h2]⟩
  | @many n f ws h hw h0 =>
    obtain ⟨g, h1, h2⟩ := read_list_plain ws none' [] hw
    rw [List.append_nil] at h1
    have h2 : g 1 = ws := h2
    exact ⟨_, _, _, rfl, command_list h, g, h1.trans ((read_nil ..).2 rfl), by simp [list, h2, h0]⟩
  | @manyDash n f ws xs h hw h0 =>
    obtain ⟨g, h1, h2⟩ := read_list_plain ws none' (Spec.ddash :: xs) hw
    have h2 : g 1 = ws := h2
    rw [read_ddash] at h1
    obtain ⟨g', h3⟩ := read_list_trailing_ok xs g
    have h4 : g' 1 = ws ++ xs := by rw [read_list_trailing _ _ _ h3, h2]
    refine ⟨_, _, _, rfl, command_list h, g', h1.trans h3, ?_⟩
    simp only [list]; rw [if_neg (by rw [h4]; exact h0), h4]
  | @diff src dst hs hd =>
    obtain ⟨g, h1, h2, h3⟩ := read_diff_ok src none' dst [] rfl hs hd rfl
    have h2 : g 1 = src := h2
    exact ⟨_, _, _, rfl, rfl, g, h1.trans ((read_nil ..).2 rfl), by simp [h2, h3]⟩
  | @diffEnd src dst hs hd =>
    obtain ⟨g, h1, h2, h3⟩ := read_diff_ok src none' dst [Spec.ddash] rfl hs hd (by decide)
    have h2 : g 1 = src := h2
    refine ⟨_, _, _, rfl, rfl, g, h1.trans ?_, by simp [h2, h3]⟩
    rw [read_ddash]; exact (read_nil ..).2 rfl
  | @diffDash src dst h =>
    obtain ⟨g, h1, h2, h3⟩ := read_diff_trailing_ok src none' dst rfl h
    have h2 : g 1 = src := h2
    refine ⟨_, _, _, rfl, rfl, g, ?_, by simp [h2, h3]⟩
    rw [read_ddash]; exact h1
  | @journald start range hs hr =>
    obtain ⟨g, h1, h2, h3⟩ := (read_journald _ start range).2 (.inl ⟨.inl rfl, hs, hr⟩)
    exact ⟨_, _, _, rfl, rfl, g, h1, by simp [h2, h3]⟩
  | @journaldEnd start range hs hr =>
    obtain ⟨g, h1, h2, h3⟩ := (read_journald _ start range).2 (.inl ⟨.inr rfl, hs, hr⟩)
    exact ⟨_, _, _, rfl, rfl, g, h1, by simp [h2, h3]⟩
  | @journaldDash range =>
    obtain ⟨g, h1, h2, h3⟩ := (read_journald _ none range).2 (.inr ⟨rfl, rfl⟩)
    exact ⟨_, _, _, rfl, rfl, g, h1, by simp [h2, h3]⟩
  | currentBuild => exact ⟨_, _, _, rfl, rfl, none', (read_full _ _ _ _ _ (empty_full _)).2 ⟨rfl, .inl rfl⟩, rfl⟩
  | currentBuildEnd => exact ⟨_, _, _, rfl, rfl, none', (read_full _ _ _ _ _ (empty_full _)).2 ⟨rfl, .inr rfl⟩, rfl⟩

/-! ### The options -/

theorem command_dashed {w : Str} (h : dashed w = true) : command w = none := by
  unfold command
  repeat' (split; · next h' => subst h'; exact absurd h (by decide))
  rfl

theorem attached_iff {name : String} {w v : Str} : attached name w = some v ↔ w = name.toList ++ ['='] ++ v := by
  unfold attached
  constructor
  · intro h
    split at h
    · next hp =>
      obtain ⟨t, rfl⟩ := hp
      cases h
      congr 1
      have : name.toList.length + 1 = (name.toList ++ ['=']).length := by simp
      rw [this, List.drop_left]
    · cases h
  · rintro rfl
    rw [if_pos (List.prefix_append _ _)]
    have : name.toList.length + 1 = (name.toList ++ ['=']).length := by simp
    rw [this, List.drop_left]

theorem finish_iff (o : Opts) (sub : Shape × (Values → Option Command)) (ws : List Str) (a : Args) :
    o.finish sub ws = .run a ↔ o.bad = false ∧ Reads sub ws a.command ∧ a.report = o.report ∧ a.model = o.model := by
  unfold Opts.finish Reads
  have e : (fun _ => [] : Values) = none' := rfl
  rw [e]
  split
  · next h => rw [h]; simp
  · next h => rw [h]; simp
  · next h => rw [h]; simp
  · next got h =>
    rw [h]
    split
    · next hc => simp [hc]
    · next c hc =>
      cases hb : o.bad
      · simp only [Bool.false_eq_true, if_false, Usage.run.injEq, Read.values.injEq, true_and]
        constructor
        · rintro rfl; exact ⟨⟨got, rfl, hc⟩, rfl, rfl⟩
        · rintro ⟨⟨got', rfl, hc'⟩, h1, h2⟩
          rw [hc] at hc'; cases hc'
          cases a; simp_all
      · simp

/-- A word at the top, by its kind. -/
theorem top_command {o : Opts} {w : Str} {sub : Shape × (Values → Option Command)} (ws : List Str) (h : command w = some sub) :
    top o none (w :: ws) = o.finish sub ws := by
  rw [top]; simp [h]

theorem top_dashed (o : Opts) (set : Option (Opts → Str → Opts)) {w : Str} (ws : List Str) (h : dashed w = true) (h1 : w ≠ Spec.ddash) :
    top o set (w :: ws) =
      if w = "--report".toList then top { o with bad := o.bad || set.isSome } (some Opts.setReport) ws
      else if w = "--model".toList then top { o with bad := o.bad || set.isSome } (some Opts.setModel) ws
      else if isHelp w || isVersion w then .info
      else
        match attached "--report" w, attached "--model" w with
        | some v, _ => top (({ o with bad := o.bad || set.isSome } : Opts).setReport v) none ws
        | none, some v => top (({ o with bad := o.bad || set.isSome } : Opts).setModel v) none ws
        | none, none => .usage := by
  have h1 : w ≠ "--".toList := h1
  rw [top.eq_def]; simp only []
  rw [command_dashed h, if_neg (by simp), if_neg h1, if_pos h]
  rfl

theorem top_ddash (o : Opts) (set : Option (Opts → Str → Opts)) (ws : List Str) : top o set (Spec.ddash :: ws) = .usage := by
  rw [top.eq_def]; simp only []
  rw [command_dashed ddash_dashed, if_neg (by simp), if_pos (by rfl)]

theorem top_nil (o : Opts) (set : Option (Opts → Str → Opts)) : top o set [] = .usage := by rw [top.eq_def]

theorem top_plain (o : Opts) {w : Str} (ws : List Str) (h : Spec.Plain w) (h1 : command w = none) : top o none (w :: ws) = .usage := by
  rw [top.eq_def]; simp only []
  rw [h1, if_neg (by simp), if_neg (plain_ne h), if_neg (by simp [dashed_false.2 h])]

theorem top_value (o : Opts) (f : Opts → Str → Opts) {w : Str} (ws : List Str) (h : Spec.Plain w) :
    top o (some f) (w :: ws) = top (f o w) none ws := by
  rw [top, if_neg (by simp), if_neg (plain_ne h), if_neg (by simp [dashed_false.2 h])]

theorem top_bad (ws : List Str) : ∀ (o : Opts) (set : Option (Opts → Str → Opts)) (a : Args), top o set ws = .run a →
    (∀ f ∈ set, f = Opts.setReport ∨ f = Opts.setModel) → o.bad = false := by
  induction ws with
  | nil => intro o set a h; rw [top_nil] at h; cases h
  | cons w ws ih =>
    intro o set a h hf
    by_cases hd : dashed w = true
    · by_cases h1 : w = Spec.ddash
      · subst h1
        rw [top_ddash] at h; cases h
      · rw [top_dashed o set ws hd h1] at h
        have key (b : Bool) (h : (o.bad || b) = false) : o.bad = false := by simp at h; exact h.1
        split at h
        · exact key _ (ih _ _ _ h (by simp))
        split at h
        · exact key _ (ih _ _ _ h (by simp))
        split at h
        · cases h
        split at h
        · have := ih _ _ _ h (by simp)
          simp only [Opts.setReport] at this
          simp at this; exact this.1.1
        · have := ih _ _ _ h (by simp)
          simp only [Opts.setModel] at this
          simp at this; exact this.1.1
        · cases h
    · have hp : Spec.Plain w := dashed_false.1 (by simpa using hd)
      rcases set with _ | f
      · cases hc : command w with
        | none => rw [top_plain _ _ hp hc] at h; cases h
        | some sub => rw [top_command _ hc] at h; exact ((finish_iff ..).1 h).1
      · rw [top_value _ _ _ hp] at h
        have := ih _ _ _ h (by simp)
        rcases hf f rfl with rfl | rfl <;> simp [Opts.setReport, Opts.setModel] at this <;> exact this.1

/-- An option is given at most once. -/
def Once (before now result : Option Str) : Prop := (before = none ∧ result = now) ∨ (now = none ∧ result = before)

theorem once_some {v : Str} {now result : Option Str} (h : Once (some v) now result) : now = none ∧ result = some v := by
  rcases h with ⟨h, _⟩ | h
  · cases h
  · exact h

theorem top_run (n : Nat) : ∀ (ws : List Str) (o : Opts) (a : Args), ws.length ≤ n → top o none ws = .run a →
    ∃ os xs r m, ws = os ++ xs ∧ Spec.Options os r m ∧ Spec.Words xs a.command ∧ Once o.report r a.report ∧ Once o.model m a.model := by
  induction n with
  | zero =>
    intro ws o a hl h
    rw [List.length_eq_zero_iff.1 (Nat.le_zero.1 hl), top_nil] at h; cases h
  | succ n ih =>
    intro ws o a hl h
    have hb := top_bad ws o none a h (by simp)
    rcases ws with _ | ⟨w, ws⟩
    · rw [top_nil] at h; cases h
    have hl : ws.length ≤ n := by simpa using hl
    by_cases hd : dashed w = true
    · by_cases h1 : w = Spec.ddash
      · subst h1
        rw [top_ddash] at h; cases h
      · rw [top_dashed o none ws hd h1] at h
        have e : ({ o with bad := o.bad || (none : Option (Opts → Str → Opts)).isSome } : Opts) = o := by simp
        rw [e] at h
        -- an option with its value in the next word
        have value (f : Opts → Str → Opts) (hf : f = Opts.setReport ∨ f = Opts.setModel) (h : top o (some f) ws = .run a) :
            ∃ v ys, ws = v :: ys ∧ Spec.Plain v ∧ top (f o v) none ys = .run a := by
          rcases ws with _ | ⟨v, ys⟩
          · rw [top_nil] at h; cases h
          · by_cases hv : dashed v = true
            · exfalso
              by_cases h2 : v = Spec.ddash
              · subst h2
                rw [top_ddash] at h; cases h
              · rw [top_dashed o (some f) ys hv h2] at h
                split at h
                · exact absurd (top_bad _ _ _ _ h (by simp)) (by simp)
                split at h
                · exact absurd (top_bad _ _ _ _ h (by simp)) (by simp)
                split at h
                · cases h
                split at h
                · exact absurd (top_bad _ _ _ _ h (by simp)) (by simp [Opts.setReport])
                · exact absurd (top_bad _ _ _ _ h (by simp)) (by simp [Opts.setModel])
                · cases h
            · have hp : Spec.Plain v := dashed_false.1 (by simpa using hv)
              exact ⟨v, ys, rfl, hp, by rw [top_value _ _ _ hp] at h; exact h⟩
        have report (v : Str) (ys : List Str) (hy : ys.length ≤ n) (h : top (o.setReport v) none ys = .run a) :
            ∃ os xs m, ys = os ++ xs ∧ Spec.Options os none m ∧ Spec.Words xs a.command ∧ Once o.report (some v) a.report ∧ Once o.model m a.model := by
          have hb := top_bad _ _ _ _ h (by simp)
          have hn : o.report = none := by simp [Opts.setReport] at hb; exact hb.2
          obtain ⟨os, xs, r, m, h2, h3, h4, h5, h6⟩ := ih ys _ a hy h
          obtain ⟨rfl, h5'⟩ := once_some h5
          exact ⟨os, xs, m, h2, h3, h4, .inl ⟨hn, h5'⟩, h6⟩
        have model (v : Str) (ys : List Str) (hy : ys.length ≤ n) (h : top (o.setModel v) none ys = .run a) :
            ∃ os xs r, ys = os ++ xs ∧ Spec.Options os r none ∧ Spec.Words xs a.command ∧ Once o.report r a.report ∧ Once o.model (some v) a.model := by
          have hb := top_bad _ _ _ _ h (by simp)
          have hn : o.model = none := by simp [Opts.setModel] at hb; exact hb.2
          obtain ⟨os, xs, r, m, h2, h3, h4, h5, h6⟩ := ih ys _ a hy h
          obtain ⟨rfl, h6'⟩ := once_some h6
          exact ⟨os, xs, r, h2, h3, h4, h5, .inl ⟨hn, h6'⟩⟩
        split at h
        · next hw =>
          obtain ⟨v, ys, rfl, hv, h⟩ := value _ (.inl rfl) h
          obtain ⟨os, xs, m, rfl, h3, h4, h5, h6⟩ := report v ys (by simp at hl; omega) h
          exact ⟨_, xs, some v, m, by rw [hw]; rfl, .report hv h3, h4, h5, h6⟩
        split at h
        · next hw =>
          obtain ⟨v, ys, rfl, hv, h⟩ := value _ (.inr rfl) h
          obtain ⟨os, xs, r, rfl, h3, h4, h5, h6⟩ := model v ys (by simp at hl; omega) h
          exact ⟨_, xs, r, some v, by rw [hw]; rfl, .model hv h3, h4, h5, h6⟩
        split at h
        · cases h
        split at h
        · next v hw =>
          obtain ⟨os, xs, m, rfl, h3, h4, h5, h6⟩ := report v ws hl h
          exact ⟨_, xs, some v, m, by rw [attached_iff.1 hw]; rfl, .reportEq h3, h4, h5, h6⟩
        · next v _ hw =>
          obtain ⟨os, xs, r, rfl, h3, h4, h5, h6⟩ := model v ws hl h
          exact ⟨_, xs, r, some v, by rw [attached_iff.1 hw]; rfl, .modelEq h3, h4, h5, h6⟩
        · cases h
    · have hp : Spec.Plain w := dashed_false.1 (by simpa using hd)
      cases hc : command w with
      | none => rw [top_plain _ _ hp hc] at h; cases h
      | some sub =>
        rw [top_command _ hc] at h
        obtain ⟨_, h2, h3, h4⟩ := (finish_iff ..).1 h
        exact ⟨[], w :: ws, none, none, rfl, .nil, words_of_reads hc ws a.command h2, .inr ⟨rfl, h3⟩, .inr ⟨rfl, h4⟩⟩

theorem top_options {os : List Str} {r m : Option Str} (h : Spec.Options os r m) : ∀ (o : Opts) (xs : List Str),
    (r ≠ none → o.report = none) → (m ≠ none → o.model = none) →
    top o none (os ++ xs) = top ⟨r.or o.report, m.or o.model, o.bad⟩ none xs := by
  induction h with
  | nil => intro o xs _ _; simp
  | @report v os m hv _ ih =>
    intro o xs hr hm
    have hr := hr (by simp)
    rw [List.cons_append, top_dashed _ _ _ (by decide) (by decide), if_pos rfl, List.cons_append, top_value _ _ _ hv,
      ih _ _ (by simp) (by simpa [Opts.setReport] using hm)]
    simp [Opts.setReport, hr]
  | @reportEq v os m _ ih =>
    intro o xs hr hm
    have hr := hr (by simp)
    rw [List.cons_append, top_dashed _ _ _ (by simp [dashed]) (by simp [Spec.ddash]), if_neg (by simp), if_neg (by simp), if_neg (by simp [isHelp, isVersion]),
      show attached "--report" ("--report=".toList ++ v) = some v from attached_iff.2 rfl]
    simp only []
    rw [ih _ _ (by simp) (by simpa [Opts.setReport] using hm)]
    simp [Opts.setReport, hr]
  | @model v os r hv _ ih =>
    intro o xs hr hm
    have hm := hm (by simp)
    rw [List.cons_append, top_dashed _ _ _ (by decide) (by decide), if_neg (by decide), if_pos rfl, List.cons_append, top_value _ _ _ hv,
      ih _ _ (by simpa [Opts.setModel] using hr) (by simp)]
    simp [Opts.setModel, hm]
  | @modelEq v os r _ ih =>
    intro o xs hr hm
    have hm := hm (by simp)
    have hn : attached "--report" ("--model=".toList ++ v) = none := by
      unfold attached; rw [if_neg (by simp)]
    rw [List.cons_append, top_dashed _ _ _ (by simp [dashed]) (by simp [Spec.ddash]), if_neg (by simp), if_neg (by simp), if_neg (by simp [isHelp, isVersion]),
      hn, show attached "--model" ("--model=".toList ++ v) = some v from attached_iff.2 rfl]
    simp only []
    rw [ih _ _ (by simpa [Opts.setModel] using hr) (by simp)]
    simp [Opts.setModel, hm]

/-! ### The command line -/

/-- C124.  The program runs a command with some arguments exactly when the command line is written for them: the options come first,
each at most once, and all the words of a command but the last one of `diff` and `journald` are taken in their order. -/
theorem C124_read (argv : List Str) (a : Args) : parse argv = .run a ↔ Spec.Line argv a := by
  constructor
  · intro h
    obtain ⟨os, xs, r, m, h1, h2, h3, h4, h5⟩ := top_run _ argv _ a (Nat.le_refl _) h
    have hr : a.report = r := by rcases h4 with ⟨_, h⟩ | ⟨h, h'⟩ <;> simp_all
    have hm : a.model = m := by rcases h5 with ⟨_, h⟩ | ⟨h, h'⟩ <;> simp_all
    exact ⟨os, xs, h1, by rw [hr, hm]; exact h2, h3⟩
  · rintro ⟨os, ws, rfl, h1, h2⟩
    obtain ⟨n, xs, sub, rfl, h3, h4⟩ := reads_of_words h2
    rw [parse, top_options h1 _ _ (by simp) (by simp), top_command _ h3, finish_iff]
    exact ⟨rfl, h4, by simp, by simp⟩

/-- C124.  A command line has one meaning. -/
theorem C124_unique (argv : List Str) (a b : Args) (ha : Spec.Line argv a) (hb : Spec.Line argv b) : a = b := by
  have h := ((C124_read argv a).2 ha).symm.trans ((C124_read argv b).2 hb)
  exact Usage.run.inj h

section
variable {C S N D E ε : Type} [DecidableEq N]

/-- C124.  The program does what its command line means. -/
theorem C124_runs (T : Tool C S N D E ε) (level : Option Bool) (tty cache : Bool) (fs : Fs Str) (argv : List Str) (a : Args) (h : Spec.Line argv a) :
    (T.program level tty cache fs argv).1 = T.main level tty cache fs a ∧
      (T.program level tty cache fs argv).2 = exitCode (T.main level tty cache fs a).result := by
  unfold Tool.program
  rw [(C124_read argv a).2 h]
  by_cases hl : level = some false
  · simp [hl, Tool.main, keep, exitCode]
  · simp [hl]

/-- C124.  With a command line which means nothing, nothing is printed by a command, no model is made, and the files are left as they are. -/
theorem C124_nothing (T : Tool C S N D E ε) (level : Option Bool) (tty cache : Bool) (fs : Fs Str) (argv : List Str) (h : ∀ a, ¬ Spec.Line argv a) :
    (T.program level tty cache fs argv).1.printed = [] ∧ (T.program level tty cache fs argv).1.model = none ∧
      (T.program level tty cache fs argv).1.fs = fs := by
  unfold Tool.program
  by_cases hl : level = some false
  · simp [hl, keep]
  · rw [if_neg hl]
    cases hp : parse argv with
    | run a => exact absurd ((C124_read argv a).1 hp) (h a)
    | info => simp [keep]
    | usage => simp [keep]
    | unclear => simp [keep]

/-- C124.  The status is 0 only for a command which succeeded, or for a request of information (`-h`, `--help`, `-V` or `--version` is
in the command line); 2 exactly for the other command lines which mean nothing. -/
theorem C124_status (T : Tool C S N D E ε) (level : Option Bool) (tty cache : Bool) (fs : Fs Str) (argv : List Str) (hl : level ≠ some false) :
    ((T.program level tty cache fs argv).2 = 0 ↔
      (∃ a, Spec.Line argv a ∧ (T.main level tty cache fs a).result = .ok ()) ∨ parse argv = .info) ∧
    ((T.program level tty cache fs argv).2 = 2 ↔ (∀ a, ¬ Spec.Line argv a) ∧ parse argv ≠ .info) := by
  unfold Tool.program
  rw [if_neg hl]
  cases hp : parse argv with
  | run a =>
    have h := (C124_read argv a).1 hp
    constructor
    · constructor
      · intro h0
        refine .inl ⟨a, h, ?_⟩
        cases hr : (T.main level tty cache fs a).result with
        | ok u => rfl
        | error e => cases e <;> simp [exitCode, hr] at h0
      · rintro (⟨b, hb, h0⟩ | h0)
        · rw [C124_unique argv a b h hb]; simp [exitCode, h0]
        · cases h0
    · constructor
      · intro h0
        exfalso
        simp only at h0
        cases hr : (T.main level tty cache fs a).result with
        | ok u => simp [exitCode, hr] at h0
        | error e => cases e <;> simp [exitCode, hr] at h0
      · intro h0; exact absurd h (h0.1 a)
  | info => simp
  | usage => simp [← C124_read, hp]
  | unclear => simp [← C124_read, hp]

/-- C124.  The status is 101 exactly when the command panics, and 1 exactly when it fails otherwise. -/
theorem C124_panic (T : Tool C S N D E ε) (level : Option Bool) (tty cache : Bool) (fs : Fs Str) (argv : List Str) (hl : level ≠ some false) :
    ((T.program level tty cache fs argv).2 = 101 ↔ ∃ a, Spec.Line argv a ∧ (T.main level tty cache fs a).result = .error .panic) ∧
    ((T.program level tty cache fs argv).2 = 1 ↔
      ∃ a, Spec.Line argv a ∧ ∃ e, e ≠ Problem.panic ∧ (T.main level tty cache fs a).result = .error e) := by
  unfold Tool.program
  rw [if_neg hl]
  cases hp : parse argv with
  | run a =>
    have h := (C124_read argv a).1 hp
    have one (P : Args → Prop) : (∃ b, Spec.Line argv b ∧ P b) ↔ P a :=
      ⟨fun ⟨b, hb, hP⟩ => C124_unique argv a b h hb ▸ hP, fun hP => ⟨a, h, hP⟩⟩
    rw [one (fun a => (T.main level tty cache fs a).result = .error .panic),
      one (fun a => ∃ e, e ≠ Problem.panic ∧ (T.main level tty cache fs a).result = .error e)]
    simp only []
    cases hr : (T.main level tty cache fs a).result with
    | ok u => simp [exitCode]
    | error e => cases e <;> simp [exitCode]
  | info => simp [← C124_read, hp]
  | usage => simp [← C124_read, hp]
  | unclear => simp [← C124_read, hp]

end

/-- A request of information: the word is in the command line. -/
theorem read_info (sh : Shape) (ws : List Str) : ∀ (pos : Nat) (tr : Bool) (got : Values), sh.read pos tr got ws = .info → ∃ w ∈ ws, isHelp w = true := by
  induction ws with
  | nil => intro pos tr got h; rw [Shape.read] at h; cases h
  | cons w ws ih =>
    intro pos tr got h
    rw [Shape.read] at h
    have key (pos : Nat) (tr : Bool) (got : Values) (h : sh.read pos tr got ws = .info) : ∃ x ∈ w :: ws, isHelp x = true := by
      obtain ⟨x, hx, h⟩ := ih pos tr got h
      exact ⟨x, by simp [hx], h⟩
    split at h
    · exact key _ _ _ h
    split at h
    · split at h
      · next hh => exact ⟨w, by simp, hh⟩
      · cases h
    · simp only [] at h
      split at h
      · cases h
      · exact key _ _ _ h
      · split at h
        · exact key _ _ _ h
        · cases h

theorem top_info (ws : List Str) : ∀ (o : Opts) (set : Option (Opts → Str → Opts)), top o set ws = .info → ∃ w ∈ ws, isHelp w = true ∨ isVersion w = true := by
  induction ws with
  | nil => intro o set h; rw [top_nil] at h; cases h
  | cons w ws ih =>
    intro o set h
    have key (o : Opts) (set : Option (Opts → Str → Opts)) (h : top o set ws = .info) : ∃ x ∈ w :: ws, isHelp x = true ∨ isVersion x = true := by
      obtain ⟨x, hx, h⟩ := ih o set h
      exact ⟨x, by simp [hx], h⟩
    by_cases hd : dashed w = true
    · by_cases h1 : w = Spec.ddash
      · subst h1; rw [top_ddash] at h; cases h
      · rw [top_dashed o set ws hd h1] at h
        split at h
        · exact key _ _ h
        split at h
        · exact key _ _ h
        split at h
        · next hh => exact ⟨w, by simp, by simpa using hh⟩
        split at h
        · exact key _ _ h
        · exact key _ _ h
        · cases h
    · have hp : Spec.Plain w := dashed_false.1 (by simpa using hd)
      rcases set with _ | f
      · cases hc : command w with
        | none => rw [top_plain _ _ hp hc] at h; cases h
        | some sub =>
          rw [top_command _ hc, Opts.finish] at h
          split at h
          · next hi =>
            obtain ⟨x, hx, h⟩ := read_info _ _ _ _ _ hi
            exact ⟨x, by simp [hx], .inl h⟩
          · cases h
          · cases h
          · split at h
            · cases h
            · split at h <;> cases h
      · rw [top_value _ _ _ hp] at h; exact key _ _ h

/-- C124.  The program only gives information when it is asked for: a word is `--help` or `--version`, or starts with `-h` or `-V`. -/
theorem C124_info (argv : List Str) (h : parse argv = .info) :
    ∃ w ∈ argv, w = "--help".toList ∨ w = "--version".toList ∨ w.take 2 = "-h".toList ∨ w.take 2 = "-V".toList := by
  obtain ⟨w, hw, h⟩ := top_info argv _ _ h
  refine ⟨w, hw, ?_⟩
  simp only [isHelp, isVersion, Bool.or_eq_true, beq_iff_eq] at h
  rcases h with (h | h) | (h | h) <;> simp only [h, true_or, or_true]

/-- Two baselines and a target, with a report. -/
example : parse ["--report=r.html".toList, "--model".toList, "m".toList, "diff".toList, "a".toList, "b".toList, "c".toList] =
    .run ⟨some "r.html".toList, some "m".toList, .diff ["a".toList, "b".toList] "c".toList⟩ := by decide +kernel

example : Spec.Line ["--report=r.html".toList, "--model".toList, "m".toList, "diff".toList, "a".toList, "b".toList, "c".toList]
    ⟨some "r.html".toList, some "m".toList, .diff ["a".toList, "b".toList] "c".toList⟩ := by
  rw [← C124_read]; decide +kernel

/-- An option after the command, an option given twice, a value which is missing, two targets, a command which does not exist: refused. -/
example : ([["diff".toList, "a".toList, "b".toList, "--report".toList, "r".toList],
    ["--model".toList, "m".toList, "--model".toList, "n".toList, "diff".toList, "a".toList, "b".toList],
    ["--report".toList, "--model".toList, "m".toList, "diff".toList, "a".toList, "b".toList],
    ["path".toList, "a".toList, "b".toList],
    ["help".toList]].map parse) = [.usage, .usage, .usage, .usage, .usage] := by decide +kernel

/-- The name of a command is the value of an option which waits for it; `diff` with one word has no source (see C98). -/
example : parse ["--report".toList, "diff".toList, "diff".toList, "x".toList] = .run ⟨some "diff".toList, none, .diff [] "x".toList⟩ := by decide +kernel

example : parse ["path".toList, "--".toList, "-x".toList] = .run ⟨none, none, .path "-x".toList⟩ := by decide +kernel

/-- Two words which start with a dash can't be compared, with `--` or without. -/
example : parse ["diff".toList, "--".toList, "-a".toList, "-b".toList] = .unclear ∧ parse ["diff".toList, "-a".toList, "-b".toList] = .usage := by decide +kernel

example : parse ["diff".toList, "a".toList, "--help".toList] = .info := by decide +kernel

end LJ.Program

import Verif.Output.Spec
import Mathlib.Data.List.Forall2
namespace LJ.Output
open LJ.Process (Str Anomaly AnomalyContext Err)
open LJ.Process.Spec (Line Window Shows)
open Spec (block rows gap pageFrom page Numbered html console shifted)

theorem usub_ok (checks : Bool) {a b : Nat} (h : b ≤ a) : usub checks a b = some (a - b) := by simp [usub, h]
theorem uadd_ok (checks : Bool) {a b : Nat} (h : a + b < 2 ^ 64) : uadd checks a b = some (a + b) := by simp only [uadd, if_pos h]

/-- The nodes of context lines numbered from `n`. -/
def numberedFrom {α : Type} (f : Nat → Str → α) : Nat → List Str → List α
  | _, [] => []
  | n, x :: xs => f n x :: numberedFrom f (n + 1) xs

theorem numberedFrom_lines {α : Type} (f : Nat → Str → α) (k : Nat) (ls : List Line) :
    ∀ n, ls.map Line.num = List.range' (n + k) ls.length → numberedFrom f n (ls.map Line.text) = ls.map (fun l => f (l.num - k) l.text) := by
  induction ls with
  | nil => intro n _; rfl
  | cons l ls ih =>
    intro n h
    simp only [List.map_cons, List.length_cons, List.range'_succ, List.cons.injEq] at h
    simp only [List.map_cons, numberedFrom, h.1, Nat.add_sub_cancel]
    rw [ih (n + 1) (by rw [h.2]; congr 1; omega)]

theorem renderContextFrom_ok (checks : Bool) (pos : Nat) (xs : List Str) :
    ∀ idx, pos + 1 + idx + xs.length ≤ 2 ^ 64 → renderContextFrom checks pos idx xs = some (numberedFrom contextNode (pos + 1 + idx) xs) := by
  induction xs with
  | nil => intro idx _; rfl
  | cons x xs ih =>
    intro idx h
    rw [List.length_cons] at h
    simp only [renderContextFrom, numberedFrom]
    rw [uadd_ok checks (by omega), Option.bind_eq_bind, Option.bind_some, uadd_ok checks (by omega), Option.bind_eq_bind, Option.bind_some, ih (idx + 1) (by omega)]
    rfl

theorem printContextFrom_ok (pos : Nat) (xs : List Str) :
    ∀ idx, printContextFrom pos idx xs = numberedFrom (fun n t => println ("   ".toList ++ decimal n ++ " | ".toList ++ t)) (pos + idx) xs := by
  induction xs with
  | nil => intro idx; rfl
  | cons x xs ih =>
    intro idx
    simp only [printContextFrom, numberedFrom]
    rw [ih (idx + 1)]
    rfl

theorem rows_zip (bef aft : List Line) (l : Line) :
    ((bef ++ l :: aft).zipIdx.map fun x => Spec.Row.line (x.2 == bef.length) x.1.num x.1.text) =
      bef.map (fun l => .line false l.num l.text) ++ .line true l.num l.text :: aft.map (fun l => .line false l.num l.text) := by
  have h1 : ∀ (ls : List Line) (k b : Nat), k + ls.length ≤ b →
      ((ls.zipIdx k).map fun x => Spec.Row.line (x.2 == b) x.1.num x.1.text) = ls.map (fun l => .line false l.num l.text) := by
    intro ls
    induction ls with
    | nil => intros; rfl
    | cons x xs ih =>
      intro k b h
      rw [List.length_cons] at h
      simp only [List.zipIdx_cons, List.map_cons]
      rw [ih (k + 1) b (by omega), beq_false_of_ne (by omega)]
  have h2 : ∀ (ls : List Line) (k b : Nat), b < k →
      ((ls.zipIdx k).map fun x => Spec.Row.line (x.2 == b) x.1.num x.1.text) = ls.map (fun l => .line false l.num l.text) := by
    intro ls
    induction ls with
    | nil => intros; rfl
    | cons x xs ih =>
      intro k b h
      simp only [List.zipIdx_cons, List.map_cons]
      rw [ih (k + 1) b (by omega), beq_false_of_ne (by omega)]
  rw [List.zipIdx_append, List.map_append, h1 bef 0 _ (by omega), List.zipIdx_cons, List.map_cons, h2 aft _ _ (by omega)]
  simp

variable {D : Type} {tok : Str → Str} {dist : Str → D}

/-- A shown window, in terms of its block. -/
theorem shows_block {src : List Line} {c : AnomalyContext D} {w : Window} (h : Shows tok dist src c w) :
    ∃ bef l aft, block src w = bef ++ l :: aft ∧ bef.length = w.b ∧ aft.length = w.a ∧
      c.before = bef.map Line.text ∧ c.after = aft.map Line.text ∧ c.anomaly = ⟨dist (tok l.text), l.num, l.text⟩ ∧
      (∀ x ∈ bef ++ l :: aft, x ∈ src) := by
  obtain ⟨pre, bef, l, aft, post, e, h1, h2, h3, h4, h5, h6⟩ := h
  refine ⟨bef, l, aft, ?_, h2, h3, h4, h5, h6, ?_⟩
  · have hp : w.i - w.b = pre.length := by omega
    have e2 : pre ++ bef ++ l :: (aft ++ post) = pre ++ ((bef ++ l :: aft) ++ post) := by simp
    rw [block, hp, e, e2, List.drop_left, List.take_left' (by simp; omega)]
  · intro x hx
    rw [e]
    simp only [List.mem_append, List.mem_cons] at hx ⊢
    tauto

/-- The numbers of a numbered block around the anomaly. -/
theorem numbered_parts {bef aft : List Line} {l : Line} (h : Numbered (bef ++ l :: aft)) :
    ∃ n, bef.map Line.num = List.range' n bef.length ∧ l.num = n + bef.length ∧
      aft.map Line.num = List.range' (l.num + 1) aft.length := by
  obtain ⟨n, h⟩ := h
  rw [List.map_append, List.length_append, ← List.range'_append_1, List.map_cons, List.length_cons, List.range'_succ] at h
  obtain ⟨h1, h2⟩ := List.append_inj h (by simp)
  rw [List.cons.injEq] at h2
  exact ⟨n, h1, h2.1, by rw [h2.2, h2.1]⟩

/-- The number of the last line of a numbered list. -/
theorem getLast_num {l : Line} {aft : List Line} (h : aft.map Line.num = List.range' (l.num + 1) aft.length) :
    ∃ x, (l :: aft).getLast? = some x ∧ x.num = l.num + aft.length := by
  rcases List.eq_nil_or_concat aft with rfl | ⟨ys, y, e⟩
  · exact ⟨l, rfl, rfl⟩
  · rw [List.concat_eq_append] at e
    subst e
    refine ⟨y, by rw [show l :: (ys ++ [y]) = (l :: ys) ++ [y] from rfl, List.getLast?_concat], ?_⟩
    rw [List.map_append, List.length_append, ← List.range'_append_1] at h
    have := (List.append_inj' h (by simp)).2
    simp only [List.map_cons, List.map_nil, List.length_cons, List.length_nil, List.range'_succ, List.range'_zero, List.cons.injEq, and_true] at this
    rw [this, List.length_append]
    simp; omega

/-- The number of the last line shown, which the printing loops remember. -/
def lastNum (b : List Line) : Option Nat := b.getLast?.map Line.num

theorem gap_eq {α : Type} (f : Spec.Row → α) {x y : List Line} {n m : Nat} (hx : lastNum x = some n) (hy : y.head?.map Line.num = some (m + 1)) :
    (gap (some x) y).map f = if n ≠ m then [f .separator] else [] := by
  unfold lastNum at hx
  have : Spec.Adjacent x y ↔ n = m := by
    unfold Spec.Adjacent
    rw [hy]
    cases hl : x.getLast? with
    | none => rw [hl] at hx; cases hx
    | some l =>
      rw [hl] at hx
      simp only [Option.map_some, Option.some.injEq] at hx ⊢
      omega
  by_cases h : n = m
  · simp [gap, this, h]
  · simp [gap, this, h]

/-- The facts about a numbered window the renderers use. -/
theorem window_facts {src : List Line} {c : AnomalyContext D} {w : Window} (h : Shows tok dist src c w) (hn : Numbered (block src w))
    (hpos : ∀ l ∈ src, 0 < l.num) :
    ∃ bef l aft, block src w = bef ++ l :: aft ∧ bef.length = w.b ∧ c.before = bef.map Line.text ∧ c.after = aft.map Line.text ∧
      c.anomaly = ⟨dist (tok l.text), l.num, l.text⟩ ∧
      bef.length < l.num ∧ bef.map Line.num = List.range' (l.num - 1 - bef.length + 1) bef.length ∧
      aft.map Line.num = List.range' (l.num + 1) aft.length ∧
      (block src w).head?.map Line.num = some (l.num - 1 - bef.length + 1) ∧ lastNum (block src w) = some (l.num + aft.length) ∧
      (∀ x ∈ bef ++ l :: aft, x ∈ src) := by
  obtain ⟨bef, l, aft, e, h1, h2, h3, h4, h5, h6⟩ := shows_block h
  rw [e] at hn
  obtain ⟨n, k1, k2, k3⟩ := numbered_parts hn
  have hn0 : 0 < n := by
    cases bef with
    | nil =>
      have := hpos l (h6 l (by simp))
      simp only [List.length_nil] at k2
      omega
    | cons x xs =>
      simp only [List.map_cons, List.length_cons, List.range'_succ, List.cons.injEq] at k1
      have := hpos x (h6 x (by simp))
      omega
  have hlen : l.num - 1 - bef.length + 1 = n := by omega
  refine ⟨bef, l, aft, e, h1, h3, h4, h5, by omega, by rw [hlen]; exact k1, k3, ?_, ?_, h6⟩
  · rw [e, hlen]
    cases bef with
    | nil => simp only [List.nil_append, List.head?_cons, Option.map_some]; simp only [List.length_nil] at k2; rw [k2]; rfl
    | cons x xs =>
      simp only [List.map_cons, List.length_cons, List.range'_succ, List.cons.injEq] at k1
      simp [k1.1]
  · obtain ⟨x, hx, hx2⟩ := getLast_num k3
    unfold lastNum
    rw [e, List.getLast?_append, hx]
    simp [hx2]

/-- What `html` gives for a window, when distances only depend on the text. -/
theorem rows_map {α : Type} (f : Spec.Row → α) {src : List Line} {w : Window} {bef aft : List Line} {l : Line}
    (e : block src w = bef ++ l :: aft) (hb : bef.length = w.b) :
    (rows src w).map f = bef.map (fun l => f (.line false l.num l.text)) ++ f (.line true l.num l.text) ::
      aft.map (fun l => f (.line false l.num l.text)) := by
  unfold rows
  rw [e, ← hb, rows_zip, List.map_append, List.map_map, List.map_cons, List.map_map]
  rfl

end LJ.Output

/-
The number of a line and its place in the file: how many line returns stand before it.
-/
import Verif.Iterator.Props
import Mathlib.Data.List.Infix
namespace LJ.Iterator
open Spec

/-- the line return -/
abbrev LFb : UInt8 := '\n'.toUInt8

theorem split_no_return (json esc inStr : Bool) (cur : Bytes) (ln : Nat) (content : Bytes)
    (h : ¬ ['\\'.toUInt8, LFb] <:+: content) (hc : LFb ∉ cur) (he : esc = true → content.head? ≠ some LFb) :
    ∀ p ∈ split json esc inStr cur ln content, LFb ∉ p.1 := by
  induction content generalizing esc inStr cur ln with
  | nil => intro p hp; rw [split, List.mem_singleton] at hp; rw [hp]; exact hc
  | cons c cs ih =>
    have hcs : ¬ ['\\'.toUInt8, LFb] <:+: cs := fun h' => h (h'.trans (List.suffix_cons c cs).isInfix)
    have step : ∀ e i, c ≠ LFb → (e = true → c = '\\'.toUInt8) → ∀ p ∈ split json e i (cur ++ [c]) ln cs, LFb ∉ p.1 := by
      intro e i hne hb
      refine ih e i (cur ++ [c]) ln hcs ?_ ?_
      · intro h'
        rcases List.mem_append.1 h' with h' | h'
        · exact hc h'
        · exact hne (List.mem_singleton.1 h').symm
      · intro he' hh
        cases cs with
        | nil => cases hh
        | cons d ds =>
          cases hh
          rw [hb he'] at h
          exact h ⟨[], ds, rfl⟩
    have cut : ∀ i k q, LFb ∉ q → ∀ p ∈ (q, ln) :: split json false i [] k cs, LFb ∉ p.1 := by
      intro i k q hq p hp
      rcases List.mem_cons.1 hp with rfl | hp
      · exact hq
      · exact ih false i [] k hcs (by simp) (by simp) p hp
    rw [split.eq_2]
    by_cases h1 : esc = true
    · rw [if_pos h1]
      have hne : c ≠ LFb := fun e => he h1 (by rw [e]; rfl)
      split
      · exact cut _ _ _ fun h' => hc (List.dropLast_subset _ h')
      · exact step _ _ hne (by simp)
    · rw [if_neg h1]
      split
      · rename_i h2
        exact step _ _ (by rw [h2]; decide) fun _ => h2
      · split
        · exact cut _ _ _ hc
        · rename_i h3
          split
          · exact step _ _ h3 (by simp)
          · split
            · exact cut _ _ _ hc
            · exact step _ _ h3 (by simp)

theorem weave_take {ps ss : List Bytes} (hl : ps.length = ss.length + 1) {i : Nat} {p : Bytes} (hp : ps[i]? = some p) :
    ∃ post, weave ps ss = weave (ps.take i) (ss.take i) ++ p ++ post := by
  induction ps generalizing ss i with
  | nil => simp at hl
  | cons q qs ih =>
    cases i with
    | zero =>
      cases hp
      cases ss with
      | nil => exact ⟨[], by simp [weave]⟩
      | cons s ss => exact ⟨s ++ weave qs ss, by simp [weave]⟩
    | succ i =>
      cases ss with
      | nil =>
        have : qs = [] := by simpa using hl
        subst this
        simp at hp
      | cons s ss =>
        obtain ⟨post, h⟩ := ih (ss := ss) (by simpa using hl) hp
        exact ⟨post, by simp only [weave, List.take_succ_cons, h, List.append_assoc]⟩

theorem sum_zero {l : List Nat} (h : ∀ x ∈ l, x = 0) : l.sum = 0 := by
  induction l with
  | nil => rfl
  | cons a l ih => rw [List.sum_cons, h a (List.mem_cons_self ..), ih fun x hx => h x (List.mem_cons_of_mem _ hx)]

theorem isSep_count {json : Bool} {s : Bytes} (h : IsSep json s) : s.count LFb = if s = [LFb] then 1 else 0 := by
  rcases h with rfl | rfl | ⟨_, h⟩
  · decide
  · decide
  · simp only [List.mem_cons, List.not_mem_nil, or_false] at h
    rcases h with rfl | rfl | rfl | rfl | rfl <;> decide

theorem weave_count {json : Bool} {ps ss : List Bytes} (hl : ps.length = ss.length) (hs : ∀ s ∈ ss, IsSep json s) :
    (weave ps ss).count LFb = (ps.map (·.count LFb)).sum + ss.count [LFb] := by
  induction ps generalizing ss with
  | nil => cases ss with | nil => rfl | cons s ss => simp at hl
  | cons q qs ih =>
    cases ss with
    | nil => simp at hl
    | cons s ss =>
      have h1 := ih (ss := ss) (by simpa using hl) fun x hx => hs x (List.mem_cons_of_mem _ hx)
      have h2 := isSep_count (hs s (List.mem_cons_self ..))
      rw [weave, List.count_append, List.count_append, h1, h2, List.count_cons]
      simp only [List.map_cons, List.sum_cons, beq_iff_eq]
      omega

/-! ### C91: the number of a line is its place in the file -/

/-- C91, what holds of every content: the line returns before a piece are those counted by its number and those which
were kept in the pieces before it (a line return after a backslash does not end a line). -/
theorem C91_exact (json : Bool) (content : Bytes) (i : Nat) (p : Bytes × Nat) (hp : (pieces json content)[i]? = some p) :
    ∃ pre post, content = pre ++ p.1 ++ post ∧
      1 + pre.count LFb = p.2 + (((pieces json content).take i).map fun q => q.1.count LFb).sum := by
  obtain ⟨seps, hlen, hsep, hw, hn⟩ := C02_C03_pieces_are_the_content json content
  have hi : i < (pieces json content).length := (List.getElem?_eq_some_iff.1 hp).1
  obtain ⟨post, h⟩ := weave_take (ps := (pieces json content).map (·.1)) (ss := seps) (by simpa using hlen) (i := i) (p := p.1)
    (by rw [List.getElem?_map, hp]; rfl)
  refine ⟨_, post, hw.symm.trans h, ?_⟩
  rw [weave_count (json := json) (by simp; omega) fun s hs => hsep s (List.mem_of_mem_take hs), hn i p hp, List.map_take, List.map_take, List.map_map]
  simp only [Function.comp_def, LFb]
  omega

/-- the pieces stand one after the other: the text before a piece contains the previous piece and the text before it -/
theorem C91_order (json : Bool) (content : Bytes) : ∃ seps : List Bytes, (pieces json content).length = seps.length + 1 ∧
    weave ((pieces json content).map (·.1)) seps = content ∧
    (¬ ['\\'.toUInt8, LFb] <:+: content → ∀ (i : Nat) (p : Bytes × Nat), (pieces json content)[i]? = some p →
      p.2 = 1 + (weave (((pieces json content).map (·.1)).take i) (seps.take i)).count LFb) := by
  obtain ⟨seps, hlen, hsep, hw, hn⟩ := C02_C03_pieces_are_the_content json content
  refine ⟨seps, hlen, hw, fun h i p hp => ?_⟩
  have hi : i < (pieces json content).length := (List.getElem?_eq_some_iff.1 hp).1
  rw [weave_count (json := json) (by simp; omega) fun s hs => hsep s (List.mem_of_mem_take hs), hn i p hp]
  have h0 : ((((pieces json content).map (·.1)).take i).map (·.count LFb)).sum = 0 := by
    apply sum_zero
    intro x hx
    obtain ⟨q, hq, rfl⟩ := List.mem_map.1 hx
    obtain ⟨q', hq', rfl⟩ := List.mem_map.1 (List.mem_of_mem_take hq)
    exact List.count_eq_zero.2 (split_no_return json false false [] 1 content h (by simp) (by simp) q' hq')
  rw [h0]
  simp only [LFb]
  omega

/-- The full claim: a line stands in the content, has no line return, and its number is one plus the line returns before it. -/
def NumbersArePlaces (content : Bytes) (ls : List (Bytes × Nat)) : Prop :=
  ∀ l ∈ ls, LFb ∉ l.1 ∧ ∃ pre post, content = pre ++ l.1 ++ post ∧ l.2 = 1 + pre.count LFb

/-- C91, the part that holds: when no line return follows a backslash (and for schedules without overflow, see C05). -/
theorem C91_partial (ε : Type) (checks json : Bool) (reads : List Bytes) (hb : Blocks reads) (hno : NoOverflow json 6000 reads)
    (h : ¬ ['\\'.toUInt8, LFb] <:+: reads.flatten) :
    NumbersArePlaces reads.flatten (allLines (ε := ε) (build checks) json (fromReads reads)).1 := by
  rw [C02_lines_spec ε checks json reads hb hno]
  intro l hl
  have hm : l ∈ pieces json reads.flatten := (List.mem_filter.1 hl).1
  have hnr := split_no_return json false false [] 1 reads.flatten h (by simp) (by simp)
  refine ⟨hnr l hm, ?_⟩
  obtain ⟨i, hi, e⟩ := List.getElem_of_mem hm
  obtain ⟨pre, post, h1, h2⟩ := C91_exact json reads.flatten i l (by rw [List.getElem?_eq_getElem hi, e])
  refine ⟨pre, post, h1, ?_⟩
  have h0 : (((pieces json reads.flatten).take i).map fun q => q.1.count LFb).sum = 0 := by
    apply sum_zero
    intro x hx
    obtain ⟨q, hq, rfl⟩ := List.mem_map.1 hx
    exact List.count_eq_zero.2 (hnr q (List.mem_of_mem_take hq))
  omega

/-- C91 is false: a line which ends with a backslash takes the next line with it, and the numbers are one too low from
there on (`c` is on line 3). -/
theorem C91_false : allLines (ε := Unit) (build false) false (fromReads [ascii "a\\\nb\nc\n"]) = ([(ascii "a\\\nb", 1), (ascii "c", 2)], .finished) ∧
    ¬ ∀ reads, Blocks reads → NoOverflow false 6000 reads →
      NumbersArePlaces reads.flatten (allLines (ε := Unit) (build false) false (fromReads reads)).1 := by
  have e : allLines (ε := Unit) (build false) false (fromReads [ascii "a\\\nb\nc\n"]) = ([(ascii "a\\\nb", 1), (ascii "c", 2)], .finished) :=
    allLines_of_drainN (n := 8) (by decide +kernel)
  refine ⟨e, fun h => ?_⟩
  have := h [ascii "a\\\nb\nc\n"] (by intro b hb; rw [List.mem_singleton] at hb; subst hb; decide)
    (by intro k hk; have : k = 0 := by simpa using hk
        subst this; decide)
  rw [e] at this
  exact (this _ (List.mem_cons_self ..)).1 (by decide)

/-- Non-vacuity: backslashes elsewhere, a blank line, a backslash followed by n. -/
example : NumbersArePlaces (ascii "C:\\dir\n\nx\\ny\nz\n") [(ascii "C:\\dir", 1), (ascii "x", 3), (ascii "y", 3), (ascii "z", 4)] := by
  have e : allLines (ε := Unit) (build true) false (fromReads [ascii "C:\\dir\n\nx\\ny\nz\n"]) =
      ([(ascii "C:\\dir", 1), (ascii "x", 3), (ascii "y", 3), (ascii "z", 4)], .finished) := allLines_of_drainN (n := 12) (by decide +kernel)
  have := C91_partial Unit true false [ascii "C:\\dir\n\nx\\ny\nz\n"] (by intro b hb; rw [List.mem_singleton] at hb; subst hb; decide)
    (by intro k hk; have : k = 0 := by simpa using hk
        subst this; decide) (by decide +kernel)
  rw [e] at this
  simpa using this

end LJ.Iterator

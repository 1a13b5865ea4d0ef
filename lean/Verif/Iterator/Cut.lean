/-
C136: a content which is cut after a line return has the lines of its two parts.
-/
import Verif.Iterator.Grown
namespace LJ.Iterator
open Spec

/-- the texts of the lines do not depend on the number of the first one, nor, when it is not JSON, on quotes -/
theorem split_texts : ∀ (more : Bytes) (esc st st' : Bool) (cur : Bytes) (ln ln' : Nat),
    (split false esc st cur ln more).map Prod.fst = (split false esc st' cur ln' more).map Prod.fst
  | [], esc, st, st', cur, ln, ln' => rfl
  | c :: cs, esc, st, st', cur, ln, ln' => by
    rw [split, split]
    simp only [Bool.false_and, Bool.false_eq_true, if_false]
    split
    · split
      · rw [List.map_cons, List.map_cons, split_texts cs _ st st' _ ln ln']
      · exact split_texts cs _ st st' _ ln ln'
    · split
      · exact split_texts cs _ st st' _ ln ln'
      · split
        · rw [List.map_cons, List.map_cons, split_texts cs _ st st' _ (ln + 1) (ln' + 1)]
        · exact split_texts cs _ st st' _ ln ln'

theorem keep_texts (max : Nat) (ps : List (Bytes × Nat)) :
    (keep max ps).map Prod.fst = (ps.map Prod.fst).filter fun p => decide (0 < p.length) && decide (p.length ≤ max) := by
  unfold keep
  rw [List.filter_map]
  rfl

/-- C136: the lines of a content which is not JSON, cut after a line return which is not after a backslash, are those of the first part and those
of the second one. -/
theorem C136_cut (max : Nat) {first : Bytes} (h : Ended first) (second : Bytes) :
    (lines false max (first ++ second)).map Prod.fst = (lines false max first).map Prod.fst ++ (lines false max second).map Prod.fst := by
  obtain ⟨before, rfl, hb⟩ := h
  obtain ⟨ps, st, ln, h⟩ := split_ended false before false false [] 1 (fun _ => rfl) hb
  have h0 := h []
  have h1 := h second
  unfold lines pieces
  rw [List.append_assoc, List.singleton_append, h1, h0]
  rw [keep_texts, keep_texts, keep_texts, List.map_append, List.filter_append, List.map_append, List.filter_append,
    split_texts second false st false [] ln 1]
  have : (List.filter (fun p => decide (0 < p.length) && decide (p.length ≤ max)) ((split false false st [] ln []).map Prod.fst)) = [] := rfl
  rw [this, List.append_nil]

example : Ended (ascii "a\\nb\n") ∧ (lines false 6000 (ascii "a\\nb\n" ++ ascii "c\nd")).map Prod.fst = [ascii "a", ascii "b", ascii "c", ascii "d"] :=
  ⟨⟨ascii "a\\nb", by decide +kernel, by decide +kernel⟩, by decide +kernel⟩

/-- In JSON the parts are not read alone: a quote is open in the second one. -/
theorem C136_cut_json_false : (lines true 6000 (ascii "\"a\n" ++ ascii "b\",c")).map Prod.fst ≠
    (lines true 6000 (ascii "\"a\n")).map Prod.fst ++ (lines true 6000 (ascii "b\",c")).map Prod.fst := by
  decide +kernel

end LJ.Iterator

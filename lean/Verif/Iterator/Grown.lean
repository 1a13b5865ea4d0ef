/-
C133: the lines of a content are still there when more is written after its last line return.
-/
import Verif.Iterator.Props
namespace LJ.Iterator
open Spec

namespace Spec

/-- The content ends with a line return, which is not after a backslash. -/
def Ended (content : Bytes) : Prop := ∃ before, content = before ++ ['\n'.toUInt8] ∧ before.getLast? ≠ some '\\'.toUInt8

end Spec

theorem split_ended (json : Bool) : ∀ (before : Bytes) (esc inStr : Bool) (cur : Bytes) (ln : Nat), (before = [] → esc = false) →
    before.getLast? ≠ some '\\'.toUInt8 →
    ∃ ps st ln', ∀ more, split json esc inStr cur ln (before ++ '\n'.toUInt8 :: more) = ps ++ split json false st [] ln' more
  | [], esc, inStr, cur, ln, he, _ => by
    rw [he rfl]
    refine ⟨[(cur, ln)], inStr, ln + 1, fun more => ?_⟩
    have h : ¬ ('\n'.toUInt8 = '\\'.toUInt8) := by decide
    rw [List.nil_append, split, if_neg (by simp), if_neg h, if_pos rfl]
    rfl
  | c :: cs, esc, inStr, cur, ln, _, hl => by
    have hl' : cs.getLast? ≠ some '\\'.toUInt8 := by
      cases cs with
      | nil => simp
      | cons d ds => simpa using hl
    have ih := fun esc inStr cur ln h => split_ended json cs esc inStr cur ln h hl'
    by_cases he : esc = true
    · by_cases h1 : c = 'n'.toUInt8
      · obtain ⟨ps, st, ln', h⟩ := ih false inStr [] ln (fun _ => rfl)
        exact ⟨(cur.dropLast, ln) :: ps, st, ln', fun more => by rw [List.cons_append, split, if_pos he, if_pos h1, h]; rfl⟩
      · obtain ⟨ps, st, ln', h⟩ := ih false inStr (cur ++ [c]) ln (fun _ => rfl)
        exact ⟨ps, st, ln', fun more => by rw [List.cons_append, split, if_pos he, if_neg h1, h]⟩
    · by_cases h1 : c = '\\'.toUInt8
      · obtain ⟨ps, st, ln', h⟩ := ih true inStr (cur ++ [c]) ln (fun h0 => by subst h0; subst h1; simp at hl)
        exact ⟨ps, st, ln', fun more => by rw [List.cons_append, split, if_neg he, if_pos h1, h]⟩
      · by_cases h2 : c = '\n'.toUInt8
        · obtain ⟨ps, st, ln', h⟩ := ih false inStr [] (ln + 1) (fun _ => rfl)
          exact ⟨(cur, ln) :: ps, st, ln', fun more => by rw [List.cons_append, split, if_neg he, if_neg h1, if_pos h2, h]; rfl⟩
        · by_cases h3 : (json && c == '"'.toUInt8) = true
          · obtain ⟨ps, st, ln', h⟩ := ih false (!inStr) (cur ++ [c]) ln (fun _ => rfl)
            exact ⟨ps, st, ln', fun more => by rw [List.cons_append, split, if_neg he, if_neg h1, if_neg h2, if_pos h3, h]⟩
          · by_cases h4 : (json && !inStr && [','.toUInt8, '['.toUInt8, ']'.toUInt8, '{'.toUInt8, '}'.toUInt8].contains c) = true
            · obtain ⟨ps, st, ln', h⟩ := ih false inStr [] ln (fun _ => rfl)
              exact ⟨(cur, ln) :: ps, st, ln', fun more => by rw [List.cons_append, split, if_neg he, if_neg h1, if_neg h2, if_neg h3, if_pos h4, h]; rfl⟩
            · obtain ⟨ps, st, ln', h⟩ := ih false inStr (cur ++ [c]) ln (fun _ => rfl)
              exact ⟨ps, st, ln', fun more => by rw [List.cons_append, split, if_neg he, if_neg h1, if_neg h2, if_neg h3, if_neg h4, h]⟩

/-- C133: the lines of an ended content come first, with the same numbers, when more is written after it. -/
theorem C133_lines (json : Bool) (max : Nat) {content : Bytes} (h : Ended content) (more : Bytes) :
    lines json max content <+: lines json max (content ++ more) := by
  obtain ⟨before, rfl, hb⟩ := h
  obtain ⟨ps, st, ln, h⟩ := split_ended json before false false [] 1 (fun _ => rfl) hb
  have h0 := h []
  have h1 := h more
  unfold lines pieces
  rw [List.append_assoc, List.singleton_append, h1, h0]
  unfold keep
  rw [List.filter_append, List.filter_append]
  have : List.filter (fun p => decide (0 < p.1.length) && decide (p.1.length ≤ max)) (split json false st [] ln []) = [] := rfl
  rw [this, List.append_nil]
  exact List.prefix_append _ _

example : Ended (ascii "a\\nb\nc\n") ∧ lines false 6000 (ascii "a\\nb\nc\n") = [(ascii "a", 1), (ascii "b", 1), (ascii "c", 2)] ∧
    lines false 6000 (ascii "a\\nb\nc\n" ++ ascii "d\ne") = [(ascii "a", 1), (ascii "b", 1), (ascii "c", 2), (ascii "d", 3), (ascii "e", 4)] :=
  ⟨⟨ascii "a\\nb\nc", by decide +kernel, by decide +kernel⟩, by decide +kernel, by decide +kernel⟩

/-- C133_lines without its condition is false: a line return after a backslash does not end a line. -/
theorem C133_lines_false : ¬ lines false 6000 (ascii "a\\\n") <+: lines false 6000 (ascii "a\\\n" ++ ascii "b\n") := by
  decide +kernel

/-- C133_lines without its condition is false: the last line goes on when it has no line return. -/
theorem C133_lines_open_false : ¬ lines false 6000 (ascii "a") <+: lines false 6000 (ascii "a" ++ ascii "b\n") := by
  decide +kernel

end LJ.Iterator

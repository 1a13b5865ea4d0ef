/-
Lemmas on the bytes of a text.
-/
import Verif.Whole.Spec
import Verif.Output.Props
namespace LJ.Whole
open LJ.Process (Str Bytes Ev)
open Spec (utf8 textFile PlainLine)

theorem utf8_eq (s : Str) : utf8 s = s.flatMap String.utf8EncodeChar := by
  unfold utf8 LJ.Codec.stringBytes
  show (String.ofList s).toByteArray.data.toList = _
  rw [String.toByteArray_ofList]
  induction s with
  | nil => rfl
  | cons c s ih =>
    rw [List.utf8Encode_cons, List.utf8Encode_singleton, List.flatMap_cons, ← ih]
    simp [ByteArray.data_append]

theorem utf8_append (a b : Str) : utf8 (a ++ b) = utf8 a ++ utf8 b := by simp [utf8_eq]

theorem utf8_flatMap {α : Type} (f : α → Str) (l : List α) : utf8 (l.flatMap f) = l.flatMap fun x => utf8 (f x) := by
  simp [utf8_eq, List.flatMap_assoc]

/-- an ASCII byte only comes from the ASCII character -/
theorem encode_ascii {c : Char} {b : UInt8} (hb : b ∈ String.utf8EncodeChar c) (hs : b.toNat < 128) : c.toNat = b.toNat := by
  unfold String.utf8EncodeChar at hb
  simp only at hb
  have key : ∀ n k m : Nat, 128 ≤ k → k + m ≤ 256 → 0 < m → (UInt8.ofNat (n % m + k)).toNat < 128 → False := by
    intro n k m h1 h2 h3 h4
    have : n % m < m := Nat.mod_lt _ h3
    rw [UInt8.toNat_ofNat_of_lt' (by show n % m + k < 256; omega)] at h4
    omega
  split at hb
  · rename_i h
    rw [List.mem_singleton] at hb
    subst hb
    rw [UInt8.toNat_ofNat_of_lt' (by show _ < 256; omega)]
    rfl
  · split at hb
    · simp only [List.mem_cons, List.not_mem_nil, or_false] at hb
      rcases hb with rfl | rfl
      · exact (key _ _ _ (by decide) (by decide) (by decide) hs).elim
      · exact (key _ _ _ (by decide) (by decide) (by decide) hs).elim
    · split at hb
      · simp only [List.mem_cons, List.not_mem_nil, or_false] at hb
        rcases hb with rfl | rfl | rfl <;> exact (key _ _ _ (by decide) (by decide) (by decide) hs).elim
      · simp only [List.mem_cons, List.not_mem_nil, or_false] at hb
        rcases hb with rfl | rfl | rfl | rfl <;> exact (key _ _ _ (by decide) (by decide) (by decide) hs).elim

theorem utf8_no {c : Char} (hc : c.toNat < 128) {l : Str} (h : c ∉ l) : c.toUInt8 ∉ utf8 l := by
  rw [utf8_eq]
  intro hm
  obtain ⟨x, hx, hb⟩ := List.mem_flatMap.1 hm
  have e : c.toUInt8.toNat = c.toNat := by
    show c.val.toUInt8.toNat = _
    rw [UInt32.toNat_toUInt8]
    exact Nat.mod_eq_of_lt (by have : c.val.toNat = c.toNat := rfl; omega)
  have := encode_ascii hb (by omega)
  rw [e] at this
  have : x = c := Char.ext (UInt32.toNat_inj.1 this)
  exact h (this ▸ hx)

theorem utf8_ne_nil {l : Str} (h : l ≠ []) : 0 < (utf8 l).length := by
  cases l with
  | nil => exact absurd rfl h
  | cons c l =>
    rw [utf8_eq, List.flatMap_cons, List.length_append]
    have := List.length_pos_iff.2 (String.utf8EncodeChar_ne_nil (c := c))
    omega

theorem decode_utf8 (l : Str) : decode (utf8 l) = some l := by
  unfold decode utf8
  rw [LJ.Codec.bytesString_stringBytes]
  simp

theorem textFile_eq (ls : List Str) : textFile ls = LJ.Output.fileOf (ls.map utf8) := by
  unfold textFile LJ.Output.fileOf
  rw [utf8_flatMap, List.flatMap_map]
  congr 1
  funext l
  rw [utf8_append]
  rfl

/-- The pieces of a text file. -/
theorem textFile_pieces {ls : List Str} (h : ∀ l ∈ ls, PlainLine l) :
    LJ.Iterator.Spec.pieces false (textFile ls) = (ls.map utf8).zipIdx 1 ++ [([], 1 + ls.length)] := by
  rw [textFile_eq, LJ.Iterator.Spec.pieces, LJ.Output.split_file, List.length_map]
  intro t ht
  obtain ⟨l, hl, rfl⟩ := List.mem_map.1 ht
  exact ⟨utf8_no (by decide) (h l hl).2.1, utf8_no (by decide) (h l hl).2.2.1⟩

/-- the lines of a text file, with their numbers -/
def numbered (ls : List Str) : List LJ.Process.Spec.Line := (ls.zipIdx 1).map fun x => ⟨x.1, x.2⟩

theorem textFile_lines {ls : List Str} (h : ∀ l ∈ ls, PlainLine l) :
    (∀ p ∈ LJ.Iterator.Spec.pieces false (textFile ls), p.1.length < 6000) ∧
    List.Forall₂ (fun (p : Bytes × Nat) (l : LJ.Process.Spec.Line) => p.1 = utf8 l.text ∧ p.2 = l.num)
      (LJ.Iterator.Spec.lines false 6000 (textFile ls)) (numbered ls) := by
  have hshort : ∀ p ∈ (ls.map utf8).zipIdx 1, 0 < p.1.length ∧ p.1.length < 6000 := by
    intro p hp
    obtain ⟨l, hl, e⟩ := List.mem_map.1 (List.fst_mem_of_mem_zipIdx hp)
    rw [← e]
    exact ⟨utf8_ne_nil (h l hl).1, (h l hl).2.2.2⟩
  refine ⟨?_, ?_⟩
  · rw [textFile_pieces h]
    intro p hp
    rcases List.mem_append.1 hp with hp | hp
    · exact (hshort p hp).2
    · rw [List.mem_singleton] at hp; subst hp; simp
  · have e : LJ.Iterator.Spec.lines false 6000 (textFile ls) = (ls.map utf8).zipIdx 1 := by
      rw [LJ.Iterator.Spec.lines, textFile_pieces h, LJ.Iterator.Spec.keep, List.filter_append]
      have : ((ls.map utf8).zipIdx 1).filter (fun p => 0 < p.1.length && p.1.length ≤ 6000) = (ls.map utf8).zipIdx 1 := by
        rw [List.filter_eq_self]
        intro p hp
        have := hshort p hp
        simp only [Bool.and_eq_true, decide_eq_true_eq]
        omega
      rw [this]
      simp
    rw [e]
    unfold numbered
    generalize 1 = n
    clear hshort e h
    induction ls generalizing n with
    | nil => exact .nil
    | cons l ls ih => exact .cons ⟨rfl, rfl⟩ (ih (n + 1))

end LJ.Whole

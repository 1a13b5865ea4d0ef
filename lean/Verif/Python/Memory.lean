/-
The matrices of the index in memory: what is saved, and what is read back, are the same numbers.
-/
import Verif.Python.Bits
import Verif.Index.F32Props
import Verif.Codec.Props
namespace LJ.Python
open LJ.Index (IsF32 Mat Row FP SIZE)
open LJ.Codec (RawMatrix Matrix)

abbrev Str := List Char

/-- The rows of a row storage, or the columns of a column storage: the stored elements between two consecutive starts. -/
def slices (indptr : List UInt64) (cells : List (UInt64 × UInt32)) : List (List (UInt64 × UInt32)) :=
  (indptr.zip indptr.tail).map fun (a, b) => (cells.drop a.toNat).take (b.toNat - a.toNat)

/-- The elements of each row. -/
def rowsOf (m : RawMatrix) : List (List (Nat × UInt32)) :=
  let s := slices m.indptr (m.indices.zip m.data)
  if m.csc then (List.range m.rows.toNat).map fun i => s.zipIdx.filterMap fun (c, col) => (c.lookup (UInt64.ofNat i)).map fun b => (col, b)
  else s.map fun r => r.map fun (k, b) => (k.toNat, b)

/-- The numbers of a matrix; none when an element is infinite or not a number. -/
noncomputable def matOf (m : Matrix) : Option Mat :=
  (rowsOf m.val).mapM fun r => r.mapM fun (k, b) => (f32Value b).map fun x => (k, x)

/-- The starts of the rows, when the first one is at n. -/
def starts (n : Nat) : Mat → List UInt64
  | [] => [UInt64.ofNat n]
  | r :: m => UInt64.ofNat n :: starts (n + r.length) m

/-- index.rs:91-101: the matrix made by `to_csr`, in memory. -/
noncomputable def rawOf (m : Mat) : RawMatrix :=
  ⟨false, UInt64.ofNat m.length, UInt64.ofNat SIZE, starts 0 m, m.flatten.map fun e => UInt64.ofNat e.1, m.flatten.map fun e => bitsOf e.2⟩

/-- The matrix in memory; none when it is too large: a vector has less than 2^63 bytes. -/
noncomputable def toMatrix (m : Mat) : Option Matrix :=
  if h : (rawOf m).valid = true ∧ (rawOf m).indptr.length < 2 ^ 60 ∧ (rawOf m).indices.length < 2 ^ 60 then some ⟨rawOf m, h.1⟩ else none

/-- The rows made by `create_mat`: the columns are increasing and less than the size. -/
def Proper (m : Mat) : Prop := ∀ r ∈ m, r.Pairwise (fun a b => a.1 < b.1) ∧ ∀ e ∈ r, e.1 < SIZE

/-- The sizes can be counted in a `usize`. -/
def Fits (m : Mat) : Prop := m.length < 2 ^ 64 ∧ m.flatten.length < 2 ^ 64

theorem toNat_small {n : Nat} (h : n < 2 ^ 64) : (UInt64.ofNat n).toNat = n := UInt64.toNat_ofNat_of_lt' (by simpa [UInt64.size] using h)

theorem starts_length (n : Nat) (m : Mat) : (starts n m).length = m.length + 1 := by
  induction m generalizing n with
  | nil => rfl
  | cons r m ih => simp [starts, ih]

theorem starts_head (n : Nat) (m : Mat) : ∃ t, starts n m = UInt64.ofNat n :: t := by
  cases m with
  | nil => exact ⟨[], rfl⟩
  | cons r m => exact ⟨_, rfl⟩

theorem starts_last (n : Nat) (m : Mat) : (starts n m).getLast? = some (UInt64.ofNat (n + m.flatten.length)) := by
  induction m generalizing n with
  | nil => simp [starts]
  | cons r m ih =>
    obtain ⟨t, ht⟩ := starts_head (n + r.length) m
    rw [starts, ht, List.getLast?_cons_cons, ← ht, ih]
    simp [Nat.add_assoc]

theorem starts_pairs (n : Nat) (r : Row) (m : Mat) :
    (starts n (r :: m)).zip (starts n (r :: m)).tail = (UInt64.ofNat n, UInt64.ofNat (n + r.length)) :: (starts (n + r.length) m).zip (starts (n + r.length) m).tail := by
  obtain ⟨t, ht⟩ := starts_head (n + r.length) m
  rw [starts, List.tail_cons, ht]
  rfl

/-- what lies between two consecutive starts -/
theorem starts_slices {α : Type} (f : Nat × ℝ → α) (m : Mat) (before : List α) (h : before.length + m.flatten.length < 2 ^ 64) :
    ((starts before.length m).zip (starts before.length m).tail).map (fun (a, b) => ((before ++ m.flatten.map f).drop a.toNat).take (b.toNat - a.toNat)) =
      m.map fun r => r.map f := by
  induction m generalizing before with
  | nil => rfl
  | cons r m ih =>
    have hl : (r :: m).flatten.length = r.length + m.flatten.length := by simp
    rw [starts_pairs, List.map_cons]
    have := ih (before ++ r.map f) (by rw [List.length_append, List.length_map]; omega)
    rw [List.length_append, List.length_map] at this
    have e : before ++ (r :: m).flatten.map f = before ++ r.map f ++ m.flatten.map f := by simp
    rw [e, this]
    simp only
    rw [toNat_small (by omega), toNat_small (by omega)]
    simp

theorem starts_ordered (m : Mat) (n : Nat) (h : n + m.flatten.length < 2 ^ 64) :
    ∀ p ∈ (starts n m).zip (starts n m).tail, p.1 ≤ p.2 := by
  induction m generalizing n with
  | nil => intro p hp; simp [starts] at hp
  | cons r m ih =>
    have hl : (r :: m).flatten.length = r.length + m.flatten.length := by simp
    intro p hp
    rw [starts_pairs] at hp
    rcases List.mem_cons.1 hp with rfl | hp
    · rw [UInt64.le_iff_toNat_le, toNat_small (by omega), toNat_small (by omega)]; omega
    · exact ih _ (by omega) p hp

theorem zip_tail_of_pairwise {α : Type} {R : α → α → Prop} {l : List α} (h : l.Pairwise R) : ∀ p ∈ l.zip l.tail, R p.1 p.2 := by
  induction h with
  | nil => intro p hp; cases hp
  | @cons a l h1 h2 ih =>
    cases l with
    | nil => intro p hp; cases hp
    | cons b l =>
      intro p hp
      rw [List.tail_cons, List.zip_cons_cons] at hp
      rcases List.mem_cons.1 hp with rfl | hp
      · exact h1 b (by simp)
      · exact ih p hp

/-- the matrices of the index are accepted by sprs -/
theorem rawOf_valid {m : Mat} (hp : Proper m) (hf : Fits m) : (rawOf m).valid = true := by
  have hs := starts_slices (fun e => UInt64.ofNat e.1) m [] (by simpa using hf.2)
  rw [List.length_nil] at hs
  simp only [List.nil_append] at hs
  have small : ∀ k, k < SIZE → (UInt64.ofNat k).toNat = k := fun k hk => toNat_small (by unfold SIZE at hk; omega)
  obtain ⟨t, ht⟩ := starts_head 0 m
  unfold RawMatrix.valid rawOf
  simp only [Bool.false_eq_true, ↓reduceIte, Bool.and_eq_true, beq_iff_eq, List.all_eq_true, decide_eq_true_eq, List.length_map]
  refine ⟨⟨⟨⟨⟨⟨?_, ?_⟩, ?_⟩, ?_⟩, ?_⟩, ?_⟩, ?_⟩
  · rw [starts_length, toNat_small hf.1]
  · rw [ht]; rfl
  · rw [starts_last, Option.map_some, Nat.zero_add, toNat_small hf.2]
  · trivial
  · exact starts_ordered m 0 (by simpa using hf.2)
  · intro i hi
    obtain ⟨e, he, rfl⟩ := List.mem_map.1 hi
    obtain ⟨r, hr, he⟩ := List.mem_flatten.1 he
    rw [UInt64.lt_iff_toNat_lt, small _ ((hp r hr).2 e he), toNat_small (by decide)]
    exact (hp r hr).2 e he
  · intro p hpm
    have hr := List.mem_map_of_mem (f := fun (a, b) => ((m.flatten.map fun e : Nat × ℝ => UInt64.ofNat e.1).drop a.toNat).take (b.toNat - a.toNat)) hpm
    rw [hs] at hr
    obtain ⟨r, hr, e⟩ := List.mem_map.1 hr
    have e : List.take (p.2.toNat - p.1.toNat) (List.drop p.1.toNat (m.flatten.map fun e => UInt64.ofNat e.1)) = r.map fun e => UInt64.ofNat e.1 := e.symm
    simp only [e]
    refine zip_tail_of_pairwise (R := fun i j => i < j) ?_
    rw [List.pairwise_map]
    refine List.Pairwise.imp_of_mem ?_ (hp r hr).1
    intro a b ha hb hab
    rw [UInt64.lt_iff_toNat_lt, small _ ((hp r hr).2 a ha), small _ ((hp r hr).2 b hb)]
    exact hab

theorem mapM_some {α β : Type} {f : α → Option β} {g : α → β} {l : List α} (h : ∀ a ∈ l, f a = some (g a)) : l.mapM f = some (l.map g) := by
  induction l with
  | nil => rfl
  | cons a l ih =>
    rw [List.mapM_cons, h a (by simp), ih fun x hx => h x (by simp [hx])]
    rfl

/-- The numbers of the matrix in memory are those of the matrix. -/
theorem matOf_rawOf {m : Mat} (hp : Proper m) (hf : Fits m) (hx : ∀ r ∈ m, ∀ e ∈ r, IsF32 e.2) (h : (rawOf m).valid = true) : matOf ⟨rawOf m, h⟩ = some m := by
  have hs := starts_slices (fun e => (UInt64.ofNat e.1, bitsOf e.2)) m [] (by simpa using hf.2)
  rw [List.length_nil] at hs
  simp only [List.nil_append] at hs
  have hz : (m.flatten.map fun e => UInt64.ofNat e.1).zip (m.flatten.map fun e => bitsOf e.2) = m.flatten.map fun e => (UInt64.ofNat e.1, bitsOf e.2) := by
    rw [List.zip_map', ]
  have hr : rowsOf (rawOf m) = m.map fun r => r.map fun e => (e.1, bitsOf e.2) := by
    unfold rowsOf
    have : slices (rawOf m).indptr ((rawOf m).indices.zip (rawOf m).data) = m.map fun r => r.map fun e => (UInt64.ofNat e.1, bitsOf e.2) := by
      show slices (starts 0 m) ((m.flatten.map fun e => UInt64.ofNat e.1).zip (m.flatten.map fun e => bitsOf e.2)) = _
      rw [hz]; exact hs
    simp only [this]
    rw [if_neg (by unfold rawOf; simp), List.map_map]
    refine List.map_congr_left fun r hr => ?_
    rw [Function.comp_apply, List.map_map]
    refine List.map_congr_left fun e he => ?_
    show ((UInt64.ofNat e.1).toNat, bitsOf e.2) = _
    rw [toNat_small (by have := (hp r hr).2 e he; unfold SIZE at this; omega)]
  unfold matOf
  simp only
  rw [hr, List.mapM_map, mapM_some (g := id), List.map_id]
  intro r hr
  show (r.map fun e => (e.1, bitsOf e.2)).mapM _ = some r
  rw [List.mapM_map, mapM_some (g := id), List.map_id]
  intro e he
  show (f32Value (bitsOf e.2)).map _ = some e
  rw [value_bits (hx r hr e he)]
  rfl

end LJ.Python

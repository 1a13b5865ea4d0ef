import Verif.Codec.Kinds

/-! # The matrices of a file

A matrix which is loaded can come from any file.  It is searched without looking at its structure again, so that it has to be a matrix. -/
namespace LJ.Codec

/-! ### The specification -/

/-- The number of rows of a matrix which is kept by rows, of columns otherwise -/
def RawMatrix.lanes (m : RawMatrix) : Nat := if m.csc then m.cols.toNat else m.rows.toNat

/-- The number of places in one of them -/
def RawMatrix.places (m : RawMatrix) : Nat := if m.csc then m.rows.toNat else m.cols.toNat

/-- The numbers describe a sparse matrix: each row has its start, its elements are those from its start to the next one, each with a value, in order of
their columns, which are columns of the matrix. -/
structure WellFormed (m : RawMatrix) : Prop where
  starts : m.indptr.length = m.lanes + 1
  first : m.indptr[0]? = some 0
  last : ∀ e, m.indptr[m.lanes]? = some e → e.toNat = m.indices.length
  values : m.indices.length = m.data.length
  order : ∀ i a b : Nat, m.indptr[i]?.map UInt64.toNat = some a → m.indptr[i + 1]?.map UInt64.toNat = some b → a ≤ b
  columns : ∀ j ∈ m.indices, j.toNat < m.places
  increasing : ∀ i a b k : Nat, m.indptr[i]?.map UInt64.toNat = some a → m.indptr[i + 1]?.map UInt64.toNat = some b → a ≤ k → k + 1 < b →
    ∀ x y : UInt64, m.indices[k]? = some x → m.indices[k + 1]? = some y → x.toNat < y.toNat

/-! ### The check of the code -/

theorem mem_zip_tail {α : Type} {l : List α} {x y : α} : (x, y) ∈ l.zip l.tail ↔ ∃ i : Nat, l[i]? = some x ∧ l[i + 1]? = some y := by
  rw [List.mem_iff_getElem?]
  constructor
  · rintro ⟨i, h⟩
    rw [List.getElem?_zip_eq_some, List.getElem?_tail] at h
    exact ⟨i, h⟩
  · rintro ⟨i, h⟩
    refine ⟨i, ?_⟩
    rw [List.getElem?_zip_eq_some, List.getElem?_tail]
    exact h

theorem row_get {α : Type} (l : List α) (a b k : Nat) (x : α) : ((l.drop a).take (b - a))[k]? = some x ↔ a + k < b ∧ l[a + k]? = some x := by
  rw [List.getElem?_take]
  split
  · rw [List.getElem?_drop]
    exact ⟨fun h => ⟨by omega, h⟩, fun h => h.2⟩
  · exact ⟨fun h => (by cases h), fun h => (by omega)⟩

/-- The check of the code is the specification. -/
theorem valid_iff (m : RawMatrix) : m.valid = true ↔ WellFormed m := by
  have hl : (if m.csc = true then m.cols else m.rows).toNat = m.lanes := by unfold RawMatrix.lanes; split <;> rfl
  have hp : (if m.csc = true then m.rows else m.cols).toNat = m.places := by unfold RawMatrix.places; split <;> rfl
  unfold RawMatrix.valid
  simp only [Bool.and_eq_true, beq_iff_eq, hl, decide_eq_true_eq, List.all_eq_true, List.head?_eq_getElem?]
  constructor
  · rintro ⟨⟨⟨⟨⟨⟨h1, h2⟩, h3⟩, h4⟩, h5⟩, h6⟩, h7⟩
    refine ⟨h1, h2, ?_, h4, ?_, ?_, ?_⟩
    · intro e he
      rw [List.getLast?_eq_getElem?, h1, Nat.add_sub_cancel, he] at h3
      exact Option.some.inj h3
    · intro i a b ha hb
      obtain ⟨x, hx, rfl⟩ := Option.map_eq_some_iff.1 ha
      obtain ⟨y, hy, rfl⟩ := Option.map_eq_some_iff.1 hb
      exact UInt64.le_iff_toNat_le.1 (h5 (x, y) (mem_zip_tail.2 ⟨i, hx, hy⟩))
    · intro j hj
      have := UInt64.lt_iff_toNat_lt.1 (h6 j hj)
      rwa [hp] at this
    · intro i a b k ha hb h8 h9 x y hx hy
      obtain ⟨u, hu, rfl⟩ := Option.map_eq_some_iff.1 ha
      obtain ⟨v, hv, rfl⟩ := Option.map_eq_some_iff.1 hb
      refine UInt64.lt_iff_toNat_lt.1 (h7 (u, v) (mem_zip_tail.2 ⟨i, hu, hv⟩) (x, y) (mem_zip_tail.2 ⟨k - u.toNat, ?_, ?_⟩))
      · show ((m.indices.drop u.toNat).take (v.toNat - u.toNat))[_]? = some _
        rw [row_get]
        refine ⟨by omega, ?_⟩
        rwa [show u.toNat + (k - u.toNat) = k from by omega]
      · show ((m.indices.drop u.toNat).take (v.toNat - u.toNat))[_]? = some _
        rw [row_get]
        refine ⟨by omega, ?_⟩
        rwa [show u.toNat + (k - u.toNat + 1) = k + 1 from by omega]
  · intro h
    refine ⟨⟨⟨⟨⟨⟨h.starts, h.first⟩, ?_⟩, h.values⟩, ?_⟩, ?_⟩, ?_⟩
    · rw [List.getLast?_eq_getElem?, h.starts, Nat.add_sub_cancel]
      have hlt : m.lanes < m.indptr.length := by have := h.starts; omega
      rw [List.getElem?_eq_getElem hlt, Option.map_some, h.last _ (List.getElem?_eq_getElem hlt)]
    · rintro ⟨x, y⟩ hm
      obtain ⟨i, hx, hy⟩ := mem_zip_tail.1 hm
      exact UInt64.le_iff_toNat_le.2 (h.order i _ _ (by rw [hx]; rfl) (by rw [hy]; rfl))
    · intro j hj
      have := h.columns j hj
      rw [← hp] at this
      exact UInt64.lt_iff_toNat_lt.2 this
    · rintro ⟨u, v⟩ hm ⟨x, y⟩ hm'
      obtain ⟨i, hu, hv⟩ := mem_zip_tail.1 hm
      obtain ⟨k, hx, hy⟩ := mem_zip_tail.1 hm'
      have hx : ((m.indices.drop u.toNat).take (v.toNat - u.toNat))[k]? = some x := hx
      have hy : ((m.indices.drop u.toNat).take (v.toNat - u.toNat))[k + 1]? = some y := hy
      rw [row_get] at hx hy
      exact UInt64.lt_iff_toNat_lt.2 (h.increasing i _ _ (u.toNat + k) (by rw [hu]; rfl) (by rw [hv]; rfl) (by omega) (by omega) x y hx.2
        (by rw [Nat.add_assoc]; exact hy.2))

/-! ### C153 -/

/-- The bytes of the numbers of a matrix, whether it is one or not: its order, its sizes, its starts, its columns and its values -/
def rawBytes (m : RawMatrix) : Bytes :=
  leBytes 4 (if m.csc then 1 else 0) ++ (leBytes 8 m.rows.toNat ++ (leBytes 8 m.cols.toNat ++
    ((leBytes 8 m.indptr.length ++ m.indptr.flatMap fun x => leBytes 8 x.toNat) ++
      ((leBytes 8 m.indices.length ++ m.indices.flatMap fun x => leBytes 8 x.toNat) ++
        (leBytes 8 m.data.length ++ m.data.flatMap fun x => leBytes 4 x.toNat)))))

theorem encAll_u64 (l : List UInt64) : encAll u64 l = some (l.flatMap fun x => leBytes 8 x.toNat) := by
  induction l with
  | nil => rfl
  | cons x l ih => rw [encAll, ih]; rfl

theorem encAll_u32 (l : List UInt32) : encAll u32 l = some (l.flatMap fun x => leBytes 4 x.toNat) := by
  induction l with
  | nil => rfl
  | cons x l ih => rw [encAll, ih]; rfl

theorem seq_u64 {l : List UInt64} (h : l.length < 2 ^ 64) : (seq u64).enc l = some (leBytes 8 l.length ++ l.flatMap fun x => leBytes 8 x.toNat) := by
  show (if l.length < 2 ^ 64 then _ else none) = _
  rw [if_pos h, encAll_u64]
  rfl

theorem seq_u32 {l : List UInt32} (h : l.length < 2 ^ 64) : (seq u32).enc l = some (leBytes 8 l.length ++ l.flatMap fun x => leBytes 4 x.toNat) := by
  show (if l.length < 2 ^ 64 then _ else none) = _
  rw [if_pos h, encAll_u32]
  rfl

theorem load_raw (m : RawMatrix) (rest : Bytes) (h1 : m.indptr.length < 2 ^ 64) (h2 : m.indices.length < 2 ^ 64) (h3 : m.data.length < 2 ^ 64) :
    (load matrix (rawBytes m ++ rest)).map Subtype.val = if m.valid then some m else none := by
  have e : (pair (either unit unit) (pair u64 (pair u64 (pair (seq u64) (pair (seq u64) (seq u32)))))).enc
      ((if m.csc then .inr () else .inl ()), m.rows, m.cols, m.indptr, m.indices, m.data) = some (rawBytes m) := by
    simp only [pair, seq_u64 h1, seq_u64 h2, seq_u32 h3, rawBytes]
    cases m.csc <;> rfl
  have hl := (pair_lawful (either_lawful unit_lawful unit_lawful) (pair_lawful u64_lawful (pair_lawful u64_lawful
    (pair_lawful (seq_lawful u64_lawful) (pair_lawful (seq_lawful u64_lawful) (seq_lawful u32_lawful)))))).round _ _ rest e
  obtain ⟨csc, rows, cols, ip, is, d⟩ := m
  unfold load matrix iso
  simp only [hl, Option.bind_some]
  cases csc <;>
  · simp only [Bool.false_eq_true, if_false, if_true, Sum.isRight_inl, Sum.isRight_inr]
    split <;> simp_all <;> rfl

/-- A file with the numbers of a matrix is loaded, as these numbers, exactly when they describe one; what follows is ignored. -/
theorem C153_exact (m : RawMatrix) (rest : Bytes) (h1 : m.indptr.length < 2 ^ 64) (h2 : m.indices.length < 2 ^ 64) (h3 : m.data.length < 2 ^ 64) :
    (WellFormed m → ∃ m', load matrix (rawBytes m ++ rest) = some m' ∧ m'.val = m) ∧ (¬ WellFormed m → load matrix (rawBytes m ++ rest) = none) := by
  have h := load_raw m rest h1 h2 h3
  rw [← valid_iff]
  constructor
  · intro hv
    rw [if_pos hv] at h
    exact Option.map_eq_some_iff.1 h
  · intro hv
    rw [if_neg hv] at h
    exact Option.map_eq_none_iff.1 h

/-- Whatever the bytes of a file, the matrices which are loaded from it are well formed: those of a saved matrix, and all those of a saved model. -/
theorem C153_loaded (t : Texts) (b : Bytes) :
    (∀ m, load matrix b = some m → WellFormed m.val) ∧
    ∀ m, load (model t) b = some m → ∀ p ∈ m.indexes.pairs, ∀ ms, p.2.index = .hashing ms → ∀ x ∈ ms, WellFormed x.val :=
  ⟨fun m _ => (valid_iff _).1 m.property, fun _ _ _ _ _ _ x _ => (valid_iff _).1 x.property⟩

/-- Non-vacuity: a matrix of two rows is well formed; with a column too far, or with columns in the wrong order, it is not. -/
example : WellFormed ⟨false, 2, 3, [0, 2, 3], [0, 2, 1], [1, 2, 3]⟩ ∧ ¬ WellFormed ⟨false, 2, 3, [0, 2, 3], [0, 3, 1], [1, 2, 3]⟩ ∧
    ¬ WellFormed ⟨false, 2, 3, [0, 2, 3], [2, 0, 1], [1, 2, 3]⟩ := by
  simp only [← valid_iff]
  decide +kernel

end LJ.Codec

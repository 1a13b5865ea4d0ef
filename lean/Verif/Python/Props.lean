/-
C87: the python module.
-/
import Verif.Python.Spec
import Verif.Index.Props
namespace LJ.Python
open LJ.Index (FP Features SIZE IsF32 Mat viaRows viaMat vecOf rowOf)
open LJ.Codec (Matrix matrix Bytes load)
variable {env : Env}

/-! ### The matrices of the index -/

/-- what fits in memory -/
theorem fits_of_valid {m : Mat} (h : (rawOf m).valid = true) : Fits m := by
  unfold LJ.Codec.RawMatrix.valid rawOf at h
  simp only [Bool.false_eq_true, ↓reduceIte, Bool.and_eq_true, beq_iff_eq, List.length_map] at h
  obtain ⟨⟨⟨⟨⟨⟨h1, _⟩, h3⟩, _⟩, _⟩, _⟩, _⟩ := h
  rw [starts_length] at h1
  rw [starts_last, Option.map_some, Nat.zero_add] at h3
  have e1 : (UInt64.ofNat m.length).toNat = m.length := by omega
  have e2 : (UInt64.ofNat m.flatten.length).toNat = m.flatten.length := Option.some.inj h3
  have b1 := (UInt64.ofNat m.length).toNat_lt
  have b2 := (UInt64.ofNat m.flatten.length).toNat_lt
  rw [e1] at b1
  rw [e2] at b2
  exact ⟨b1, b2⟩

theorem indexMat_rows (fp : FP) (hash : Str → Nat) (bs : List Str) : LJ.Index.indexMat fp hash bs = some (bs.map (rowOf fp hash)) := by
  unfold LJ.Index.indexMat
  rw [mapM_some (g := vecOf hash) fun l _ => LJ.Index.vectorize_eq hash l]
  show some _ = _
  unfold LJ.Index.createMat
  rw [List.map_map]
  rfl

theorem rows_proper (fp : FP) (hash : Str → Nat) (bs : List Str) : Proper (bs.map (rowOf fp hash)) := by
  intro r hr
  obtain ⟨l, _, rfl⟩ := List.mem_map.1 hr
  unfold rowOf LJ.Index.toRow
  rw [List.map_map]
  constructor
  · rw [List.pairwise_map]
    exact LJ.Index.vecOf_strict hash l
  · intro e he
    obtain ⟨x, hx, rfl⟩ := List.mem_map.1 he
    exact (LJ.Index.vecOf_keys hx).1

/-- the elements are `f32` -/
theorem rows_f32 {fp : FP} (hf : fp.IsF32) (hash : Str → Nat) (bs : List Str) : ∀ r ∈ bs.map (rowOf fp hash), ∀ e ∈ r, IsF32 e.2 := by
  intro r hr e he
  obtain ⟨l, _, rfl⟩ := List.mem_map.1 hr
  unfold rowOf LJ.Index.toRow at he
  rw [List.map_map] at he
  obtain ⟨x, hx, rfl⟩ := List.mem_map.1 he
  refine (hf.nearest _ ?_).1
  show |(x.2 : ℝ) / LJ.Index.l2norm fp (LJ.Index.toRow (vecOf hash l))| ≤ _
  rw [LJ.Index.l2norm_std hf.standard]
  have hn : fp.fl 1 ≤ fp.fl √((vecOf hash l).length : ℝ) := by
    have hl : ((vecOf hash l).length : ℝ) ≤ 2 ^ 18 := by
      have := LJ.Index.vecOf_length_le (hash := hash) l
      have h2 : (vecOf hash l).length ≤ 2 ^ 18 := this.trans (by decide)
      exact_mod_cast h2
    have hp : (1:ℝ) ≤ (vecOf hash l).length := by exact_mod_cast LJ.Index.vecOf_length_pos (hash := hash) l
    have hs : (1:ℝ) ≤ √((vecOf hash l).length : ℝ) := Real.one_le_sqrt.2 hp
    have hs' : √((vecOf hash l).length : ℝ) ≤ (vecOf hash l).length := by
      rw [Real.sqrt_le_left (by linarith)]
      nlinarith
    refine hf.nearest.mono (by norm_num) ?_ hs
    rw [abs_of_pos (by linarith)]
    exact (hs'.trans hl).trans (by norm_num)
  have h1 : fp.fl 1 = 1 := by simpa using LJ.Index.fl_int hf.nearest (z := 1) (by norm_num)
  rw [h1] at hn
  have hx1 : |(x.2 : ℝ)| = 1 := by
    rcases (LJ.Index.vecOf_keys hx).2 with h | h <;> rw [h] <;> norm_num
  rw [abs_div, hx1, abs_of_pos (by linarith), div_le_iff₀ (by linarith)]
  have : (1:ℝ) ≤ 2 ^ 101 := by norm_num
  nlinarith

/-- what is in memory after `index_mat` -/
theorem indexMat_memory (hf : env.fp.IsF32) {bs : List Str} {m : Matrix} (h : (LJ.Index.indexMat env.fp env.hash bs).bind toMatrix = some m) :
    matOf m = some (bs.map (rowOf env.fp env.hash)) ∧ m.val.cols.toNat = SIZE ∧ ∃ b, matrix.enc m = some b := by
  rw [indexMat_rows, Option.bind_some] at h
  unfold toMatrix at h
  split at h
  · rename_i hv
    cases h
    obtain ⟨hv, h60, h60'⟩ := hv
    have hfit := fits_of_valid hv
    refine ⟨matOf_rawOf (rows_proper _ _ _) hfit (rows_f32 hf _ _) hv, toNat_small (by decide), ?_⟩
    refine Option.isSome_iff_exists.1 ((LJ.Codec.matrix_saves (⟨_, hv⟩ : Matrix)).2 ⟨?_, by simp⟩)
    intro n hn
    simp only [LJ.Codec.Matrix.sizes, List.mem_cons, List.not_mem_nil, or_false] at hn
    rcases hn with rfl | rfl | rfl
    · omega
    · omega
    · unfold rawOf at h60' ⊢
      simp only [List.length_map] at h60' ⊢
      omega
  · cases h

/-! ### Sessions -/

theorem store_mono (σ : Heap) (o : Object) {σ' : Heap} {a : Answer} (h : store σ o = (some σ', a)) : σ' = σ ++ [o] ∧ a = .capsule σ.length := by
  cases h; exact ⟨rfl, rfl⟩

/-- a call only adds a capsule -/
theorem call_mono {σ σ' : Heap} {c : Call} {a : Answer} (h : call env σ c = (some σ', a)) : σ <+: σ' := by
  have st : ∀ {o : Object} {σ' : Heap} {a : Answer}, store σ o = (some σ', a) → σ <+: σ' := by
    intro o σ' a h; rw [(store_mono σ o h).1]; exact List.prefix_append _ _
  cases c with
  | process l => cases h; exact List.prefix_rfl
  | generate n => cases h; exact List.prefix_rfl
  | index bs =>
    simp only [call] at h
    unfold index at h
    split at h
    · exact st h
    · cases h; exact List.prefix_rfl
  | search k t =>
    simp only [call] at h
    unfold search at h
    split at h
    · cases h; exact List.prefix_rfl
    · cases h
    · split at h <;> (cases h; exact List.prefix_rfl)
  | indexMat bs =>
    simp only [call] at h
    unfold indexMat at h
    split at h
    · exact st h
    · cases h; exact List.prefix_rfl
  | searchMat k ts =>
    simp only [call] at h
    unfold searchMat at h
    split at h
    · cases h; exact List.prefix_rfl
    · cases h
    · cases h; exact List.prefix_rfl
  | saveMat k =>
    simp only [call] at h
    unfold saveMat at h
    split at h
    · cases h; exact List.prefix_rfl
    · cases h
    · split at h <;> (cases h; exact List.prefix_rfl)
  | loadMat b =>
    simp only [call] at h
    unfold loadMat at h
    split at h
    · exact st h
    · cases h; exact List.prefix_rfl

/-- The answer `i` is given with some capsules, which are still there for the answer `j`. -/
theorem session_at {σ : Heap} {cs : List Call} {i : Nat} {a : Answer} (h : (session env σ cs).2[i]? = some a) :
    ∃ c σi, cs[i]? = some c ∧ (call env σi c).2 = a ∧ σ <+: σi ∧
      ∀ j, i < j → ∀ a', (session env σ cs).2[j]? = some a' → ∃ c' σ' σj, (call env σi c).1 = some σ' ∧ cs[j]? = some c' ∧ (call env σj c').2 = a' ∧ σ' <+: σj := by
  induction cs generalizing σ i a with
  | nil => simp [session] at h
  | cons c cs ih =>
    unfold session at h ⊢
    cases hc : call env σ c with
    | mk o a0 =>
    cases o with
    | none =>
      simp only [hc] at h ⊢
      cases i with
      | zero =>
        refine ⟨c, σ, rfl, by rw [hc]; simpa using h, List.prefix_rfl, ?_⟩
        intro j hj a' ha'
        rw [List.getElem?_eq_none (by simp only [List.length_singleton]; omega)] at ha'
        cases ha'
      | succ i => simp at h
    | some σ' =>
      simp only [hc] at h ⊢
      cases i with
      | zero =>
        refine ⟨c, σ, rfl, by rw [hc]; simpa using h, List.prefix_rfl, ?_⟩
        intro j hj a' ha'
        cases j with
        | zero => omega
        | succ j =>
          rw [List.getElem?_cons_succ] at ha'
          obtain ⟨c', σj, h1, h2, h3, _⟩ := ih ha'
          exact ⟨c', σ', σj, by rw [hc], by rw [List.getElem?_cons_succ]; exact h1, h2, h3⟩
      | succ i =>
        rw [List.getElem?_cons_succ] at h
        obtain ⟨c', σi, h1, h2, h3, h4⟩ := ih h
        refine ⟨c', σi, by rw [List.getElem?_cons_succ]; exact h1, h2, (call_mono hc).trans h3, ?_⟩
        intro j hj a' ha'
        cases j with
        | zero => omega
        | succ j =>
          rw [List.getElem?_cons_succ] at ha' ⊢
          exact h4 j (by omega) a' ha'

/-- a value made by a call is still there later -/
theorem made_at {σ : Heap} {cs : List Call} {i j : Nat} {c c' : Call} {h : Nat} {a : Answer} (hij : i < j) (hc : cs[i]? = some c) (hc' : cs[j]? = some c')
    (ha : (session env σ cs).2[i]? = some (.capsule h)) (ha' : (session env σ cs).2[j]? = some a) :
    ∃ σi σj o, call env σi c = (some (σi ++ [o]), .capsule σi.length) ∧ h = σi.length ∧ σj[h]? = some o ∧ call env σi c = store σi o ∧ (call env σj c').2 = a := by
  obtain ⟨c0, σi, h1, h2, _, h4⟩ := session_at ha
  rw [hc] at h1
  cases h1
  obtain ⟨c1, σ', σj, h5, h6, h7, h8⟩ := h4 j hij a ha'
  rw [hc'] at h6
  cases h6
  have key : ∃ o, call env σi c = store σi o := by
    cases c with
    | process l => cases h2
    | generate n => cases h2
    | index bs =>
      simp only [call] at h2 ⊢
      unfold index at h2 ⊢
      split at h2
      · exact ⟨_, rfl⟩
      · cases h2
    | search k t =>
      simp only [call] at h2
      unfold search at h2
      split at h2
      · cases h2
      · cases h2
      · split at h2 <;> cases h2
    | indexMat bs =>
      simp only [call] at h2 ⊢
      unfold indexMat at h2 ⊢
      split at h2
      · exact ⟨_, rfl⟩
      · cases h2
    | searchMat k ts =>
      simp only [call] at h2
      unfold searchMat at h2
      split at h2
      · cases h2
      · cases h2
      · unfold searchMatrix at h2
        split at h2
        · cases h2
        · split at h2
          · cases h2
          · split at h2 <;> cases h2
    | saveMat k =>
      simp only [call] at h2
      unfold saveMat at h2
      split at h2
      · cases h2
      · cases h2
      · split at h2 <;> cases h2
    | loadMat b =>
      simp only [call] at h2 ⊢
      unfold loadMat at h2 ⊢
      split at h2
      · exact ⟨_, rfl⟩
      · cases h2
  obtain ⟨o, ho⟩ := key
  rw [ho] at h2 h5
  cases h2
  cases h5
  refine ⟨σi, σj, o, ho, rfl, ?_, ho, h7⟩
  obtain ⟨t, rfl⟩ := h8
  simp

/-! ### C87 -/

/-- The distance given by `search` only depends on the lines given to `index` and on the target, whatever the other calls are. -/
theorem C87_search {σ : Heap} {cs : List Call} {i h : Nat} {bs : List Str} {t : Str} {a : Answer} (hm : MadeRows cs (session env σ cs).2 i h bs)
    (hc : cs[i]? = some (.search h t)) (ha : (session env σ cs).2[i]? = some a) :
    ∃ d, viaRows env.fp env.hash bs [t] = some [d] ∧ a = .distance d := by
  obtain ⟨j, hj, h1, h2⟩ := hm
  obtain ⟨σi, σj, o, _, _, h5, h6, h7⟩ := made_at hj h1 hc h2 ha
  simp only [call] at h6 h7
  unfold index at h6
  split at h6
  · rename_i fs hfs
    obtain rfl : o = .rows fs := by
      have := congrArg Prod.fst h6
      simp [store] at this
      exact this.symm
    unfold search at h7
    rw [h5] at h7
    simp only at h7
    obtain ⟨d, hd⟩ : ∃ d, LJ.Index.search env.fp env.hash fs t = some d := by
      unfold LJ.Index.search LJ.Index.intoFeature
      rw [LJ.Index.vectorize_eq]
      exact ⟨_, rfl⟩
    rw [hd] at h7
    refine ⟨d, ?_, h7.symm⟩
    unfold viaRows
    rw [hfs]
    show List.mapM _ _ = _
    rw [List.mapM_cons, hd]
    rfl
  · simp [store] at h6

/-- what is in a capsule made by `index_mat` -/
theorem madeMat_at (hf : env.fp.IsF32) {σ : Heap} {cs : List Call} {i h : Nat} {bs : List Str} {c : Call} {a : Answer} (hm : MadeMat cs (session env σ cs).2 i h bs)
    (hc : cs[i]? = some c) (ha : (session env σ cs).2[i]? = some a) :
    ∃ σj m, σj[h]? = some (.mat m) ∧ (call env σj c).2 = a ∧ matOf m = some (bs.map (rowOf env.fp env.hash)) ∧ m.val.cols.toNat = SIZE ∧
      ∃ b, matrix.enc m = some b := by
  obtain ⟨j, hj, h1, h2⟩ := hm
  obtain ⟨σi, σj, o, _, _, h5, h6, h7⟩ := made_at hj h1 hc h2 ha
  simp only [call] at h6
  unfold indexMat at h6
  split at h6
  · rename_i m hm
    obtain rfl : o = .mat m := by
      have := congrArg Prod.fst h6
      simp [store] at this
      exact this.symm
    exact ⟨σj, m, h5, h7, indexMat_memory hf hm⟩
  · simp [store] at h6

theorem loaded_at {σ : Heap} {cs : List Call} {i h : Nat} {b : Bytes} {c : Call} {a : Answer} (hm : Loaded cs (session env σ cs).2 i h b)
    (hc : cs[i]? = some c) (ha : (session env σ cs).2[i]? = some a) :
    ∃ σj m, σj[h]? = some (.mat m) ∧ (call env σj c).2 = a ∧ load matrix b = some m := by
  obtain ⟨j, hj, h1, h2⟩ := hm
  obtain ⟨σi, σj, o, _, _, h5, h6, h7⟩ := made_at hj h1 hc h2 ha
  simp only [call] at h6
  unfold loadMat at h6
  split at h6
  · rename_i m hm
    obtain rfl : o = .mat m := by
      have := congrArg Prod.fst h6
      simp [store] at this
      exact this.symm
    exact ⟨σj, m, h5, h7, hm⟩
  · simp [store] at h6

theorem searchMatrix_eq {m : Matrix} {bs ts : List Str} (h1 : matOf m = some (bs.map (rowOf env.fp env.hash))) (h2 : m.val.cols.toNat = SIZE) :
    ∃ ds, viaMat env.fp env.hash bs ts = some ds ∧ searchMatrix env m ts = .distances ds := by
  have e : LJ.Index.searchMat env.fp env.hash (bs.map (rowOf env.fp env.hash)) ts = viaMat env.fp env.hash bs ts := by
    unfold viaMat
    rw [indexMat_rows]
    rfl
  obtain ⟨ds, hds⟩ : ∃ ds, viaMat env.fp env.hash bs ts = some ds := ⟨_, LJ.Index.viaMat_eq env.fp bs ts⟩
  refine ⟨ds, hds, ?_⟩
  unfold searchMatrix
  rw [if_neg (by simpa using h2), h1]
  simp only [e, hds]

/-- The distances given by `search_mat` only depend on the lines given to `index_mat` and on the targets, whatever the other calls are. -/
theorem C87_search_mat (hf : env.fp.IsF32) {σ : Heap} {cs : List Call} {i h : Nat} {bs ts : List Str} {a : Answer} (hm : MadeMat cs (session env σ cs).2 i h bs)
    (hc : cs[i]? = some (.searchMat h ts)) (ha : (session env σ cs).2[i]? = some a) :
    ∃ ds, viaMat env.fp env.hash bs ts = some ds ∧ a = .distances ds := by
  obtain ⟨σj, m, h5, h7, h8, h9, _⟩ := madeMat_at hf hm hc ha
  simp only [call] at h7
  unfold searchMat at h7
  rw [h5] at h7
  simp only at h7
  obtain ⟨ds, e1, e2⟩ := searchMatrix_eq (ts := ts) h8 h9
  exact ⟨ds, e1, by rw [← h7, e2]⟩

/-- What `index_mat` made can always be saved. -/
theorem C87_save (hf : env.fp.IsF32) {σ : Heap} {cs : List Call} {i h : Nat} {bs : List Str} {a : Answer} (hm : MadeMat cs (session env σ cs).2 i h bs)
    (hc : cs[i]? = some (.saveMat h)) (ha : (session env σ cs).2[i]? = some a) : ∃ b, a = .bytes b := by
  obtain ⟨σj, m, h5, h7, _, _, b, hb⟩ := madeMat_at hf hm hc ha
  simp only [call] at h7
  unfold saveMat at h7
  rw [h5] at h7
  simp only [hb] at h7
  exact ⟨b, h7.symm⟩

/-- what saved bytes are -/
theorem saved_matrix (hf : env.fp.IsF32) {σ : Heap} {cs : List Call} {b : Bytes} {bs : List Str} (h : Saved cs (session env σ cs).2 b bs) :
    ∃ m, matrix.enc m = some b ∧ matOf m = some (bs.map (rowOf env.fp env.hash)) ∧ m.val.cols.toNat = SIZE := by
  obtain ⟨k, h, hc, ha, hm⟩ := h
  obtain ⟨σj, m, h5, h7, h8, h9, b', hb⟩ := madeMat_at hf hm hc ha
  simp only [call] at h7
  unfold saveMat at h7
  rw [h5] at h7
  simp only [hb] at h7
  cases h7
  exact ⟨m, hb, h8, h9⟩

/-- The bytes given by `save_mat` in a session can be loaded in any session, even followed by other bytes; the distances for
what is loaded are those for the lines given to `index_mat` in the first session, and saving it again gives the same bytes. -/
theorem C87_saved (hf : env.fp.IsF32) {σ τ : Heap} {cs cs' : List Call} {b rest : Bytes} {bs : List Str} (hs : Saved cs (session env σ cs).2 b bs) :
    (∀ (i : Nat) (a : Answer), cs'[i]? = some (.loadMat (b ++ rest)) → (session env τ cs').2[i]? = some a → ∃ h, a = .capsule h) ∧
    (∀ (i h : Nat) (ts : List Str) (a : Answer), Loaded cs' (session env τ cs').2 i h (b ++ rest) → cs'[i]? = some (.searchMat h ts) → (session env τ cs').2[i]? = some a →
      ∃ xs, viaMat env.fp env.hash bs ts = some xs ∧ a = .distances xs) ∧
    ∀ (i h : Nat) (a : Answer), Loaded cs' (session env τ cs').2 i h (b ++ rest) → cs'[i]? = some (.saveMat h) → (session env τ cs').2[i]? = some a → a = .bytes b := by
  obtain ⟨m, h1, h2, h3⟩ := saved_matrix hf hs
  have hl := (LJ.Codec.C70_matrix h1 rest).2
  refine ⟨?_, ?_, ?_⟩
  · intro i a hc ha
    obtain ⟨c, σi, e1, e2, _⟩ := session_at ha
    rw [hc] at e1
    cases e1
    simp only [call] at e2
    unfold loadMat at e2
    rw [hl] at e2
    exact ⟨_, e2.symm⟩
  · intro i h ts a hm hc ha
    obtain ⟨σj, m', h5, h7, h8⟩ := loaded_at hm hc ha
    rw [hl] at h8
    cases h8
    simp only [call] at h7
    unfold searchMat at h7
    rw [h5] at h7
    simp only at h7
    obtain ⟨ds, e1, e2⟩ := searchMatrix_eq (ts := ts) h2 h3
    exact ⟨ds, e1, by rw [← h7, e2]⟩
  · intro i h a hm hc ha
    obtain ⟨σj, m', h5, h7, h8⟩ := loaded_at hm hc ha
    rw [hl] at h8
    cases h8
    simp only [call] at h7
    unfold saveMat at h7
    rw [h5] at h7
    simp only [h1] at h7
    exact h7.symm

/-- Loading fails with a python exception, and makes no new value, for the bytes which are not those of a matrix; a proper part
of what was saved is never loaded. -/
theorem C87_load {b p : Bytes} (hf : env.fp.IsF32) {σ : Heap} {cs : List Call} {bs : List Str} (hs : Saved cs (session env σ cs).2 b bs) (h1 : p <+: b) (h2 : p ≠ b)
    (τ : Heap) : call env τ (.loadMat p) = (some τ, .panic) := by
  obtain ⟨m, hm, _⟩ := saved_matrix hf hs
  have : load matrix p = none := by
    rw [load, LJ.Codec.truncated LJ.Codec.matrix_lawful hm h1 h2]; rfl
  simp only [call]
  unfold loadMat
  rw [this]

/-- A loaded matrix which was not made with the size of the vectors of the index is refused by `search_mat`, with a python exception. -/
theorem C87_dimension {σ : Heap} {cs : List Call} {i h : Nat} {b : Bytes} {m : Matrix} {ts : List Str} {a : Answer} (hl : Loaded cs (session env σ cs).2 i h b)
    (hm : load matrix b = some m) (hd : m.val.cols.toNat ≠ 260000) (hc : cs[i]? = some (.searchMat h ts)) (ha : (session env σ cs).2[i]? = some a) : a = .panic := by
  obtain ⟨σj, m', h5, h7, h8⟩ := loaded_at hl hc ha
  rw [hm] at h8
  cases h8
  simp only [call] at h7
  unfold searchMat at h7
  rw [h5] at h7
  simp only at h7
  unfold searchMatrix at h7
  rw [if_pos (show m.val.cols.toNat ≠ SIZE from hd)] at h7
  exact h7.symm

/-- a session goes on to its end, or to undefined behaviour -/
theorem session_ends (σ : Heap) (cs : List Call) : ((session env σ cs).1.isSome ∧ (session env σ cs).2.length = cs.length) ∨
    ((session env σ cs).1 = none ∧ ∃ i : Nat, (session env σ cs).2[i]? = some .undefined) := by
  induction cs generalizing σ with
  | nil => exact .inl ⟨rfl, rfl⟩
  | cons c cs ih =>
    unfold session
    cases hc : call env σ c with
    | mk o a0 =>
    cases o with
    | none =>
      refine .inr ⟨rfl, 0, ?_⟩
      show some a0 = some .undefined
      have st : ∀ {o : Object}, store σ o ≠ (none, a0) := by intro o h; cases h
      cases c with
      | process l => cases hc
      | generate n => cases hc
      | index bs =>
        simp only [call] at hc
        unfold index at hc
        split at hc
        · exact absurd hc st
        · cases hc
      | search k t =>
        simp only [call] at hc
        unfold search at hc
        split at hc
        · cases hc
        · cases hc; rfl
        · split at hc <;> cases hc
      | indexMat bs =>
        simp only [call] at hc
        unfold indexMat at hc
        split at hc
        · exact absurd hc st
        · cases hc
      | searchMat k ts =>
        simp only [call] at hc
        unfold searchMat at hc
        split at hc
        · cases hc
        · cases hc; rfl
        · cases hc
      | saveMat k =>
        simp only [call] at hc
        unfold saveMat at hc
        split at hc
        · cases hc
        · cases hc; rfl
        · split at hc <;> cases hc
      | loadMat b =>
        simp only [call] at hc
        unfold loadMat at hc
        split at hc
        · exact absurd hc st
        · cases hc
    | some σ' =>
      simp only
      rcases ih σ' with ⟨h1, h2⟩ | ⟨h1, i, h2⟩
      · exact .inl ⟨h1, by rw [List.length_cons, List.length_cons, h2]⟩
      · exact .inr ⟨h1, i + 1, by rw [List.getElem?_cons_succ]; exact h2⟩

/-- Answers which show that a value was not of the right kind. -/
def Wrong (a : Answer) : Prop := a = .undefined ∨ a = .notACapsule

theorem searchMatrix_fine (m : Matrix) (ts : List Str) : ¬ Wrong (searchMatrix env m ts) := by
  rintro (h | h) <;> unfold searchMatrix at h <;> split at h <;> first | cases h | (split at h <;> first | cases h | (split at h <;> cases h))

theorem saveMat_fine {σ : Heap} {h : Nat} {m : Matrix} (hm : σ[h]? = some (.mat m)) : ¬ Wrong (saveMat σ h).2 := by
  unfold saveMat
  rw [hm]
  simp only
  rintro (h | h) <;> split at h <;> cases h

/-- A program which gives to each function what the right function returned never has undefined behaviour: all its calls are answered. -/
theorem C87_defined {σ : Heap} {cs : List Call} (hf : env.fp.IsF32) (hd : Disciplined cs (session env σ cs).2) :
    (session env σ cs).1.isSome ∧ (session env σ cs).2.length = cs.length ∧
      ∀ a ∈ (session env σ cs).2, a ≠ .undefined ∧ a ≠ .notACapsule := by
  have key : ∀ (i : Nat) a, (session env σ cs).2[i]? = some a → ¬ Wrong a := by
    intro i a ha
    obtain ⟨c, σi, h1, h2, _⟩ := session_at ha
    cases c with
    | process l => rw [← h2]; rintro (h | h) <;> cases h
    | generate n => rw [← h2]; rintro (h | h) <;> cases h
    | index bs =>
      rw [← h2]
      simp only [call]
      unfold index
      split <;> rintro (h | h) <;> cases h
    | indexMat bs =>
      rw [← h2]
      simp only [call]
      unfold indexMat
      split <;> rintro (h | h) <;> cases h
    | loadMat b =>
      rw [← h2]
      simp only [call]
      unfold loadMat
      split <;> rintro (h | h) <;> cases h
    | search k t =>
      obtain ⟨bs, hm⟩ := hd.1 i k t h1
      obtain ⟨d, _, rfl⟩ := C87_search hm h1 ha
      rintro (h | h) <;> cases h
    | searchMat k ts =>
      have : ∃ σj m, σj[k]? = some (.mat m) ∧ (call env σj (.searchMat k ts)).2 = a := by
        rcases hd.2.1 i k ts h1 with ⟨bs, hm⟩ | ⟨b, hm⟩
        · obtain ⟨σj, m, e1, e2, _⟩ := madeMat_at hf hm h1 ha
          exact ⟨σj, m, e1, e2⟩
        · obtain ⟨σj, m, e1, e2, _⟩ := loaded_at hm h1 ha
          exact ⟨σj, m, e1, e2⟩
      obtain ⟨σj, m, e1, e2⟩ := this
      simp only [call] at e2
      unfold searchMat at e2
      rw [e1] at e2
      rw [← e2]
      exact searchMatrix_fine m ts
    | saveMat k =>
      have : ∃ σj m, σj[k]? = some (.mat m) ∧ (call env σj (.saveMat k)).2 = a := by
        rcases hd.2.2 i k h1 with ⟨bs, hm⟩ | ⟨b, hm⟩
        · obtain ⟨σj, m, e1, e2, _⟩ := madeMat_at hf hm h1 ha
          exact ⟨σj, m, e1, e2⟩
        · obtain ⟨σj, m, e1, e2, _⟩ := loaded_at hm h1 ha
          exact ⟨σj, m, e1, e2⟩
      obtain ⟨σj, m, e1, e2⟩ := this
      rw [← e2]
      exact saveMat_fine e1
  have hno : ∀ a ∈ (session env σ cs).2, ¬ Wrong a := by
    intro a ha
    obtain ⟨i, hi⟩ := List.getElem?_of_mem ha
    exact key i a hi
  rcases session_ends (env := env) σ cs with ⟨h1, h2⟩ | ⟨_, i, h2⟩
  · exact ⟨h1, h2, fun a ha => ⟨fun e => hno a ha (.inl e), fun e => hno a ha (.inr e)⟩⟩
  · exact absurd (.inl rfl) (key i _ h2)

/-- The types of the values are not checked: a program which gives what `index` returned to `search_mat` has undefined behaviour. -/
theorem C87_false (env : Env) : session env [] [.index ["a".toList], .searchMat 0 ["a".toList]] = (none, [.capsule 0, .undefined]) := by
  obtain ⟨fs, hfs⟩ : ∃ fs, LJ.Index.index env.fp env.hash ["a".toList] = some fs := by
    unfold LJ.Index.index LJ.Index.intoFeature
    rw [List.mapM_cons, LJ.Index.vectorize_eq]
    exact ⟨_, rfl⟩
  have h1 : call env [] (.index ["a".toList]) = (some [.rows fs], .capsule 0) := by
    simp only [call]
    unfold index
    rw [hfs]
    rfl
  have h2 : call env [.rows fs] (.searchMat 0 ["a".toList]) = (none, .undefined) := rfl
  unfold session
  rw [h1]
  simp only
  unfold session
  rw [h2]

/-- Less than 2^41 lines can always be indexed: `index` and `index_mat` give a new value, and the others are unchanged. -/
theorem C87_index (σ : Heap) (bs : List Str) :
    (∃ o, call env σ (.index bs) = (some (σ ++ [o]), .capsule σ.length)) ∧
    (bs.length < 2 ^ 41 → ∃ o, call env σ (.indexMat bs) = (some (σ ++ [o]), .capsule σ.length)) := by
  constructor
  · obtain ⟨fs, hfs⟩ : ∃ fs, LJ.Index.index env.fp env.hash bs = some fs := by
      unfold LJ.Index.index LJ.Index.intoFeature
      rw [mapM_some (g := fun l => ⟨LJ.Index.dot env.fp (LJ.Index.toRow (vecOf env.hash l)) (LJ.Index.toRow (vecOf env.hash l)), LJ.Index.toRow (vecOf env.hash l)⟩)]
      · exact ⟨_, rfl⟩
      · intro l _
        rw [LJ.Index.vectorize_eq]
        rfl
    refine ⟨.rows fs, ?_⟩
    simp only [call]
    unfold index
    rw [hfs]
    rfl
  · intro hl
    have hlen : ∀ bs : List Str, (bs.map (rowOf env.fp env.hash)).flatten.length ≤ bs.length * SIZE := by
      intro bs
      induction bs with
      | nil => simp
      | cons l bs ih =>
        have : (rowOf env.fp env.hash l).length ≤ SIZE := by
          unfold rowOf LJ.Index.toRow
          simp only [List.length_map]
          exact LJ.Index.vecOf_length_le l
        simp only [List.map_cons, List.flatten_cons, List.length_append, List.length_cons, Nat.add_mul, Nat.one_mul]
        omega
    have hn := hlen bs
    have hb : bs.length * SIZE < 2 ^ 60 := by unfold SIZE; omega
    have hv : (rawOf (bs.map (rowOf env.fp env.hash))).valid = true :=
      rawOf_valid (rows_proper _ _ _) ⟨by rw [List.length_map]; omega, by omega⟩
    have h1 : (rawOf (bs.map (rowOf env.fp env.hash))).indptr.length < 2 ^ 60 := by
      show (starts 0 _).length < _
      rw [starts_length, List.length_map]
      omega
    have h2 : (rawOf (bs.map (rowOf env.fp env.hash))).indices.length < 2 ^ 60 := by
      show (List.map _ _).length < _
      rw [List.length_map]
      omega
    refine ⟨.mat ⟨_, hv⟩, ?_⟩
    simp only [call]
    unfold indexMat
    rw [indexMat_rows, Option.bind_some]
    unfold toMatrix
    rw [dif_pos ⟨hv, h1, h2⟩]
    rfl

/-- The hypotheses of the theorems are met: a session which indexes two lines, saves the matrix, and a second one which loads it and searches. -/
example (hf : env.fp.IsF32) : ∃ b, Saved [.indexMat ["a b".toList, "c".toList], .saveMat 0] (session env [] [.indexMat ["a b".toList, "c".toList], .saveMat 0]).2 b ["a b".toList, "c".toList] ∧
    Disciplined [.loadMat b, .searchMat 0 ["a".toList]] (session env [] [.loadMat b, .searchMat 0 ["a".toList]]).2 := by
  obtain ⟨o, ho⟩ := (C87_index (env := env) [] ["a b".toList, "c".toList]).2 (by decide)
  have hs : (session env [] [.indexMat ["a b".toList, "c".toList], .saveMat 0]).2 = [.capsule 0, (call env [o] (.saveMat 0)).2] := by
    unfold session
    rw [ho]
    show _ :: (session env [o] [.saveMat 0]).2 = _
    unfold session
    cases hc : call env [o] (.saveMat 0) with
    | mk x y => cases x <;> rfl
  have hm : MadeMat [.indexMat ["a b".toList, "c".toList], .saveMat 0] (session env [] [.indexMat ["a b".toList, "c".toList], .saveMat 0]).2 1 0 ["a b".toList, "c".toList] :=
    ⟨0, by omega, rfl, by rw [hs]; rfl⟩
  obtain ⟨b, hb⟩ := C87_save (a := (call env [o] (.saveMat 0)).2) hf hm rfl (by rw [hs]; rfl)
  have hsv : Saved [.indexMat ["a b".toList, "c".toList], .saveMat 0] (session env [] [.indexMat ["a b".toList, "c".toList], .saveMat 0]).2 b ["a b".toList, "c".toList] :=
    ⟨1, 0, rfl, by rw [hs, ← hb]; rfl, hm⟩
  refine ⟨b, hsv, ?_⟩
  have hl : (session env [] [.loadMat b, .searchMat 0 ["a".toList]]).2[0]? = some (.capsule 0) := by
    obtain ⟨m, h1, _⟩ := saved_matrix hf hsv
    have hl := (LJ.Codec.C70_matrix h1 []).2
    rw [List.append_nil] at hl
    have : call env [] (.loadMat b) = (some [.mat m], .capsule 0) := by
      simp only [call]
      unfold loadMat
      rw [hl]
      rfl
    unfold session
    rw [this]
    rfl
  refine ⟨?_, ?_, ?_⟩
  · intro i h t hc
    match i with
    | 0 => cases hc
    | 1 => cases hc
    | i + 2 => simp at hc
  · intro i h t hc
    match i with
    | 0 => cases hc
    | 1 => cases hc; exact .inr ⟨b, 0, by omega, rfl, hl⟩
    | i + 2 => simp at hc
  · intro i h hc
    match i with
    | 0 => cases hc
    | 1 => cases hc
    | i + 2 => simp at hc

end LJ.Python

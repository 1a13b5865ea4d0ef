/-
C92, for every reader: the nested calls of one call of `next`, and of all of them together, are at most linear in what is read.
-/
import Verif.Iterator.Depth
namespace LJ.Iterator
open Spec
variable {ε : Type}

namespace Spec

/-- What a reader delivers: its bytes and its results -/
def amount (r : Reader ε) : Nat := (r.map fun | .data bs => bs.length + 1 | .err _ => 1).sum

end Spec

theorem readerSize_amount (r : Reader ε) : readerSize r = amount r := by
  induction r with
  | nil => rfl
  | cons e r ih => cases e <;> simp [readerSize, amount, ih] <;> omega

/-- the bytes which are not the filling of `resize` -/
def nz (b : Bytes) : Nat := b.countP (· ≠ 0)

theorem nz_append (a b : Bytes) : nz (a ++ b) = nz a + nz b := List.countP_append
theorem nz_le (b : Bytes) : nz b ≤ b.length := List.countP_le_length
theorem nz_drop (b : Bytes) (n : Nat) : nz (b.drop n) ≤ nz b := (List.drop_sublist n b).countP_le
theorem nz_take (b : Bytes) (n : Nat) : nz (b.take n) ≤ nz b := (List.take_sublist n b).countP_le

theorem nz_resize (b : Bytes) (n : Nat) : nz (resize b n) ≤ nz b := by
  unfold resize
  rw [nz_append]
  have : nz (List.replicate (n - b.length) (0 : UInt8)) = 0 := by
    unfold nz
    rw [List.countP_eq_zero]
    intro a ha
    rw [List.eq_of_mem_replicate ha]
    decide
  have := nz_take b n
  omega

theorem lexByte_nz {l l' : Lex} {c : UInt8} {sep : Sep} (h : lexByte l c = (l', some sep)) : c ≠ 0 := by
  rintro rfl
  unfold lexByte matchJsonKv at h
  cases hl : l.escaped <;> cases hj : l.splitJson <;> simp_all (decide := true)

theorem scan_nz {l l' : Lex} {bs : Bytes} {i j : Nat} {sep : Sep} (h : scan l bs i = (l', some (j, sep))) : i ≤ j ∧ ∃ c, bs[j - i]? = some c ∧ c ≠ 0 := by
  induction bs generalizing l i with
  | nil => simp [scan] at h
  | cons c cs ih =>
    simp only [scan] at h
    split at h
    · rename_i hx
      simp only [Prod.mk.injEq, Option.some.injEq] at h
      obtain ⟨_, rfl, _⟩ := h
      exact ⟨Nat.le_refl _, c, by simp, lexByte_nz hx⟩
    · obtain ⟨h1, c', h2, h3⟩ := ih h
      refine ⟨by omega, c', ?_, h3⟩
      rw [show j - i = (j - (i + 1)) + 1 by omega]
      simpa using h2

/-- what is dropped with a separator has a byte which is not filling -/
theorem findNextLine_nz {cfg : Cfg} {s s' : BL ε} {pos : Int} {sep : Sep} (h : s.findNextLine cfg = .res s' (some (pos, sep))) :
    nz (s.buf.drop (pos + sep.len).toNat) < nz s.buf := by
  unfold BL.findNextLine at h
  split at h
  · cases h
  · split at h
    · cases h
    · rename_i hp _ lex i sep' hs
      obtain ⟨hi, c, hc, hne⟩ := scan_nz hs
      dsimp only at h
      generalize hq : (if sep' = Sep.subLine then (i : Int) - 1 else (i : Int)) = q at h
      split at h
      · cases h
      · injection h with h1 h2
        simp only [Option.some.injEq, Prod.mk.injEq] at h2
        obtain ⟨rfl, rfl⟩ := h2
        have e : (q + sep'.len).toNat = i + 1 := by
          rw [← hq]
          cases sep' <;> simp [Sep.len] <;> omega
        rw [e]
        rw [List.getElem?_drop, show s.prevPos + (i - s.prevPos) = i by omega] at hc
        obtain ⟨hlt, rfl⟩ := List.getElem?_eq_some_iff.1 hc
        have hd : s.buf.drop i = s.buf[i] :: s.buf.drop (i + 1) := List.drop_eq_getElem_cons hlt
        have h1 := nz_drop s.buf i
        rw [hd] at h1
        have h2 : nz (s.buf[i] :: s.buf.drop (i + 1)) = nz (s.buf.drop (i + 1)) + 1 := by
          unfold nz
          rw [List.countP_cons_of_pos (by simpa using hne)]
        omega

/-- what is left to do -/
def pot (s : BL ε) : Nat := 3 * readerSize s.reader + nz s.buf

theorem read_size {n : Nat} {r r' : Reader ε} {bs : Bytes} (h : Reader.read n r = (.ok bs, r')) : readerSize r' + bs.length ≤ readerSize r := by
  match r with
  | [] => simp [Reader.read] at h; obtain ⟨rfl, rfl⟩ := h; simp
  | .err e :: r => simp [Reader.read] at h
  | .data b :: r =>
    simp only [Reader.read, Prod.mk.injEq, Except.ok.injEq] at h
    obtain ⟨rfl, rfl⟩ := h
    split
    · simp [readerSize, List.length_take]; omega
    · simp only [readerSize, List.length_drop, List.length_take]
      omega

theorem pot_call {cfg : Cfg} {f f' : Fn} {s s' : BL ε} (h : body cfg f s = .call f' s') : pot s' + f'.rank + 1 ≤ pot s + f.rank := by
  unfold pot
  cases f with
  | readSlice =>
    simp only [body, readSlice] at h
    split at h
    · split at h <;> cases h
    · rename_i bs r hne hr
      injection h with h1 h2
      subst h1 h2
      have h3 := read_size hr
      have h4 : bs.length ≠ 0 := fun h => hne (by rw [List.length_eq_zero_iff.1 h])
      have h5 := nz_le bs
      have h6 := (nz_take (resize s.buf (s.buf.length + cfg.chunkSize)) s.buf.length).trans (nz_resize s.buf _)
      simp only [nz_append, Fn.rank]
      omega
    · cases h
  | getSlice =>
    simp only [body, getSlice] at h
    split at h
    · cases h
    · rename_i s1 hf
      have := findNextLine_none hf
      split at h <;> injection h with h1 h2 <;> subst h1 h2 <;> simp only [this.1, this.2, Fn.rank]
      · have : nz ([] : Bytes) = 0 := rfl
        omega
      · omega
    · rename_i s1 pos sep hf
      have := findNextLine_some hf
      have hz := findNextLine_nz hf
      split at h
      · split at h
        · injection h with h1 h2
          subst h1 h2
          simp only [this.1, this.2.1, Fn.rank]
          omega
        · cases h
      · split at h
        · cases h
        · split at h
          · cases h
          · split at h
            · rename_i h0 h1 h2 h3
              injection h with h1 h2
              subst h1 h2
              simp only [this.1, this.2.1, Fn.rank, List.drop_drop] at *
              rw [show pos.toNat + sep.len = (pos + sep.len).toNat by omega]
              omega
            · cases h
  | dropUntilNextLine =>
    simp only [body, dropUntilNextLine] at h
    split at h
    · cases h
    · cases h
    · rename_i bs r hne hr
      have h3 := read_size hr
      have h4 : bs.length ≠ 0 := fun h => hne (by rw [List.length_eq_zero_iff.1 h])
      have h5 := nz_le bs
      have h6 := (nz_drop (resize s.buf cfg.chunkSize) bs.length).trans (nz_resize s.buf _)
      have h0 : nz ([] : Bytes) = 0 := rfl
      split at h
      · cases h
      · rename_i s1 hf
        have := findNextLine_none hf
        injection h with h1 h2
        subst h1 h2
        simp only [this.1, Fn.rank]
        omega
      · rename_i s1 pos sep hf
        have := findNextLine_some hf
        split at h
        · injection h with h1 h2
          subst h1 h2
          simp only [this.1, Fn.rank]
          omega
        · split at h
          · injection h with h1 h2
            subst h1 h2
            have hz := findNextLine_nz hf
            simp only [this.1, this.2.1, Fn.rank, nz_append] at *
            omega
          · cases h

theorem updateLineCounter_buf (s : BL ε) (st : St) : (s.updateLineCounter st).buf = s.buf ∧ (s.updateLineCounter st).reader = s.reader := ⟨rfl, rfl⟩

theorem pot_ret {cfg : Cfg} {f : Fn} {s s' : BL ε} {o : Outcome ε} (h : body cfg f s = .ret s' o) : pot s' ≤ pot s := by
  unfold pot
  cases f with
  | readSlice =>
    have h6 := nz_resize s.buf (s.buf.length + cfg.chunkSize)
    simp only [body, readSlice] at h
    split at h
    · rename_i r hr
      have h3 := read_size hr
      split at h <;> injection h with h1 h2 <;> subst h1
      · have := nz_drop (resize s.buf (s.buf.length + cfg.chunkSize)) s.buf.length
        simp only [updateLineCounter_buf]
        omega
      · simp only
        omega
    · cases h
    · rename_i e r hr
      have := read_err_size hr
      injection h with h1 h2
      subst h1
      simp only
      omega
  | getSlice =>
    simp only [body, getSlice] at h
    split at h
    · injection h with h1 h2
      subst h1
      exact Nat.le_refl _
    · split at h <;> cases h
    · rename_i s1 pos sep hf
      have := findNextLine_some hf
      split at h
      · split at h
        · cases h
        · injection h with h1 h2
          subst h1
          simp only [this.1, this.2.1]
          omega
      · split at h
        · injection h with h1 h2
          subst h1
          simp only [this.1, this.2.1]
          omega
        · split at h
          · injection h with h1 h2
            subst h1
            simp only [this.1, this.2.1]
            omega
          · split at h
            · cases h
            · injection h with h1 h2
              subst h1
              have := (nz_drop (s1.buf.drop pos.toNat) sep.len).trans (nz_drop s1.buf pos.toNat)
              simp only [*] at *
              omega
  | dropUntilNextLine =>
    have h6 := nz_resize s.buf cfg.chunkSize
    simp only [body, dropUntilNextLine] at h
    split at h
    · rename_i r hr
      have h3 := read_size hr
      injection h with h1 h2
      subst h1
      simp only
      omega
    · rename_i e r hr
      have := read_err_size hr
      injection h with h1 h2
      subst h1
      simp only
      omega
    · rename_i bs r hne hr
      have h3 := read_size hr
      have h5 := nz_le bs
      have h6 := (nz_drop (resize s.buf cfg.chunkSize) bs.length).trans h6
      split at h
      · injection h with h1 h2
        subst h1
        simp only [nz_append]
        omega
      · cases h
      · rename_i s1 pos sep hf
        have := findNextLine_some hf
        split at h
        · cases h
        · split at h
          · cases h
          · injection h with h1 h2
            subst h1
            simp only [this.1, this.2.1, nz_append]
            omega

theorem depth_pot (cfg : Cfg) (f : Fn) (s : BL ε) : depth cfg f s + pot (run cfg f s).1 ≤ pot s + f.rank + 1 := by
  rw [depth_eq, run_eq]
  cases h : body cfg f s with
  | ret s' o =>
    have := pot_ret h
    simp only
    omega
  | call f' s' =>
    have := pot_call h
    have := depth_pot cfg f' s'
    simp only
    omega
termination_by (readerSize s.reader, f.rank, s.buf.length)
decreasing_by exact body_call_lt h

theorem nextDepth_pot (cfg : Cfg) (s : BL ε) : s.nextDepth cfg + pot (s.next cfg).1 ≤ pot s + 2 := by
  unfold BL.nextDepth BL.next
  cases s.state with
  | eof => simp
  | scanning sep =>
    simp only
    by_cases he : s.buf.isEmpty = true
    · rw [if_pos he, if_pos he]
      have := depth_pot cfg .readSlice s
      simp only [Fn.rank] at this
      omega
    · rw [if_neg he, if_neg he]
      have := depth_pot cfg .getSlice s
      simp only [Fn.rank] at this
      omega

theorem run_pot (cfg : Cfg) (f : Fn) (s : BL ε) : pot (run cfg f s).1 ≤ pot s + f.rank := by
  have h := depth_pot cfg f s
  have : 1 ≤ depth cfg f s := by
    rw [depth_eq]
    cases body cfg f s <;> simp
  omega

theorem getSlice_pot (cfg : Cfg) (s : BL ε) : pot (run cfg .getSlice s).1 ≤ pot s := by
  rw [run_eq]
  cases h : body cfg .getSlice s with
  | ret s' o => exact pot_ret h
  | call f' s' =>
    have h1 := pot_call h
    have h2 := run_pot cfg f' s'
    have h3 : Fn.getSlice.rank = 1 := rfl
    simp only
    omega

theorem next_pot (cfg : Cfg) (s : BL ε) : pot (s.next cfg).1 ≤ pot s := by
  unfold BL.next
  cases s.state with
  | eof => simp
  | scanning sep =>
    simp only
    split
    · exact run_pot cfg .readSlice s
    · exact getSlice_pot cfg s

/-- C92, for every reader, whatever its results and the content: `n` calls of `next` make, all together, at most 3 nested calls for each byte
and each result of the reader, and 2 for each of them. -/
theorem C92_work (ε : Type) (checks json : Bool) (r : Reader ε) (n : Nat) :
    ((List.range n).map fun k => ((BL.new r json).after (build checks) k).nextDepth (build checks)).sum ≤ 3 * amount r + 2 * n := by
  have key : ((List.range n).map fun k => ((BL.new r json).after (build checks) k).nextDepth (build checks)).sum +
      pot ((BL.new r json).after (build checks) n) ≤ 3 * amount r + 2 * n := by
    induction n with
    | zero => simp [BL.after, pot, BL.new, readerSize_amount, nz]
    | succ n ih =>
      rw [List.range_succ, List.map_append, List.sum_append]
      have := nextDepth_pot (build checks) ((BL.new r json).after (build checks) n)
      simp only [List.map_cons, List.map_nil, List.sum_cons, List.sum_nil, BL.after]
      omega
  omega

/-- C92, for every reader: no call of `next` nests more than 3 calls for each byte and each result of the reader, and 2 more. -/
theorem C92_bound (ε : Type) (checks json : Bool) (r : Reader ε) (n : Nat) :
    ((BL.new r json).after (build checks) n).nextDepth (build checks) ≤ 3 * amount r + 2 := by
  have key : ∀ n, pot ((BL.new r json).after (build checks) n) ≤ 3 * amount r := by
    intro n
    induction n with
    | zero => simp [BL.after, pot, BL.new, readerSize_amount, nz]
    | succ n ih =>
      have : pot (((BL.new r json).after (build checks) n).next (build checks)).1 ≤ pot ((BL.new r json).after (build checks) n) := next_pot _ _
      simp only [BL.after]
      omega
  have := nextDepth_pot (build checks) ((BL.new r json).after (build checks) n)
  have := key n
  omega

/-- Non-vacuity of `C92_bound` and `C92_work`: a reader of 8 bytes in two blocks, which then fails. -/
example : amount ([.data (ascii "a\n\nb"), .data (ascii "cde\n"), .err ()] : Reader Unit) = 11 ∧
    ((BL.new ([.data (ascii "a\n\nb"), .data (ascii "cde\n"), .err ()] : Reader Unit) false).after (build true) 1).nextDepth (build true) ≤ 35 :=
  ⟨by decide, C92_bound Unit true false [.data (ascii "a\n\nb"), .data (ascii "cde\n"), .err ()] 1⟩

end LJ.Iterator

/-
Consuming the line iterator until its end or its first error, as every user of it in the
repository does: `for line in BytesLines::new(..) { let line = line?; … }`
(model/src/process.rs:48-49 and 140-141).
-/
import Verif.Iterator.Model
namespace LJ.Iterator

/-- How a complete consumption ends. -/
inductive End (ε : Type) where
  | finished
  | failed (e : ε)
  | panicked
deriving DecidableEq, Repr

theorem run_eq {ε : Type} (cfg : Cfg) (f : Fn) (s : BL ε) :
    run cfg f s = match body cfg f s with
      | .ret s o => (s, o)
      | .call f' s' => run cfg f' s' := by
  rw [run]
  split <;> simp_all

theorem read_size_le {ε : Type} {n : Nat} {r r' : Reader ε} {x : Except ε Bytes}
    (h : Reader.read n r = (x, r')) : readerSize r' ≤ readerSize r := by
  match r with
  | [] => simp [Reader.read] at h; simp [h.2]
  | .err e :: r => simp [Reader.read] at h; simp [readerSize, h.2]
  | .data b :: r =>
    simp only [Reader.read, Prod.mk.injEq] at h
    obtain ⟨_, h2⟩ := h
    subst h2
    split <;> simp [readerSize] <;> omega

/-- The (reader, buffer) size strictly decreases. -/
def Smaller {ε : Type} (s' s : BL ε) : Prop :=
  readerSize s'.reader < readerSize s.reader ∨
    (readerSize s'.reader = readerSize s.reader ∧ s'.buf.length < s.buf.length)

theorem body_call_le {ε : Type} {cfg : Cfg} {f f' : Fn} {s s' : BL ε}
    (h : body cfg f s = .call f' s') :
    readerSize s'.reader < readerSize s.reader ∨
      (readerSize s'.reader = readerSize s.reader ∧ s'.buf.length ≤ s.buf.length) := by
  cases f with
  | getSlice =>
    right
    simp only [body, getSlice] at h
    split at h
    · cases h
    · rename_i s1 hf
      have := findNextLine_none hf
      split at h <;> injection h with h1 h2 <;> subst h1 h2 <;> simp [this.1, this.2]
    · rename_i s1 pos sep hf
      have := findNextLine_some hf
      split at h
      · split at h
        · injection h with h1 h2
          subst h1 h2
          simp [this.1, this.2]
        · cases h
      · split at h
        · cases h
        · split at h
          · cases h
          · split at h
            · injection h with h1 h2
              subst h1 h2
              simp [this.1, this.2]
            · cases h
  | readSlice =>
    have := body_call_lt h
    rcases (Prod.lex_def).1 this with h1 | ⟨h1, h2⟩
    · exact .inl h1
    · rcases (Prod.lex_def).1 h2 with h3 | ⟨h3, h4⟩
      · exact absurd h3 (by simp [Fn.rank])
      · exact .inr ⟨h1, Nat.le_of_lt h4⟩
  | dropUntilNextLine =>
    have := body_call_lt h
    rcases (Prod.lex_def).1 this with h1 | ⟨h1, h2⟩
    · exact .inl h1
    · rcases (Prod.lex_def).1 h2 with h3 | ⟨h3, h4⟩
      · exact absurd h3 (by simp [Fn.rank])
      · exact .inr ⟨h1, Nat.le_of_lt h4⟩

theorem body_ret_line {ε : Type} {cfg : Cfg} {f : Fn} {s s' : BL ε} {bs : Bytes} {nr : Nat}
    (h : body cfg f s = .ret s' (.line bs nr)) : s'.state = .eof ∨ Smaller s' s := by
  cases f with
  | getSlice =>
    simp only [body, getSlice] at h
    split at h
    · cases h
    · split at h <;> cases h
    · rename_i s1 pos sep hf
      have := findNextLine_some hf
      split at h
      · split at h <;> cases h
      · split at h
        · cases h
        · split at h
          · cases h
          · split at h
            · cases h
            · injection h with h1 h2
              subst h1
              right; right
              have := sep.len_pos
              simp only [List.length_drop] at *
              simp_all
              omega
  | readSlice =>
    simp only [body, readSlice] at h
    split at h
    · split at h
      · injection h with h1 h2; subst h1; left; rfl
      · cases h
    · cases h
    · cases h
  | dropUntilNextLine =>
    simp only [body, dropUntilNextLine] at h
    split at h
    · cases h
    · cases h
    · split at h
      · cases h
      · cases h
      · split at h
        · cases h
        · split at h <;> cases h

theorem run_line {ε : Type} {cfg : Cfg} {f : Fn} {s s' : BL ε} {bs : Bytes} {nr : Nat}
    (h : run cfg f s = (s', .line bs nr)) : s'.state = .eof ∨ Smaller s' s := by
  rw [run_eq] at h
  split at h
  · rename_i s1 o hb
    simp only [Prod.mk.injEq] at h
    obtain ⟨rfl, rfl⟩ := h
    exact body_ret_line hb
  · rename_i f1 s1 hb
    have h1 := body_call_le hb
    rcases run_line h with h2 | h2
    · exact .inl h2
    · right; unfold Smaller at *; omega
termination_by (readerSize s.reader, f.rank, s.buf.length)
decreasing_by exact body_call_lt (by assumption)

theorem next_line {ε : Type} {cfg : Cfg} {s s' : BL ε} {bs : Bytes} {nr : Nat}
    (h : s.next cfg = (s', .line bs nr)) :
    s.state ≠ .eof ∧ (s'.state = .eof ∨ Smaller s' s) := by
  unfold BL.next at h
  split at h
  · simp at h
  · rename_i sep hs
    refine ⟨by simp [hs], ?_⟩
    split at h <;> exact run_line h

/-- The lines yielded before the end or the first error, and how it ends. -/
def drain {ε : Type} (cfg : Cfg) (s : BL ε) : List (Bytes × Nat) × End ε :=
  match _h : s.next cfg with
  | (_, .done) => ([], .finished)
  | (_, .error e) => ([], .failed e)
  | (_, .panic) => ([], .panicked)
  | (s', .line bs nr) =>
    let r := drain cfg s'
    ((bs, nr) :: r.1, r.2)
termination_by ((if s.state = .eof then 0 else 1 : Nat), readerSize s.reader, s.buf.length)
decreasing_by
  have h := next_line _h
  rw [if_neg h.1]
  by_cases he : s'.state = .eof
  · rw [if_pos he]; exact Prod.Lex.left _ _ (by decide)
  · rw [if_neg he]
    refine Prod.Lex.right _ ?_
    rcases h.2 with h | h | h
    · exact absurd h he
    · exact Prod.Lex.left _ _ h
    · rw [h.1]; exact Prod.Lex.right _ h.2

/-- All the lines of a reader. -/
def allLines {ε : Type} (cfg : Cfg) (json : Bool) (reader : Reader ε) :
    List (Bytes × Nat) × End ε :=
  drain cfg (BL.new reader json)

end LJ.Iterator

/-
A consumer which asks for all the lines of a body reads all of the body.
-/
import Verif.Remote.Grows
namespace LJ.Remote
open LJ.Codec (Bytes Texts Url Source Content)
open LJ.Process (Str Ev Env Trainer St AnomalyContext Stop)

section
open LJ.Iterator
variable {ε : Type}

/-- a reader of data, never empty -/
def Data (r : Reader ε) : Prop := ∀ x ∈ r, ∃ c cs, x = .data (c :: cs)

/-- the end was seen only at the end -/
def EofOk (s : BL ε) : Prop := Data s.reader ∧ (s.state = .eof → s.reader = [])

/-- what a step leaves -/
def StepOk : Step ε → Prop
  | .ret s o => EofOk s ∧ (o = .done → s.reader = [])
  | .call _ s => EofOk s

theorem data_read {n : Nat} (hn : 0 < n) {r : Reader ε} (h : Data r) : Data (r.read n).2 ∧ ((r.read n).1 = .ok [] → (r.read n).2 = [] ∧ r = []) := by
  match r with
  | [] => exact ⟨h, fun _ => ⟨rfl, rfl⟩⟩
  | .err e :: r =>
    obtain ⟨c, cs, e⟩ := h _ (List.mem_cons_self ..)
    cases e
  | .data bs :: r =>
    obtain ⟨c, cs, e⟩ := h _ (List.mem_cons_self ..)
    cases e
    constructor
    · simp only [Reader.read]
      have ht : Data r := fun x hx => h x (List.mem_cons_of_mem _ hx)
      split
      · exact ht
      · rename_i hl
        intro x hx
        rcases List.mem_cons.1 hx with rfl | hx
        · cases hd : (c :: cs).drop n with
          | nil => rw [List.drop_eq_nil_iff] at hd; omega
          | cons a as => exact ⟨a, as, rfl⟩
        · exact ht x hx
    · intro he
      simp only [Reader.read, Except.ok.injEq, List.take_eq_nil_iff] at he
      rcases he with he | he
      · omega
      · cases he

theorem find_state (cfg : Cfg) (s s' : BL ε) (x : Option (Int × Sep)) (h : s.findNextLine cfg = .res s' x) (he : s'.state = .eof) : s.state = .eof := by
  unfold BL.findNextLine at h
  split at h
  · cases h
  · split at h
    · cases h; exact he
    · simp only at h
      generalize (if _ = Sep.subLine then _ else _ : Int) = q at h
      split at h
      · cases h
      · cases h
        cases he

theorem find_reader (cfg : Cfg) (s s' : BL ε) (x : Option (Int × Sep)) (h : s.findNextLine cfg = .res s' x) : s'.reader = s.reader := by
  cases x with
  | none => exact (findNextLine_none h).1
  | some p => exact (findNextLine_some h).1

theorem find_ok (cfg : Cfg) (s s' : BL ε) (x : Option (Int × Sep)) (h : s.findNextLine cfg = .res s' x) (hs : EofOk s) : EofOk s' :=
  ⟨by rw [find_reader cfg s s' x h]; exact hs.1, fun he => by rw [find_reader cfg s s' x h]; exact hs.2 (find_state cfg s s' x h he)⟩

theorem getSlice_ok (cfg : Cfg) (s : BL ε) (hs : EofOk s) : StepOk (getSlice cfg s) := by
  unfold getSlice
  split
  · exact ⟨hs, fun h => by cases h⟩
  · rename_i s1 h
    have := find_ok cfg s s1 _ h hs
    split <;> exact this
  · rename_i s1 pos sep h
    have := find_ok cfg s s1 _ h hs
    dsimp only
    split
    · split
      · exact this
      · exact ⟨this, fun h => by cases h⟩
    · split
      · exact ⟨this, fun h => by cases h⟩
      · split
        · exact ⟨this, fun h => by cases h⟩
        · split
          · exact this
          · exact ⟨this, fun h => by cases h⟩

theorem body_ok (cfg : Cfg) (hc : 0 < cfg.chunkSize) (f : Fn) (s : BL ε) (hs : EofOk s) : StepOk (body cfg f s) := by
  obtain ⟨d1, d2⟩ := data_read hc hs.1
  have d3 : s.state = .eof → (s.reader.read cfg.chunkSize).2 = [] := by
    intro he
    rw [hs.2 he]
    rfl
  cases f with
  | getSlice => exact getSlice_ok cfg s hs
  | readSlice =>
    show StepOk (readSlice cfg s)
    unfold readSlice
    generalize s.reader.read cfg.chunkSize = y at d1 d2 d3
    obtain ⟨x, r⟩ := y
    match x, d1, d2, d3 with
    | .ok [], d1, d2, d3 =>
      obtain ⟨e, _⟩ := d2 rfl
      simp only at e
      subst e
      dsimp only
      split
      · exact ⟨⟨d1, fun _ => rfl⟩, fun _ => rfl⟩
      · exact ⟨⟨d1, fun _ => rfl⟩, fun _ => rfl⟩
    | .ok (c :: cs), d1, d2, d3 => exact ⟨d1, d3⟩
    | .error e, d1, d2, d3 => exact ⟨⟨d1, d3⟩, fun h => by cases h⟩
  | dropUntilNextLine =>
    show StepOk (dropUntilNextLine cfg s)
    unfold dropUntilNextLine
    generalize s.reader.read cfg.chunkSize = y at d1 d2 d3
    obtain ⟨x, r⟩ := y
    match x, d1, d2, d3 with
    | .ok [], d1, d2, d3 =>
      obtain ⟨e, _⟩ := d2 rfl
      simp only at e
      subst e
      exact ⟨⟨d1, fun _ => rfl⟩, fun _ => rfl⟩
    | .error e, d1, d2, d3 => exact ⟨⟨d1, d3⟩, fun h => by cases h⟩
    | .ok (c :: cs), d1, d2, d3 =>
      dsimp only
      have h0 : EofOk ({ s with reader := r, buf := c :: cs ++ (resize s.buf cfg.chunkSize).drop (c :: cs).length } : BL ε) := ⟨d1, d3⟩
      split
      · exact ⟨h0, fun h => by cases h⟩
      · rename_i s1 h
        exact find_ok cfg _ s1 _ h h0
      · rename_i s1 pos sep h
        have := find_ok cfg _ s1 _ h h0
        split
        · exact this
        · split
          · exact this
          · exact ⟨this, fun h => by cases h⟩

theorem run_ok (cfg : Cfg) (hc : 0 < cfg.chunkSize) (f : Fn) (s : BL ε) (hs : EofOk s) :
    EofOk (run cfg f s).1 ∧ ((run cfg f s).2 = .done → (run cfg f s).1.reader = []) := by
  have h := body_ok cfg hc f s hs
  rw [run_eq]
  cases hb : body cfg f s with
  | ret s1 o => rw [hb] at h; exact h
  | call f1 s1 =>
    rw [hb] at h
    exact run_ok cfg hc f1 s1 h
termination_by (readerSize s.reader, f.rank, s.buf.length)
decreasing_by exact body_call_lt hb

theorem next_ok (cfg : Cfg) (hc : 0 < cfg.chunkSize) (s : BL ε) (hs : EofOk s) :
    EofOk (s.next cfg).1 ∧ ((s.next cfg).2 = .done → (s.next cfg).1.reader = []) := by
  unfold BL.next
  cases he : s.state with
  | eof => exact ⟨hs, fun _ => hs.2 he⟩
  | scanning sep =>
    dsimp only
    split <;> exact run_ok cfg hc _ s hs

/-- A consumer which asks for one more than the lines there are has read everything. -/
theorem nexts_all (cfg : Cfg) (hc : 0 < cfg.chunkSize) (n : Nat) (s : BL ε) (hs : EofOk s) (hd : (drain cfg s).2 = .finished)
    (hn : (drain cfg s).1.length < n) : (nexts cfg n s).reader = [] := by
  induction n generalizing s with
  | zero => omega
  | succ n ih =>
    obtain ⟨h1, h2⟩ := next_ok cfg hc s hs
    rw [drain_eq] at hd hn
    unfold nexts
    generalize s.next cfg = y at *
    obtain ⟨s1, o⟩ := y
    cases o with
    | done =>
      have hr : s1.reader = [] := h2 rfl
      have := nexts_reader_len cfg n s1
      rw [hr] at this
      exact List.length_eq_zero_iff.1 (by simpa using this)
    | error e => cases hd
    | panic => cases hd
    | line bs nr =>
      simp only [List.length_cons] at hn
      exact ih s1 h1 hd (by omega)

end
end LJ.Remote

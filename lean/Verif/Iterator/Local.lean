/-
What is read later has no effect on what was yielded before: an over-long line never changes the lines before it.
-/
import Verif.Iterator.Props
import Mathlib.Order.Nat
import Mathlib.Data.Nat.Find
import Mathlib.Tactic.ByContra
namespace LJ.Iterator
open Spec
variable {ε : Type}

/-- the same iterator with another reader -/
def BL.on (s : BL ε) (r : Reader ε) : BL ε := { s with reader := r }

def Found.on (r : Reader ε) : Found ε → Found ε
  | .panic => .panic
  | .res s x => .res (s.on r) x

def Step.on (r : Reader ε) : Step ε → Step ε
  | .ret s o => .ret (s.on r) o
  | .call f s => .call f (s.on r)

theorem findNextLine_on (cfg : Cfg) (s : BL ε) (r : Reader ε) : (s.on r).findNextLine cfg = (s.findNextLine cfg).on r := by
  unfold BL.findNextLine
  have h1 : (s.on r).buf = s.buf := rfl
  have h2 : (s.on r).prevPos = s.prevPos := rfl
  have h3 : (s.on r).lex = s.lex := rfl
  rw [h1, h2, h3]
  split
  · rfl
  · cases scan s.lex (s.buf.drop s.prevPos) s.prevPos with
    | mk lex o =>
      cases o with
      | none => rfl
      | some x =>
        obtain ⟨i, sep⟩ := x
        simp only
        generalize (if sep = Sep.subLine then (i : Int) - 1 else (i : Int)) = q
        split <;> rfl

theorem getSlice_on (cfg : Cfg) (s : BL ε) (r : Reader ε) : getSlice cfg (s.on r) = (getSlice cfg s).on r := by
  unfold getSlice
  rw [findNextLine_on]
  cases s.findNextLine cfg with
  | panic => rfl
  | res s1 x =>
    cases x with
    | none =>
      simp only [Found.on]
      have h1 : (s1.on r).buf = s1.buf := rfl
      rw [h1]
      split <;> rfl
    | some x =>
      obtain ⟨pos, sep⟩ := x
      simp only [Found.on]
      have h1 : (s1.on r).buf = s1.buf := rfl
      rw [h1]
      repeat' split
      all_goals rfl

theorem read_append {n : Nat} {r1 : Reader ε} (h : r1 ≠ []) (t : Reader ε) :
    Reader.read n (r1 ++ t) = ((Reader.read n r1).1, (Reader.read n r1).2 ++ t) := by
  match r1 with
  | [] => exact absurd rfl h
  | .err e :: r => rfl
  | .data bs :: r =>
    rw [List.cons_append]
    simp only [Reader.read]
    split <;> rfl

theorem on_on (s : BL ε) (r r' : Reader ε) : (s.on r).on r' = s.on r' := rfl

theorem step_on_on (st : Step ε) (r r' : Reader ε) : (st.on r).on r' = st.on r' := by cases st <;> rfl

theorem found_on_on (st : Found ε) (r r' : Reader ε) : (st.on r).on r' = st.on r' := by cases st <;> rfl

/-- `readSlice` once the read is done -/
def readSliceX (cfg : Cfg) (s : BL ε) : Except ε Bytes → Step ε
  | .ok [] =>
    if s.buf.length > 0 then
      let s1 := ({ s with buf := resize s.buf (s.buf.length + cfg.chunkSize) }).updateLineCounter .eof
      .ret { s1 with buf := s1.buf.drop s.buf.length } (.line (s1.buf.take s.buf.length) s1.lineCount)
    else .ret { s with buf := resize s.buf (s.buf.length + cfg.chunkSize) } .done
  | .ok bs => .call .getSlice { s with buf := (resize s.buf (s.buf.length + cfg.chunkSize)).take s.buf.length ++ bs }
  | .error e => .ret { s with buf := resize s.buf (s.buf.length + cfg.chunkSize) } (.error e)

theorem readSlice_eq (cfg : Cfg) (s : BL ε) : readSlice cfg s = (readSliceX cfg s (s.reader.read cfg.chunkSize).1).on (s.reader.read cfg.chunkSize).2 := by
  unfold readSlice
  cases s.reader.read cfg.chunkSize with
  | mk x r =>
    match x with
    | .ok [] =>
      simp only [readSliceX]
      split <;> rfl
    | .ok (c :: bs) => rfl
    | .error e => rfl

theorem readSliceX_on (cfg : Cfg) (s : BL ε) (x : Except ε Bytes) (r r' : Reader ε) : (readSliceX cfg (s.on r) x).on r' = (readSliceX cfg s x).on r' := by
  match x with
  | .ok [] =>
    simp only [readSliceX]
    have h1 : (s.on r).buf = s.buf := rfl
    rw [h1]
    split <;> rfl
  | .ok (c :: bs) => rfl
  | .error e => rfl

/-- `dropUntilNextLine` once the read is done -/
def dropX (cfg : Cfg) (s : BL ε) : Except ε Bytes → Step ε
  | .ok [] => .ret { s with buf := resize s.buf cfg.chunkSize } .done
  | .error e => .ret { s with buf := resize s.buf cfg.chunkSize } (.error e)
  | .ok bs =>
    match ({ s with buf := bs ++ (resize s.buf cfg.chunkSize).drop bs.length } : BL ε).findNextLine cfg with
    | .panic => .ret { s with buf := bs ++ (resize s.buf cfg.chunkSize).drop bs.length } .panic
    | .res s none => .call .dropUntilNextLine { s with buf := [] }
    | .res s (some (pos, sep)) =>
      if bs.length = cfg.chunkSize then .call .readSlice { s with buf := [] }
      else if (pos + sep.len).toNat ≤ s.buf.length then .call .getSlice { s with buf := s.buf.drop (pos + sep.len).toNat }
      else .ret s .panic

theorem drop_on (cfg : Cfg) (s : BL ε) (bs : Bytes) (r : Reader ε) :
    (match ({ s.on r with buf := bs ++ (resize s.buf cfg.chunkSize).drop bs.length } : BL ε).findNextLine cfg with
    | .panic => Step.ret { s.on r with buf := bs ++ (resize s.buf cfg.chunkSize).drop bs.length } .panic
    | .res s none => .call .dropUntilNextLine { s with buf := [] }
    | .res s (some (pos, sep)) =>
      if bs.length = cfg.chunkSize then .call .readSlice { s with buf := [] }
      else if (pos + sep.len).toNat ≤ s.buf.length then .call .getSlice { s with buf := s.buf.drop (pos + sep.len).toNat }
      else .ret s .panic) =
    (match ({ s with buf := bs ++ (resize s.buf cfg.chunkSize).drop bs.length } : BL ε).findNextLine cfg with
    | .panic => Step.ret { s with buf := bs ++ (resize s.buf cfg.chunkSize).drop bs.length } .panic
    | .res s none => .call .dropUntilNextLine { s with buf := [] }
    | .res s (some (pos, sep)) =>
      if bs.length = cfg.chunkSize then .call .readSlice { s with buf := [] }
      else if (pos + sep.len).toNat ≤ s.buf.length then .call .getSlice { s with buf := s.buf.drop (pos + sep.len).toNat }
      else .ret s .panic).on r := by
  have e : ({ s.on r with buf := bs ++ (resize s.buf cfg.chunkSize).drop bs.length } : BL ε) =
      ({ s with buf := bs ++ (resize s.buf cfg.chunkSize).drop bs.length } : BL ε).on r := rfl
  rw [e, findNextLine_on]
  cases ({ s with buf := bs ++ (resize s.buf cfg.chunkSize).drop bs.length } : BL ε).findNextLine cfg with
  | panic => rfl
  | res s1 x =>
    cases x with
    | none => rfl
    | some x =>
      obtain ⟨pos, sep⟩ := x
      simp only [Found.on]
      have h1 : (s1.on r).buf = s1.buf := rfl
      rw [h1]
      split
      · rfl
      · split <;> rfl

theorem drop_eq (cfg : Cfg) (s : BL ε) : dropUntilNextLine cfg s = (dropX cfg s (s.reader.read cfg.chunkSize).1).on (s.reader.read cfg.chunkSize).2 := by
  unfold dropUntilNextLine
  cases s.reader.read cfg.chunkSize with
  | mk x r =>
    match x with
    | .ok [] => rfl
    | .ok (c :: bs) => exact drop_on cfg s (c :: bs) r
    | .error e => rfl

theorem dropX_on (cfg : Cfg) (s : BL ε) (x : Except ε Bytes) (r r' : Reader ε) : (dropX cfg (s.on r) x).on r' = (dropX cfg s x).on r' := by
  match x with
  | .ok [] => rfl
  | .ok (c :: bs) => exact (congrArg (Step.on r') (drop_on cfg s (c :: bs) r)).trans (step_on_on _ _ _)
  | .error e => rfl

/-- Two iterators in the same state, which will read the same things up to an error of the first. -/
def Sim (e : ε) (t : Reader ε) (s s' : BL ε) : Prop := ∃ r1, s.reader = r1 ++ [.err e] ∧ s' = s.on (r1 ++ t)

/-- a function call is the same for both, or is the one of the error -/
theorem body_sim {e : ε} {t : Reader ε} (cfg : Cfg) (f : Fn) {s s' : BL ε} (h : Sim e t s s') :
    (∃ s1, body cfg f s = .ret s1 (.error e)) ∨
    (∃ f1 s1 s1', body cfg f s = .call f1 s1 ∧ body cfg f s' = .call f1 s1' ∧ Sim e t s1 s1') ∨
    ∃ o s1 s1', body cfg f s = .ret s1 o ∧ body cfg f s' = .ret s1' o ∧ Sim e t s1 s1' := by
  obtain ⟨r1, hr, rfl⟩ := h
  have keep : ∀ (st a b : Step ε) (r : Reader ε), a = st.on (r ++ [.err e]) → b = st.on (r ++ t) →
      (∃ f1 s1 s1', a = .call f1 s1 ∧ b = .call f1 s1' ∧ Sim e t s1 s1') ∨ ∃ o s1 s1', a = .ret s1 o ∧ b = .ret s1' o ∧ Sim e t s1 s1' := by
    intro st a b r h1 h2
    cases st with
    | ret s1 o => exact .inr ⟨o, _, _, h1, h2, r, rfl, rfl⟩
    | call f1 s1 => exact .inl ⟨f1, _, _, h1, h2, r, rfl, rfl⟩
  have hs : s = s.on (r1 ++ [.err e]) := by rw [← hr]; rfl
  have reads : ∀ (X : BL ε → Except ε Bytes → Step ε) (F : BL ε → Step ε), (∀ s, F s = (X s (s.reader.read cfg.chunkSize).1).on (s.reader.read cfg.chunkSize).2) →
      (∀ s x r r', (X (s.on r) x).on r' = (X s x).on r') → (∀ s, ∃ s1, X s (.error e) = .ret s1 (.error e)) →
      (∃ s1, F s = .ret s1 (.error e)) ∨ (∃ f1 s1 s1', F s = .call f1 s1 ∧ F (s.on (r1 ++ t)) = .call f1 s1' ∧ Sim e t s1 s1') ∨
        ∃ o s1 s1', F s = .ret s1 o ∧ F (s.on (r1 ++ t)) = .ret s1' o ∧ Sim e t s1 s1' := by
    intro X F hF hX hE
    by_cases hn : r1 = []
    · left
      subst hn
      rw [hF, hr]
      obtain ⟨s1, h1⟩ := hE s
      exact ⟨_, by rw [List.nil_append]; simp only [Reader.read]; rw [h1]; rfl⟩
    · right
      refine keep (X s (r1.read cfg.chunkSize).1) _ _ (r1.read cfg.chunkSize).2 ?_ ?_
      · rw [hF, hr, read_append hn]
      · rw [hF]
        show (X (s.on (r1 ++ t)) ((r1 ++ t).read cfg.chunkSize).1).on ((r1 ++ t).read cfg.chunkSize).2 = _
        rw [read_append hn, hX]
  cases f with
  | getSlice =>
    right
    refine keep (getSlice cfg s) _ _ r1 ?_ (getSlice_on cfg s _)
    show getSlice cfg s = _
    exact (congrArg (getSlice cfg) hs).trans (getSlice_on cfg s _)
  | readSlice => exact reads (readSliceX cfg) (readSlice cfg) (readSlice_eq cfg) (readSliceX_on cfg) fun s => ⟨_, rfl⟩
  | dropUntilNextLine => exact reads (dropX cfg) (dropUntilNextLine cfg) (drop_eq cfg) (dropX_on cfg) fun s => ⟨_, rfl⟩

theorem run_sim {e : ε} {t : Reader ε} (cfg : Cfg) (f : Fn) {s s' : BL ε} (h : Sim e t s s') :
    (run cfg f s).2 = .error e ∨ ∃ o s1 s1', run cfg f s = (s1, o) ∧ run cfg f s' = (s1', o) ∧ Sim e t s1 s1' := by
  rw [run_eq, run_eq cfg f s']
  rcases body_sim cfg f h with ⟨s1, h1⟩ | ⟨f1, s1, s1', h1, h2, h3⟩ | ⟨o, s1, s1', h1, h2, h3⟩
  · rw [h1]; exact .inl rfl
  · rw [h1, h2]; exact run_sim cfg f1 h3
  · rw [h1, h2]; exact .inr ⟨o, s1, s1', rfl, rfl, h3⟩
termination_by (readerSize s.reader, f.rank, s.buf.length)
decreasing_by exact body_call_lt (by assumption)

theorem next_sim {e : ε} {t : Reader ε} (cfg : Cfg) {s s' : BL ε} (h : Sim e t s s') :
    (s.next cfg).2 = .error e ∨ ∃ o s1 s1', s.next cfg = (s1, o) ∧ s'.next cfg = (s1', o) ∧ Sim e t s1 s1' := by
  have hst : s'.state = s.state ∧ s'.buf = s.buf := by obtain ⟨r, _, rfl⟩ := h; exact ⟨rfl, rfl⟩
  unfold BL.next
  rw [hst.1, hst.2]
  split
  · exact .inr ⟨.done, s, s', rfl, rfl, h⟩
  · split
    · exact run_sim cfg _ h
    · exact run_sim cfg _ h

/-- what is yielded before the error is yielded anyway -/
theorem drain_sim {e : ε} {t : Reader ε} (cfg : Cfg) {s s' : BL ε} (h : Sim e t s s') : (drain cfg s).1 <+: (drain cfg s').1 := by
  rw [drain_eq, drain_eq cfg s']
  rcases next_sim cfg h with h1 | ⟨o, s1, s1', h1, h2, h3⟩
  · cases hn : s.next cfg with
    | mk s1 o =>
      rw [hn] at h1
      subst h1
      exact List.nil_prefix
  · rw [h1, h2]
    cases o with
    | done => exact List.prefix_rfl
    | error e => exact List.prefix_rfl
    | panic => exact List.prefix_rfl
    | line bs nr => exact List.cons_prefix_cons.2 ⟨rfl, drain_sim cfg h3⟩
termination_by ((if s.state = .eof then 0 else 1 : Nat), readerSize s.reader, s.buf.length)
decreasing_by
  have h := next_line h1
  rw [if_neg h.1]
  by_cases he : s1.state = .eof
  · rw [if_pos he]; exact Prod.Lex.left _ _ (by decide)
  · rw [if_neg he]
    refine Prod.Lex.right _ ?_
    rcases h.2 with h | h | h
    · exact absurd h he
    · exact Prod.Lex.left _ _ h
    · rw [h.1]; exact Prod.Lex.right _ h.2

/-- C90. What is received after a moment only adds lines to those which are yielded when an error comes at that moment. -/
theorem C90_local (cfg : Cfg) (json : Bool) (r t : Reader ε) (e : ε) :
    (allLines cfg json (r ++ [.err e])).1 <+: (allLines cfg json (r ++ t)).1 :=
  drain_sim cfg ⟨r, rfl, rfl⟩

/-! ### The pieces of a prefix -/

theorem first_piece' (json esc inStr : Bool) (cur : Bytes) (ln : Nat) (ys : Bytes) :
    ∃ p q, split json esc inStr cur ln ys = p :: q ∧ cur.length ≤ p.1.length + 1 := by
  induction ys generalizing esc inStr cur ln with
  | nil => exact ⟨(cur, ln), [], by simp [split], Nat.le_succ _⟩
  | cons c cs ih =>
    have step : ∀ e i, ∃ p q, split json e i (cur ++ [c]) ln cs = p :: q ∧ cur.length ≤ p.1.length + 1 := by
      intro e i
      obtain ⟨p, q, hp, hl⟩ := ih e i (cur ++ [c]) ln
      exact ⟨p, q, hp, by simp at hl; omega⟩
    rw [split.eq_2]
    repeat' split
    · exact ⟨_, _, rfl, by simp; omega⟩
    all_goals first
      | exact step _ _
      | exact ⟨_, _, rfl, by simp⟩

theorem split_append (json esc inStr : Bool) (cur : Bytes) (ln : Nat) (xs ys : Bytes) :
    ∃ p q, split json esc inStr cur ln (xs ++ ys) = (split json esc inStr cur ln xs).dropLast ++ p :: q ∧
      ((split json esc inStr cur ln xs).getLastD ([], 0)).1.length ≤ p.1.length + 1 := by
  induction xs generalizing esc inStr cur ln with
  | nil => simpa [split] using first_piece' json esc inStr cur ln ys
  | cons c cs ih =>
    have step : ∀ e i k q0, ∃ p q, q0 :: split json e i [] k (cs ++ ys) = (q0 :: split json e i [] k cs).dropLast ++ p :: q ∧
        ((q0 :: split json e i [] k cs).getLastD ([], 0)).1.length ≤ p.1.length + 1 := by
      intro e i k q0
      obtain ⟨p, q, hp, hl⟩ := ih e i [] k
      refine ⟨p, q, ?_, by rw [getLastD_cons_ne (split_ne_nil _ _ _ _ _ _)]; exact hl⟩
      rw [List.dropLast_cons_of_ne_nil (split_ne_nil _ _ _ _ _ _), hp, List.cons_append]
    rw [List.cons_append, split.eq_2, split.eq_2]
    repeat' split
    all_goals first
      | exact ih _ _ _ _
      | exact step _ _ _ _

/-- the moment of the first overflow -/
theorem first_overflow (json : Bool) (max : Nat) (reads : List Bytes) :
    NoOverflow json max reads ∨ ∃ k, k < reads.length ∧ NoOverflow json max (reads.take k) ∧ max < (rest json (reads.take k).flatten).length := by
  by_cases h : ∃ k, k < reads.length ∧ max < (rest json (reads.take k).flatten).length
  · right
    classical
    refine ⟨Nat.find h, (Nat.find_spec h).1, ?_, (Nat.find_spec h).2⟩
    intro j hj
    have hj' : j < Nat.find h := by simp at hj; omega
    have h1 := Nat.find_min h hj'
    rw [List.take_take, Nat.min_eq_left hj'.le]
    by_contra h2
    exact h1 ⟨lt_trans hj' (Nat.find_spec h).1, by omega⟩
  · left
    intro k hk
    by_contra h2
    exact h ⟨k, hk, by omega⟩

/-! ### C90: before the over-long line -/

/-- C90 (and C05, C07), for every schedule: as long as no over-long unterminated line was met (by the `k`-th read), the lines ended in
the data received so far are yielded, whatever is received later: over-long lines, errors, anything. -/
theorem C90_so_far (e : ε) (checks json : Bool) (reads : List Bytes) (hb : Blocks reads) (hno : NoOverflow json 6000 reads) (after : Reader ε) :
    keep 6000 (pieces json reads.flatten).dropLast <+: (allLines (build checks) json (fromReads reads ++ after)).1 := by
  have h := C90_local (build checks) json (fromReads reads) after e
  rwa [C07_error_position_partial checks json reads hb hno e []] at h

/-- C90 (and C03, C05), for every schedule: the pieces before the first one of 6000 bytes or more are yielded, unchanged and with
their numbers, before anything else; however the content is cut in reads and whatever follows. -/
theorem C90_before (e : ε) (checks json : Bool) (reads : List Bytes) (hb : Blocks reads) (after : Reader ε) (i : Nat)
    (hi : i < (pieces json reads.flatten).length) (hs : ∀ p ∈ (pieces json reads.flatten).take i, p.1.length < 6000) :
    ((pieces json reads.flatten).take i).filter (fun p => 0 < p.1.length) <+: (allLines (build checks) json (fromReads reads ++ after)).1 := by
  have hk : ((pieces json reads.flatten).take i).filter (fun p => 0 < p.1.length) = keep 6000 ((pieces json reads.flatten).take i) := by
    refine List.filter_congr fun p hp => ?_
    have := hs p hp
    simp; omega
  rw [hk]
  rcases first_overflow json 6000 reads with hno | ⟨k, hk1, hno, hov⟩
  · refine (List.IsPrefix.filter _ ?_).trans (C90_so_far e checks json reads hb hno after)
    rw [List.dropLast_eq_take]
    exact (List.take_prefix_take_left (by omega))
  · have hsplit : reads.flatten = (reads.take k).flatten ++ (reads.drop k).flatten := by
      rw [← List.flatten_append, List.take_append_drop]
    have hreads : fromReads reads ++ after = fromReads (reads.take k) ++ (fromReads (reads.drop k) ++ after) := by
      rw [← List.append_assoc]
      simp only [fromReads]
      rw [← List.map_append, List.take_append_drop]
    obtain ⟨p, q, hp, hl⟩ := split_append json false false [] 1 (reads.take k).flatten (reads.drop k).flatten
    have hpieces : pieces json reads.flatten = (pieces json (reads.take k).flatten).dropLast ++ p :: q := by
      rw [hsplit]; exact hp
    have hp6 : 6000 ≤ p.1.length := by
      have : (rest json (reads.take k).flatten).length ≤ p.1.length + 1 := hl
      omega
    have hile : i ≤ (pieces json (reads.take k).flatten).dropLast.length := by
      by_contra hgt
      have : p ∈ (pieces json reads.flatten).take i := by
        rw [hpieces, List.take_append, List.mem_append]
        right
        obtain ⟨d, hd⟩ : ∃ d, i - (pieces json (reads.take k).flatten).dropLast.length = d + 1 := ⟨_, (Nat.succ_pred_eq_of_pos (by omega)).symm⟩
        rw [hd, List.take_succ_cons]
        exact List.mem_cons_self ..
      have := hs p this
      omega
    have h1 := C90_so_far e checks json (reads.take k) (fun b h => hb b (List.mem_of_mem_take h)) hno (fromReads (reads.drop k) ++ after)
    rw [hreads]
    refine (List.IsPrefix.filter _ ?_).trans h1
    rw [hpieces, List.take_append_of_le_length hile]
    exact List.take_prefix ..

/-- Non-vacuity: the line `a` is before a long line which starts in the first read. -/
example (after : Reader Unit) : [(ascii "a", 1), (ascii "b", 2)] <+: (allLines (build false) false
    (fromReads [ascii "a\nb\nxxxx", List.replicate 8000 120, List.replicate 8000 120] ++ after)).1 := by
  have hc : ([ascii "a\nb\nxxxx", List.replicate 8000 120, List.replicate 8000 120] : List Bytes).flatten = ascii "a\nb\n" ++ (ascii "xxxx" ++ List.replicate 16000 120) := by
    simp only [List.flatten_cons, List.flatten_nil, List.append_nil, ← List.append_assoc]
    rw [List.append_assoc _ (List.replicate 8000 120) (List.replicate 8000 120), List.replicate_append_replicate]
    rfl
  have hp : ∃ p q, pieces false (ascii "a\nb\n" ++ (ascii "xxxx" ++ List.replicate 16000 120)) = [(ascii "a", 1), (ascii "b", 2)] ++ p :: q := by
    obtain ⟨p, q, h, _⟩ := split_append false false false [] 1 (ascii "a\nb\n") (ascii "xxxx" ++ List.replicate 16000 120)
    exact ⟨p, q, h⟩
  obtain ⟨p, q, hp⟩ := hp
  have hb8 : List.replicate 8000 (120 : UInt8) ≠ [] ∧ (List.replicate 8000 (120 : UInt8)).length ≤ 8192 := by
    rw [List.length_replicate]
    exact ⟨fun h => absurd (congrArg List.length h) (by rw [List.length_replicate, List.length_nil]; decide), by decide⟩
  have h := C90_before () false false [ascii "a\nb\nxxxx", List.replicate 8000 120, List.replicate 8000 120] (by
    intro b hb
    simp only [List.mem_cons, List.not_mem_nil, or_false] at hb
    rcases hb with rfl | rfl | rfl
    · decide
    · exact hb8
    · exact hb8) after 2
  rw [hc, hp] at h
  exact h (by simp) (by
    intro x hx
    replace hx : x ∈ [(ascii "a", 1), (ascii "b", 2)] := hx
    clear hc hb8 hp h
    revert x
    decide)

end LJ.Iterator

/- Helper lemmas for the line iterator: invariants of every execution and the refinement of the
splitter specification. -/
import Verif.Iterator.Drain
import Verif.Iterator.Spec
namespace LJ.Iterator
open Spec

/-! ### Scanning versus the specification -/

/-- The specification started from a scanner state. -/
def splitL (l : Lex) (cur : Bytes) (ln : Nat) (input : Bytes) : List (Bytes × Nat) :=
  split l.splitJson.isSome l.escaped (l.splitJson.getD false) cur ln input

theorem splitL_cons (l : Lex) (cur : Bytes) (ln : Nat) (c : UInt8) (cs : Bytes) :
    splitL l cur ln (c :: cs) = match lexByte l c with
      | (l', none) => splitL l' (cur ++ [c]) ln cs
      | (l', some sep) =>
        (if sep = .subLine then cur.dropLast else cur, ln) ::
          splitL l' [] (if sep = .newLine then ln + 1 else ln) cs := by
  have e1 : 'n'.toUInt8 = CH_N := rfl
  have e2 : '\\'.toUInt8 = BACKSLASH := rfl
  have e3 : '\n'.toUInt8 = LF := rfl
  have e4 : '"'.toUInt8 = QUOTE := rfl
  have e5 : [','.toUInt8, '['.toUInt8, ']'.toUInt8, '{'.toUInt8, '}'.toUInt8] =
    ([44, 91, 93, 123, 125] : List UInt8) := rfl
  rcases l with ⟨esc, js⟩
  simp only [splitL, split, lexByte, e1, e2, e3, e4, e5, matchJsonKv]
  cases esc
  · by_cases h2 : c = BACKSLASH
    · simp [h2]
    · by_cases h3 : c = LF
      · simp [h3]
        have d1 : ¬ LF = BACKSLASH := by decide
        simp [d1]
      · rcases js with _ | inS
        · simp [h2, h3]
        · by_cases h4 : c = QUOTE
          · have d1 : ¬ QUOTE = BACKSLASH := by decide
            have d2 : ¬ QUOTE = LF := by decide
            simp [h4, d1, d2]
          · cases inS
            · by_cases h5 : c = 44 ∨ c = 91 ∨ c = 93 ∨ c = 123 ∨ c = 125
              · have h6 : (c = 44 ∨ ((c = 91 ∨ c = 93) ∨ c = 123) ∨ c = 125) := by grind
                have h7 : ((((c = 44 ∨ c = 91) ∨ c = 93) ∨ c = 123) ∨ c = 125) := by grind
                simp [h2, h3, h4, h5, h7]
              · have h7 : ¬ ((((c = 44 ∨ c = 91) ∨ c = 93) ∨ c = 123) ∨ c = 125) := by grind
                simp [h2, h3, h4, h5, h7]
            · simp [h2, h3, h4]
  · by_cases h : c = CH_N
    · simp [h]
    · simp [h]

theorem lexByte_json {l l' : Lex} {c : UInt8} {r : Option Sep} (h : lexByte l c = (l', r)) :
    l'.splitJson.isSome = l.splitJson.isSome := by
  unfold lexByte at h
  split at h
  · simp at h; simp [← h.1]
  · split at h
    · simp at h; simp [← h.1]
    · split at h
      · simp at h; simp [← h.1]
      · split at h
        · rename_i hj; simp at h; simp [← h.1, hj]
        · simp at h; simp [← h.1]

theorem lexByte_some_escaped {l l' : Lex} {c : UInt8} {sep : Sep}
    (h : lexByte l c = (l', some sep)) :
    l'.escaped = false ∧ (sep = .subLine → l.escaped = true ∧ c = CH_N) ∧
      (l.escaped = true → sep = .subLine) ∧
      (sep = .newLine → c = LF ∧ l.escaped = false) := by
  unfold lexByte at h
  split at h
  · rename_i he
    simp only [Prod.mk.injEq] at h
    obtain ⟨rfl, h⟩ := h
    split at h
    · simp at h; subst h; simp_all
    · simp at h
  · split at h
    · simp at h
    · split at h
      · simp at h; obtain ⟨rfl, rfl⟩ := h; simp_all
      · split at h
        · simp only [Prod.mk.injEq] at h
          obtain ⟨rfl, h⟩ := h
          unfold matchJsonKv at h
          split at h
          · simp at h
          · split at h
            · simp at h; subst h; simp_all
            · simp at h
        · simp at h

theorem lexByte_none_escaped {l l' : Lex} {c : UInt8} (h : lexByte l c = (l', none))
    (he : l'.escaped = true) : l.escaped = false ∧ c = BACKSLASH := by
  unfold lexByte at h
  split at h
  · simp at h; simp [← h.1] at he
  · rename_i hl
    split at h
    · rename_i hc; simp [hc]; simpa using hl
    · split at h
      · simp at h
      · split at h
        · simp at h; simp [← h.1] at he; simp_all
        · simp at h; simp_all

theorem scan_none_split {l l' : Lex} {xs : Bytes} {i : Nat} (h : scan l xs i = (l', none))
    (cur : Bytes) (ln : Nat) (ys : Bytes) :
    splitL l cur ln (xs ++ ys) = splitL l' (cur ++ xs) ln ys := by
  induction xs generalizing l i cur with
  | nil => simp [scan] at h; simp [h]
  | cons c cs ih =>
    simp only [scan] at h
    split at h
    · simp at h
    · rename_i l1 hl
      rw [List.cons_append, splitL_cons, hl]
      simp only
      rw [ih h]
      simp

theorem scan_none_json {l l' : Lex} {xs : Bytes} {i : Nat} {r} (h : scan l xs i = (l', r)) :
    l'.splitJson.isSome = l.splitJson.isSome := by
  induction xs generalizing l i with
  | nil => simp [scan] at h; simp [h]
  | cons c cs ih =>
    simp only [scan] at h
    split at h
    · rename_i hl; simp only [Prod.mk.injEq] at h; rw [← h.1]; exact lexByte_json hl
    · rename_i hl; rw [ih h]; exact lexByte_json hl

theorem scan_some_split {l l' : Lex} {xs : Bytes} {i j : Nat} {sep : Sep}
    (h : scan l xs i = (l', some (j, sep))) (cur : Bytes) (ln : Nat) (ys : Bytes) :
    splitL l cur ln (xs ++ ys) =
      (if sep = .subLine then (cur ++ xs.take (j - i)).dropLast else cur ++ xs.take (j - i), ln) ::
        splitL l' [] (if sep = .newLine then ln + 1 else ln) (xs.drop (j - i + 1) ++ ys) := by
  induction xs generalizing l i cur with
  | nil => simp [scan] at h
  | cons c cs ih =>
    simp only [scan] at h
    split at h
    · rename_i l1 sep' hl
      simp only [Prod.mk.injEq, Option.some.injEq] at h
      obtain ⟨rfl, rfl, rfl⟩ := h
      rw [List.cons_append, splitL_cons, hl]
      simp
    · rename_i l1 hl
      have hb := scan_some h
      rw [List.cons_append, splitL_cons, hl]
      simp only
      rw [ih h]
      have e : j - i = (j - (i + 1)) + 1 := by omega
      rw [e]
      simp

theorem scan_some_escaped {l l' : Lex} {xs : Bytes} {i j : Nat} {sep : Sep}
    (h : scan l xs i = (l', some (j, sep))) :
    l'.escaped = false ∧ (sep = .subLine → l.escaped = true ∨ i < j) := by
  induction xs generalizing l i with
  | nil => simp [scan] at h
  | cons c cs ih =>
    simp only [scan] at h
    split at h
    · rename_i l1 sep' hl
      simp only [Prod.mk.injEq, Option.some.injEq] at h
      obtain ⟨rfl, rfl, rfl⟩ := h
      have := lexByte_some_escaped hl
      exact ⟨this.1, fun hs => .inl (this.2.1 hs).1⟩
    · have := scan_some h
      have := ih h
      exact ⟨this.1, fun _ => .inr (by omega)⟩

theorem scan_none_escaped {l l' : Lex} {xs : Bytes} {i : Nat} (h : scan l xs i = (l', none))
    (he : l'.escaped = true) : l.escaped = true ∨ xs ≠ [] := by
  cases xs with
  | nil => simp [scan] at h; simp [h, he]
  | cons c cs => simp

/-! ### `find_next_line` -/

theorem findNextLine_eq {ε : Type} (cfg : Cfg) (s : BL ε) (hp : s.prevPos ≤ s.buf.length) :
    (∃ l', scan s.lex (s.buf.drop s.prevPos) s.prevPos = (l', none) ∧
      s.findNextLine cfg = .res { s with lex := l' } none) ∨
    (∃ l' i sep, scan s.lex (s.buf.drop s.prevPos) s.prevPos = (l', some (i, sep)) ∧
      ((cfg.overflowChecks = true ∧ sep = .subLine ∧ i = 0 ∧ s.lex.escaped = true ∧
          s.prevPos = 0 ∧ s.findNextLine cfg = .panic) ∨
       (s.findNextLine cfg = .res
          { s with
            lex := l'
            lineCount := if s.state = .scanning .newLine then s.lineCount + 1 else s.lineCount
            state := .scanning sep }
          (some (if sep = .subLine then (i : Int) - 1 else i, sep))))) := by
  rcases hs : scan s.lex (s.buf.drop s.prevPos) s.prevPos with ⟨l', _ | ⟨i, sep⟩⟩
  · left
    refine ⟨l', rfl, ?_⟩
    simp [BL.findNextLine, hs, Nat.not_lt.2 hp]
  · right
    refine ⟨l', i, sep, rfl, ?_⟩
    have hb := scan_some hs
    have he := scan_some_escaped hs
    by_cases hn : sep = .subLine ∧ i = 0
    · obtain ⟨rfl, rfl⟩ := hn
      by_cases hc : cfg.overflowChecks = true
      · left
        refine ⟨hc, rfl, rfl, ?_, by omega, ?_⟩
        · rcases he.2 rfl with h | h
          · exact h
          · omega
        · simp [BL.findNextLine, hs, Nat.not_lt.2 hp, hc]
      · right
        simp [BL.findNextLine, hs, Nat.not_lt.2 hp, hc, BL.updateLineCounter]
    · right
      have hnn : ¬ ((if sep = .subLine then (i : Int) - 1 else i) < 0) := by
        split
        · rename_i h
          have : i ≠ 0 := fun h' => hn ⟨h, h'⟩
          omega
        · omega
      simp only [BL.findNextLine, hs, Nat.not_lt.2 hp, if_false]
      rw [if_neg (by simp [hnn])]
      rfl

theorem read_length {ε : Type} {n : Nat} {r r' : Reader ε} {bs : Bytes}
    (h : Reader.read n r = (.ok bs, r')) : bs.length ≤ n := by
  match r with
  | [] => simp [Reader.read] at h; simp [h.1]
  | .err e :: r => simp [Reader.read] at h
  | .data b :: r =>
    simp only [Reader.read, Prod.mk.injEq, Except.ok.injEq] at h
    rw [← h.1]; simp; omega

/-! ### Invariants of every execution -/

/-- What holds when a function is called. -/
def Inv {ε : Type} (cfg : Cfg) (f : Fn) (s : BL ε) : Prop :=
  s.state ≠ .eof ∧ (s.state = .scanning .newLine ∨ 0 < s.lineCount) ∧ match f with
  | .getSlice => s.prevPos ≤ s.buf.length ∧ s.buf.length ≤ cfg.maxLineLength + cfg.chunkSize
  | .readSlice => s.prevPos = s.buf.length ∧ s.buf.length ≤ cfg.maxLineLength
  | .dropUntilNextLine => s.prevPos = 0 ∧ s.buf = []

/-- What holds between two calls of `next`. -/
def RInv {ε : Type} (cfg : Cfg) (s : BL ε) : Prop :=
  s.state ≠ .eof → Inv cfg .getSlice s

theorem resize_length (b : Bytes) (n : Nat) : (resize b n).length = n := by
  simp [resize]; omega

/-- The buffer is never allocated over one line and one read, in any function. -/
def peak {ε : Type} (cfg : Cfg) (f : Fn) (s : BL ε) : Nat :=
  match f with
  | .readSlice => s.buf.length + cfg.chunkSize
  | .getSlice => s.buf.length
  | .dropUntilNextLine => max s.buf.length cfg.chunkSize

theorem Inv.peak_le {ε : Type} {cfg : Cfg} {f : Fn} {s : BL ε} (h : Inv cfg f s) :
    peak cfg f s ≤ cfg.maxLineLength + cfg.chunkSize := by
  cases f <;> simp [Inv, peak] at * <;> grind

/-- Summary of one function body. -/
theorem body_inv {ε : Type} {cfg : Cfg} {f : Fn} {s : BL ε} (hi : Inv cfg f s) :
    (∃ f' s', body cfg f s = .call f' s' ∧ Inv cfg f' s' ∧ s.lineCount ≤ s'.lineCount ∧
      s'.lineCount + (if s'.state = .scanning .newLine then 1 else 0) ≥
        s.lineCount + (if s.state = .scanning .newLine then 1 else 0)) ∨
    (∃ s' o, body cfg f s = .ret s' o ∧ (o = .panic → cfg.overflowChecks = true) ∧
      (o ≠ .panic → RInv cfg s') ∧ s.lineCount ≤ s'.lineCount ∧
      (∀ bs nr, o = .line bs nr → 1 ≤ bs.length ∧ bs.length ≤ cfg.maxLineLength ∧
        nr = s'.lineCount ∧
        nr ≥ s.lineCount + (if s.state = .scanning .newLine then 1 else 0))) := by
  obtain ⟨hst, hln, hi⟩ := hi
  cases f with
  | readSlice =>
    simp only [body, readSlice]
    split
    · right
      split
      · refine ⟨_, _, rfl, by simp, ?_, ?_, ?_⟩
        · intro _ h; simp [BL.updateLineCounter] at h
        · simp only [BL.updateLineCounter]; split <;> omega
        · intro bs nr h
          simp only [Outcome.line.injEq] at h
          obtain ⟨rfl, rfl⟩ := h
          simp only [BL.updateLineCounter]
          refine ⟨?_, ?_, trivial, ?_⟩
          · simp [resize_length]; omega
          · simp [resize_length]; omega
          · split <;> omega
      · refine ⟨_, _, rfl, by simp, ?_, Nat.le_refl _, by simp⟩
        intro _ _
        refine ⟨hst, hln, ?_, ?_⟩ <;> simp [resize_length] <;> omega
    · rename_i bs r _ hr
      have := read_length hr
      left
      refine ⟨_, _, rfl, ⟨hst, hln, ?_, ?_⟩, Nat.le_refl _, Nat.le_refl _⟩ <;>
        simp [resize_length] <;> omega
    · right
      refine ⟨_, _, rfl, by simp, ?_, Nat.le_refl _, by simp⟩
      intro _ _
      refine ⟨hst, hln, ?_, ?_⟩ <;> simp [resize_length] <;> omega
  | getSlice =>
    simp only [body, getSlice]
    rcases findNextLine_eq cfg s hi.1 with ⟨l', hs, hf⟩ | ⟨l', i, sep, hs, ⟨hc, _, _, _, _, hf⟩ | hf⟩
    · rw [hf]
      simp only
      left
      split
      · exact ⟨_, _, rfl, ⟨hst, hln, rfl, rfl⟩, Nat.le_refl _, Nat.le_refl _⟩
      · exact ⟨_, _, rfl, ⟨hst, hln, rfl, by simp; omega⟩, Nat.le_refl _, Nat.le_refl _⟩
    · rw [hf]
      right
      exact ⟨_, _, rfl, fun _ => hc, by simp, Nat.le_refl _, by simp⟩
    · rw [hf]
      have hb := scan_some hs
      simp only [List.length_drop] at hb
      simp only
      generalize hq : (if sep = Sep.subLine then (i : Int) - 1 else (i : Int)) = q
      have hq' : 0 < q + sep.len ∧ q + sep.len ≤ s.buf.length := by
        cases sep <;> simp [Sep.len] at * <;> omega
      have hlc : s.lineCount ≤ (if s.state = .scanning .newLine then s.lineCount + 1 else s.lineCount) := by
        split <;> omega
      have hlc2 : 0 < (if s.state = .scanning .newLine then s.lineCount + 1 else s.lineCount) := by
        split
        · omega
        · rename_i h; rcases hln with h' | h'
          · exact absurd h' h
          · exact h'
      split
      · left
        rw [if_pos (by omega)]
        refine ⟨_, _, rfl, ⟨by simp, .inr hlc2, ?_, ?_⟩, hlc, ?_⟩
        · simp
        · simp; omega
        · simp only; split <;> split <;> omega
      · rename_i hnq
        rw [if_neg (by omega)]
        have hlen := sep.len_pos
        rw [if_neg (by simp; omega)]
        split
        · left
          refine ⟨_, _, rfl, ⟨by simp, .inr hlc2, ?_, ?_⟩, hlc, ?_⟩
          · simp
          · simp; omega
          · simp only; split <;> split <;> omega
        · rename_i hne
          right
          refine ⟨_, _, rfl, by simp, ?_, hlc, ?_⟩
          · intro _ _
            refine ⟨by simp, .inr hlc2, ?_, ?_⟩
            · simp
            · simp; omega
          · intro bs nr h
            simp only [Outcome.line.injEq] at h
            obtain ⟨rfl, rfl⟩ := h
            simp only [List.isEmpty_iff, List.take_eq_nil_iff] at hne
            have hb0 : s.buf ≠ [] := fun h => hne (.inr h)
            have hbp := List.length_pos_iff.2 hb0
            refine ⟨?_, ?_, rfl, ?_⟩
            · simp; omega
            · simp; omega
            · split <;> omega
  | dropUntilNextLine =>
    simp only [body, dropUntilNextLine]
    split
    · right
      refine ⟨_, _, rfl, by simp, ?_, Nat.le_refl _, by simp⟩
      intro _ _
      refine ⟨hst, hln, ?_, ?_⟩ <;> simp [resize_length, hi.1]
    · right
      refine ⟨_, _, rfl, by simp, ?_, Nat.le_refl _, by simp⟩
      intro _ _
      refine ⟨hst, hln, ?_, ?_⟩ <;> simp [resize_length, hi.1]
    · rename_i bs r hne hr
      have hbl := read_length hr
      generalize hs1 : ({ s with reader := r, buf := bs ++ (resize s.buf cfg.chunkSize).drop bs.length } : BL ε) = s1
      have e1 : s1.prevPos = 0 := by simp [← hs1, hi.1]
      have e2 : s1.state = s.state := by simp [← hs1]
      have e3 : s1.lineCount = s.lineCount := by simp [← hs1]
      have e4 : s1.buf.length = cfg.chunkSize := by
        simp [← hs1, resize_length]; omega
      rcases findNextLine_eq cfg s1 (by omega) with ⟨l', hs, hf⟩ | ⟨l', i, sep, hs, ⟨hc, _, _, _, _, hf⟩ | hf⟩
      · rw [hf]
        left
        refine ⟨_, _, rfl, ⟨?_, ?_, e1, rfl⟩, ?_, ?_⟩
        · simpa [e2] using hst
        · simpa [e2, e3] using hln
        · simp [e3]
        · simp [e2, e3]
      · rw [hf]
        right
        exact ⟨_, _, rfl, fun _ => hc, by simp, by simp [e3], by simp⟩
      · rw [hf]
        have hb := scan_some hs
        simp only [List.length_drop] at hb
        simp only
        generalize hq : (if sep = Sep.subLine then (i : Int) - 1 else (i : Int)) = q
        have hq' : 0 < q + sep.len ∧ q + sep.len ≤ s1.buf.length := by
          cases sep <;> simp [Sep.len] at * <;> omega
        have hlc2 : 0 < (if s1.state = .scanning .newLine then s1.lineCount + 1 else s1.lineCount) := by
          rw [e2, e3]
          split
          · omega
          · rename_i h; rcases hln with h' | h'
            · exact absurd h' h
            · exact h'
        left
        split
        · refine ⟨_, _, rfl, ⟨by simp, .inr hlc2, e1, by simp⟩, ?_, ?_⟩
          · simp only [e2, e3]; split <;> omega
          · simp only [e2, e3]; split <;> split <;> omega
        · rw [if_pos (by omega)]
          refine ⟨_, _, rfl, ⟨by simp, .inr hlc2, ?_, ?_⟩, ?_, ?_⟩
          · simp [e1]
          · simp; omega
          · simp only [e2, e3]; split <;> omega
          · simp only [e2, e3]; split <;> split <;> omega

/-- Summary of one call of `next` (or of any of the functions) from an invariant state. -/
theorem run_inv {ε : Type} {cfg : Cfg} {f : Fn} {s : BL ε} (hi : Inv cfg f s) :
    ((run cfg f s).2 = .panic → cfg.overflowChecks = true) ∧
    ((run cfg f s).2 ≠ .panic → RInv cfg (run cfg f s).1) ∧
    s.lineCount ≤ (run cfg f s).1.lineCount ∧
    (∀ bs nr, (run cfg f s).2 = .line bs nr → 1 ≤ bs.length ∧ bs.length ≤ cfg.maxLineLength ∧
      nr = (run cfg f s).1.lineCount ∧
      nr ≥ s.lineCount + (if s.state = .scanning .newLine then 1 else 0)) := by
  rw [run_eq]
  rcases body_inv hi with ⟨f', s', hb, hi', hle, hge⟩ | ⟨s', o, hb, h1, h2, h3, h4⟩
  · rw [hb]
    have ih := run_inv hi'
    refine ⟨ih.1, ih.2.1, Nat.le_trans hle ih.2.2.1, ?_⟩
    intro bs nr h
    have := ih.2.2.2 bs nr h
    exact ⟨this.1, this.2.1, this.2.2.1, Nat.le_trans hge this.2.2.2⟩
  · rw [hb]
    exact ⟨h1, h2, h3, h4⟩
termination_by (readerSize s.reader, f.rank, s.buf.length)
decreasing_by exact body_call_lt (by assumption)

theorem new_rinv {ε : Type} (cfg : Cfg) (r : Reader ε) (json : Bool) : RInv cfg (BL.new r json) := by
  intro _
  simp [BL.new, Inv]

theorem next_eq_run {ε : Type} {cfg : Cfg} {s : BL ε} (hr : RInv cfg s) (hs : s.state ≠ .eof) :
    ∃ f, Inv cfg f s ∧ s.next cfg = run cfg f s := by
  have hi := hr hs
  cases hst : s.state with
  | eof => exact absurd hst hs
  | scanning sep =>
    by_cases hb : s.buf = []
    · refine ⟨.readSlice, ⟨hi.1, hi.2.1, ?_, ?_⟩, by simp [BL.next, hst, hb]⟩
      · have := hi.2.2.1; simp [hb] at *; exact this
      · simp [hb]
    · exact ⟨.getSlice, hi, by simp [BL.next, hst, hb]⟩

theorem next_inv {ε : Type} {cfg : Cfg} {s : BL ε} (hr : RInv cfg s) :
    ((s.next cfg).2 = .panic → cfg.overflowChecks = true) ∧
    ((s.next cfg).2 ≠ .panic → RInv cfg (s.next cfg).1) ∧
    s.lineCount ≤ (s.next cfg).1.lineCount ∧
    (∀ bs nr, (s.next cfg).2 = .line bs nr → 1 ≤ bs.length ∧ bs.length ≤ cfg.maxLineLength ∧
      nr = (s.next cfg).1.lineCount ∧
      nr ≥ s.lineCount + (if s.state = .scanning .newLine then 1 else 0)) := by
  by_cases hs : s.state = .eof
  · simp [BL.next, hs]
    exact hr
  · obtain ⟨f, hi, he⟩ := next_eq_run hr hs
    rw [he]
    exact run_inv hi

theorem drain_eq {ε : Type} (cfg : Cfg) (s : BL ε) :
    drain cfg s = match s.next cfg with
      | (_, .done) => ([], .finished)
      | (_, .error e) => ([], .failed e)
      | (_, .panic) => ([], .panicked)
      | (s', .line bs nr) => ((bs, nr) :: (drain cfg s').1, (drain cfg s').2) := by
  rw [drain]
  split <;> simp_all

end LJ.Iterator

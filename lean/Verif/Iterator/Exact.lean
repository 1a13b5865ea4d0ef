/-
What the line iterator yields for every schedule of reads, over-long lines included (C05, C03, C07).
-/
import Verif.Iterator.Props
namespace LJ.Iterator
variable {ε : Type}

namespace Spec

/-- The beginning of `xs` up to the first separator, included, when it is read after `before`; all of it without a separator. -/
def upTo (json : Bool) (before : List UInt8) : List UInt8 → List UInt8
  | [] => []
  | x :: xs => if (pieces json before).length < (pieces json (before ++ [x])).length then [x] else x :: upTo json (before ++ [x]) xs

/-- What becomes of the data of one read when the line being read is over the limit: after a full read nothing is left after the end of the
line, and a shorter read is filled up with zeros. -/
def damaged (json : Bool) (before b : List UInt8) : List UInt8 :=
  if b.length = 8192 then upTo json before b else b ++ List.replicate (8192 - b.length) 0

/-- One more byte at the beginning of the line being read, so that it stays over the limit whatever its end is. -/
def longer (json : Bool) (c : List UInt8) : List UInt8 := c.take (c.length - (rest json c).length) ++ 0 :: rest json c

/-- The content which is seen through the iterator: the data read, damaged each time the line being read is over the limit when more is
read. -/
def seen (json : Bool) (c : List UInt8) : List (List UInt8) → List UInt8
  | [] => c
  | b :: bs => if (rest json c).length ≤ 6000 then seen json (c ++ b) bs else seen json (longer json c ++ damaged json c b) bs

/-- The read `b` begins with the `n` of a backslash which is the last byte read: a following `n` would be the end of a piece. -/
def halved (json : Bool) (c b : List UInt8) : Bool :=
  decide ((pieces json c).length < (pieces json (c ++ ['n'.toUInt8])).length) && b.head? == some 'n'.toUInt8

/-- The content seen when a debug build panics, if it does: the line being read is over the limit and its end is cut by the reads. -/
def stop (json : Bool) (c : List UInt8) : List (List UInt8) → Option (List UInt8)
  | [] => none
  | b :: bs =>
    if (rest json c).length ≤ 6000 then stop json (c ++ b) bs
    else if halved json c b then some c
    else stop json (longer json c ++ damaged json c b) bs

end Spec
open Spec

/-- The content which is seen in the end, and how: `none` is a panic, else what the last read gives. -/
def watched (checks json : Bool) (c : Bytes) (blocks : List Bytes) (x : Except ε Bytes) : Bytes × Option (Except ε Bytes) :=
  match checks, stop json c blocks with
  | true, some c' => (c', none)
  | _, _ => (seen json c blocks, some x)

/-- The expected result, or the lines before a panic. -/
def ending (max : Nat) (x : Option (Except ε Bytes)) (ps : List (Bytes × Nat)) : List (Bytes × Nat) × End ε :=
  match x with
  | some x => expected max x ps
  | none => (keep max ps.dropLast, .panicked)

theorem ending_cons_skip {max : Nat} {x : Option (Except ε Bytes)} {p : Bytes × Nat} {ps : List (Bytes × Nat)} (hps : ps ≠ [])
    (h : ¬ (0 < p.1.length ∧ p.1.length ≤ max)) : ending max x (p :: ps) = ending max x ps := by
  cases x with
  | some x => exact expected_cons_skip hps h
  | none =>
    simp only [ending, keep, List.dropLast_cons_of_ne_nil hps, List.filter_cons]
    rw [if_neg (by simpa using h)]

theorem ending_cons_keep {max : Nat} {x : Option (Except ε Bytes)} {p : Bytes × Nat} {ps : List (Bytes × Nat)} (hps : ps ≠ [])
    (h : 0 < p.1.length ∧ p.1.length ≤ max) : ending max x (p :: ps) = (p :: (ending max x ps).1, (ending max x ps).2) := by
  cases x with
  | some x => exact expected_cons_keep hps h
  | none =>
    simp only [ending, keep, List.dropLast_cons_of_ne_nil hps, List.filter_cons]
    rw [if_pos (by simpa using h)]

theorem watched_nil (checks json : Bool) (c : Bytes) (x : Except ε Bytes) : watched checks json c [] x = (c, some x) := by
  cases checks <;> rfl

theorem watched_short {checks json : Bool} {c b : Bytes} {bs : List Bytes} {x : Except ε Bytes} (h : (rest json c).length ≤ 6000) :
    watched checks json c (b :: bs) x = watched checks json (c ++ b) bs x := by
  unfold watched
  rw [stop, if_pos h, seen, if_pos h]

theorem watched_long {checks json : Bool} {c b : Bytes} {bs : List Bytes} {x : Except ε Bytes} (h : ¬ (rest json c).length ≤ 6000)
    (h' : checks = true → halved json c b = false) :
    watched checks json c (b :: bs) x = watched checks json (longer json c ++ damaged json c b) bs x := by
  unfold watched
  rw [stop, if_neg h, seen, if_neg h]
  cases checks with
  | false => rfl
  | true => rw [h' rfl, if_neg (by simp)]

theorem watched_stop {json : Bool} {c b : Bytes} {bs : List Bytes} {x : Except ε Bytes} (h : ¬ (rest json c).length ≤ 6000)
    (h' : halved json c b = true) : watched true json c (b :: bs) x = (c, none) := by
  unfold watched
  rw [stop, if_neg h, if_pos h']

/-- The pieces of `p` are `ps` and an empty one, in the scanner state `l` and on line `n`. -/
def At (json : Bool) (p : Bytes) (ps : List (Bytes × Nat)) (l : Lex) (n : Nat) : Prop :=
  l.escaped = false ∧ ∀ fut, pieces json (p ++ fut) = ps ++ splitL l [] n fut

theorem splitL_nil (l : Lex) (cur : Bytes) (n : Nat) : splitL l cur n [] = [(cur, n)] := by simp [splitL, split]

theorem scan_append {l l1 : Lex} {xs : Bytes} {i : Nat} (h : scan l xs i = (l1, none)) (ys : Bytes) :
    scan l (xs ++ ys) i = scan l1 ys (i + xs.length) := by
  induction xs generalizing l i with
  | nil => simp [scan] at h; simp [h]
  | cons c cs ih =>
    simp only [List.cons_append, scan] at h ⊢
    split at h
    · simp at h
    · next hl =>
      rw [ih h]; congr 1; simp; omega

/-- The position does not matter. -/
theorem scan_shift (l : Lex) (xs : Bytes) (i k : Nat) :
    scan l xs (i + k) = ((scan l xs i).1, (scan l xs i).2.map fun x => (x.1 + k, x.2)) := by
  induction xs generalizing l i with
  | nil => simp [scan]
  | cons c cs ih =>
    simp only [scan]
    split
    · simp
    · rw [← ih]; congr 1; omega

theorem scan_none_shift {l l' : Lex} {xs : Bytes} {i : Nat} (h : scan l xs i = (l', none)) (k : Nat) : scan l xs k = (l', none) := by
  have h0 : scan l xs 0 = (l', none) := by
    have := scan_shift l xs 0 i
    rw [Nat.zero_add, h] at this
    rcases hs : scan l xs 0 with ⟨a, _ | b⟩
    · rw [hs] at this; simp at this; rw [this]
    · rw [hs] at this; simp at this
  have := scan_shift l xs 0 k
  rw [Nat.zero_add, h0] at this
  simpa using this

/-- A zero is an ordinary byte. -/
theorem scan_zero {l : Lex} (h : l.escaped = false) (xs : Bytes) (i : Nat) : scan l (0 :: xs) i = scan l xs (i + 1) := by
  have : lexByte l 0 = (l, none) := by
    rcases l with ⟨e, js⟩
    simp only at h; subst h
    rcases js with _ | j
    · rfl
    · cases j <;> rfl
  simp only [scan, this]

/-- A line which is being read. -/
theorem at_open {json : Bool} {p : Bytes} {ps : List (Bytes × Nat)} {l l1 : Lex} {n i : Nat} (h : At json p ps l n) {cur : Bytes}
    (hs : scan l cur i = (l1, none)) (fut : Bytes) : pieces json (p ++ cur ++ fut) = ps ++ splitL l1 cur n fut := by
  rw [List.append_assoc, h.2, scan_none_split hs]; simp

theorem at_rest {json : Bool} {p : Bytes} {ps : List (Bytes × Nat)} {l l1 : Lex} {n i : Nat} (h : At json p ps l n) {cur : Bytes}
    (hs : scan l cur i = (l1, none)) : rest json (p ++ cur) = cur := by
  have := at_open h hs []
  rw [List.append_nil, splitL_nil] at this
  simp [rest, this]

theorem at_longer {json : Bool} {p : Bytes} {ps : List (Bytes × Nat)} {l l1 : Lex} {n i : Nat} (h : At json p ps l n) {cur : Bytes}
    (hs : scan l cur i = (l1, none)) : longer json (p ++ cur) = p ++ 0 :: cur := by
  unfold longer
  rw [at_rest h hs]
  simp

/-- The end of a line. -/
theorem at_sep {json : Bool} {p : Bytes} {ps : List (Bytes × Nat)} {l l1 l2 : Lex} {n i j k : Nat} {sep : Sep} (h : At json p ps l n) {cur xs : Bytes}
    (hs : scan l cur i = (l1, none)) (hx : scan l1 xs j = (l2, some (k, sep))) :
    At json (p ++ cur ++ xs.take (k - j + 1))
      (ps ++ [(if sep = .subLine then (cur ++ xs.take (k - j)).dropLast else cur ++ xs.take (k - j), n)]) l2 (if sep = .newLine then n + 1 else n) := by
  refine ⟨(scan_some_escaped hx).1, fun fut => ?_⟩
  have hb := scan_some hx
  have hx' : scan l1 (xs.take (k - j + 1)) j = (l2, some (k, sep)) := by
    clear h hs
    induction xs generalizing l1 j with
    | nil => simp [scan] at hx
    | cons c cs ih =>
      simp only [scan] at hx
      rw [List.take_succ_cons]
      simp only [scan]
      split at hx
      · exact hx
      · next hl =>
        have hb' := scan_some hx
        have e : k - j = k - (j + 1) + 1 := by omega
        rw [e]
        exact ih hx hb'
  rw [List.append_assoc, at_open h hs, scan_some_split hx']
  simp only [List.append_assoc, List.singleton_append, List.take_take]
  congr 2
  · rw [Nat.min_eq_left (by omega)]
  · rw [List.drop_of_length_le (by simp; omega), List.nil_append]

/-- The beginning up to a separator. -/
theorem upTo_none {json : Bool} {p : Bytes} {ps : List (Bytes × Nat)} {l : Lex} {n : Nat} (h : At json p ps l n) :
    ∀ {cur xs : Bytes} {l1 l2 : Lex} {i j : Nat}, scan l cur i = (l1, none) → scan l1 xs j = (l2, none) → upTo json (p ++ cur) xs = xs := by
  intro cur xs
  induction xs generalizing cur with
  | nil => intros; rfl
  | cons x xs ih =>
    intro l1 l2 i j hs hx
    simp only [scan] at hx
    split at hx
    · simp at hx
    · next l3 hl =>
      have hs' : scan l (cur ++ [x]) i = (l3, none) := by rw [scan_append hs]; simp [scan, hl]
      have h1 := at_open h hs []
      have h2 := at_open h hs' []
      rw [List.append_nil, splitL_nil] at h1 h2
      rw [← List.append_assoc] at h2
      rw [upTo, h1, h2, if_neg (by simp), List.append_assoc, ih hs' hx]

theorem upTo_some {json : Bool} {p : Bytes} {ps : List (Bytes × Nat)} {l : Lex} {n : Nat} (h : At json p ps l n) :
    ∀ {cur xs : Bytes} {l1 l2 : Lex} {i j k : Nat} {sep : Sep}, scan l cur i = (l1, none) → scan l1 xs j = (l2, some (k, sep)) →
      upTo json (p ++ cur) xs = xs.take (k - j + 1) := by
  intro cur xs
  induction xs generalizing cur with
  | nil => intro l1 l2 i j k sep _ hx; simp [scan] at hx
  | cons x xs ih =>
    intro l1 l2 i j k sep hs hx
    have h1 := at_open h hs []
    rw [List.append_nil, splitL_nil] at h1
    have hx0 := hx
    simp only [scan] at hx
    split at hx
    · next l3 sep' hl =>
      simp only [Prod.mk.injEq, Option.some.injEq] at hx
      obtain ⟨rfl, rfl, rfl⟩ := hx
      have h2 := (at_sep h hs hx0).2 []
      rw [List.append_nil, splitL_nil] at h2
      simp only [Nat.sub_self, Nat.zero_add, List.take_succ_cons, List.take_zero] at h2
      rw [upTo, h1, h2, if_pos (by simp)]
      simp
    · next l3 hl =>
      have hb := scan_some hx
      have hs' : scan l (cur ++ [x]) i = (l3, none) := by rw [scan_append hs]; simp [scan, hl]
      have h2 := at_open h hs' []
      rw [List.append_nil, splitL_nil, ← List.append_assoc] at h2
      rw [upTo, h1, h2, if_neg (by simp), List.append_assoc, ih hs' hx]
      have e : k - j = k - (j + 1) + 1 := by omega
      rw [e, List.take_succ_cons]

/-- A following `n` ends a piece exactly when a backslash is pending. -/
theorem halved_eq {json : Bool} {p : Bytes} {ps : List (Bytes × Nat)} {l l1 : Lex} {n i : Nat} (h : At json p ps l n) {cur : Bytes}
    (hs : scan l cur i = (l1, none)) (b : Bytes) : halved json (p ++ cur) b = (l1.escaped && b.head? == some CH_N) := by
  have h1 := at_open h hs []
  have h2 := at_open h hs ['n'.toUInt8]
  rw [List.append_nil, splitL_nil] at h1
  unfold halved
  rw [h1, h2, splitL_cons]
  have e : 'n'.toUInt8 = CH_N := rfl
  rw [e]
  congr 1
  rcases l1 with ⟨_ | _, js⟩
  · have : lexByte ⟨false, js⟩ CH_N = (⟨false, js⟩, none) := by
      rcases js with _ | _ | _ <;> rfl
    rw [this]
    simp [splitL_nil]
  · have : lexByte ⟨true, js⟩ CH_N = (⟨false, js⟩, some .subLine) := rfl
    rw [this]
    simp [splitL_nil]

/-- What has been read is `p` and the line being read; in the function which drops a line it is over the limit, else it is buffered. -/
def Held (cfg : Cfg) (f : Fn) (s : BL ε) (l0 : Lex) (p c : Bytes) : Prop :=
  match f with
  | .dropUntilNextLine => ∃ cur, c = p ++ cur ∧ scan l0 cur 0 = (s.lex, none) ∧ cfg.maxLineLength < cur.length
  | _ => c = p ++ s.buf ∧ scan l0 (s.buf.take s.prevPos) 0 = (s.lex, none)

theorem resize_take (b : Bytes) (n : Nat) : (resize b (b.length + n)).take b.length = b := by
  simp [resize]
  rw [List.take_of_length_le (by omega)]

/-- The number of the next piece. -/
theorem nextNo_sep (s s1 : BL ε) (sep : Sep) (h1 : s1.state = .scanning sep)
    (h2 : s1.lineCount = if s.state = .scanning .newLine then s.lineCount + 1 else s.lineCount) :
    nextNo s1 = if sep = .newLine then nextNo s + 1 else nextNo s := by
  unfold nextNo
  rw [h1, h2]
  cases sep <;> simp <;> split <;> omega

theorem exactCore {cfg : Cfg} (hm : cfg.maxLineLength = 6000) (hch : cfg.chunkSize = 8192) {json : Bool}
    {f : Fn} {s : BL ε} {blocks : List Bytes} {fin : Reader ε} {x : Except ε Bytes} {r : Reader ε} {p c : Bytes} {ps : List (Bytes × Nat)} {l0 : Lex}
    (hat : At json p ps l0 (nextNo s)) (hi : Inv cfg f s) (hh : Held cfg f s l0 p c)
    (hr : s.reader = blocks.map .data ++ fin)
    (hb : ∀ b ∈ blocks, b ≠ [] ∧ b.length ≤ cfg.chunkSize)
    (hfin : fin.read cfg.chunkSize = (x, r)) (hx : ∀ bs, x = .ok bs → bs = []) :
    ∃ q, q ≠ [] ∧ pieces json (watched cfg.overflowChecks json c blocks x).1 = ps ++ q ∧
      drainRun cfg f s = ending cfg.maxLineLength (watched cfg.overflowChecks json c blocks x).2 q := by
  rw [drainRun_eq]
  cases f with
  | readSlice =>
    obtain ⟨hst, hln, hpp, hlen⟩ := hi
    obtain ⟨rfl, hsc⟩ := hh
    rw [hpp, List.take_length] at hsc
    cases blocks with
    | nil =>
      have hr' : s.reader = fin := by simpa using hr
      rw [watched_nil]
      refine ⟨[(s.buf, nextNo s)], by simp, ?_, ?_⟩
      · have := at_open hat hsc []
        rwa [List.append_nil, splitL_nil] at this
      · cases x with
        | ok bs =>
          have hbs := hx bs rfl
          subst hbs
          simp only [body, readSlice, hr', hfin]
          by_cases hp : s.buf.length > 0
          · simp only [if_pos hp, BL.updateLineCounter]
            rw [drain_eof rfl]
            simp only [resize_take, ending, expected, keep, List.filter_cons]
            have hk : (decide (0 < s.buf.length) && decide (s.buf.length ≤ cfg.maxLineLength)) = true := by
              simp only [Bool.and_eq_true, decide_eq_true_eq]; omega
            simp only [hk, nextNo, List.filter_nil, if_true]
            congr 3
            split <;> rfl
          · simp only [if_neg hp, ending, expected, keep, List.filter_cons]
            rw [if_neg (by simp; omega)]
            rfl
        | error e =>
          simp only [body, readSlice, hr', hfin]
          simp [ending, expected, keep]
    | cons b bs =>
      have hb1 := hb b (by simp)
      have hread : s.reader.read cfg.chunkSize = (.ok b, bs.map .data ++ fin) := by
        rw [hr]
        simp [Reader.read, hb1.2, List.take_of_length_le]
      have hcall : body cfg .readSlice s = .call .getSlice { s with reader := bs.map .data ++ fin, buf := s.buf ++ b } := by
        cases b with
        | nil => exact absurd rfl hb1.1
        | cons c cs => simp only [body, readSlice, hread, resize_take]
      have hsize := body_call_lt hcall
      rw [hcall]
      rw [watched_short (by rw [at_rest hat hsc]; omega), List.append_assoc]
      refine exactCore (blocks := bs) (s := { s with reader := bs.map .data ++ fin, buf := s.buf ++ b }) hm hch (l0 := l0) (p := p) ?_
        ⟨hst, hln, ?_, ?_⟩ ⟨rfl, ?_⟩ rfl (fun b h => hb b (by simp [h])) hfin hx
      · exact hat
      · simp only [hpp, List.length_append]; omega
      · have := hb1.2
        simp only [List.length_append]; omega
      · simp only [hpp, List.take_left']; exact hsc
  | getSlice =>
    obtain ⟨hst, hln, hpp, hlen⟩ := hi
    obtain ⟨rfl, hsc⟩ := hh
    have he : s.lex.escaped = true → 0 < s.prevPos := by
      intro h
      rcases scan_none_escaped hsc h with h | h
      · rw [hat.1] at h; cases h
      · cases hz : s.prevPos with
        | zero => simp [hz] at h
        | succ _ => omega
    rcases findNextLine_eq cfg s hpp with ⟨l', hs, hfn⟩ | ⟨l', i, sep, hs, ⟨_, _, _, h1, h2, _⟩ | hfn⟩
    · have hall : scan l0 s.buf 0 = (l', none) := by
        have := scan_append hsc (s.buf.drop s.prevPos)
        rw [List.take_append_drop] at this
        rw [this]
        exact scan_none_shift hs _
      by_cases hlong : s.buf.length > cfg.maxLineLength
      · have hcall : body cfg .getSlice s = .call .dropUntilNextLine { s with lex := l', prevPos := 0, buf := [] } := by
          simp only [body, getSlice, hfn, if_pos hlong]
        have hsize := body_call_lt hcall
        rw [hcall]
        exact exactCore (blocks := blocks) (s := { s with lex := l', prevPos := 0, buf := [] }) hm hch (l0 := l0) (p := p) hat
          ⟨hst, hln, rfl, rfl⟩ ⟨s.buf, rfl, hall, hlong⟩ hr hb hfin hx
      · have hcall : body cfg .getSlice s = .call .readSlice { s with lex := l', prevPos := s.buf.length } := by
          simp only [body, getSlice, hfn, if_neg hlong]
        have hsize := body_call_lt hcall
        rw [hcall]
        refine exactCore (blocks := blocks) (s := { s with lex := l', prevPos := s.buf.length }) hm hch (l0 := l0) (p := p) hat
          ⟨hst, hln, rfl, by simp only; omega⟩ ⟨rfl, ?_⟩ hr hb hfin hx
        simp only [List.take_length]; exact hall
    · exact absurd (he h1) (by omega)
    · have hbd := scan_some hs
      have hes := scan_some_escaped hs
      simp only [List.length_drop] at hbd
      generalize hq : (if sep = Sep.subLine then (i : Int) - 1 else (i : Int)) = q at hfn
      have hq0 : 0 ≤ q := by
        rw [← hq]; split
        · rename_i h
          rcases hes.2 h with h | h
          · have := he h; omega
          · omega
        · omega
      have hqi : q.toNat + sep.len = i + 1 := by
        rw [← hq]
        cases sep <;> simp [Sep.len] at * <;> omega
      have htake : s.buf.take s.prevPos ++ (s.buf.drop s.prevPos).take (i - s.prevPos) = s.buf.take i := by
        rw [← List.take_add]; congr 1; omega
      have htake1 : s.buf.take s.prevPos ++ (s.buf.drop s.prevPos).take (i - s.prevPos + 1) = s.buf.take (i + 1) := by
        rw [← List.take_add]; congr 1; omega
      have hpiece : (if sep = .subLine then (s.buf.take i).dropLast else s.buf.take i) = s.buf.take q.toNat := by
        split
        · rename_i h
          subst h
          rw [List.dropLast_take (by omega)]
          simp [Sep.len] at hqi
          congr 1
          omega
        · rename_i h
          have : q.toNat = i := by rw [← hq, if_neg h]; simp
          rw [this]
      generalize hs1 : ({ s with
          lex := l'
          lineCount := if s.state = .scanning .newLine then s.lineCount + 1 else s.lineCount
          state := .scanning sep
          prevPos := 0
          buf := s.buf.drop (i + 1) } : BL ε) = s1
      have hat1 : At json (p ++ s.buf.take (i + 1)) (ps ++ [(s.buf.take q.toNat, nextNo s)]) l' (nextNo s1) := by
        have := at_sep hat hsc hs
        rw [htake, hpiece, List.append_assoc, htake1] at this
        rw [nextNo_sep s s1 sep (by subst hs1; rfl) (by subst hs1; rfl)]
        exact this
      have hlc2 : 0 < s1.lineCount := by
        subst hs1
        simp only
        split
        · omega
        · rename_i h; rcases hln with h' | h'
          · exact absurd h' h
          · exact h'
      have hi1 : Inv cfg .getSlice s1 := by
        refine ⟨by subst hs1; simp, .inr hlc2, ?_, ?_⟩
        · subst hs1; simp
        · subst hs1; simp; omega
      have hr1 : s1.reader = blocks.map .data ++ fin := by subst hs1; exact hr
      have hh1 : Held cfg .getSlice s1 l' (p ++ s.buf.take (i + 1)) (p ++ s.buf) := by
        subst hs1
        refine ⟨by simp, by simp [scan]⟩
      have hsz : Prod.Lex (· < ·) (Prod.Lex (· < ·) (· < ·))
          (readerSize s1.reader, Fn.getSlice.rank, s1.buf.length)
          (readerSize s.reader, Fn.getSlice.rank, s.buf.length) := by
        have : s1.reader = s.reader := by subst hs1; rfl
        rw [this]
        refine Prod.Lex.right _ (Prod.Lex.right _ ?_)
        subst hs1
        simp; omega
      obtain ⟨w, hw0, hw, ih⟩ := exactCore (s := s1) hm hch hat1 hi1 hh1 hr1 hb hfin hx
      refine ⟨(s.buf.take q.toNat, nextNo s) :: w, by simp, by rw [hw]; simp, ?_⟩
      have hlen_piece : (s.buf.take q.toNat).length = q.toNat := by
        simp; have := sep.len_pos; omega
      by_cases hlong : q < 0 ∨ q > cfg.maxLineLength
      · have hcall : body cfg .getSlice s = .call .getSlice s1 := by
          simp only [body, getSlice, hfn, if_pos hlong]
          have e : (q + sep.len).toNat = i + 1 := by omega
          rw [e, if_pos (by omega), ← hs1]
        rw [hcall]
        simp only
        rw [ih, ending_cons_skip hw0]
        simp only [hlen_piece]
        omega
      · have hl := sep.len_pos
        have hrest : (s.buf.drop q.toNat).drop sep.len = s.buf.drop (i + 1) := by
          rw [List.drop_drop]; congr 1
        by_cases hem : s.buf.take q.toNat = []
        · have hcall : body cfg .getSlice s = .call .getSlice s1 := by
            simp only [body, getSlice, hfn, if_neg hlong]
            rw [if_neg (by omega), if_neg (by simp; omega), if_pos (by simp [hem]), hrest, ← hs1]
          rw [hcall]
          simp only
          rw [ih, ending_cons_skip hw0]
          simp [hem]
        · have hret : body cfg .getSlice s = .ret s1 (.line (s.buf.take q.toNat) s1.lineCount) := by
            simp only [body, getSlice, hfn, if_neg hlong]
            rw [if_neg (by omega), if_neg (by simp; omega), if_neg (by simpa using hem), hrest, ← hs1]
          rw [hret]
          simp only
          rw [drain_drainRun (fun _ => hi1) hi1.1, ih, ending_cons_keep hw0]
          · congr 3
            subst hs1
            simp only [nextNo]
            split <;> rfl
          · constructor
            · exact List.length_pos_iff.2 hem
            · simp only [hlen_piece]; omega
  | dropUntilNextLine =>
    obtain ⟨hst, hln, hpp, hbuf⟩ := hi
    obtain ⟨cur, rfl, hsc, hcur⟩ := hh
    cases blocks with
    | nil =>
      have hr' : s.reader = fin := by simpa using hr
      rw [watched_nil]
      refine ⟨[(cur, nextNo s)], by simp, ?_, ?_⟩
      · have := at_open hat hsc []
        rwa [List.append_nil, splitL_nil] at this
      · simp only [body, dropUntilNextLine, hr', hfin]
        cases x with
        | ok bs =>
          have := hx bs rfl
          subst this
          simp only [ending, expected, keep, List.filter_cons]
          rw [if_neg (by simp; omega)]
          rfl
        | error e => simp [ending, expected, keep]
    | cons b bs =>
      have hb1 := hb b (by simp)
      have hread : s.reader.read cfg.chunkSize = (.ok b, bs.map .data ++ fin) := by
        rw [hr]
        simp [Reader.read, hb1.2, List.take_of_length_le]
      have hpad : b ++ (resize s.buf cfg.chunkSize).drop b.length = b ++ List.replicate (8192 - b.length) 0 := by
        rw [hbuf, hch]
        simp only [resize, List.take_nil, List.nil_append, List.length_nil, Nat.sub_zero, List.drop_replicate]
      generalize hw : b ++ List.replicate (8192 - b.length) (0 : UInt8) = pad at hpad
      have hpl : pad.length = 8192 := by have := hb1.2; subst hw; simp; omega
      generalize hs0 : ({ s with reader := bs.map .data ++ fin, buf := pad } : BL ε) = s0
      have h0 : s0.prevPos = 0 ∧ s0.buf = pad ∧ s0.lex = s.lex ∧ s0.state = s.state ∧ s0.lineCount = s.lineCount ∧
          s0.reader = bs.map .data ++ fin := by subst hs0; exact ⟨hpp, rfl, rfl, rfl, rfl, rfl⟩
      have hn0 : nextNo s0 = nextNo s := by simp [nextNo, h0]
      have hlong' : scan l0 (0 :: cur) 0 = (s.lex, none) := by rw [scan_zero hat.1]; exact scan_none_shift hsc _
      have hlr : ¬ (rest json (p ++ cur)).length ≤ 6000 := by rw [at_rest hat hsc]; omega
      have hbody : body cfg .dropUntilNextLine s = match s0.findNextLine cfg with
          | .panic => .ret s0 .panic
          | .res s none => .call .dropUntilNextLine { s with buf := [] }
          | .res s (some (pos, sep)) =>
            if b.length = cfg.chunkSize then .call .readSlice { s with buf := [] }
            else if (pos + sep.len).toNat ≤ s.buf.length then .call .getSlice { s with buf := s.buf.drop (pos + sep.len).toNat }
            else .ret s .panic := by
        cases b with
        | nil => exact absurd rfl hb1.1
        | cons c cs =>
          simp only [body, dropUntilNextLine, hread]
          rw [hpad, hs0]
          rfl
      have hscan0 : scan s0.lex (s0.buf.drop s0.prevPos) s0.prevPos = scan s.lex pad 0 := by
        rw [h0.1, h0.2.1, h0.2.2.1, List.drop_zero]
      have hfnl := findNextLine_eq cfg s0 (by omega)
      rw [hscan0] at hfnl
      have hread_lt : readerSize s0.reader < readerSize s.reader := by
        rw [h0.2.2.2.2.2]
        cases b with
        | nil => exact absurd rfl hb1.1
        | cons c cs => exact read_ok_size hread
      have hopen : ∀ fut, pieces json (p ++ cur ++ fut) = ps ++ splitL s.lex cur (nextNo s) fut := at_open hat hsc
      have hgo : (cfg.overflowChecks = true → halved json (p ++ cur) b = false) →
          watched cfg.overflowChecks json (p ++ cur) (b :: bs) x =
            watched cfg.overflowChecks json (p ++ 0 :: cur ++ damaged json (p ++ cur) b) bs x := by
        intro h
        rw [watched_long hlr h, at_longer hat hsc]
      have hnot : s0.findNextLine cfg ≠ .panic → cfg.overflowChecks = true → halved json (p ++ cur) b = false := by
        intro hp hc
        cases hh : halved json (p ++ cur) b with
        | false => rfl
        | true =>
          rw [halved_eq hat hsc] at hh
          simp only [Bool.and_eq_true, beq_iff_eq] at hh
          obtain ⟨hesc, hhd⟩ := hh
          refine absurd ?_ hp
          cases b with
          | nil => cases hhd
          | cons y ys =>
            simp only [List.head?_cons, Option.some.injEq] at hhd
            subst hhd
            have hl : lexByte s.lex CH_N = ({ s.lex with escaped := false }, some .subLine) := by simp [lexByte, hesc]
            have hsn : scan s.lex pad 0 = ({ s.lex with escaped := false }, some (0, .subLine)) := by
              rw [← hw]
              simp [scan, hl]
            rw [← h0.2.2.1, ← h0.2.1] at hsn
            simp [BL.findNextLine, h0.1, hsn, hc]
      rcases hfnl with ⟨l', hs, hfn⟩ | ⟨l', i, sep, hs, ⟨h1, h2, h3, h4, _, hfn⟩ | hfn⟩
      · have hdam : damaged json (p ++ cur) b = pad := by
          unfold damaged
          split
          · rename_i h8
            have : pad = b := by rw [← hw, h8]; simp
            rw [upTo_none hat hsc (this ▸ hs), this]
          · exact hw
        rw [hgo (hnot (by rw [hfn]; simp)), hdam, hbody, hfn]
        simp only
        have := hb1.2
        refine exactCore (blocks := bs) (f := .dropUntilNextLine) (s := { s0 with lex := l', buf := [] }) hm hch (l0 := l0) (p := p)
          (c := p ++ 0 :: cur ++ pad) (by simpa [nextNo, h0] using hat)
          ⟨by simpa [h0] using hst, by simpa [h0] using hln, h0.1, rfl⟩ ⟨0 :: cur ++ pad, by simp, ?_, by simp; omega⟩ h0.2.2.2.2.2
          (fun b h => hb b (by simp [h])) hfin hx
        rw [scan_append hlong']
        exact scan_none_shift hs _
      · -- the panic
        subst h2 h3
        have hn : b.head? = some CH_N := by
          cases b with
          | nil => exact absurd rfl hb1.1
          | cons y ys =>
            rw [← hw] at hs
            simp only [List.cons_append, scan] at hs
            split at hs
            · rename_i hl
              simp only [Prod.mk.injEq, Option.some.injEq] at hs
              obtain ⟨_, _, rfl⟩ := hs
              rw [((lexByte_some_escaped hl).2.1 rfl).2]
              rfl
            · have := scan_some hs
              omega
        have hh : halved json (p ++ cur) b = true := by
          rw [halved_eq hat hsc, hn, ← h0.2.2.1, h4]
          rfl
        rw [h1, watched_stop hlr hh]
        refine ⟨[(cur, nextNo s)], by simp, ?_, ?_⟩
        · have := hopen []
          rwa [List.append_nil, splitL_nil] at this
        · rw [hbody, hfn]
          simp [ending, keep]
      · have hbd := scan_some hs
        have hat' := at_sep hat hlong' hs
        simp only [Nat.sub_zero] at hat'
        have hlc2 : 0 < (if s0.state = .scanning .newLine then s0.lineCount + 1 else s0.lineCount) := by
          rw [h0.2.2.2.1, h0.2.2.2.2.1]
          split
          · omega
          · rename_i h; rcases hln with h' | h'
            · exact absurd h' h
            · exact h'
        generalize hs1 : ({ s0 with
          lex := l'
          lineCount := if s0.state = .scanning .newLine then s0.lineCount + 1 else s0.lineCount
          state := .scanning sep } : BL ε) = s1 at hfn
        have g0 : s1.prevPos = 0 ∧ s1.buf = pad ∧ s1.lex = l' ∧ s1.state = .scanning sep ∧ 0 < s1.lineCount ∧
            s1.reader = bs.map .data ++ fin := by subst hs1; exact ⟨h0.1, h0.2.1, rfl, rfl, hlc2, h0.2.2.2.2.2⟩
        have hno1 : nextNo s1 = if sep = .newLine then nextNo s + 1 else nextNo s := by
          rw [nextNo_sep s0 s1 sep g0.2.2.2.1 (by subst hs1; rfl), hn0]
        rw [← hno1] at hat'
        have hlen : cfg.maxLineLength < (if sep = .subLine then (0 :: cur ++ pad.take i).dropLast else 0 :: cur ++ pad.take i).length := by
          split <;> simp <;> omega
        generalize (if sep = .subLine then (0 :: cur ++ pad.take i).dropLast else 0 :: cur ++ pad.take i) = piece at hlen hat'
        rw [hbody, hfn]
        simp only
        have hread1 : readerSize s1.reader < readerSize s.reader := by
          rw [g0.2.2.2.2.2, ← h0.2.2.2.2.2]; exact hread_lt
        by_cases h8 : b.length = 8192
        · have hpb : pad = b := by rw [← hw, h8]; simp
          have hdam : damaged json (p ++ cur) b = pad.take (i + 1) := by
            unfold damaged
            rw [if_pos h8, upTo_some hat hsc (hpb ▸ hs), hpb, Nat.sub_zero]
          rw [if_pos (by omega), hgo (hnot (by rw [hfn]; simp)), hdam]
          obtain ⟨w, hw0, hw1, ih⟩ := exactCore (blocks := bs) (f := .readSlice) (s := { s1 with buf := [] }) hm hch (l0 := l')
            (p := p ++ 0 :: cur ++ pad.take (i + 1)) (c := p ++ 0 :: cur ++ pad.take (i + 1)) hat'
            ⟨by simp [g0], .inr g0.2.2.2.2.1, by simp [g0], by simp⟩ ⟨by simp, by simp [scan, g0]⟩ g0.2.2.2.2.2
            (fun b h => hb b (by simp [h])) hfin hx
          refine ⟨(piece, nextNo s) :: w, by simp, by rw [hw1]; simp, ?_⟩
          simp only
          rw [ih, ending_cons_skip hw0]
          simp only
          omega
        · have hdam : damaged json (p ++ cur) b = pad := by
            unfold damaged
            rw [if_neg h8]; exact hw
          rw [if_neg (by omega), hgo (hnot (by rw [hfn]; simp)), hdam]
          have hn : ((if sep = Sep.subLine then (i : Int) - 1 else (i : Int)) + sep.len).toNat = i + 1 := by
            cases sep <;> simp [Sep.len] <;> omega
          rw [hn, g0.2.1, if_pos (by omega)]
          obtain ⟨w, hw0, hw1, ih⟩ := exactCore (blocks := bs) (f := .getSlice) (s := { s1 with buf := pad.drop (i + 1) }) hm hch (l0 := l')
            (p := p ++ 0 :: cur ++ pad.take (i + 1)) (c := p ++ 0 :: cur ++ pad) hat'
            ⟨by simp [g0], .inr g0.2.2.2.2.1, by simp [g0], by simp; omega⟩ ⟨by simp, by simp [scan, g0]⟩ g0.2.2.2.2.2
            (fun b h => hb b (by simp [h])) hfin hx
          refine ⟨(piece, nextNo s) :: w, by simp, by rw [hw1]; simp, ?_⟩
          simp only
          rw [ih, ending_cons_skip hw0]
          simp only
          omega
termination_by (readerSize s.reader, f.rank, s.buf.length)
decreasing_by all_goals first | assumption | (subst_vars; assumption) | (exact Prod.Lex.left _ _ (by assumption)) | skip

end LJ.Iterator

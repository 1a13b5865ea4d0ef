/- The line iterator refines the splitter specification. -/
import Verif.Iterator.Lemmas
namespace LJ.Iterator
open Spec

/-- What is left to be yielded when one of the functions is running. -/
def drainRun {ε : Type} (cfg : Cfg) (f : Fn) (s : BL ε) : List (Bytes × Nat) × End ε :=
  match run cfg f s with
  | (_, .done) => ([], .finished)
  | (_, .error e) => ([], .failed e)
  | (_, .panic) => ([], .panicked)
  | (s', .line bs nr) => ((bs, nr) :: (drain cfg s').1, (drain cfg s').2)

theorem drainRun_eq {ε : Type} (cfg : Cfg) (f : Fn) (s : BL ε) :
    drainRun cfg f s = match body cfg f s with
      | .call f' s' => drainRun cfg f' s'
      | .ret _ .done => ([], .finished)
      | .ret _ (.error e) => ([], .failed e)
      | .ret _ .panic => ([], .panicked)
      | .ret s' (.line bs nr) => ((bs, nr) :: (drain cfg s').1, (drain cfg s').2) := by
  unfold drainRun
  rw [run_eq]
  cases hb : body cfg f s with
  | ret s' o => cases o <;> rfl
  | call f' s' => rfl

theorem getSlice_empty {ε : Type} {cfg : Cfg} {s : BL ε} (hb : s.buf = []) (hp : s.prevPos = 0) :
    body cfg .getSlice s = .call .readSlice s := by
  rcases s with ⟨r, b, st, lc, lx, pp⟩
  simp only at hb hp
  subst hb hp
  simp [body, getSlice, BL.findNextLine, scan]

theorem drain_drainRun {ε : Type} {cfg : Cfg} {s : BL ε} (hr : RInv cfg s) (hs : s.state ≠ .eof) :
    drain cfg s = drainRun cfg .getSlice s := by
  have hi := hr hs
  cases hst : s.state with
  | eof => exact absurd hst hs
  | scanning sep =>
    by_cases hb : s.buf = []
    · have hp : s.prevPos = 0 := by have := hi.2.2.1; simpa [hb] using this
      rw [drain_eq, drainRun_eq, getSlice_empty hb hp]
      simp [BL.next, hst, hb, drainRun]
      rfl
    · rw [drain_eq]
      simp [BL.next, hst, hb, drainRun]
      rfl

theorem drain_eof {ε : Type} {cfg : Cfg} {s : BL ε} (h : s.state = .eof) :
    drain cfg s = ([], .finished) := by
  rw [drain_eq]; simp [BL.next, h]

/-- The number of the piece being read. -/
def nextNo {ε : Type} (s : BL ε) : Nat :=
  s.lineCount + (if s.state = .scanning .newLine then 1 else 0)

/-- The pieces of what is buffered and of `fut`. -/
def todo {ε : Type} (s : BL ε) (fut : Bytes) : List (Bytes × Nat) :=
  splitL s.lex (s.buf.take s.prevPos) (nextNo s) (s.buf.drop s.prevPos ++ fut)

/-- The expected result when the reader ends with `x` after the content whose pieces are `ps`. -/
def expected {ε : Type} (max : Nat) (x : Except ε Bytes) (ps : List (Bytes × Nat)) :
    List (Bytes × Nat) × End ε :=
  match x with
  | .ok _ => (keep max ps, .finished)
  | .error e => (keep max ps.dropLast, .failed e)

theorem expected_cons_skip {ε : Type} {max : Nat} {x : Except ε Bytes} {p : Bytes × Nat}
    {ps : List (Bytes × Nat)} (hps : ps ≠ []) (h : ¬ (0 < p.1.length ∧ p.1.length ≤ max)) :
    expected max x (p :: ps) = expected max x ps := by
  cases x <;> simp only [expected, keep, List.dropLast_cons_of_ne_nil hps, List.filter_cons] <;>
    rw [if_neg (by simpa using h)]

theorem expected_cons_keep {ε : Type} {max : Nat} {x : Except ε Bytes} {p : Bytes × Nat}
    {ps : List (Bytes × Nat)} (hps : ps ≠ []) (h : 0 < p.1.length ∧ p.1.length ≤ max) :
    expected max x (p :: ps) = (p :: (expected max x ps).1, (expected max x ps).2) := by
  cases x <;> simp only [expected, keep, List.dropLast_cons_of_ne_nil hps, List.filter_cons] <;>
    rw [if_pos (by simpa using h)]

theorem split_ne_nil (json esc inStr : Bool) (cur : Bytes) (ln : Nat) (input : Bytes) :
    split json esc inStr cur ln input ≠ [] := by
  induction input generalizing esc inStr cur ln with
  | nil => simp [split]
  | cons c cs ih => simp only [split]; grind

/-- No overflow, seen from a state: whatever prefix of the remaining blocks is read, the last
unterminated piece is within the limit when another block has to be read. -/
def NoOverflowS {ε : Type} (max : Nat) (s : BL ε) (blocks : List Bytes) : Prop :=
  ∀ k, k < blocks.length →
    ((todo s (blocks.take k).flatten).getLastD ([], 0)).1.length ≤ max

theorem getLastD_cons_ne {α : Type} {a d : α} {l : List α} (h : l ≠ []) :
    (a :: l).getLastD d = l.getLastD d := by
  cases l with
  | nil => exact absurd rfl h
  | cons b l => simp

theorem core {ε : Type} {cfg : Cfg} {f : Fn} {s : BL ε} {blocks : List Bytes} {fin : Reader ε}
    {x : Except ε Bytes} {r : Reader ε}
    (hf : f ≠ .dropUntilNextLine)
    (hi : Inv cfg f s) (he : s.lex.escaped = true → 0 < s.prevPos)
    (hr : s.reader = blocks.map .data ++ fin)
    (hb : ∀ b ∈ blocks, b ≠ [] ∧ b.length ≤ cfg.chunkSize)
    (hfin : fin.read cfg.chunkSize = (x, r)) (hx : ∀ bs, x = .ok bs → bs = [])
    (hno : NoOverflowS cfg.maxLineLength s blocks) :
    drainRun cfg f s = expected cfg.maxLineLength x (todo s blocks.flatten) := by
  rw [drainRun_eq]
  cases f with
  | dropUntilNextLine => exact absurd rfl hf
  | readSlice =>
    obtain ⟨hst, hln, hpp, hlen⟩ := hi
    cases blocks with
    | nil =>
      have hr' : s.reader = fin := by simpa using hr
      have htodo : todo s [].flatten = [(s.buf, nextNo s)] := by
        simp [todo, hpp, splitL, split]
      rw [htodo]
      cases x with
      | ok bs =>
        have hbs := hx bs rfl
        subst hbs
        simp only [body, readSlice, hr', hfin]
        by_cases hp : s.buf.length > 0
        · simp only [if_pos hp, BL.updateLineCounter]
          rw [drain_eof rfl]
          have ht : (resize s.buf (s.buf.length + cfg.chunkSize)).take s.buf.length = s.buf := by
            simp [resize]
            rw [List.take_of_length_le (by omega)]
          simp only [ht, expected, keep, List.filter_cons]
          have hk : (decide (0 < s.buf.length) && decide (s.buf.length ≤ cfg.maxLineLength)) = true := by
            simp only [Bool.and_eq_true, decide_eq_true_eq]; omega
          simp only [hk, nextNo, List.filter_nil, if_true]
          congr 3
          split <;> rfl
        · simp only [if_neg hp, expected, keep, List.filter_cons]
          rw [if_neg (by simp; omega)]
          rfl
      | error e =>
        simp only [body, readSlice, hr', hfin]
        simp [expected, keep]
    | cons b bs =>
      have hb1 := hb b (by simp)
      have hread : s.reader.read cfg.chunkSize = (.ok b, bs.map .data ++ fin) := by
        rw [hr]
        simp [Reader.read, hb1.2, List.take_of_length_le]
      obtain ⟨c, cs, rfl⟩ : ∃ c cs, b = c :: cs := by
        cases b with
        | nil => exact absurd rfl hb1.1
        | cons c cs => exact ⟨c, cs, rfl⟩
      have hcall : body cfg .readSlice s = .call .getSlice
          { s with
            reader := bs.map .data ++ fin
            buf := (resize s.buf (s.buf.length + cfg.chunkSize)).take s.buf.length ++ (c :: cs) } := by
        simp only [body, readSlice, hread]
      have ht : (resize s.buf (s.buf.length + cfg.chunkSize)).take s.buf.length = s.buf := by
        simp [resize]
        rw [List.take_of_length_le (by omega)]
      rw [ht] at hcall
      rw [hcall]
      simp only
      generalize hs1 : ({ s with reader := bs.map .data ++ fin, buf := s.buf ++ (c :: cs) } : BL ε) = s1
        at hcall
      have htd : ∀ fut, todo s1 fut = todo s (c :: cs ++ fut) := by
        intro fut
        simp only [todo, ← hs1, hpp, nextNo]
        congr 1
        · simp
        · simp
      have hsize := body_call_lt hcall
      rw [core (blocks := bs) (f := .getSlice) (by simp) ?_ ?_ (by rw [← hs1]) (fun b h => hb b (by simp [h])) hfin hx ?_]
      · rw [htd]; simp
      · have h1 := hb1.2
        simp only [List.length_cons] at h1
        subst hs1
        refine ⟨hst, hln, ?_, ?_⟩ <;> simp <;> omega
      · subst hs1; exact he
      · intro k hk
        rw [htd]
        have := hno (k + 1) (by simp; omega)
        simpa using this
  | getSlice =>
    obtain ⟨hst, hln, hpp, hlen⟩ := hi
    rcases findNextLine_eq cfg s hpp with ⟨l', hs, hfn⟩ | ⟨l', i, sep, hs, ⟨_, _, _, h1, h2, _⟩ | hfn⟩
    · -- no separator
      have hsp := scan_none_split hs
      have htodo : ∀ fut, todo s fut = splitL l' s.buf (nextNo s) fut := by
        intro fut
        rw [todo, hsp]
        simp
      by_cases hlong : s.buf.length > cfg.maxLineLength
      · -- over the limit: this is the end
        have hcall : body cfg .getSlice s =
            .call .dropUntilNextLine { s with lex := l', prevPos := 0, buf := [] } := by
          simp only [body, getSlice, hfn, if_pos hlong]
        rw [hcall]
        cases blocks with
        | cons b bs =>
          have := hno 0 (by simp)
          rw [htodo] at this
          simp [splitL, split] at this
          omega
        | nil =>
          have hr' : s.reader = fin := by simpa using hr
          rw [htodo]
          simp only
          rw [drainRun_eq]
          simp only [body, dropUntilNextLine, hr', hfin]
          cases x with
          | ok bs =>
            have := hx bs rfl
            subst this
            simp only [expected, keep, splitL, List.flatten_nil, split, List.filter_cons]
            rw [if_neg (by simp; omega)]
            rfl
          | error e => simp [expected, keep, splitL, split]
      · have hcall : body cfg .getSlice s =
            .call .readSlice { s with lex := l', prevPos := s.buf.length } := by
          simp only [body, getSlice, hfn, if_neg hlong]
        have hsize := body_call_lt hcall
        rw [hcall]
        have htd : ∀ fut, todo { s with lex := l', prevPos := s.buf.length } fut = todo s fut := by
          intro fut
          rw [htodo]
          simp [todo, nextNo]
        simp only
        rw [core (s := { s with lex := l', prevPos := s.buf.length }) (blocks := blocks) (f := .readSlice)
          (by simp) ⟨hst, hln, rfl, by simp only; omega⟩ ?_ hr hb hfin hx ?_]
        · rw [htd]
        · intro h
          simp only
          rcases scan_none_escaped hs h with h | h
          · have := he h; omega
          · cases hbuf : s.buf with
            | nil => simp [hbuf] at h
            | cons _ _ => simp
        · intro k hk
          rw [htd]
          exact hno k hk
    · exact absurd (he h1) (by omega)
    · -- a separator
      have hsp := scan_some_split hs
      have hbd := scan_some hs
      have hes := scan_some_escaped hs
      simp only [List.length_drop] at hbd
      generalize hq : (if sep = Sep.subLine then (i : Int) - 1 else (i : Int)) = q at hfn
      have hq0 : 0 ≤ q := by
        rw [← hq]; split
        · rename_i h
          rcases hes.2 h with h | h
          · have := he h; omega
          · omega
        · omega
      have hq' : (q.toNat : Int) = q := by omega
      have hqi : q.toNat + sep.len = i + 1 := by
        rw [← hq]
        cases sep <;> simp [Sep.len] at * <;> omega
      have hpiece : (if sep = .subLine
            then (s.buf.take s.prevPos ++ (s.buf.drop s.prevPos).take (i - s.prevPos)).dropLast
            else s.buf.take s.prevPos ++ (s.buf.drop s.prevPos).take (i - s.prevPos)) =
          s.buf.take q.toNat := by
        have e1 : s.buf.take s.prevPos ++ (s.buf.drop s.prevPos).take (i - s.prevPos) =
            s.buf.take i := by
          rw [← List.take_add]; congr 1; omega
        rw [e1]
        split
        · rename_i h
          subst h
          rw [List.dropLast_take (by omega)]
          simp [Sep.len] at hqi
          congr 1
          omega
        · rename_i h
          have : q.toNat = i := by
            rw [← hq, if_neg h]; simp
          rw [this]
      generalize hs1 : ({ s with
          lex := l'
          lineCount := if s.state = .scanning .newLine then s.lineCount + 1 else s.lineCount
          state := .scanning sep
          prevPos := 0
          buf := s.buf.drop (i + 1) } : BL ε) = s1
      have htodo : ∀ fut, todo s fut = (s.buf.take q.toNat, nextNo s) :: todo s1 fut := by
        intro fut
        rw [todo, hsp, hpiece]
        congr 1
        subst hs1
        simp only [todo, nextNo, List.take_zero, List.drop_zero]
        congr 1
        · split
          · rename_i h; subst h; simp; split <;> omega
          · rename_i h
            have : ¬ (St.scanning sep = St.scanning .newLine) := by simpa using h
            rw [if_neg this]; split <;> omega
        · rw [List.drop_drop]
          congr 2
          omega
      have hne1 : ∀ fut, todo s1 fut ≠ [] := fun fut => split_ne_nil _ _ _ _ _ _
      have hlc2 : 0 < s1.lineCount := by
        subst hs1
        simp only
        split
        · omega
        · rename_i h; rcases hln with h' | h'
          · exact absurd h' h
          · exact h'
      have hi1 : Inv cfg .getSlice s1 := by
        refine ⟨by subst hs1; simp, .inr hlc2, ?_, ?_⟩
        · subst hs1; simp
        · subst hs1; simp; omega
      have he1 : s1.lex.escaped = true → 0 < s1.prevPos := by
        subst hs1; simp [hes.1]
      have hno1 : NoOverflowS cfg.maxLineLength s1 blocks := by
        intro k hk
        have := hno k hk
        rw [htodo, getLastD_cons_ne (hne1 _)] at this
        exact this
      have hr1 : s1.reader = blocks.map .data ++ fin := by subst hs1; exact hr
      have hsz : Prod.Lex (· < ·) (Prod.Lex (· < ·) (· < ·))
          (readerSize s1.reader, Fn.getSlice.rank, s1.buf.length)
          (readerSize s.reader, Fn.getSlice.rank, s.buf.length) := by
        have : s1.reader = s.reader := by subst hs1; rfl
        rw [this]
        refine Prod.Lex.right _ (Prod.Lex.right _ ?_)
        subst hs1
        simp; omega
      have ih : drainRun cfg .getSlice s1 =
          expected cfg.maxLineLength x (todo s1 blocks.flatten) :=
        core (f := .getSlice) (by simp) hi1 he1 hr1 hb hfin hx hno1
      rw [htodo]
      have hlen_piece : (s.buf.take q.toNat).length = q.toNat := by
        simp; have := sep.len_pos; omega
      by_cases hlong : q < 0 ∨ q > cfg.maxLineLength
      · have hcall : body cfg .getSlice s = .call .getSlice s1 := by
          simp only [body, getSlice, hfn, if_pos hlong]
          have e : (q + sep.len).toNat = i + 1 := by omega
          rw [e, if_pos (by omega), ← hs1]
        rw [hcall]
        simp only
        rw [ih, expected_cons_skip (hne1 _)]
        simp only [hlen_piece]
        omega
      · have hl := sep.len_pos
        have hrest : (s.buf.drop q.toNat).drop sep.len = s.buf.drop (i + 1) := by
          rw [List.drop_drop]; congr 1
        by_cases hem : s.buf.take q.toNat = []
        · have hcall : body cfg .getSlice s = .call .getSlice s1 := by
            simp only [body, getSlice, hfn, if_neg hlong]
            rw [if_neg (by omega), if_neg (by simp; omega), if_pos (by simp [hem]), hrest, ← hs1]
          rw [hcall]
          simp only
          rw [ih, expected_cons_skip (hne1 _)]
          simp [hem]
        · have hret : body cfg .getSlice s =
              .ret s1 (.line (s.buf.take q.toNat) s1.lineCount) := by
            simp only [body, getSlice, hfn, if_neg hlong]
            rw [if_neg (by omega), if_neg (by simp; omega), if_neg (by simpa using hem), hrest, ← hs1]
          rw [hret]
          simp only
          rw [drain_drainRun (fun _ => hi1) hi1.1, ih, expected_cons_keep (hne1 _)]
          · congr 3
            subst hs1
            simp only [nextNo]
            split <;> rfl
          · constructor
            · exact List.length_pos_iff.2 hem
            · simp only [hlen_piece]; omega
termination_by (readerSize s.reader, f.rank, s.buf.length)
decreasing_by all_goals (subst_vars; assumption)

theorem allLines_core {ε : Type} {cfg : Cfg} {json : Bool} {blocks : List Bytes} {fin : Reader ε}
    {x : Except ε Bytes} {r : Reader ε}
    (hb : ∀ b ∈ blocks, b ≠ [] ∧ b.length ≤ cfg.chunkSize)
    (hfin : fin.read cfg.chunkSize = (x, r)) (hx : ∀ bs, x = .ok bs → bs = [])
    (hno : NoOverflow json cfg.maxLineLength blocks) :
    allLines cfg json (blocks.map .data ++ fin) =
      expected cfg.maxLineLength x (pieces json blocks.flatten) := by
  have htodo : ∀ fut, todo (BL.new (blocks.map .data ++ fin) json) fut = pieces json fut := by
    intro fut
    simp [todo, BL.new, nextNo, splitL, pieces]
    cases json <;> rfl
  rw [allLines, drain_drainRun (new_rinv _ _ _) (by simp [BL.new]),
    core (blocks := blocks) (by simp) (new_rinv _ _ _ (by simp [BL.new])) (by simp [BL.new]) rfl hb hfin hx]
  · rw [htodo]
  · intro k hk
    rw [htodo]
    exact hno k hk

end LJ.Iterator

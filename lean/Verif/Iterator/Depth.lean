/-
How deep the calls of the iterator nest: `get_slice`, `read_slice` and `drop_until_next_line` call each other, each
call being the last thing its caller does.  Rust gives no guarantee that such calls reuse the stack.
-/
import Verif.Iterator.Local
namespace LJ.Iterator
open Spec
variable {ε : Type}

/-- iterator.rs:158-301: how many of the three functions are active when the last of them returns. -/
def depth (cfg : Cfg) (f : Fn) (s : BL ε) : Nat :=
  match _h : body cfg f s with
  | .ret _ _ => 1
  | .call f' s' => depth cfg f' s' + 1
termination_by (readerSize s.reader, f.rank, s.buf.length)
decreasing_by exact body_call_lt _h

theorem depth_eq (cfg : Cfg) (f : Fn) (s : BL ε) : depth cfg f s = match body cfg f s with
    | .ret _ _ => 1
    | .call f' s' => depth cfg f' s' + 1 := by
  rw [depth]
  split <;> simp_all

/-- iterator.rs:117-126: the nested calls of one call of `next` -/
def BL.nextDepth (cfg : Cfg) (s : BL ε) : Nat :=
  match s.state with
  | .eof => 0
  | .scanning _ => if s.buf.isEmpty then depth cfg .readSlice s else depth cfg .getSlice s

/-- the iterator after `n` calls of `next` -/
def BL.after (cfg : Cfg) (s : BL ε) : Nat → BL ε
  | 0 => s
  | n + 1 => ((s.after cfg n).next cfg).1

/-! ### One step of `get_slice` -/

theorem getSlice_step {cfg : Cfg} {s : BL ε} (hi : Inv cfg .getSlice s) (he : s.lex.escaped = true → 0 < s.prevPos) :
    (∃ l', (∀ fut, todo s fut = splitL l' s.buf (nextNo s) fut) ∧ (l'.escaped = true → 0 < s.buf.length) ∧
      ((s.buf.length > cfg.maxLineLength ∧ body cfg .getSlice s = .call .dropUntilNextLine { s with lex := l', prevPos := 0, buf := [] }) ∨
       (s.buf.length ≤ cfg.maxLineLength ∧ body cfg .getSlice s = .call .readSlice { s with lex := l', prevPos := s.buf.length }))) ∨
    (∃ piece s1, (∀ fut, todo s fut = (piece, nextNo s) :: todo s1 fut) ∧ s1.reader = s.reader ∧ s1.buf.length < s.buf.length ∧
      Inv cfg .getSlice s1 ∧ (s1.lex.escaped = true → 0 < s1.prevPos) ∧
      ((0 < piece.length ∧ piece.length ≤ cfg.maxLineLength ∧ body cfg .getSlice s = .ret s1 (.line piece s1.lineCount)) ∨
       (¬ (0 < piece.length ∧ piece.length ≤ cfg.maxLineLength) ∧ body cfg .getSlice s = .call .getSlice s1))) := by
  obtain ⟨hst, hln, hpp, hlen⟩ := hi
  rcases findNextLine_eq cfg s hpp with ⟨l', hs, hfn⟩ | ⟨l', i, sep, hs, ⟨_, _, _, h1, h2, _⟩ | hfn⟩
  · have hsp := scan_none_split hs
    refine .inl ⟨l', ?_, ?_, ?_⟩
    · intro fut
      rw [todo, hsp]
      simp
    · intro h
      rcases scan_none_escaped hs h with h | h
      · have := he h; omega
      · cases hbuf : s.buf with
        | nil => simp [hbuf] at h
        | cons _ _ => simp
    · by_cases hlong : s.buf.length > cfg.maxLineLength
      · exact .inl ⟨hlong, by simp only [body, getSlice, hfn, if_pos hlong]⟩
      · exact .inr ⟨by omega, by simp only [body, getSlice, hfn, if_neg hlong]⟩
  · exact absurd (he h1) (by omega)
  · have hsp := scan_some_split hs
    have hbd := scan_some hs
    have hes := scan_some_escaped hs
    simp only [List.length_drop] at hbd
    generalize hq : (if sep = Sep.subLine then (i : Int) - 1 else (i : Int)) = q at hfn
    have hq0 : 0 ≤ q := by
      rw [← hq]; split
      · rename_i h
        rcases hes.2 h with h | h
        · have := he h; omega
        · omega
      · omega
    have hq' : (q.toNat : Int) = q := by omega
    have hqi : q.toNat + sep.len = i + 1 := by
      rw [← hq]
      cases sep <;> simp [Sep.len] at * <;> omega
    have hpiece : (if sep = .subLine
          then (s.buf.take s.prevPos ++ (s.buf.drop s.prevPos).take (i - s.prevPos)).dropLast
          else s.buf.take s.prevPos ++ (s.buf.drop s.prevPos).take (i - s.prevPos)) =
        s.buf.take q.toNat := by
      have e1 : s.buf.take s.prevPos ++ (s.buf.drop s.prevPos).take (i - s.prevPos) = s.buf.take i := by
        rw [← List.take_add]; congr 1; omega
      rw [e1]
      split
      · rename_i h
        subst h
        rw [List.dropLast_take (by omega)]
        simp [Sep.len] at hqi
        congr 1
        omega
      · rename_i h
        have : q.toNat = i := by
          rw [← hq, if_neg h]; simp
        rw [this]
    generalize hs1 : ({ s with
        lex := l'
        lineCount := if s.state = .scanning .newLine then s.lineCount + 1 else s.lineCount
        state := .scanning sep
        prevPos := 0
        buf := s.buf.drop (i + 1) } : BL ε) = s1
    have hlen_piece : (s.buf.take q.toNat).length = q.toNat := by
      simp; have := sep.len_pos; omega
    have hl := sep.len_pos
    have hrest : (s.buf.drop q.toNat).drop sep.len = s.buf.drop (i + 1) := by
      rw [List.drop_drop]; congr 1
    refine .inr ⟨s.buf.take q.toNat, s1, ?_, ?_, ?_, ?_, ?_, ?_⟩
    · intro fut
      rw [todo, hsp, hpiece]
      congr 1
      subst hs1
      simp only [todo, nextNo, List.take_zero, List.drop_zero]
      congr 1
      · split
        · rename_i h; subst h; simp; split <;> omega
        · rename_i h
          have : ¬ (St.scanning sep = St.scanning .newLine) := by simpa using h
          rw [if_neg this]; split <;> omega
      · rw [List.drop_drop]
        congr 2
        omega
    · subst hs1; rfl
    · subst hs1; simp; omega
    · have hlc2 : 0 < s1.lineCount := by
        subst hs1
        simp only
        split
        · omega
        · rename_i h; rcases hln with h' | h'
          · exact absurd h' h
          · exact h'
      refine ⟨by subst hs1; simp, .inr hlc2, ?_, ?_⟩
      · subst hs1; simp
      · subst hs1; simp; omega
    · subst hs1; simp [hes.1]
    · by_cases hlong : q < 0 ∨ q > cfg.maxLineLength
      · refine .inr ⟨by rw [hlen_piece]; omega, ?_⟩
        simp only [body, getSlice, hfn, if_pos hlong]
        have e : (q + sep.len).toNat = i + 1 := by omega
        rw [e, if_pos (by omega), ← hs1]
      · by_cases hem : s.buf.take q.toNat = []
        · refine .inr ⟨by simp [hem], ?_⟩
          simp only [body, getSlice, hfn, if_neg hlong]
          rw [if_neg (by omega), if_neg (by simp; omega), if_pos (by simp [hem]), hrest, ← hs1]
        · refine .inl ⟨List.length_pos_iff.2 hem, by rw [hlen_piece]; omega, ?_⟩
          simp only [body, getSlice, hfn, if_neg hlong]
          rw [if_neg (by omega), if_neg (by simp; omega), if_neg (by simpa using hem), hrest, ← hs1]

/-! ### Contents without over-long pieces -/

namespace Spec

/-- At most `K` blank lines (or empty pieces) follow each other; the end of the content, after the last line return, is not counted. -/
def BlankRuns (K : Nat) (ps : List (Bytes × Nat)) : Prop :=
  ∀ a b c, ps.dropLast = a ++ b ++ c → (∀ p ∈ b, p.1 = []) → b.length ≤ K

end Spec

/-- every terminated piece is short -/
def NoLong (max : Nat) (ps : List (Bytes × Nat)) : Prop := ∀ p ∈ ps.dropLast, p.1.length ≤ max

/-- at most `k` empty pieces come first -/
def Lead (k : Nat) (ps : List (Bytes × Nat)) : Prop := ∀ b c, ps.dropLast = b ++ c → (∀ p ∈ b, p.1 = []) → b.length ≤ k

theorem lead_of {K : Nat} {ps : List (Bytes × Nat)} (h : BlankRuns K ps) : Lead K ps := fun b c => h [] b c

/-- what is known of an iterator over such a content -/
structure Fine (cfg : Cfg) (K k : Nat) (f : Fn) (s : BL ε) (blocks : List Bytes) : Prop where
  inv : Inv cfg f s
  esc : s.lex.escaped = true → 0 < s.prevPos
  reader : s.reader = blocks.map .data
  data : ∀ b ∈ blocks, b ≠ [] ∧ b.length ≤ cfg.chunkSize
  noOverflow : NoOverflowS cfg.maxLineLength s blocks
  noLong : NoLong cfg.maxLineLength (todo s blocks.flatten)
  runs : BlankRuns K (todo s blocks.flatten)
  lead : Lead k (todo s blocks.flatten)

theorem readSlice_fine {cfg : Cfg} {s : BL ε} {blocks : List Bytes} {K k : Nat} (h : Fine cfg K k .readSlice s blocks) :
    (blocks = [] ∧ ∃ s1 o, body cfg .readSlice s = .ret s1 o ∧ (o = .done ∨ s1.state = .eof)) ∨
    ∃ s1 b bs, blocks = b :: bs ∧ body cfg .readSlice s = .call .getSlice s1 ∧ Fine cfg K k .getSlice s1 bs ∧ s.buf.length < s1.buf.length := by
  obtain ⟨⟨hst, hln, hpp, hlen⟩, he, hr, hb, hno, hsk, hru, hle⟩ := h
  cases blocks with
  | nil =>
    left
    have hr' : s.reader = [] := by simpa using hr
    refine ⟨rfl, ?_⟩
    simp only [body, readSlice, hr', Reader.read]
    by_cases hp : s.buf.length > 0
    · simp only [if_pos hp, BL.updateLineCounter]
      exact ⟨_, _, rfl, .inr rfl⟩
    · simp only [if_neg hp]
      exact ⟨_, _, rfl, .inl rfl⟩
  | cons b bs =>
    right
    have hb1 := hb b (by simp)
    have hread : s.reader.read cfg.chunkSize = (.ok b, bs.map .data) := by
      rw [hr]
      simp [Reader.read, hb1.2, List.take_of_length_le]
    obtain ⟨c, cs, rfl⟩ := List.exists_cons_of_ne_nil hb1.1
    have ht : (resize s.buf (s.buf.length + cfg.chunkSize)).take s.buf.length = s.buf := by
      simp [resize]
      rw [List.take_of_length_le (by omega)]
    have hcall : body cfg .readSlice s = .call .getSlice { s with reader := bs.map .data, buf := s.buf ++ (c :: cs) } := by
      simp only [body, readSlice, hread, ht]
    refine ⟨_, c :: cs, bs, rfl, hcall, ?_, by simp⟩
    have htd : ∀ fut, todo ({ s with reader := bs.map .data, buf := s.buf ++ (c :: cs) } : BL ε) fut = todo s (c :: cs ++ fut) := by
      intro fut
      simp only [todo, hpp, nextNo]
      congr 1
      · simp
      · simp
    have h1 := hb1.2
    simp only [List.length_cons] at h1
    refine ⟨⟨hst, hln, ?_, ?_⟩, he, rfl, fun b h => hb b (by simp [h]), ?_, ?_, ?_, ?_⟩
    · simp; omega
    · simp; omega
    · intro k hk
      rw [htd]
      have := hno (k + 1) (by simp; omega)
      simpa using this
    · rw [htd]
      simpa using hsk
    · rw [htd]
      simpa using hru
    · rw [htd]
      simpa using hle

theorem getSlice_fine {cfg : Cfg} {s : BL ε} {blocks : List Bytes} {K k : Nat} (h : Fine cfg K k .getSlice s blocks) :
    (∃ s1 l, body cfg .getSlice s = .ret s1 l ∧ Fine cfg K K .getSlice s1 blocks) ∨
    (∃ s1, body cfg .getSlice s = .call .readSlice s1 ∧ Fine cfg K k .readSlice s1 blocks ∧ s1.buf = s.buf) ∨
    (∃ s1, body cfg .getSlice s = .call .dropUntilNextLine s1 ∧ s1.reader = []) ∨
    (∃ s1 k', k = k' + 1 ∧ body cfg .getSlice s = .call .getSlice s1 ∧ Fine cfg K k' .getSlice s1 blocks) := by
  obtain ⟨hi, he, hr, hb, hno, hsk, hru, hle⟩ := h
  rcases getSlice_step hi he with ⟨l', htodo, hesc, ⟨hlong, hcall⟩ | ⟨hlen, hcall⟩⟩ | ⟨piece, s1, htodo, hr1, _, hi1, he1, hcase⟩
  · right; right; left
    refine ⟨_, hcall, ?_⟩
    cases blocks with
    | nil => simpa using hr
    | cons b bs =>
      have := hno 0 (by simp)
      rw [htodo] at this
      simp [splitL, split] at this
      omega
  · right; left
    refine ⟨_, hcall, ?_, rfl⟩
    have htd : ∀ fut, todo { s with lex := l', prevPos := s.buf.length } fut = todo s fut := by
      intro fut
      rw [htodo]
      simp [todo, nextNo]
    refine ⟨⟨hi.1, hi.2.1, rfl, hlen⟩, hesc, hr, hb, ?_, ?_, ?_, ?_⟩
    · intro k hk
      rw [htd]
      exact hno k hk
    · rw [htd]
      exact hsk
    · rw [htd]
      exact hru
    · rw [htd]
      exact hle
  · have hne : ∀ fut, todo s1 fut ≠ [] := fun fut => split_ne_nil _ _ _ _ _ _
    have htl : (todo s blocks.flatten).dropLast = (piece, nextNo s) :: (todo s1 blocks.flatten).dropLast := by
      rw [htodo, List.dropLast_cons_of_ne_nil (hne _)]
    have hruns : BlankRuns K (todo s1 blocks.flatten) := by
      intro a b c e hb
      exact hru ((piece, nextNo s) :: a) b c (by rw [htl, e]; rfl) hb
    have hfine : ∀ k', Lead k' (todo s1 blocks.flatten) → Fine cfg K k' .getSlice s1 blocks := by
      intro k' hl
      refine ⟨hi1, he1, hr1.trans hr, hb, ?_, ?_, hruns, hl⟩
      · intro k hk
        have := hno k hk
        rw [htodo, getLastD_cons_ne (hne _)] at this
        exact this
      · intro p hp
        refine hsk p ?_
        rw [htl]
        exact List.mem_cons_of_mem _ hp
    rcases hcase with ⟨_, _, hret⟩ | ⟨hbad, hcall⟩
    · exact .inl ⟨s1, _, hret, hfine K (lead_of hruns)⟩
    · have h1 := hsk (piece, nextNo s) (by rw [htl]; exact List.mem_cons_self ..)
      have hem : piece = [] := by
        apply Classical.byContradiction
        intro h
        exact hbad ⟨List.length_pos_iff.2 h, h1⟩
      have hlead : ∀ b c, (todo s1 blocks.flatten).dropLast = b ++ c → (∀ p ∈ b, p.1 = []) → b.length + 1 ≤ k := by
        intro b c e hb
        refine hle ((piece, nextNo s) :: b) c (by rw [htl, e]; rfl) ?_
        intro p hp
        rcases List.mem_cons.1 hp with rfl | hp
        · exact hem
        · exact hb p hp
      have hk := hlead [] _ rfl (by simp)
      simp only [List.length_nil] at hk
      refine .inr (.inr (.inr ⟨s1, k - 1, by omega, hcall, hfine _ ?_⟩))
      intro b c e hb
      have := hlead b c e hb
      omega

theorem drop_end {cfg : Cfg} {s : BL ε} (h : s.reader = []) : ∃ s1, body cfg .dropUntilNextLine s = .ret s1 .done := by
  simp only [body, dropUntilNextLine, h, Reader.read]
  exact ⟨_, rfl⟩

/-- from a fine state the calls are few, and lead to a fine state or to the end -/
theorem fine_run {cfg : Cfg} {K : Nat} (k : Nat) : ∀ (n : Nat) {s : BL ε} {blocks : List Bytes}, Fine cfg K k .getSlice s blocks →
    cfg.maxLineLength + 1 ≤ s.buf.length + n → depth cfg .getSlice s ≤ k * (2 * cfg.maxLineLength + 5) + (2 * n + 2) ∧
      ((∃ bs, Fine cfg K K .getSlice (run cfg .getSlice s).1 bs) ∨ (run cfg .getSlice s).2 = .done ∨ (run cfg .getSlice s).1.state = .eof) := by
  induction k with
  | zero =>
    intro n
    induction n with
    | zero =>
      intro s blocks h hn
      rw [depth_eq, run_eq]
      rcases getSlice_fine h with ⟨s1, l, hret, hf⟩ | ⟨s1, hcall, hf, hb⟩ | ⟨s1, hcall, hr⟩ | ⟨_, _, hk, _⟩
      · rw [hret]
        exact ⟨by simp, .inl ⟨_, hf⟩⟩
      · exfalso
        have := hf.inv.2.2.2
        rw [hb] at this
        omega
      · rw [hcall]
        simp only
        obtain ⟨s2, h2⟩ := drop_end (cfg := cfg) hr
        rw [depth_eq, run_eq, h2]
        exact ⟨by simp, .inr (.inl rfl)⟩
      · omega
    | succ n ih =>
      intro s blocks h hn
      rw [depth_eq, run_eq]
      rcases getSlice_fine h with ⟨s1, l, hret, hf⟩ | ⟨s1, hcall, hf, hb⟩ | ⟨s1, hcall, hr⟩ | ⟨_, _, hk, _⟩
      · rw [hret]
        exact ⟨by simp, .inl ⟨_, hf⟩⟩
      · rw [hcall]
        simp only
        rw [depth_eq, run_eq]
        rcases readSlice_fine hf with ⟨_, s2, o, hret, ho⟩ | ⟨s2, b, bs, _, hcall2, hf2, hlt⟩
        · rw [hret]
          exact ⟨by simp, .inr ho⟩
        · rw [hcall2]
          simp only
          rw [hb] at hlt
          obtain ⟨h1, h2⟩ := ih hf2 (by omega)
          exact ⟨by omega, h2⟩
      · rw [hcall]
        simp only
        obtain ⟨s2, h2⟩ := drop_end (cfg := cfg) hr
        rw [depth_eq, run_eq, h2]
        exact ⟨by simp, .inr (.inl rfl)⟩
      · omega
  | succ k ihk =>
    have e : (k + 1) * (2 * cfg.maxLineLength + 5) = k * (2 * cfg.maxLineLength + 5) + (2 * cfg.maxLineLength + 5) := Nat.succ_mul ..
    intro n
    rw [e]
    have skip : ∀ (n : Nat) {s1 : BL ε} {blocks : List Bytes}, Fine cfg K k .getSlice s1 blocks →
        depth cfg .getSlice s1 + 1 ≤ k * (2 * cfg.maxLineLength + 5) + (2 * cfg.maxLineLength + 5) + (2 * n + 2) ∧
        ((∃ bs, Fine cfg K K .getSlice (run cfg .getSlice s1).1 bs) ∨ (run cfg .getSlice s1).2 = .done ∨ (run cfg .getSlice s1).1.state = .eof) := by
      intro n s1 blocks hf
      obtain ⟨h1, h2⟩ := ihk (cfg.maxLineLength + 1) hf (by omega)
      exact ⟨by omega, h2⟩
    induction n with
    | zero =>
      intro s blocks h hn
      rw [depth_eq, run_eq]
      rcases getSlice_fine h with ⟨s1, l, hret, hf⟩ | ⟨s1, hcall, hf, hb⟩ | ⟨s1, hcall, hr⟩ | ⟨s1, k', hk, hcall, hf⟩
      · rw [hret]
        exact ⟨by simp only; omega, .inl ⟨_, hf⟩⟩
      · exfalso
        have := hf.inv.2.2.2
        rw [hb] at this
        omega
      · rw [hcall]
        simp only
        obtain ⟨s2, h2⟩ := drop_end (cfg := cfg) hr
        rw [depth_eq, run_eq, h2]
        exact ⟨by simp only; omega, .inr (.inl rfl)⟩
      · rw [hcall]
        obtain rfl : k' = k := by omega
        exact skip 0 hf
    | succ n ih =>
      intro s blocks h hn
      rw [depth_eq, run_eq]
      rcases getSlice_fine h with ⟨s1, l, hret, hf⟩ | ⟨s1, hcall, hf, hb⟩ | ⟨s1, hcall, hr⟩ | ⟨s1, k', hk, hcall, hf⟩
      · rw [hret]
        exact ⟨by simp only; omega, .inl ⟨_, hf⟩⟩
      · rw [hcall]
        simp only
        rw [depth_eq, run_eq]
        rcases readSlice_fine hf with ⟨_, s2, o, hret, ho⟩ | ⟨s2, b, bs, _, hcall2, hf2, hlt⟩
        · rw [hret]
          exact ⟨by simp only; omega, .inr ho⟩
        · rw [hcall2]
          simp only
          rw [hb] at hlt
          obtain ⟨h1, h2⟩ := ih hf2 (by omega)
          exact ⟨by omega, h2⟩
      · rw [hcall]
        simp only
        obtain ⟨s2, h2⟩ := drop_end (cfg := cfg) hr
        rw [depth_eq, run_eq, h2]
        exact ⟨by simp only; omega, .inr (.inl rfl)⟩
      · rw [hcall]
        obtain rfl : k' = k := by omega
        exact skip (n + 1) hf

/-! ### C92: the depth of the calls -/

/-- C92, the part that holds, for every schedule in reads of 1 to 8192 bytes: when the pieces of the content are shorter than 6000 bytes
and at most `K` blank lines follow each other, no call of `next` up to the end nests more than 12004 + 12005 K calls: 12004 without blank lines. -/
theorem C92_partial (ε : Type) (checks json : Bool) (reads : List Bytes) (hb : Blocks reads)
    (hp : ∀ p ∈ pieces json reads.flatten, p.1.length < 6000) (K : Nat) (hne : BlankRuns K (pieces json reads.flatten)) (n : Nat)
    (hrun : ∀ k < n, (((BL.new (ε := ε) (fromReads reads) json).after (build checks) k).next (build checks)).2 ≠ .done) :
    ((BL.new (ε := ε) (fromReads reads) json).after (build checks) n).nextDepth (build checks) ≤ 12004 + K * 12005 := by
  have hmax : (build checks).maxLineLength = 6000 := rfl
  have htodo : ∀ fut, todo (BL.new (ε := ε) (fromReads reads) json) fut = pieces json fut := by
    intro fut
    simp [todo, BL.new, nextNo, splitL, pieces]
    cases json <;> rfl
  have h0 : Fine (build checks) K K .getSlice (BL.new (ε := ε) (fromReads reads) json) reads := by
    refine ⟨new_rinv _ _ _ (by simp [BL.new]), by simp [BL.new], rfl, hb, ?_, ?_, ?_, ?_⟩
    · intro k hk
      rw [htodo]
      exact noOverflow_of_short hp k hk
    · rw [htodo]
      intro p hp'
      exact (hp p (List.dropLast_subset _ hp')).le
    · rw [htodo]
      exact hne
    · rw [htodo]
      exact lead_of hne
  have next_run : ∀ {s : BL ε} {bs : List Bytes}, Fine (build checks) K K .getSlice s bs → s.nextDepth (build checks) ≤ 12004 + K * 12005 ∧
      ((∃ bs, Fine (build checks) K K .getSlice (s.next (build checks)).1 bs) ∨ (s.next (build checks)).2 = .done ∨ (s.next (build checks)).1.state = .eof) := by
    intro s bs h
    unfold BL.nextDepth BL.next
    cases hst : s.state with
    | eof => exact absurd hst h.inv.1
    | scanning sep =>
      simp only
      by_cases he : s.buf.isEmpty = true
      · rw [if_pos he, if_pos he]
        have hbuf : s.buf = [] := List.isEmpty_iff.1 he
        have hrd : Fine (build checks) K K .readSlice s bs := by
          have h1 := h.inv.2.2.1
          rw [hbuf] at h1
          have h2 : s.prevPos = 0 := by simpa using h1
          exact ⟨⟨h.inv.1, h.inv.2.1, by rw [h2, hbuf]; rfl, by rw [hbuf]; simp⟩, h.esc, h.reader, h.data, h.noOverflow, h.noLong, h.runs, h.lead⟩
        rw [depth_eq, run_eq]
        rcases readSlice_fine hrd with ⟨_, s2, o, hret, ho⟩ | ⟨s2, b, bs, _, hcall, hf2, hlt⟩
        · rw [hret]
          exact ⟨by simp only; omega, .inr ho⟩
        · rw [hcall]
          simp only
          obtain ⟨h1, h2⟩ := fine_run K 6000 hf2 (by rw [hmax]; omega)
          rw [hmax] at h1
          exact ⟨by omega, h2⟩
      · rw [if_neg he, if_neg he]
        have hpos : 0 < s.buf.length := List.length_pos_iff.2 (by simpa [List.isEmpty_iff] using he)
        obtain ⟨h1, h2⟩ := fine_run K 6000 h (by rw [hmax]; omega)
        rw [hmax] at h1
        exact ⟨by omega, h2⟩
  have key : (∃ bs, Fine (build checks) K K .getSlice ((BL.new (ε := ε) (fromReads reads) json).after (build checks) n) bs) ∨
      ((BL.new (ε := ε) (fromReads reads) json).after (build checks) n).state = .eof := by
    induction n with
    | zero => exact .inl ⟨reads, h0⟩
    | succ n ih =>
      rcases ih fun k hk => hrun k (by omega) with ⟨bs, h⟩ | h
      · rcases (next_run h).2 with h | h | h
        · exact .inl h
        · exact absurd h (hrun n (by omega))
        · exact .inr h
      · refine absurd ?_ (hrun n (by omega))
        simp [BL.next, h]
  rcases key with ⟨bs, h⟩ | h
  · exact (next_run h).1
  · unfold BL.nextDepth
    rw [h]
    exact Nat.zero_le _

/-- blank lines are skipped by nested calls -/
theorem blank_depth {cfg : Cfg} (hc : 0 < cfg.chunkSize) (n : Nat) {s : BL ε} (hr : s.reader = List.replicate n (.data [LF])) (hb : s.buf = [])
    (hp : s.prevPos = 0) (hl : s.lex = ⟨false, none⟩) : n ≤ depth cfg .readSlice s := by
  induction n generalizing s with
  | zero => omega
  | succ n ih =>
    have hread : s.reader.read cfg.chunkSize = (.ok [LF], List.replicate n (.data [LF])) := by
      rw [hr, List.replicate_succ]
      simp only [Reader.read]
      rw [if_pos (show [LF].length ≤ cfg.chunkSize from hc), List.take_of_length_le (show [LF].length ≤ cfg.chunkSize from hc)]
    have e1 : body cfg .readSlice s = .call .getSlice { s with reader := List.replicate n (.data [LF]), buf := [LF] } := by
      simp only [body, readSlice, hread, hb]
      simp [resize]
    have hpos : ∀ (a : Nat) (st : St) , getSlice cfg ({ s with reader := List.replicate n (.data [LF]), buf := [LF], lineCount := a, state := st } : BL ε) =
        .call .getSlice { s with reader := List.replicate n (.data [LF]), buf := [], state := .scanning .newLine, lineCount := if st = .scanning .newLine then a + 1 else a } := by
      intro a st
      have hlex : lexByte s.lex LF = (s.lex, some .newLine) := by rw [hl]; rfl
      have hscan : scan s.lex [LF] 0 = (s.lex, some (0, .newLine)) := by
        simp only [scan, hlex]
      unfold getSlice BL.findNextLine
      simp only [hp, List.drop_zero, hscan, BL.updateLineCounter]
      simp [Sep.len]
    have e2 := hpos s.lineCount s.state
    rw [depth_eq, e1]
    simp only
    rw [depth_eq]
    have e2' : body cfg .getSlice ({ s with reader := List.replicate n (.data [LF]), buf := [LF] } : BL ε) = _ := e2
    rw [e2']
    simp only
    rw [depth_eq]
    have e3 : ∀ a, body cfg .getSlice ({ s with reader := List.replicate n (.data [LF]), buf := [], state := .scanning .newLine, lineCount := a } : BL ε) =
        .call .readSlice { s with reader := List.replicate n (.data [LF]), buf := [], state := .scanning .newLine, lineCount := a } := by
      intro a
      simp only [body]
      unfold getSlice BL.findNextLine
      simp [hp, scan]
    rw [e3]
    simp only
    have := ih (s := { s with reader := List.replicate n (.data [LF]), buf := [], state := .scanning .newLine, lineCount := if s.state = .scanning .newLine then s.lineCount + 1 else s.lineCount }) rfl rfl hp hl
    omega

/-- C92 is false: there is no bound.  The first call of `next` on a file of `n` blank lines nests at least `n` calls (here
with reads of one byte). -/
theorem C92_false : (∀ (ε : Type) (checks : Bool) (n : Nat), n ≤ (BL.new (ε := ε) (fromReads (List.replicate n [LF])) false).nextDepth (build checks)) ∧
    ¬ ∃ bound, ∀ reads, Blocks reads → (BL.new (ε := Unit) (fromReads reads) false).nextDepth (build false) ≤ bound := by
  have h : ∀ (ε : Type) (checks : Bool) (n : Nat), n ≤ (BL.new (ε := ε) (fromReads (List.replicate n [LF])) false).nextDepth (build checks) := by
    intro ε checks n
    have : (BL.new (ε := ε) (fromReads (List.replicate n [LF])) false).nextDepth (build checks) = depth (build checks) .readSlice (BL.new (ε := ε) (fromReads (List.replicate n [LF])) false) := rfl
    rw [this]
    exact blank_depth (by simp [build]) n (by simp [BL.new, fromReads]) rfl rfl rfl
  refine ⟨h, ?_⟩
  rintro ⟨bound, hb⟩
  have h1 := h Unit false (bound + 1)
  have h2 := hb (List.replicate (bound + 1) [LF]) (by
    intro b hb
    rw [List.eq_of_mem_replicate hb]
    exact ⟨by simp, by simp⟩)
  omega

/-- Non-vacuity of `C92_partial`: three calls. -/
example : (((BL.new (ε := Unit) (fromReads [ascii "a\n\nb", ascii "c\n"]) false).after (build true) 1).nextDepth (build true)) ≤ 12004 + 1 * 12005 := by
  refine C92_partial Unit true false [ascii "a\n\nb", ascii "c\n"] ?_ (by decide +kernel) 1 ?_ 1 ?_
  · intro b hb
    simp only [List.mem_cons, List.not_mem_nil, or_false] at hb
    rcases hb with rfl | rfl <;> decide
  · have e : (pieces false [ascii "a\n\nb", ascii "c\n"].flatten).dropLast = [(ascii "a", 1), ([], 2), (ascii "bc", 3)] := by decide +kernel
    intro a b c h hb
    rw [e] at h
    match a, b with
    | _, [] => simp
    | _, [x] => simp
    | [], x :: _ :: _ => simp only [List.nil_append, List.cons_append, List.cons.injEq] at h; exact absurd (hb x (by simp)) (by rw [← h.1]; decide)
    | [_], x :: y :: _ => simp only [List.cons_append, List.nil_append, List.cons.injEq] at h; exact absurd (hb y (by simp)) (by rw [← h.2.2.1]; decide)
    | _ :: _ :: a, x :: y :: b => have := congrArg List.length h; simp at this; omega
  · intro k hk
    have : k = 0 := by omega
    subst this
    have : allLines (ε := Unit) (build true) false (fromReads [ascii "a\n\nb", ascii "c\n"]) = ([(ascii "a", 1), (ascii "bc", 3)], .finished) :=
      allLines_of_drainN (n := 8) (by decide +kernel)
    intro hd
    rw [allLines, drain_eq] at this
    have hd' : ((BL.new (ε := Unit) (fromReads [ascii "a\n\nb", ascii "c\n"]) false).next (build true)).2 = .done := hd
    cases hx : (BL.new (ε := Unit) (fromReads [ascii "a\n\nb", ascii "c\n"]) false).next (build true) with
    | mk s o =>
      rw [hx] at this hd'
      subst hd'
      cases this

end LJ.Iterator

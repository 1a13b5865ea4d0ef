/- More helper lemmas for the line iterator: facts about the specification, reachable states,
errors and the end of the content. -/
import Verif.Iterator.Refine
namespace LJ.Iterator
open Spec

/-! ### The unterminated rest of a prefix -/

theorem first_piece (json esc inStr : Bool) (cur : Bytes) (ln : Nat) (ys : Bytes) :
    ∃ p ∈ split json esc inStr cur ln ys, cur.length ≤ p.1.length + 1 := by
  induction ys generalizing esc inStr cur ln with
  | nil => exact ⟨(cur, ln), by simp [split], Nat.le_succ _⟩
  | cons c cs ih =>
    have step : ∀ e i, ∃ p ∈ split json e i (cur ++ [c]) ln cs, cur.length ≤ p.1.length + 1 := by
      intro e i
      obtain ⟨p, hp, hl⟩ := ih e i (cur ++ [c]) ln
      exact ⟨p, hp, by simp at hl; omega⟩
    rw [split.eq_2]
    repeat' split
    · exact ⟨_, List.mem_cons_self .., by simp; omega⟩
    all_goals first
      | exact step _ _
      | exact ⟨_, List.mem_cons_self .., by simp⟩

theorem rest_le_piece (json esc inStr : Bool) (cur : Bytes) (ln : Nat) (xs ys : Bytes) :
    ∃ p ∈ split json esc inStr cur ln (xs ++ ys),
      ((split json esc inStr cur ln xs).getLastD ([], 0)).1.length ≤ p.1.length + 1 := by
  induction xs generalizing esc inStr cur ln with
  | nil => simpa [split] using first_piece json esc inStr cur ln ys
  | cons c cs ih =>
    have step : ∀ e i k q, ∃ p ∈ q :: split json e i [] k (cs ++ ys),
        ((q :: split json e i [] k cs).getLastD ([], 0)).1.length ≤ p.1.length + 1 := by
      intro e i k q
      obtain ⟨p, hp, hl⟩ := ih e i [] k
      exact ⟨p, List.mem_cons_of_mem _ hp, by rw [getLastD_cons_ne (split_ne_nil _ _ _ _ _ _)]; exact hl⟩
    rw [List.cons_append, split.eq_2, split.eq_2]
    repeat' split
    all_goals first
      | exact ih _ _ _ _
      | exact step _ _ _ _

theorem noOverflow_of_short {json : Bool} {max : Nat} {reads : List Bytes}
    (h : ∀ p ∈ pieces json reads.flatten, p.1.length < max) : NoOverflow json max reads := by
  intro k hk
  have hsplit : reads.flatten = (reads.take k).flatten ++ (reads.drop k).flatten := by
    rw [← List.flatten_append, List.take_append_drop]
  obtain ⟨p, hp, hl⟩ := rest_le_piece json false false [] 1 (reads.take k).flatten (reads.drop k).flatten
  rw [← hsplit] at hp
  have := h p hp
  simp only [rest, pieces]
  omega

/-! ### The pieces are the content cut at its separators -/

theorem weave_split (json esc inStr : Bool) (cur : Bytes) (ln : Nat) (input : Bytes)
    (he : esc = true → cur.getLast? = some 92) :
    ∃ seps : List Bytes,
      (split json esc inStr cur ln input).length = seps.length + 1 ∧
      (∀ s ∈ seps, IsSep json s) ∧
      weave ((split json esc inStr cur ln input).map (·.1)) seps = cur ++ input ∧
      (∀ i, ∀ p, (split json esc inStr cur ln input)[i]? = some p →
        p.2 = ln + (seps.take i).count [10]) := by
  induction input generalizing esc inStr cur ln with
  | nil =>
    refine ⟨[], by simp [split], by simp, by simp [split, weave], ?_⟩
    intro i p h
    cases i <;> simp [split] at h
    simp [← h]
  | cons c cs ih =>
    have keepc : ∀ e i, (e = true → c = 92) → ∃ seps : List Bytes,
        (split json e i (cur ++ [c]) ln cs).length = seps.length + 1 ∧
        (∀ s ∈ seps, IsSep json s) ∧
        weave ((split json e i (cur ++ [c]) ln cs).map (·.1)) seps = cur ++ c :: cs ∧
        (∀ k, ∀ p, (split json e i (cur ++ [c]) ln cs)[k]? = some p →
          p.2 = ln + (seps.take k).count [10]) := by
      intro e i hec
      obtain ⟨seps, h1, h2, h3, h4⟩ := ih e i (cur ++ [c]) ln (by intro h; simp [hec h])
      exact ⟨seps, h1, h2, by simpa using h3, h4⟩
    have cut : ∀ (q sep : Bytes) (i : Bool) (k : Nat), IsSep json sep → q ++ sep = cur ++ [c] →
        k = ln + (if sep = [10] then 1 else 0) → ∃ seps : List Bytes,
        ((q, ln) :: split json false i [] k cs).length = seps.length + 1 ∧
        (∀ s ∈ seps, IsSep json s) ∧
        weave (((q, ln) :: split json false i [] k cs).map (·.1)) seps = cur ++ c :: cs ∧
        (∀ n, ∀ p, ((q, ln) :: split json false i [] k cs)[n]? = some p →
          p.2 = ln + (seps.take n).count [10]) := by
      intro q sep i k hsep hq hk
      obtain ⟨seps, h1, h2, h3, h4⟩ := ih false i [] k (by simp)
      refine ⟨sep :: seps, by simp [h1], ?_, ?_, ?_⟩
      · intro s hs
        rcases List.mem_cons.1 hs with rfl | hs
        · exact hsep
        · exact h2 s hs
      · simp only [List.map_cons, weave]
        rw [h3, hq]; simp
      · intro n p hp
        cases n with
        | zero => simp at hp; simp [← hp]
        | succ n =>
          simp only [List.getElem?_cons_succ] at hp
          rw [h4 n p hp, hk]
          simp only [List.take_succ_cons, List.count_cons]
          split <;> simp_all <;> omega
    rw [split.eq_2]
    repeat' split
    · rename_i he' hc
      have hl := he he'
      have hc' : c = 110 := hc
      subst hc'
      refine cut _ [92, 110] _ _ (.inr (.inl rfl)) ?_ (by simp)
      have hne : cur ≠ [] := by rintro rfl; simp at hl
      conv => rhs; rw [← List.dropLast_concat_getLast hne]
      have : cur.getLast hne = 92 := by
        rw [List.getLast?_eq_some_getLast hne] at hl; simpa using hl
      rw [this]; simp
    · exact keepc _ _ (by simp)
    · rename_i h; exact keepc _ _ (fun _ => h)
    · rename_i h
      have h' : c = 10 := h
      subst h'
      exact cut _ [10] _ _ (.inl rfl) rfl (by simp)
    · exact keepc _ _ (by simp)
    · rename_i h1 h2 h3 h4 h
      simp only [Bool.and_eq_true] at h
      have hmem : c ∈ [','.toUInt8, '['.toUInt8, ']'.toUInt8, '{'.toUInt8, '}'.toUInt8] := by
        simpa using h.2
      refine cut cur [c] _ _ (.inr (.inr ⟨h.1.1, ?_⟩)) rfl ?_
      · simpa using hmem
      · have : ¬ ([c] = [(10 : UInt8)]) := by
          intro e; exact h3 (List.cons.inj e).1
        simp [this]
    · exact keepc _ _ (by simp)

/-! ### Reachable states -/

/-- The states between two calls of `next`, for any number of calls that did not panic. -/
inductive Reach {ε : Type} (cfg : Cfg) (r : Reader ε) (json : Bool) : BL ε → Prop where
  | new : Reach cfg r json (BL.new r json)
  | next {s} : Reach cfg r json s → (s.next cfg).2 ≠ .panic → Reach cfg r json (s.next cfg).1

/-- The states inside a call of `next`, each time one of the functions is entered. -/
inductive Exec {ε : Type} (cfg : Cfg) (r : Reader ε) (json : Bool) : Fn → BL ε → Prop where
  | read {s sep} : Reach cfg r json s → s.state = .scanning sep → s.buf.isEmpty = true →
      Exec cfg r json .readSlice s
  | get {s sep} : Reach cfg r json s → s.state = .scanning sep → s.buf.isEmpty = false →
      Exec cfg r json .getSlice s
  | call {f s f' s'} : Exec cfg r json f s → body cfg f s = .call f' s' → Exec cfg r json f' s'

theorem reach_inv {ε : Type} {cfg : Cfg} {r : Reader ε} {json : Bool} {s : BL ε}
    (h : Reach cfg r json s) : RInv cfg s := by
  induction h with
  | new => exact new_rinv _ _ _
  | next _ hp ih => exact (next_inv ih).2.1 hp

theorem exec_inv {ε : Type} {cfg : Cfg} {r : Reader ε} {json : Bool} {f : Fn} {s : BL ε}
    (h : Exec cfg r json f s) : Inv cfg f s := by
  induction h with
  | read hr hs hb =>
    have hi := reach_inv hr (by simp [hs])
    rw [List.isEmpty_iff] at hb
    refine ⟨hi.1, hi.2.1, ?_, ?_⟩
    · have := hi.2.2.1; rw [hb] at this ⊢; simpa using this
    · simp [hb]
  | get hr hs hb => exact reach_inv hr (by simp [hs])
  | call he hb ih =>
    rcases body_inv ih with ⟨f', s', hb', hi', _⟩ | ⟨s', o, hb', _⟩
    · rw [hb] at hb'
      injection hb' with h1 h2
      subst h1 h2
      exact hi'
    · rw [hb] at hb'; cases hb'

theorem body_ret_len {ε : Type} {cfg : Cfg} {f : Fn} {s s' : BL ε} {o : Outcome ε}
    (hi : Inv cfg f s) (h : body cfg f s = .ret s' o) :
    s'.buf.length ≤ cfg.maxLineLength + cfg.chunkSize := by
  rcases body_inv hi with ⟨f', s1, hb', _⟩ | ⟨s1, o', hb', hp, hr, _⟩
  · rw [h] at hb'; cases hb'
  · rw [h] at hb'
    injection hb' with h1 h2
    subst h1 h2
    obtain ⟨hst, _, hi⟩ := hi
    cases f with
    | readSlice =>
      have := hi.2
      simp only [body, readSlice] at h
      split at h
      · split at h
        · injection h with h1 h2; subst h1
          simp [BL.updateLineCounter, resize_length]
        · injection h with h1 h2; subst h1
          simp [resize_length]; omega
      · cases h
      · injection h with h1 h2; subst h1
        simp [resize_length]; omega
    | dropUntilNextLine =>
      by_cases ho : o = .panic
      · subst ho
        simp only [body, dropUntilNextLine] at h
        split at h
        · cases h
        · cases h
        · rename_i bs r hne hrd
          have hbl := read_length hrd
          split at h
          · injection h with h1 h2; subst h1; simp [resize_length]; omega
          · cases h
          · rename_i hf
            have := findNextLine_some hf
            split at h
            · cases h
            · split at h
              · cases h
              · injection h with h1 h2; subst h1
                rw [this.2.1]; simp [resize_length]; omega
      · have hs' : s'.state = s.state := by
          simp only [body, dropUntilNextLine] at h
          split at h
          · injection h with h1 h2; subst h1; rfl
          · injection h with h1 h2; subst h1; rfl
          · split at h
            · injection h with h1 h2; exact absurd h2.symm ho
            · cases h
            · split at h
              · cases h
              · split at h
                · cases h
                · injection h with h1 h2; exact absurd h2.symm ho
        exact (hr ho (by rw [hs']; exact hst)).2.2.2
    | getSlice =>
      have hle := hi.2
      simp only [body, getSlice] at h
      split at h
      · injection h with h1 h2; subst h1; exact hle
      · split at h <;> cases h
      · rename_i hf
        have := findNextLine_some hf
        split at h
        · split at h
          · cases h
          · injection h with h1 h2; subst h1; simp only [this.2.1]; exact hle
        · split at h
          · injection h with h1 h2; subst h1; simp only [this.2.1]; exact hle
          · split at h
            · injection h with h1 h2; subst h1; simp only [this.2.1]; exact hle
            · split at h
              · cases h
              · injection h with h1 h2; subst h1; simp [this.2.1]; omega

theorem run_len {ε : Type} {cfg : Cfg} {f : Fn} {s : BL ε} (hi : Inv cfg f s) :
    (run cfg f s).1.buf.length ≤ cfg.maxLineLength + cfg.chunkSize := by
  rw [run_eq]
  rcases body_inv hi with ⟨f', s', hb, hi', _⟩ | ⟨s', o, hb, _⟩
  · rw [hb]; exact run_len hi'
  · rw [hb]; exact body_ret_len hi hb
termination_by (readerSize s.reader, f.rank, s.buf.length)
decreasing_by exact body_call_lt (by assumption)

theorem reach_len {ε : Type} {cfg : Cfg} {r : Reader ε} {json : Bool} {s : BL ε}
    (h : Reach cfg r json s) : s.buf.length ≤ cfg.maxLineLength + cfg.chunkSize := by
  induction h with
  | new => simp [BL.new]
  | @next s hr hp ih =>
    by_cases hs : s.state = .eof
    · simpa [BL.next, hs] using ih
    · obtain ⟨f, hi, he⟩ := next_eq_run (reach_inv hr) hs
      rw [he]; exact run_len hi

/-! ### Consuming everything, for any sequence of read results -/

theorem drain_lines {ε : Type} {cfg : Cfg} {s : BL ε} (hr : RInv cfg s) :
    (∀ p ∈ (drain cfg s).1, 1 ≤ p.1.length ∧ p.1.length ≤ cfg.maxLineLength ∧
        s.lineCount + (if s.state = .scanning .newLine then 1 else 0) ≤ p.2) ∧
      ((drain cfg s).1.map (·.2)).Pairwise (· ≤ ·) ∧
      ((drain cfg s).2 = .panicked → cfg.overflowChecks = true) := by
  have hn := next_inv hr
  rw [drain_eq]
  rcases h : s.next cfg with ⟨s', o⟩
  rw [h] at hn
  cases o with
  | done => simp
  | error e => simp
  | panic => simpa using hn.1
  | line bs nr =>
    have h1 := hn.2.2.2 bs nr rfl
    have hr' : RInv cfg s' := hn.2.1 (by simp)
    have ih := drain_lines hr'
    have hnr : nr = s'.lineCount := h1.2.2.1
    refine ⟨?_, ?_, ih.2.2⟩
    · intro p hp
      rcases List.mem_cons.1 hp with rfl | hp
      · exact ⟨h1.1, h1.2.1, h1.2.2.2⟩
      · have := ih.1 p hp
        refine ⟨this.1, this.2.1, ?_⟩
        have h2 := h1.2.2.2
        omega
    · simp only [List.map_cons, List.pairwise_cons]
      refine ⟨?_, ih.2.1⟩
      intro m hm
      obtain ⟨p, hp, rfl⟩ := List.mem_map.1 hm
      have := (ih.1 p hp).2.2
      omega
termination_by ((if s.state = .eof then 0 else 1 : Nat), readerSize s.reader, s.buf.length)
decreasing_by
  have h := next_line h
  rw [if_neg h.1]
  by_cases he : s'.state = .eof
  · rw [if_pos he]; exact Prod.Lex.left _ _ (by decide)
  · rw [if_neg he]
    refine Prod.Lex.right _ ?_
    rcases h.2 with h | h | h
    · exact absurd h he
    · exact Prod.Lex.left _ _ h
    · rw [h.1]; exact Prod.Lex.right _ h.2

/-! ### The end of the content and errors -/

/-- The reader delivers non empty blocks and then what `fin` says. -/
def Feeds {ε : Type} (fin : Reader ε) (r : Reader ε) : Prop :=
  ∃ blocks : List Bytes, (∀ b ∈ blocks, b ≠ []) ∧ r = blocks.map .data ++ fin

theorem feeds_read {ε : Type} {n : Nat} {fin r r' : Reader ε} {x : Except ε Bytes} (hn : 0 < n)
    (h : Feeds fin r) (hr : r.read n = (x, r')) :
    (r = fin) ∨ (∃ bs, x = .ok bs ∧ bs ≠ [] ∧ Feeds fin r') := by
  obtain ⟨blocks, hb, rfl⟩ := h
  cases blocks with
  | nil => left; simp
  | cons b bs =>
    right
    have hb1 := hb b (by simp)
    simp only [List.map_cons, List.cons_append, Reader.read, Prod.mk.injEq] at hr
    obtain ⟨rfl, rfl⟩ := hr
    refine ⟨_, rfl, ?_, ?_⟩
    · simp only [ne_eq, List.take_eq_nil_iff, not_or]; exact ⟨by omega, hb1⟩
    · split
      · exact ⟨bs, fun b h => hb b (by simp [h]), rfl⟩
      · refine ⟨b.drop n :: bs, ?_, by simp⟩
        intro b' h
        rcases List.mem_cons.1 h with rfl | h
        · simp only [ne_eq, List.drop_eq_nil_iff]; omega
        · exact hb b' (by simp [h])

/-- One function body, with a reader that feeds blocks and then `fin`. -/
theorem body_feeds {ε : Type} {cfg : Cfg} {f : Fn} {s : BL ε} {fin : Reader ε}
    (hc : 0 < cfg.chunkSize) (hf : Feeds fin s.reader) :
    (∃ f' s', body cfg f s = .call f' s' ∧ Feeds fin s'.reader) ∨
    (∃ s' bs nr, body cfg f s = .ret s' (.line bs nr) ∧ Feeds fin s'.reader ∧ s'.state ≠ .eof) ∨
    (∃ s', body cfg f s = .ret s' .panic) ∨
    (s.reader = fin ∧ f = .readSlice) ∨ (s.reader = fin ∧ f = .dropUntilNextLine) := by
  cases f with
  | readSlice =>
    rcases hr : s.reader.read cfg.chunkSize with ⟨x, r'⟩
    rcases feeds_read hc hf hr with h | ⟨bs, rfl, hne, hf'⟩
    · exact .inr (.inr (.inr (.inl ⟨h, rfl⟩)))
    · obtain ⟨c, cs, rfl⟩ : ∃ c cs, bs = c :: cs := by
        cases bs with
        | nil => exact absurd rfl hne
        | cons c cs => exact ⟨c, cs, rfl⟩
      left
      simp only [body, readSlice, hr]
      exact ⟨_, _, rfl, hf'⟩
  | getSlice =>
    cases hfn : s.findNextLine cfg with
    | panic => 
      simp only [body, getSlice, hfn]
      exact .inr (.inr (.inl ⟨_, rfl⟩))
    | res s1 r =>
      cases r with
      | none =>
        have := findNextLine_none hfn
        left
        by_cases hl : s1.buf.length > cfg.maxLineLength
        · simp only [body, getSlice, hfn, if_pos hl]
          exact ⟨_, _, rfl, by simpa [this.1] using hf⟩
        · simp only [body, getSlice, hfn, if_neg hl]
          exact ⟨_, _, rfl, by simpa [this.1] using hf⟩
      | some ps =>
        obtain ⟨pos, sep⟩ := ps
        have hs := findNextLine_some hfn
        have hst : s1.state ≠ .eof := by
          intro he
          unfold BL.findNextLine at hfn
          split at hfn
          · cases hfn
          · split at hfn
            · cases hfn
            · rename_i sep' _
              dsimp only at hfn
              generalize (if sep' = Sep.subLine then _ else _ : Int) = q at hfn
              split at hfn
              · cases hfn
              · injection hfn with h1 h2; subst h1; simp [BL.updateLineCounter] at he
        simp only [body, getSlice, hfn]
        split
        · split
          · exact .inl ⟨_, _, rfl, by simpa [hs.1] using hf⟩
          · exact .inr (.inr (.inl ⟨_, rfl⟩))
        · split
          · exact .inr (.inr (.inl ⟨_, rfl⟩))
          · split
            · exact .inr (.inr (.inl ⟨_, rfl⟩))
            · split
              · exact .inl ⟨_, _, rfl, by simpa [hs.1] using hf⟩
              · exact .inr (.inl ⟨_, _, _, rfl, by simpa [hs.1] using hf, by simpa using hst⟩)
  | dropUntilNextLine =>
    rcases hr : s.reader.read cfg.chunkSize with ⟨x, r'⟩
    rcases feeds_read hc hf hr with h | ⟨bs, rfl, hne, hf'⟩
    · exact .inr (.inr (.inr (.inr ⟨h, rfl⟩)))
    · obtain ⟨c, cs, rfl⟩ : ∃ c cs, bs = c :: cs := by
        cases bs with
        | nil => exact absurd rfl hne
        | cons c cs => exact ⟨c, cs, rfl⟩
      simp only [body, dropUntilNextLine, hr]
      split
      · exact .inr (.inr (.inl ⟨_, rfl⟩))
      · rename_i hfn
        have := findNextLine_none hfn
        exact .inl ⟨_, _, rfl, by simpa [this.1] using hf'⟩
      · rename_i hfn
        have := findNextLine_some hfn
        split
        · exact .inl ⟨_, _, rfl, by simpa [this.1] using hf'⟩
        · split
          · exact .inl ⟨_, _, rfl, by simpa [this.1] using hf'⟩
          · exact .inr (.inr (.inl ⟨_, rfl⟩))

/-- A read error is what the consumer gets in the end, or a panic. -/
theorem drainRun_error {ε : Type} {cfg : Cfg} {f : Fn} {s : BL ε} {e : ε} {r : Reader ε}
    (hc : 0 < cfg.chunkSize) (hi : Inv cfg f s) (hf : Feeds (.err e :: r) s.reader) :
    (drainRun cfg f s).2 = .failed e ∨ (drainRun cfg f s).2 = .panicked := by
  rw [drainRun_eq]
  rcases body_feeds (f := f) hc hf with ⟨f', s', hb, hf'⟩ | ⟨s', bs, nr, hb, hf', hst⟩ | ⟨s', hb⟩ | ⟨h, rfl⟩ | ⟨h, rfl⟩
  · have hi' : Inv cfg f' s' := by
      rcases body_inv hi with ⟨f1, s1, hb1, hi1, _⟩ | ⟨s1, o, hb1, _⟩
      · rw [hb] at hb1; injection hb1 with h1 h2; subst h1 h2; exact hi1
      · rw [hb] at hb1; cases hb1
    rw [hb]
    exact drainRun_error hc hi' hf'
  · have hr' : RInv cfg s' := by
      rcases body_inv hi with ⟨f1, s1, hb1, hi1, _⟩ | ⟨s1, o, hb1, _, h2, _⟩
      · rw [hb] at hb1; cases hb1
      · rw [hb] at hb1; injection hb1 with h1 h2'; subst h1 h2'; exact h2 (by simp)
    have hsm : Smaller s' s := by
      rcases body_ret_line hb with h | h
      · exact absurd h hst
      · exact h
    have hsz : Prod.Lex (· < ·) (Prod.Lex (· < ·) (· < ·))
        (readerSize s'.reader, Fn.getSlice.rank, s'.buf.length)
        (readerSize s.reader, f.rank, s.buf.length) := by
      cases f with
      | getSlice =>
        rcases hsm with h | h
        · exact Prod.Lex.left _ _ h
        · rw [h.1]; exact Prod.Lex.right _ (Prod.Lex.right _ h.2)
      | readSlice =>
        simp only [body, readSlice] at hb
        split at hb
        · split at hb
          · injection hb with h1 h2; subst h1; exact absurd rfl hst
          · cases hb
        · cases hb
        · cases hb
      | dropUntilNextLine =>
        simp only [body, dropUntilNextLine] at hb
        split at hb
        · cases hb
        · cases hb
        · split at hb
          · cases hb
          · cases hb
          · split at hb
            · cases hb
            · split at hb <;> cases hb
    rw [hb]
    simp only
    rw [drain_drainRun hr' hst]
    exact drainRun_error hc (hr' hst) hf'
  · rw [hb]; right; rfl
  · left; simp [body, readSlice, h, Reader.read]
  · left; simp [body, dropUntilNextLine, h, Reader.read]
termination_by (readerSize s.reader, f.rank, s.buf.length)
decreasing_by
  · exact body_call_lt (by assumption)
  · assumption

/-- Without read error the consumer reaches the end, or a panic. -/
theorem drainRun_end {ε : Type} {cfg : Cfg} {f : Fn} {s : BL ε}
    (hc : 0 < cfg.chunkSize) (hi : Inv cfg f s) (hf : Feeds [] s.reader) :
    (drainRun cfg f s).2 = .finished ∨ (drainRun cfg f s).2 = .panicked := by
  rw [drainRun_eq]
  rcases body_feeds (f := f) hc hf with ⟨f', s', hb, hf'⟩ | ⟨s', bs, nr, hb, hf', hst⟩ | ⟨s', hb⟩ | ⟨h, rfl⟩ | ⟨h, rfl⟩
  · have hi' : Inv cfg f' s' := by
      rcases body_inv hi with ⟨f1, s1, hb1, hi1, _⟩ | ⟨s1, o, hb1, _⟩
      · rw [hb] at hb1; injection hb1 with h1 h2; subst h1 h2; exact hi1
      · rw [hb] at hb1; cases hb1
    rw [hb]
    exact drainRun_end hc hi' hf'
  · have hr' : RInv cfg s' := by
      rcases body_inv hi with ⟨f1, s1, hb1, hi1, _⟩ | ⟨s1, o, hb1, _, h2, _⟩
      · rw [hb] at hb1; cases hb1
      · rw [hb] at hb1; injection hb1 with h1 h2'; subst h1 h2'; exact h2 (by simp)
    have hsm : Smaller s' s := by
      rcases body_ret_line hb with h | h
      · exact absurd h hst
      · exact h
    have hsz : Prod.Lex (· < ·) (Prod.Lex (· < ·) (· < ·))
        (readerSize s'.reader, Fn.getSlice.rank, s'.buf.length)
        (readerSize s.reader, f.rank, s.buf.length) := by
      cases f with
      | getSlice =>
        rcases hsm with h | h
        · exact Prod.Lex.left _ _ h
        · rw [h.1]; exact Prod.Lex.right _ (Prod.Lex.right _ h.2)
      | readSlice =>
        simp only [body, readSlice] at hb
        split at hb
        · split at hb
          · injection hb with h1 h2; subst h1; exact absurd rfl hst
          · cases hb
        · cases hb
        · cases hb
      | dropUntilNextLine =>
        simp only [body, dropUntilNextLine] at hb
        split at hb
        · cases hb
        · cases hb
        · split at hb
          · cases hb
          · cases hb
          · split at hb
            · cases hb
            · split at hb <;> cases hb
    rw [hb]
    simp only
    rw [drain_drainRun hr' hst]
    exact drainRun_end hc (hr' hst) hf'
  · rw [hb]; right; rfl
  · left
    by_cases hp : s.buf.length > 0
    · simp only [body, readSlice, h, Reader.read, if_pos hp]
      rw [drain_eof rfl]
    · simp only [body, readSlice, h, Reader.read, if_neg hp]
  · left; simp [body, dropUntilNextLine, h, Reader.read]
termination_by (readerSize s.reader, f.rank, s.buf.length)
decreasing_by
  · exact body_call_lt (by assumption)
  · assumption

/-! ### Once finished, always finished -/

/-- The iterator will never yield anything again. -/
def Finished {ε : Type} (cfg : Cfg) (s : BL ε) : Prop :=
  s.state = .eof ∨
    (s.reader = [] ∧ s.prevPos ≤ s.buf.length ∧ (∀ b ∈ s.buf, b = 0) ∧
      (s.buf = [] ∨ cfg.maxLineLength < s.buf.length))

theorem scan_zeros {l : Lex} {bs : Bytes} {i : Nat} (h : ∀ b ∈ bs, b = 0) :
    ∃ l', scan l bs i = (l', none) := by
  induction bs generalizing l i with
  | nil => exact ⟨l, rfl⟩
  | cons c cs ih =>
    have hc : c = 0 := h c (by simp)
    subst hc
    have : ∃ l', lexByte l 0 = (l', none) := by
      have d1 : ¬ ((0 : UInt8) = CH_N) := by decide
      have d2 : ¬ ((0 : UInt8) = BACKSLASH) := by decide
      have d3 : ¬ ((0 : UInt8) = LF) := by decide
      have d4 : ¬ ((0 : UInt8) = QUOTE) := by decide
      unfold lexByte
      simp only [d1, d2, d3, if_false]
      split
      · exact ⟨_, rfl⟩
      · split
        · simp only [matchJsonKv, d4, if_false]
          rw [if_neg (by simp)]
          exact ⟨_, rfl⟩
        · exact ⟨_, rfl⟩
    obtain ⟨l', hl⟩ := this
    simp only [scan, hl]
    exact ih (fun b hb => h b (by simp [hb]))

theorem resize_nil_zeros {n : Nat} : ∀ b ∈ resize [] n, b = 0 := by
  intro b hb
  simp [resize] at hb
  exact hb.2

theorem finished_next {ε : Type} {cfg : Cfg} {s : BL ε} (hcm : cfg.maxLineLength < cfg.chunkSize)
    (h : Finished cfg s) : (s.next cfg).2 = .done ∧ Finished cfg (s.next cfg).1 := by
  by_cases hst : s.state = .eof
  · simp only [BL.next, hst]; exact ⟨trivial, .inl hst⟩
  · rcases h with h | ⟨hr, hp, hz, hb⟩
    · exact absurd h hst
    · cases hs : s.state with
      | eof => exact absurd hs hst
      | scanning sep =>
        simp only [BL.next, hs]
        rcases hb with hb | hb
        · rw [if_pos (by simp [hb]), run_eq]
          simp only [body, readSlice, hr, Reader.read, hb, List.length_nil, Nat.lt_irrefl, if_false, gt_iff_lt]
          refine ⟨trivial, .inr ⟨rfl, ?_, resize_nil_zeros, .inr ?_⟩⟩
          · rw [hb] at hp; simp at hp; simp [hp]
          · simp [resize_length]; exact hcm
        · have hne : s.buf.isEmpty = false := by
            cases hbuf : s.buf with
            | nil => simp [hbuf] at hb
            | cons _ _ => rfl
          rw [hne]
          obtain ⟨l', hl⟩ := scan_zeros (l := s.lex) (bs := s.buf.drop s.prevPos) (i := s.prevPos)
            (fun b h => hz b (List.mem_of_mem_drop h))
          have hfn : s.findNextLine cfg = .res { s with lex := l' } none := by
            simp [BL.findNextLine, Nat.not_lt.2 hp, hl]
          have hbd : body cfg .getSlice s =
              .call .dropUntilNextLine { s with lex := l', prevPos := 0, buf := [] } := by
            simp only [body, getSlice, hfn]
            rw [if_pos hb]
          simp only [if_false, Bool.false_eq_true]
          rw [run_eq, hbd]
          simp only
          rw [run_eq]
          simp only [body, dropUntilNextLine, hr, Reader.read]
          refine ⟨trivial, .inr ⟨rfl, by simp, resize_nil_zeros, .inr ?_⟩⟩
          simp [resize_length]; exact hcm

/-- When the end is reported on an exhausted reader, it is for ever. -/
theorem run_done {ε : Type} {cfg : Cfg} {f : Fn} {s : BL ε} (hc : 0 < cfg.chunkSize)
    (hcm : cfg.maxLineLength < cfg.chunkSize)
    (hi : Inv cfg f s) (hf : Feeds [] s.reader) :
    ((run cfg f s).2 = .done → Finished cfg (run cfg f s).1) ∧
    (∀ bs nr, (run cfg f s).2 = .line bs nr →
      Finished cfg (run cfg f s).1 ∨ Feeds [] (run cfg f s).1.reader) := by
  rw [run_eq]
  rcases body_feeds (f := f) hc hf with ⟨f', s', hb, hf'⟩ | ⟨s', bs, nr, hb, hf', hst⟩ | ⟨s', hb⟩ | ⟨h, rfl⟩ | ⟨h, rfl⟩
  · have hi' : Inv cfg f' s' := by
      rcases body_inv hi with ⟨f1, s1, hb1, hi1, _⟩ | ⟨s1, o, hb1, _⟩
      · rw [hb] at hb1; injection hb1 with h1 h2; subst h1 h2; exact hi1
      · rw [hb] at hb1; cases hb1
    rw [hb]
    exact run_done hc hcm hi' hf'
  · rw [hb]
    exact ⟨by simp, fun _ _ _ => .inr hf'⟩
  · rw [hb]; simp
  · by_cases hp : s.buf.length > 0
    · have : body cfg .readSlice s = .ret
          { ({ s with reader := [], buf := resize s.buf (s.buf.length + cfg.chunkSize) } : BL ε).updateLineCounter .eof with
            buf := (resize s.buf (s.buf.length + cfg.chunkSize)).drop s.buf.length }
          (.line ((resize s.buf (s.buf.length + cfg.chunkSize)).take s.buf.length)
            (if s.state = .scanning .newLine then s.lineCount + 1 else s.lineCount)) := by
        simp only [body, readSlice, h, Reader.read, if_pos hp]
        rfl
      rw [this]
      exact ⟨by simp, fun _ _ _ => .inl (.inl rfl)⟩
    · have hb0 : s.buf = [] := by simpa using hp
      have : body cfg .readSlice s = .ret
          { s with reader := [], buf := resize s.buf (s.buf.length + cfg.chunkSize) } .done := by
        simp only [body, readSlice, h, Reader.read, if_neg hp]
      rw [this]
      refine ⟨fun _ => .inr ⟨rfl, ?_, ?_, .inr ?_⟩, by simp⟩
      · have := hi.2.2.1; rw [hb0] at this; simp at this; simp [this]
      · rw [hb0]; exact resize_nil_zeros
      · simp [resize_length]; omega
  · have hb0 : s.buf = [] := hi.2.2.2
    have : body cfg .dropUntilNextLine s = .ret
          { s with reader := [], buf := resize s.buf cfg.chunkSize } .done := by
        simp only [body, dropUntilNextLine, h, Reader.read]
    rw [this]
    refine ⟨fun _ => .inr ⟨rfl, ?_, ?_, .inr ?_⟩, by simp⟩
    · have := hi.2.2.1; simp [this]
    · rw [hb0]; exact resize_nil_zeros
    · simp [resize_length]; omega
termination_by (readerSize s.reader, f.rank, s.buf.length)
decreasing_by exact body_call_lt (by assumption)

end LJ.Iterator

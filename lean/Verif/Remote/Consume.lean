/-
What a consumer of lines gets depends only on the lines it asks for, and these only on the reads made so far.
-/
import Verif.Remote.Model
import Verif.Process.Props
import Verif.Iterator.Local
namespace LJ.Remote
open LJ.Process (Str Ev Env Trainer St AnomalyContext Stop)

/-! ### The consumers -/

section
variable {D ε : Type} {env : Env D}

/-- the same first `k` elements, or ends -/
def Agree {α : Type} (k : Nat) (r r' : List α) : Prop := ∀ i, i < k → r[i]? = r'[i]?

theorem Agree.refl {α : Type} (k : Nat) (r : List α) : Agree k r r := fun _ _ => rfl

theorem Agree.nil {α : Type} {k : Nat} {r' : List α} (h : Agree (k + 1) [] r') : r' = [] := by
  cases r' with
  | nil => rfl
  | cons x xs => exact absurd (h 0 (by omega)) (by simp)

theorem Agree.cons {α : Type} {k : Nat} {x : α} {r r' : List α} (h : Agree (1 + k) (x :: r) r') : ∃ r1, r' = x :: r1 ∧ Agree k r r1 := by
  cases r' with
  | nil => exact absurd (h 0 (by omega)) (by simp)
  | cons y ys =>
    have h0 := h 0 (by omega)
    simp at h0
    exact ⟨ys, by rw [h0], fun i hi => by simpa using h (i + 1) (by omega)⟩

theorem Agree.add {α : Type} {a b : Nat} {r r' : List α} (h : Agree (a + b) r r') : Agree a r r' ∧ Agree b (r.drop a) (r'.drop a) := by
  refine ⟨fun i hi => h i (by omega), fun i hi => ?_⟩
  rw [List.getElem?_drop, List.getElem?_drop]
  exact h (a + i) (by omega)

theorem add_agree (r r' : List (Ev ε)) (tr : Trainer) (h : Agree (trainAsked env r) r r') : tr.add env r' = tr.add env r := by
  induction r generalizing r' tr with
  | nil => rw [Agree.nil h]
  | cons e r ih =>
    cases e with
    | error e =>
      obtain ⟨r1, rfl, _⟩ := Agree.cons (k := 0) h
      rfl
    | ok l =>
      unfold trainAsked at h
      cases hd : env.decode l.1 with
      | none =>
        rw [hd] at h
        obtain ⟨r1, rfl, _⟩ := Agree.cons (k := 0) h
        unfold Trainer.add
        rw [hd]
      | some raw =>
        rw [hd] at h
        obtain ⟨r1, rfl, h1⟩ := Agree.cons h
        unfold Trainer.add
        rw [hd]
        exact ih r1 _ h1

theorem readAnomalies_agree (r r' : List (Ev ε)) (s : St D) (h : Agree (readAsked env r s) r r') :
    LJ.Process.readAnomalies env r' s = (LJ.Process.readAnomalies env r s).map fun x => (x.1, r'.drop (readAsked env r s), x.2.2) := by
  induction r generalizing r' s with
  | nil =>
    rw [Agree.nil h]
    unfold LJ.Process.readAnomalies
    cases s.finish env <;> rfl
  | cons e r ih =>
    cases e with
    | error e =>
      obtain ⟨r1, rfl, _⟩ := Agree.cons (k := 0) h
      rfl
    | ok l =>
      unfold readAsked at h ⊢
      cases hd : env.decode l.1 with
      | none =>
        rw [hd] at h
        obtain ⟨r1, rfl, _⟩ := Agree.cons (k := 0) h
        unfold LJ.Process.readAnomalies
        simp only [hd]
        rfl
      | some raw =>
        rw [hd] at h
        simp only at h ⊢
        by_cases hm : LJ.Process.contains LJ.Process.MARKER raw = true
        · rw [if_pos hm] at h
          obtain ⟨r1, rfl, _⟩ := Agree.cons (k := 0) h
          unfold LJ.Process.readAnomalies
          simp only [hd, if_pos hm]
          cases (s.count l).finish env <;> rfl
        · rw [if_neg hm] at h ⊢
          by_cases hf : ((s.count l).push env l raw).full (!decide (env.tokenize raw ∈ (s.count l).skipLines)) = true
          · rw [if_pos hf] at h ⊢
            cases hs : ((s.count l).push env l raw).doSearch env with
            | none =>
              rw [hs] at h
              obtain ⟨r1, rfl, _⟩ := Agree.cons (k := 0) h
              unfold LJ.Process.readAnomalies
              simp only [hd, if_neg hm, if_pos hf, hs]
              rfl
            | some s1 =>
              rw [hs] at h
              simp only at h ⊢
              by_cases ha : s1.anomalies ≠ []
              · rw [if_pos ha] at h ⊢
                obtain ⟨r1, rfl, _⟩ := Agree.cons (k := 0) h
                unfold LJ.Process.readAnomalies
                simp only [hd, if_neg hm, if_pos hf, hs]
                simp [ha]
              · rw [if_neg ha] at h ⊢
                obtain ⟨r1, rfl, h1⟩ := Agree.cons h
                rw [LJ.Process.readAnomalies.eq_3, LJ.Process.readAnomalies.eq_3 env]
                simp only [hd, if_neg hm, if_pos hf, hs]
                simp only [Option.bind_eq_bind, Option.bind_some, if_neg ha]
                rw [ih r1 s1 h1, Nat.add_comm 1, List.drop_succ_cons]
          · rw [if_neg hf] at h ⊢
            obtain ⟨r1, rfl, h1⟩ := Agree.cons h
            rw [LJ.Process.readAnomalies.eq_3, LJ.Process.readAnomalies.eq_3 env]
            simp only [hd, if_neg hm, if_neg hf]
            rw [ih r1 _ h1, Nat.add_comm 1, List.drop_succ_cons]

theorem next_agree (r r' : List (Ev ε)) (s : St D) (h : Agree (nextAsked env r s) r r') :
    LJ.Process.next env r' s = (LJ.Process.next env r s).map fun x => (x.1, r'.drop (nextAsked env r s), x.2.2) := by
  unfold LJ.Process.next nextAsked at *
  cases ha : s.anomalies with
  | cons a as => simp
  | nil =>
    rw [ha] at h
    simp only at h ⊢
    rw [readAnomalies_agree r r' s h]
    cases LJ.Process.readAnomalies env r s with
    | none => rfl
    | some x =>
      obtain ⟨res, rest, s1⟩ := x
      cases res with
      | error e => rfl
      | ok u =>
        cases u
        simp only [Option.map_some, Option.bind_eq_bind, Option.bind_some]
        cases s1.anomalies <;> rfl

theorem collect_agree (n : Nat) (r r' : List (Ev ε)) (s : St D) (h : Agree (collectAsked env n r s) r r') :
    LJ.Process.collect env n r' s = LJ.Process.collect env n r s := by
  induction n generalizing r r' s with
  | zero => rfl
  | succ n ih =>
    unfold collectAsked at h
    obtain ⟨h1, h2⟩ := h.add
    have e' := next_agree r r' s h1
    have e := next_agree (env := env) r r s (Agree.refl _ _)
    unfold LJ.Process.collect
    rw [e']
    cases hn : LJ.Process.next env r s with
    | none => rfl
    | some x =>
      obtain ⟨item, rest, s1⟩ := x
      rw [hn] at e h2
      simp only [Option.map_some, Option.some.injEq, Prod.mk.injEq, true_and, and_true] at e
      cases item with
      | none => rfl
      | some y =>
        cases y with
        | error e => rfl
        | ok a =>
          simp only [Option.map_some]
          rw [e] at h2 ⊢
          rw [ih _ _ s1 h2]

theorem collect_fuel {n m : Nat} (h : n ≤ m) (r : List (Ev ε)) (s : St D) (ht : (LJ.Process.collect env n r s).2.1 ≠ .timeout) :
    LJ.Process.collect env m r s = LJ.Process.collect env n r s := by
  induction n generalizing m r s with
  | zero => exact absurd rfl ht
  | succ n ih =>
    obtain ⟨m, rfl⟩ : ∃ k, m = k + 1 := ⟨m - 1, by omega⟩
    unfold LJ.Process.collect at ht ⊢
    cases hn : LJ.Process.next env r s with
    | none => rfl
    | some x =>
      obtain ⟨item, rest, s1⟩ := x
      cases item with
      | none => rfl
      | some y =>
        cases y with
        | error e => rfl
        | ok a =>
          simp only [hn] at ht ⊢
          rw [ih (by omega) rest s1 ht]

theorem process_ends {dist : Str → D} (hs : LJ.Process.Spec.Pointwise env.search dist) (n : Nat) (skip : List Str) (r : List (Ev ε)) (hn : r.length < n) :
    (LJ.Process.collect env n r (St.new skip)).2.1 ≠ .timeout := by
  obtain ⟨outs, stop, m', mb', X, b', k', F', P', V', s', h1, h2, h3, h4, h5⟩ :=
    LJ.Process.collect_total hs n r 0 0 [] [] 0 0 [] [] [] (St.new skip) (LJ.Process.Inv.start skip) (by simp [LJ.Process.pend, St.new, hn])
  rw [h1]
  exact h3

theorem process_agree {dist : Str → D} (hs : LJ.Process.Spec.Pointwise env.search dist) (skip : List Str) (r r' : List (Ev ε))
    (h : Agree (processAsked env skip r) r r') : LJ.Process.process env skip r' = LJ.Process.process env skip r := by
  have h1 := collect_agree _ r r' _ h
  have h2 := process_ends hs (r.length + 2) skip r (by omega)
  have h3 := process_ends hs (r'.length + 2) skip r' (by omega)
  unfold LJ.Process.process
  rw [← h1] at h2 ⊢
  rcases Nat.le_total r.length r'.length with hl | hl
  · exact collect_fuel (by omega) r' _ h2
  · exact (collect_fuel (by omega) r' _ h3).symm

end

/-! ### The line iterator -/

section
open LJ.Iterator
variable {ε : Type}

/-- a reader whose data come in blocks of at most `n` bytes -/
def Fits (n : Nat) (r : Reader ε) : Prop := ∀ bs, .data bs ∈ r → bs.length ≤ n

theorem read_len (n : Nat) (r : Reader ε) : (r.read n).2.length ≤ r.length := by
  match r with
  | [] => simp [Reader.read]
  | .err e :: r => simp [Reader.read]
  | .data bs :: r => simp only [Reader.read]; split <;> simp

theorem read_fits {n : Nat} {x : ReadRes ε} {r : Reader ε} (h : Fits n (x :: r)) : (Reader.read n (x :: r)).2 = r := by
  cases x with
  | err e => rfl
  | data bs =>
    simp only [Reader.read]
    rw [if_pos (h bs (by simp))]

theorem Fits.tail {n : Nat} {x : ReadRes ε} {r : Reader ε} (h : Fits n (x :: r)) : Fits n r := fun bs hb => h bs (List.mem_cons_of_mem _ hb)

/-- the reader of a step -/
def Step.reader : Step ε → Reader ε
  | .ret s _ => s.reader
  | .call _ s => s.reader

theorem step_reader_on (st : Step ε) (r : Reader ε) : Step.reader (st.on r) = r := by cases st <;> rfl

theorem getSlice_reader (cfg : Cfg) (s : BL ε) : Step.reader (getSlice cfg s) = s.reader := by
  have h := getSlice_on cfg s s.reader
  rw [show s.on s.reader = s from rfl] at h
  rw [h, step_reader_on]

theorem body_reader (cfg : Cfg) (f : Fn) (s : BL ε) : Step.reader (body cfg f s) = s.reader ∨ Step.reader (body cfg f s) = (s.reader.read cfg.chunkSize).2 := by
  cases f with
  | getSlice => exact .inl (getSlice_reader cfg s)
  | readSlice =>
    right
    show Step.reader (readSlice cfg s) = _
    rw [readSlice_eq, step_reader_on]
  | dropUntilNextLine =>
    right
    show Step.reader (dropUntilNextLine cfg s) = _
    rw [drop_eq, step_reader_on]

theorem body_reader_len (cfg : Cfg) (f : Fn) (s : BL ε) : (Step.reader (body cfg f s)).length ≤ s.reader.length := by
  rcases body_reader cfg f s with h | h <;> rw [h]
  exact read_len _ _

theorem run_reader_len (cfg : Cfg) (f : Fn) (s : BL ε) : (run cfg f s).1.reader.length ≤ s.reader.length := by
  have hl := body_reader_len cfg f s
  rw [run_eq]
  cases hb : body cfg f s with
  | ret s1 o => rw [hb] at hl; exact hl
  | call f1 s1 =>
    rw [hb] at hl
    exact (run_reader_len cfg f1 s1).trans hl
termination_by (readerSize s.reader, f.rank, s.buf.length)
decreasing_by exact body_call_lt hb

theorem next_reader_len (cfg : Cfg) (s : BL ε) : (s.next cfg).1.reader.length ≤ s.reader.length := by
  unfold BL.next
  split
  · exact Nat.le_refl _
  · split <;> exact run_reader_len _ _ _

theorem nexts_reader_len (cfg : Cfg) (n : Nat) (s : BL ε) : (nexts cfg n s).reader.length ≤ s.reader.length := by
  induction n generalizing s with
  | zero => exact Nat.le_refl _
  | succ n ih => exact (ih _).trans (next_reader_len cfg s)

/-- A function which does not read past `r1` does the same when there is nothing after `r1`. -/
theorem body_local (cfg : Cfg) (f : Fn) (s : BL ε) (r1 tl : Reader ε) (hr : s.reader = r1 ++ tl) (hf : Fits cfg.chunkSize tl)
    (hlen : tl.length ≤ (Step.reader (body cfg f s)).length) :
    ∃ r1', Step.reader (body cfg f s) = r1' ++ tl ∧ body cfg f (s.on r1) = (body cfg f s).on r1' := by
  have reads : ∀ (X : BL ε → Except ε Bytes → Step ε) (F : BL ε → Step ε), (∀ s, F s = (X s (s.reader.read cfg.chunkSize).1).on (s.reader.read cfg.chunkSize).2) →
      (∀ s x r r', (X (s.on r) x).on r' = (X s x).on r') → tl.length ≤ (Step.reader (F s)).length →
      ∃ r1', Step.reader (F s) = r1' ++ tl ∧ F (s.on r1) = (F s).on r1' := by
    intro X F hF hX hl
    have e1 : Step.reader (F s) = (s.reader.read cfg.chunkSize).2 := by rw [hF, step_reader_on]
    rw [e1] at hl ⊢
    have e2 : F (s.on r1) = (X s (Reader.read cfg.chunkSize r1).1).on (Reader.read cfg.chunkSize r1).2 := by
      rw [hF]
      exact hX _ _ _ _
    rw [hr] at hl ⊢
    by_cases hn : r1 = []
    · subst hn
      cases tl with
      | nil => exact ⟨[], rfl, by rw [e2, hF, hr, step_on_on]; rfl⟩
      | cons x tl =>
        rw [List.nil_append, read_fits hf] at hl
        simp at hl
    · rw [read_append hn]
      refine ⟨_, rfl, ?_⟩
      rw [e2, hF, hr, read_append hn, step_on_on]
  cases f with
  | getSlice =>
    have e : Step.reader (getSlice cfg s) = s.reader := getSlice_reader cfg s
    exact ⟨r1, by show Step.reader (getSlice cfg s) = _; rw [e, hr], getSlice_on cfg s r1⟩
  | readSlice => exact reads (readSliceX cfg) (readSlice cfg) (readSlice_eq cfg) (readSliceX_on cfg) hlen
  | dropUntilNextLine => exact reads (dropX cfg) (dropUntilNextLine cfg) (drop_eq cfg) (dropX_on cfg) hlen

theorem run_local (cfg : Cfg) (f : Fn) (s : BL ε) (r1 tl : Reader ε) (hr : s.reader = r1 ++ tl) (hf : Fits cfg.chunkSize tl)
    (hlen : tl.length ≤ (run cfg f s).1.reader.length) :
    ∃ r1', (run cfg f s).1.reader = r1' ++ tl ∧ run cfg f (s.on r1) = ((run cfg f s).1.on r1', (run cfg f s).2) := by
  rw [run_eq] at hlen ⊢
  rw [run_eq cfg f (s.on r1)]
  have hb := body_local cfg f s r1 tl hr hf
  cases hbd : body cfg f s with
  | ret s1 o =>
    rw [hbd] at hlen hb
    obtain ⟨r1', h1, h2⟩ := hb hlen
    refine ⟨r1', h1, ?_⟩
    rw [h2]
    rfl
  | call f1 s1 =>
    rw [hbd] at hlen hb
    obtain ⟨r1', h1, h2⟩ := hb (hlen.trans (run_reader_len cfg f1 s1))
    rw [h2]
    exact run_local cfg f1 s1 r1' tl h1 hf hlen
termination_by (readerSize s.reader, f.rank, s.buf.length)
decreasing_by exact body_call_lt hbd

theorem next_local (cfg : Cfg) (s : BL ε) (r1 tl : Reader ε) (hr : s.reader = r1 ++ tl) (hf : Fits cfg.chunkSize tl)
    (hlen : tl.length ≤ (s.next cfg).1.reader.length) :
    ∃ r1', (s.next cfg).1.reader = r1' ++ tl ∧ (s.on r1).next cfg = ((s.next cfg).1.on r1', (s.next cfg).2) := by
  unfold BL.next at *
  have h1 : (s.on r1).state = s.state := rfl
  have h2 : (s.on r1).buf = s.buf := rfl
  rw [h1, h2]
  cases hs : s.state with
  | eof => exact ⟨r1, hr, rfl⟩
  | scanning sep =>
    rw [hs] at hlen
    simp only at hlen ⊢
    by_cases hb : s.buf.isEmpty = true
    · rw [if_pos hb] at hlen ⊢
      rw [if_pos hb]
      exact run_local cfg _ s r1 tl hr hf hlen
    · rw [if_neg hb] at hlen ⊢
      rw [if_neg hb]
      exact run_local cfg _ s r1 tl hr hf hlen

/-- the lines of an iterator, for its consumer -/
theorem events_drain (cfg : Cfg) (s : BL Unit) : LJ.Whole.events (drain cfg s) =
    match s.next cfg with
    | (s', .line bs nr) => .ok (bs, nr) :: LJ.Whole.events (drain cfg s')
    | (_, .error e) => [.error e]
    | _ => [] := by
  rw [drain_eq]
  cases s.next cfg with
  | mk s1 o => cases o <;> rfl

theorem drain_local (cfg : Cfg) (n : Nat) (s : BL Unit) (r1 tl : Reader Unit) (hr : s.reader = r1 ++ tl) (hf : Fits cfg.chunkSize tl)
    (hlen : tl.length ≤ (nexts cfg n s).reader.length) :
    Agree n (LJ.Whole.events (drain cfg s)) (LJ.Whole.events (drain cfg (s.on r1))) := by
  induction n generalizing s r1 with
  | zero => intro i hi; omega
  | succ n ih =>
    have h1 : tl.length ≤ (s.next cfg).1.reader.length := hlen.trans (nexts_reader_len cfg n _)
    obtain ⟨r1', e1, e2⟩ := next_local cfg s r1 tl hr hf h1
    rw [events_drain, events_drain cfg (s.on r1), e2]
    cases hn : s.next cfg with
    | mk s1 o =>
      have hlen' : tl.length ≤ (nexts cfg n s1).reader.length := by
        have := hlen
        unfold nexts at this
        rw [hn] at this
        exact this
      rw [hn] at e1
      cases o with
      | line bs nr =>
        have h3 := ih s1 r1' e1 hlen'
        intro i hi
        cases i with
        | zero => rfl
        | succ i => simpa using h3 i (by omega)
      | done => exact Agree.refl _ _
      | error e => exact Agree.refl _ _
      | panic => exact Agree.refl _ _

end

end LJ.Remote

/-
The invariant of the processor between two lines, and the whole run over a source.
-/
import Verif.Process.Flush
import Verif.Process.Spec
namespace LJ.Process
open Spec (firsts cuts)
variable {D ε : Type}

/-! ### First occurrences -/

theorem firsts_cons {α : Type} {key : α → Str} (x : α) (xs : List α) (s : List Str) :
    firsts key s (x :: xs) = if key x ∈ s then firsts key s xs else x :: firsts key (key x :: s) xs := rfl

theorem firsts_congr {α : Type} {key : α → Str} (xs : List α) {s s' : List Str} (h : ∀ x, x ∈ s ↔ x ∈ s') :
    firsts key s xs = firsts key s' xs := by
  induction xs generalizing s s' with
  | nil => rfl
  | cons x xs ih =>
    unfold firsts
    by_cases hx : key x ∈ s
    · rw [if_pos hx, if_pos ((h _).1 hx), ih h]
    · rw [if_neg hx, if_neg (fun h' => hx ((h _).2 h')), ih]
      intro y; simp only [List.mem_cons, h]

theorem firsts_append {α : Type} {key : α → Str} (xs ys : List α) (s : List Str) :
    firsts key s (xs ++ ys) = firsts key s xs ++ firsts key (s ++ xs.map key) ys := by
  induction xs generalizing s with
  | nil => simp [firsts]
  | cons x xs ih =>
    rw [List.cons_append, firsts_cons, firsts_cons]
    by_cases hx : key x ∈ s
    · rw [if_pos hx, if_pos hx, ih]
      congr 1
      apply firsts_congr
      intro y
      simp only [List.map_cons, List.mem_append, List.mem_cons]
      constructor
      · rintro (h | h)
        · exact .inl h
        · exact .inr (.inr h)
      · rintro (h | rfl | h)
        · exact .inl h
        · exact .inl hx
        · exact .inr h
    · rw [if_neg hx, if_neg hx, ih, List.cons_append]
      congr 2
      apply firsts_congr
      intro y
      simp only [List.map_cons, List.mem_append, List.mem_cons]
      constructor
      · rintro (rfl | h | h)
        · exact .inr (.inl rfl)
        · exact .inl h
        · exact .inr (.inr h)
      · rintro (h | rfl | h)
        · exact .inr (.inl h)
        · exact .inl rfl
        · exact .inr (.inr h)

theorem firsts_sublist {α : Type} {key : α → Str} (xs : List α) (s : List Str) : (firsts key s xs).Sublist xs := by
  induction xs generalizing s with
  | nil => exact .slnil
  | cons x xs ih =>
    unfold firsts
    split
    · exact (ih s).cons x
    · exact (ih _).cons_cons x

theorem firsts_map {α β : Type} {key : β → Str} (f : α → β) (xs : List α) (s : List Str) :
    (firsts (fun x => key (f x)) s xs).map f = firsts key s (xs.map f) := by
  induction xs generalizing s with
  | nil => rfl
  | cons x xs ih =>
    rw [List.map_cons]
    unfold firsts
    split
    · exact ih s
    · rw [List.map_cons, ih]

theorem cuts_congr {α : Type} {key : α → Str} (xs : List α) {s s' : List Str} (h : ∀ x, x ∈ s ↔ x ∈ s') (pos u b : Nat) :
    cuts key s pos u b xs = cuts key s' pos u b xs := by
  induction xs generalizing s s' pos u b with
  | nil => rfl
  | cons x xs ih =>
    have h' : ∀ y, y ∈ key x :: s ↔ y ∈ key x :: s' := by intro y; simp only [List.mem_cons, h]
    unfold cuts
    by_cases hx : key x ∈ s
    · rw [if_pos hx, if_pos ((h _).1 hx), ih h, ih h]
    · rw [if_neg hx, if_neg (fun h' => hx ((h _).2 h')), ih h', ih h']

theorem cuts_map {α β : Type} {key : β → Str} (f : α → β) (xs : List α) (s : List Str) (pos u b : Nat) :
    cuts (fun x => key (f x)) s pos u b xs = cuts key s pos u b (xs.map f) := by
  induction xs generalizing s pos u b with
  | nil => rfl
  | cons x xs ih => rw [List.map_cons]; unfold cuts; simp only [ih]

/-! ### Growing the list of lines -/

section
variable {env : Env D} {dist : Str → D} {L : List Entry} {full : Prop} {cut : Nat → Prop} {base k : Nat}
  {em : List (AnomalyContext D)}

theorem shows_mono {c : AnomalyContext D} {w : Win} (X : List Entry) (h : Shows env dist L c w) :
    Shows env dist (L ++ X) c w := by
  obtain ⟨e, h1, h2, h3, h4, h5, h6⟩ := h
  refine ⟨e, ?_, h2, by rw [List.length_append]; omega, ?_, h5, ?_⟩
  · rw [List.getElem?_append_left (by omega)]; exact h1
  · rw [List.drop_append_of_le_length (by omega), List.take_append_of_le_length (by rw [List.length_drop]; omega)]
    exact h4
  · rw [List.drop_append_of_le_length (by omega), List.take_append_of_le_length (by rw [List.length_drop]; omega)]
    exact h6

theorem forall₂_shows_lt {cs : List (AnomalyContext D)} {V : List Win} (h : List.Forall₂ (Shows env dist L) cs V) :
    ∀ w ∈ V, w.i < L.length := by
  induction h with
  | nil => simp
  | cons hc _ ih =>
    intro w hw
    rcases List.mem_cons.1 hw with rfl | hw
    · obtain ⟨e, h1, h2, h3, _⟩ := hc; omega
    · exact ih w hw

theorem J.mono {f : Flush D} {V : List Win} {G : List Entry} (X : List Entry) (h : J env dist L full cut base k em f V G) :
    J env dist (L ++ X) full cut base k em f V G :=
  { h with
    shows_ := h.shows_.imp fun _ _ hc => shows_mono X hc
    idx := by
      rw [← h.idx]
      apply List.map_congr_left
      intro w hw
      rw [List.getElem?_append_left (forall₂_shows_lt h.shows_ w hw)]
    pos_le := by have := h.pos_le; rw [List.length_append]; omega }

end

/-! ### The invariant between two lines -/

/-- the tokens of a buffered line -/
def tokE (env : Env D) (e : Entry) : Str := env.tokenize (txt env e)

/-- the buffered line is anomalous -/
def overE (env : Env D) (dist : Str → D) (e : Entry) : Bool := env.over (dist (tokE env e))

/-- `L`: the lines which entered the buffer; `base`: how many of them have been searched; `P`: the
pending new lines, `F` the searched ones; `k`: the lines left over; `em`: the contexts already
returned, the most recent first; `V`: the windows; `m`, `mb`: the lines and bytes counted that did not
enter the buffer. -/
structure Inv (env : Env D) (dist : Str → D) (full : Prop) (cut : Nat → Prop) (skip0 : List Str) (m mb : Nat)
    (em : List (AnomalyContext D)) (L : List Entry) (base k : Nat) (F P : List Entry) (V : List Win) (s : St D) : Prop where
  dec : ∀ e ∈ L, (env.decode e.1.1).isSome
  coords : (L.map Prod.snd).Pairwise (· < ·)
  coordLe : ∀ e ∈ L, e.2 ≤ s.coord
  cut_base : 0 < base → cut base
  buf : s.buffer = L.drop base
  sub : P.Sublist (L.drop base)
  tgt : s.targets = P.map (tokE env)
  tgtc : s.targetsCoord = P.map Prod.snd
  left : s.leftOvers = ((L.drop (base - k)).take k).map (txt env)
  idle : Idle env dist L full cut base k em s.currentAnomaly s.anomalies V (F.filter (overE env dist)).reverse
  news : firsts (tokE env) skip0 L = F ++ P
  fsub : F.Sublist (L.take base)
  skip : ∀ x, x ∈ s.skipLines ↔ x ∈ skip0 ∨ ∃ e ∈ L, tokE env e = x
  ulen : P.length < 512
  blen : L.length - base ≤ 5120 + P.length
  cntC : s.coord = m + L.length
  cntL : s.lineCount = s.coord
  cntB : s.byteCount = mb + (L.map fun e => e.1.1.length).sum

variable {env : Env D} {dist : Str → D} {full : Prop} {cut : Nat → Prop} {skip0 : List Str} {m mb : Nat}
  {em : List (AnomalyContext D)} {L : List Entry} {base k : Nat} {F P : List Entry} {V : List Win} {s : St D}

theorem Inv.base_le (h : Inv env dist full cut skip0 m mb em L base k F P V s) : base ≤ L.length := by
  have := h.idle.pos_le; simpa using this

theorem Inv.start (skip0 : List Str) : Inv env dist full cut skip0 0 0 [] [] 0 0 [] [] [] (St.new skip0) where
  dec := by simp
  coords := .nil
  coordLe := by simp
  cut_base := by simp
  buf := rfl
  sub := .slnil
  tgt := rfl
  tgtc := rfl
  left := rfl
  idle := ⟨.nil, rfl, trivial, by simp, by simp, by simp, by simp, by simp, by simp [lastEnd], by simp,
    (by intro h; cases h), by simp, by simp [lastEnd]⟩
  news := rfl
  fsub := .slnil
  skip := by simp [St.new]
  ulen := by simp
  blen := by simp
  cntC := rfl
  cntL := rfl
  cntB := rfl

/-- The result of pushing a line, before the search: the bounds are those of the transient state. -/
theorem Inv.push (h : Inv env dist full cut skip0 m mb em L base k F P V s) (line : LogLine) (raw : Str)
    (hd : env.decode line.1 = some raw) :
    ∃ P', let s' := (s.count line).push env line raw
      let L' := L ++ [(line, s.coord + 1)]
      P' = P ++ (if env.tokenize raw ∈ s.skipLines then [] else [(line, s.coord + 1)]) ∧
      (∀ e ∈ L', (env.decode e.1.1).isSome) ∧ (L'.map Prod.snd).Pairwise (· < ·) ∧ (∀ e ∈ L', e.2 ≤ s'.coord) ∧
      s'.buffer = L'.drop base ∧ P'.Sublist (L'.drop base) ∧ s'.targets = P'.map (tokE env) ∧
      s'.targetsCoord = P'.map Prod.snd ∧ s'.leftOvers = ((L'.drop (base - k)).take k).map (txt env) ∧
      Idle env dist L' full cut base k em s'.currentAnomaly s'.anomalies V (F.filter (overE env dist)).reverse ∧
      firsts (tokE env) skip0 L' = F ++ P' ∧ F.Sublist (L'.take base) ∧
      (∀ x, x ∈ s'.skipLines ↔ x ∈ skip0 ∨ ∃ e ∈ L', tokE env e = x) ∧
      s'.coord = m + L'.length ∧ s'.lineCount = s'.coord ∧ s'.byteCount = mb + (L'.map fun e => e.1.1.length).sum ∧
      s'.anomalies = s.anomalies ∧ s'.currentAnomaly = s.currentAnomaly := by
  have hbase := h.base_le
  have hkb := h.idle.kbase
  have htok : tokE env (line, s.coord + 1) = env.tokenize raw := by simp [tokE, txt, hd]
  refine ⟨_, rfl, ?_⟩
  have hnew : env.tokenize raw ∈ s.skipLines ↔ env.tokenize raw ∈ skip0 ++ L.map (tokE env) := by
    rw [h.skip, List.mem_append, List.mem_map]
  have hfirsts : firsts (tokE env) skip0 (L ++ [(line, s.coord + 1)]) =
      F ++ (P ++ (if env.tokenize raw ∈ s.skipLines then [] else [(line, s.coord + 1)])) := by
    rw [firsts_append, h.news, List.append_assoc]
    congr 2
    unfold firsts
    rw [htok]
    by_cases hm : env.tokenize raw ∈ s.skipLines
    · rw [if_pos hm, if_pos (hnew.1 hm)]; rfl
    · rw [if_neg hm, if_neg (fun h' => hm (hnew.2 h'))]; rfl
  refine ⟨?_, ?_, ?_, ?_, ?_, ?_, ?_, ?_, ?_, hfirsts, ?_, ?_, ?_, ?_, ?_, ?_⟩
  · intro e he
    rcases List.mem_append.1 he with he | he
    · exact h.dec e he
    · rw [List.mem_singleton] at he; subst he; simp [hd]
  · rw [List.map_append, List.pairwise_append]
    refine ⟨h.coords, by simp, ?_⟩
    intro a ha b hb
    obtain ⟨e, he, rfl⟩ := List.mem_map.1 ha
    simp only [List.map_cons, List.map_nil, List.mem_singleton] at hb
    have := h.coordLe e he
    omega
  · intro e he
    have hc : ((s.count line).push env line raw).coord = s.coord + 1 := by
      unfold St.push; simp only; split <;> rfl
    rw [hc]
    rcases List.mem_append.1 he with he | he
    · have := h.coordLe e he; omega
    · rw [List.mem_singleton] at he; subst he; simp
  · have hb : ((s.count line).push env line raw).buffer = s.buffer ++ [(line, s.coord + 1)] := by
      unfold St.push; simp only; split <;> rfl
    rw [hb, h.buf, List.drop_append_of_le_length hbase]
  · rw [List.drop_append_of_le_length hbase]
    apply List.Sublist.append h.sub
    split
    · exact List.nil_sublist _
    · exact List.Sublist.refl _
  · unfold St.push
    simp only
    have e : (s.count line).skipLines = s.skipLines := rfl
    simp only [e]
    split
    · simp [St.count, h.tgt]
    · simp [St.count, h.tgt, htok]
  · unfold St.push
    simp only
    have e : (s.count line).skipLines = s.skipLines := rfl
    simp only [e]
    split
    · simp [St.count, h.tgtc]
    · simp [St.count, h.tgtc]
  · have e : ((s.count line).push env line raw).leftOvers = s.leftOvers := by unfold St.push; simp only; split <;> rfl
    rw [e, h.left, List.drop_append_of_le_length (by omega), List.take_append_of_le_length (by rw [List.length_drop]; omega)]
  · have e1 : ((s.count line).push env line raw).currentAnomaly = s.currentAnomaly := by unfold St.push; simp only; split <;> rfl
    have e2 : ((s.count line).push env line raw).anomalies = s.anomalies := by unfold St.push; simp only; split <;> rfl
    rw [e1, e2]
    exact h.idle.mono _
  · rw [List.take_append_of_le_length hbase]; exact h.fsub
  · intro x
    have e : (s.count line).skipLines = s.skipLines := rfl
    unfold St.push
    simp only [e]
    by_cases hm : env.tokenize raw ∈ s.skipLines
    · rw [if_pos hm]
      show x ∈ s.skipLines ↔ _
      rw [h.skip]
      constructor
      · rintro (h' | ⟨e, he, h'⟩)
        · exact .inl h'
        · exact .inr ⟨e, by simp [he], h'⟩
      · rintro (h' | ⟨e, he, h'⟩)
        · exact .inl h'
        · rcases List.mem_append.1 he with he | he
          · exact .inr ⟨e, he, h'⟩
          · rw [List.mem_singleton] at he; subst he
            rw [htok] at h'; subst h'
            exact (h.skip _).1 hm
    · rw [if_neg hm]
      show x ∈ env.tokenize raw :: s.skipLines ↔ _
      rw [List.mem_cons, h.skip]
      constructor
      · rintro (rfl | h' | ⟨e, he, h'⟩)
        · exact .inr ⟨(line, s.coord + 1), by simp, htok⟩
        · exact .inl h'
        · exact .inr ⟨e, by simp [he], h'⟩
      · rintro (h' | ⟨e, he, h'⟩)
        · exact .inr (.inl h')
        · rcases List.mem_append.1 he with he | he
          · exact .inr (.inr ⟨e, he, h'⟩)
          · rw [List.mem_singleton] at he; subst he
            rw [htok] at h'; exact .inl h'.symm
  · have e : ((s.count line).push env line raw).coord = s.coord + 1 := by unfold St.push; simp only; split <;> rfl
    rw [e, h.cntC, List.length_append]; simp; omega
  · have e : ((s.count line).push env line raw).coord = s.coord + 1 := by unfold St.push; simp only; split <;> rfl
    have e' : ((s.count line).push env line raw).lineCount = s.lineCount + 1 := by unfold St.push; simp only; split <;> rfl
    rw [e, e', h.cntL]
  · have e : ((s.count line).push env line raw).byteCount = s.byteCount + line.1.length := by unfold St.push; simp only; split <;> rfl
    rw [e, h.cntB, List.map_append, List.sum_append]; simp; omega
  · unfold St.push; simp only; split <;> exact ⟨rfl, rfl⟩


/-- the tokens of a line of the reader -/
def keyL (env : Env D) (l : LogLine) : Str := env.tokenize ((env.decode l.1).getD [])

/-- what is pending: targets, and contexts not yet returned -/
def pend (s : St D) : Nat := s.targets.length + s.currentAnomaly.toList.length + s.anomalies.length

/-- process.rs:158-181, a line which is not the marker: push and maybe search. -/
def St.line (env : Env D) (s : St D) (line : LogLine) (raw : Str) : Option (St D) :=
  let isNew := !decide (env.tokenize raw ∈ (s.count line).skipLines)
  let s := (s.count line).push env line raw
  if s.full isNew then s.doSearch env else some s

theorem Good.mono {full full' : Prop} {cut cut' : Nat → Prop} (hf : full' → full) (hc : ∀ c, cut c → cut' c) {V : List Win}
    (h : Good full cut V) : Good full' cut' V := by
  induction V with
  | nil => exact h
  | cons w V ih =>
    cases V with
    | nil => exact ⟨h.1, h.2.1, fun hf' => h.2.2 (hf hf')⟩
    | cons v V =>
      refine ⟨⟨h.1.1, h.1.2.1, h.1.2.2.1, fun hf' => h.1.2.2.2.1 (hf hf'), fun hf' => h.1.2.2.2.2.1 (hf hf'), ?_⟩, ih h.2⟩
      rcases h.1.2.2.2.2.2 with h' | ⟨c, h1, h2⟩
      · exact .inl h'
      · exact .inr ⟨c, hc c h1, h2⟩

theorem Inv.line (hsearch : ∀ ts, env.search ts = ts.map dist)
    (h : Inv env dist full cut skip0 m mb em L base k F P V s) (line : LogLine) (raw : Str)
    (hd : env.decode line.1 = some raw)
    (hcut : ((s.count line).push env line raw).full (!decide (env.tokenize raw ∈ s.skipLines)) = true → cut (L.length + 1)) :
    ∃ s' base' k' F' P' V', s.line env line raw = some s' ∧
      Inv env dist full cut skip0 m mb em (L ++ [(line, s.coord + 1)]) base' k' F' P' V' s' ∧
      s'.targets.length + s'.currentAnomaly.toList.length + s'.anomalies.length ≤
        s.targets.length + s.currentAnomaly.toList.length + s.anomalies.length + 1 ∧
      s'.coord = s.coord + 1 ∧
      (∀ x, x ∈ s'.skipLines ↔ x ∈ env.tokenize raw :: s.skipLines) ∧
      (if ((s.count line).push env line raw).full (!decide (env.tokenize raw ∈ s.skipLines)) = true then
        s'.targets = [] ∧ s'.buffer = []
      else s' = (s.count line).push env line raw) := by
  obtain ⟨P', hP', q1, q2, q3, q4, q5, q6, q7, q8, q9, q10, q11, q12, q13, q14, q15, q16, q17⟩ := h.push line raw hd
  have hlenL : (L ++ [(line, s.coord + 1)]).length = L.length + 1 := by simp
  have hPlen : P'.length ≤ P.length + 1 := by
    rw [hP', List.length_append]; split <;> simp
  have htlen : ((s.count line).push env line raw).targets.length ≤ s.targets.length + 1 := by
    rw [q6, List.length_map, h.tgt, List.length_map]; exact hPlen
  have hbase := h.base_le
  have hblen := h.blen
  have hulen := h.ulen
  have hcoord : ((s.count line).push env line raw).coord = s.coord + 1 := by
    unfold St.push; simp only; split <;> rfl
  have hskip : ∀ x, x ∈ ((s.count line).push env line raw).skipLines ↔ x ∈ env.tokenize raw :: s.skipLines := by
    intro x
    unfold St.push
    have e : (s.count line).skipLines = s.skipLines := rfl
    simp only [e]
    split <;> rename_i hm
    · rw [List.mem_cons]
      exact ⟨.inr, fun h' => h'.elim (fun e => e ▸ hm) id⟩
    · exact Iff.rfl
  unfold St.line
  simp only
  have hskipc : (s.count line).skipLines = s.skipLines := rfl
  rw [hskipc]
  by_cases hfull : ((s.count line).push env line raw).full (!decide (env.tokenize raw ∈ s.skipLines)) = true
  · rw [if_pos hfull]
    have hbl3 : 3 ≤ (L ++ [(line, s.coord + 1)]).length - base := by
      unfold St.full at hfull
      split at hfull
      · rw [beq_iff_eq, q6, List.length_map] at hfull
        have := q5.length_le
        rw [List.length_drop] at this
        unfold CHUNK_SIZE at hfull
        omega
      · rw [decide_eq_true_eq, q4, List.length_drop] at hfull
        unfold CHUNK_SIZE at hfull
        omega
    obtain ⟨s', V', k', r1, r2, r3, _, r5, r6⟩ := doSearch_spec q1 h.cut_base q2 hsearch _ P' V _ q4 q5 q6 q7 q8 q9
    have r5' := r5 full id (fun _ => hbl3)
    refine ⟨s', (L ++ [(line, s.coord + 1)]).length, k', F ++ P', [], V', r1, ?_, ?_, ?_, ?_, ?_⟩
    · refine ⟨q1, q2, ?_, ?_, ?_, List.nil_sublist _, ?_, ?_, r3, ?_, ?_, ?_, ?_, by simp, by simp, ?_, ?_, ?_⟩
      · intro e he; rw [r2]; exact q3 e he
      · intro _; rw [hlenL]; exact hcut hfull
      · rw [r2, List.drop_length]
      · rw [r2]; rfl
      · rw [r2]; rfl
      · rw [List.filter_append, List.reverse_append]; exact r5'
      · rw [List.append_nil]; exact q10
      · rw [List.take_length, ← q10]; exact firsts_sublist _ _
      · intro x; rw [r2]; exact q12 x
      · rw [r2]; exact q13
      · rw [r2]; exact q14
      · rw [r2]; exact q15
    · have e1 : s'.targets = [] := by rw [r2]
      rw [q16, q17] at r6
      rw [e1]
      rw [h.tgt, List.length_map]
      simp only [List.length_nil]
      omega
    · rw [r2]; exact hcoord
    · intro x; rw [r2]; exact hskip x
    · rw [if_pos hfull, r2]; exact ⟨rfl, rfl⟩
  · rw [if_neg hfull]
    refine ⟨_, base, k, F, P', V, rfl, ⟨q1, q2, q3, h.cut_base, q4, q5, q6, q7, q8, q9, q10, q11, q12, ?_, ?_, q13, q14, q15⟩, ?_, hcoord, hskip, by rw [if_neg hfull]⟩
    · unfold St.full at hfull
      by_cases hm : env.tokenize raw ∈ s.skipLines
      · have : P' = P := by rw [hP', if_pos hm, List.append_nil]
        rw [this]; exact hulen
      · simp only [hm, decide_false, Bool.not_false, if_true, beq_iff_eq, q6, List.length_map] at hfull
        unfold CHUNK_SIZE at hfull
        omega
    · unfold St.full at hfull
      by_cases hm : env.tokenize raw ∈ s.skipLines
      · simp only [hm, decide_true, Bool.not_true, Bool.false_eq_true, if_false, decide_eq_true_eq, q4, List.length_drop] at hfull
        unfold CHUNK_SIZE at hfull
        omega
      · have : P'.length = P.length + 1 := by rw [hP', if_neg hm]; simp
        rw [hlenL]; omega
    · rw [q16, q17]; omega

/-- the entries of the lines, numbered from `c + 1` -/
def ents : Nat → List LogLine → List Entry
  | _, [] => []
  | c, l :: ls => (l, c + 1) :: ents (c + 1) ls

/-- `readAnomalies` on a line -/
theorem readAnomalies_line (r : List (Ev ε)) (s : St D) (line : LogLine) (raw : Str)
    (hd : env.decode line.1 = some raw) (hm : contains MARKER raw = false) :
    readAnomalies env (.ok line :: r) s =
      (s.line env line raw).bind fun s' =>
        if ((s.count line).push env line raw).full (!decide (env.tokenize raw ∈ s.skipLines)) = true ∧ s'.anomalies ≠ [] then
          some (.ok (), r, s')
        else readAnomalies env r s' := by
  conv => lhs; unfold readAnomalies
  unfold St.line
  have hskipc : (s.count line).skipLines = s.skipLines := rfl
  simp only [hd, hm, hskipc, Bool.false_eq_true, if_false]
  by_cases hfull : ((s.count line).push env line raw).full (!decide (env.tokenize raw ∈ s.skipLines)) = true
  · rw [if_pos hfull, if_pos hfull]
    cases hs : ((s.count line).push env line raw).doSearch env with
    | none => rfl
    | some s' =>
      simp only [Option.bind_eq_bind, Option.bind_some]
      by_cases ha : s'.anomalies ≠ []
      · rw [if_pos ha, if_pos ⟨hfull, ha⟩]
      · rw [if_neg ha, if_neg (fun h => ha h.2)]
  · rw [if_neg hfull, if_neg hfull]
    simp only [Option.bind_some]
    rw [if_neg (fun h => hfull h.1)]

/-- the cuts of the remaining lines, from the state -/
def cutsOf (env : Env D) (s : St D) (pos : Nat) (ls : List LogLine) : List Nat :=
  cuts (keyL env) s.skipLines pos s.targets.length s.buffer.length ls

theorem cutsOf_line {line : LogLine} {raw : Str} {ls : List LogLine} {s' : St D} (hd : env.decode line.1 = some raw)
    (hskip : ∀ x, x ∈ s'.skipLines ↔ x ∈ env.tokenize raw :: s.skipLines)
    (hs : if ((s.count line).push env line raw).full (!decide (env.tokenize raw ∈ s.skipLines)) = true then
        s'.targets = [] ∧ s'.buffer = []
      else s' = (s.count line).push env line raw) (pos : Nat) :
    cutsOf env s pos (line :: ls) =
      (if ((s.count line).push env line raw).full (!decide (env.tokenize raw ∈ s.skipLines)) = true then [pos + 1] else []) ++
        cutsOf env s' (pos + 1) ls := by
  have hk : keyL env line = env.tokenize raw := by simp [keyL, hd]
  have hpt : ((s.count line).push env line raw).targets.length =
      s.targets.length + (if env.tokenize raw ∈ s.skipLines then 0 else 1) := by
    unfold St.push
    have e : (s.count line).skipLines = s.skipLines := rfl
    simp only [e]
    split <;> simp [St.count]
  have hpb : ((s.count line).push env line raw).buffer.length = s.buffer.length + 1 := by
    unfold St.push; simp only; split <;> simp [St.count]
  have hfull : ((s.count line).push env line raw).full (!decide (env.tokenize raw ∈ s.skipLines)) =
      if env.tokenize raw ∈ s.skipLines then decide (5120 < s.buffer.length + 1) else decide (s.targets.length + 1 = 512) := by
    unfold St.full
    rw [hpt, hpb]
    by_cases hm : env.tokenize raw ∈ s.skipLines
    · simp [hm, CHUNK_SIZE]
    · simp [hm, CHUNK_SIZE]; rfl
  have hcong : ∀ (pos u b : Nat), cuts (keyL env) s'.skipLines pos u b ls = cuts (keyL env) (env.tokenize raw :: s.skipLines) pos u b ls :=
    fun pos u b => cuts_congr ls hskip pos u b
  have hcong2 : env.tokenize raw ∈ s.skipLines → ∀ (pos u b : Nat), cuts (keyL env) s.skipLines pos u b ls = cuts (keyL env) s'.skipLines pos u b ls := by
    intro hm pos u b
    apply cuts_congr
    intro x
    rw [hskip, List.mem_cons]
    exact ⟨.inr, fun h' => h'.elim (fun e => e ▸ hm) id⟩
  unfold cutsOf
  conv => lhs; unfold cuts
  rw [hk]
  by_cases hm : env.tokenize raw ∈ s.skipLines
  · rw [if_pos hm]
    rw [hfull, if_pos hm] at hs ⊢
    by_cases hb : 5120 < s.buffer.length + 1
    · rw [if_pos (by simpa using hb)] at hs
      rw [if_pos hb, if_pos (by simpa using hb), hs.1, hs.2, hcong2 hm]
      rfl
    · rw [if_neg (by simpa using hb)] at hs
      have hs' : s' = (s.count line).push env line raw := hs
      rw [if_neg hb, if_neg (by simpa using hb), hcong2 hm, hs', hpt, hpb, if_pos hm]
      rfl
  · rw [if_neg hm]
    rw [hfull, if_neg hm] at hs ⊢
    by_cases hb : s.targets.length + 1 = 512
    · rw [if_pos (by simpa using hb)] at hs
      rw [if_pos hb, if_pos (by simpa using hb), hs.1, hs.2, hcong]
      rfl
    · rw [if_neg (by simpa using hb)] at hs
      have hs' : s' = (s.count line).push env line raw := hs
      rw [if_neg hb, if_neg (by simpa using hb), hcong, hs', hpt, hpb, if_neg hm]
      rfl

/-- The lines can be read by the processor: they are text, and none of them is the marker. -/
def Plain (env : Env D) (ls : List LogLine) : Prop :=
  ∀ l ∈ ls, ∃ raw, env.decode l.1 = some raw ∧ contains MARKER raw = false

/-- Reading plain lines: either an early return with pending contexts, or all the lines are read. -/
theorem read_spec (hsearch : ∀ ts, env.search ts = ts.map dist) :
    ∀ (ls : List LogLine) (L : List Entry) (base k : Nat) (F P : List Entry) (V : List Win) (s : St D),
      Inv env dist full cut skip0 m mb em L base k F P V s → Plain env ls →
      (∀ c ∈ cutsOf env s L.length ls, cut c) → s.anomalies = [] →
      ∃ ls1 ls2 L' base' k' F' P' V' s', ls = ls1 ++ ls2 ∧ L' = L ++ ents s.coord ls1 ∧ s'.coord = s.coord + ls1.length ∧
        Inv env dist full cut skip0 m mb em L' base' k' F' P' V' s' ∧
        (∀ c ∈ cutsOf env s' L'.length ls2, cut c) ∧
        ls2.length + pend s' ≤ ls.length + pend s ∧
        ((s'.anomalies ≠ [] ∧ ∀ (ε : Type) (tl : List (Ev ε)),
            readAnomalies env (ls.map Except.ok ++ tl) s = some (.ok (), ls2.map Except.ok ++ tl, s')) ∨
         (s'.anomalies = [] ∧ ls2 = [] ∧ ∀ (ε : Type) (tl : List (Ev ε)),
            readAnomalies env (ls.map Except.ok ++ tl) s = readAnomalies env tl s')) := by
  intro ls
  induction ls with
  | nil =>
    intro L base k F P V s h _ hc ha
    exact ⟨[], [], L, base, k, F, P, V, s, rfl, by simp [ents], rfl, h, hc, Nat.le_refl _, .inr ⟨ha, rfl, fun _ _ => rfl⟩⟩
  | cons l ls ih =>
    intro L base k F P V s h hp hc ha
    obtain ⟨raw, hd, hm⟩ := hp l (by simp)
    have hcuts := fun (s' : St D) h1 h2 => cutsOf_line (s := s) (s' := s') (ls := ls) (pos := L.length) hd h1 h2
    obtain ⟨s', base', k', F', P', V', e1, h1, hw, hco, hsk, hst⟩ := h.line hsearch l raw hd (by
      intro hfull
      apply hc
      -- the cut of this line
      have hk : ∀ (s' : St D), True := fun _ => trivial
      clear ih
      unfold cutsOf cuts
      have hkey : keyL env l = env.tokenize raw := by simp [keyL, hd]
      rw [hkey]
      have hpt : ((s.count l).push env l raw).targets.length =
          s.targets.length + (if env.tokenize raw ∈ s.skipLines then 0 else 1) := by
        unfold St.push
        have e : (s.count l).skipLines = s.skipLines := rfl
        simp only [e]
        split <;> simp [St.count]
      have hpb : ((s.count l).push env l raw).buffer.length = s.buffer.length + 1 := by
        unfold St.push; simp only; split <;> simp [St.count]
      unfold St.full at hfull
      rw [hpt, hpb] at hfull
      by_cases hm' : env.tokenize raw ∈ s.skipLines
      · simp only [hm', decide_true, Bool.not_true, Bool.false_eq_true, if_false, decide_eq_true_eq] at hfull
        rw [if_pos hm', if_pos (by unfold CHUNK_SIZE at hfull; omega)]
        simp
      · simp only [hm', decide_false, Bool.not_false, if_true, if_false, beq_iff_eq] at hfull
        rw [if_neg hm', if_pos (by unfold CHUNK_SIZE at hfull; omega)]
        simp)
    have hcut' : ∀ c ∈ cutsOf env s' (L ++ [(l, s.coord + 1)]).length ls, cut c := by
      intro c hcc
      apply hc
      rw [hcuts s' hsk hst]
      rw [List.length_append] at hcc
      exact List.mem_append_right _ hcc
    have hrd := fun (ε : Type) (tl : List (Ev ε)) => readAnomalies_line (ls.map Except.ok ++ tl) s l raw hd hm
    simp only [e1, Option.bind_some] at hrd
    simp only [List.map_cons, List.cons_append]
    have hwork : ls.length + pend s' ≤ (l :: ls).length + pend s := by
      unfold pend; rw [List.length_cons]; omega
    by_cases hearly : ((s.count l).push env l raw).full (!decide (env.tokenize raw ∈ s.skipLines)) = true ∧ s'.anomalies ≠ []
    · simp only [if_pos hearly] at hrd
      exact ⟨[l], ls, _, base', k', F', P', V', s', rfl, rfl, by simpa using hco, h1, hcut', hwork, .inl ⟨hearly.2, hrd⟩⟩
    · simp only [if_neg hearly] at hrd
      have ha' : s'.anomalies = [] := by
        by_cases hf : ((s.count l).push env l raw).full (!decide (env.tokenize raw ∈ s.skipLines)) = true
        · by_contra hne; exact hearly ⟨hf, hne⟩
        · rw [if_neg hf] at hst
          rw [hst]
          have : ((s.count l).push env l raw).anomalies = s.anomalies := by unfold St.push; simp only; split <;> rfl
          rw [this]; exact ha
      obtain ⟨ls1, ls2, L', b', k'', F'', P'', V'', s'', g1, g2, g3, g4, g5, g6, g7⟩ :=
        ih _ base' k' F' P' V' s' h1 (fun x hx => hp x (by simp [hx])) hcut' ha'
      refine ⟨l :: ls1, ls2, L', b', k'', F'', P'', V'', s'', by rw [g1]; rfl, ?_, ?_, g4, g5, Nat.le_trans g6 hwork, ?_⟩
      · rw [g2, hco, List.append_assoc]; rfl
      · rw [g3, hco, List.length_cons]; omega
      · simp only [hrd]; exact g7


theorem J.weaken {f : Flush D} {G : List Entry} (h : J env dist L full cut base k em f V G) :
    J env dist L False (fun _ => True) base k em f V G :=
  ⟨h.shows_, h.idx, h.good.mono False.elim (fun _ _ => trivial), h.a3, h.k3, h.kbase, h.pos_le, h.last_le, h.end_le, h.end_eq,
    h.cur, fun _ hf => hf.elim, fun hz => ⟨(h.zero hz).1, fun hf => hf.elim⟩⟩

theorem Inv.weaken (h : Inv env dist full cut skip0 m mb em L base k F P V s) :
    Inv env dist False (fun _ => True) skip0 m mb em L base k F P V s :=
  { h with cut_base := fun _ => trivial, idle := h.idle.weaken }

/-- The last chunk. -/
theorem finish_spec (hsearch : ∀ ts, env.search ts = ts.map dist)
    (h : Inv env dist full cut skip0 m mb em L base k F P V s) :
    ∃ s' base' k' V', s.finish env = some s' ∧
      Inv env dist False (fun _ => True) skip0 m mb em L base' k' (F ++ P) [] V' s' ∧ s'.currentAnomaly = none ∧
      Good full cut V' ∧
      (full → ∀ w ∈ V'.head?, w.a = 3 ∨ lastEnd V' = if P = [] then base else L.length) ∧
      s'.targets = [] ∧ s'.anomalies.length ≤ s.targets.length + s.currentAnomaly.toList.length + s.anomalies.length ∧
      s'.skipLines = s.skipLines ∧ s'.coord = s.coord ∧ s'.lineCount = s.lineCount ∧ s'.byteCount = s.byteCount := by
  by_cases hP : P = []
  · subst hP
    have htgt : s.targets = [] := by rw [h.tgt]; rfl
    have hw := h.weaken
    unfold St.finish St.flushTargets
    rw [if_pos htgt]
    cases hcur : s.currentAnomaly with
    | none =>
      simp only [Option.bind_eq_bind, Option.bind_some, hcur]
      refine ⟨s, base, k, V, rfl, by rw [List.append_nil]; exact hw, hcur, h.idle.good, ?_, htgt, by simp, rfl, rfl, rfl, rfl⟩
      intro hf w hw'
      exact .inl (h.idle.noCur hcur hf w hw')
    | some a =>
      simp only [Option.bind_eq_bind, Option.bind_some, hcur]
      refine ⟨_, base, k, V, rfl, ?_, rfl, h.idle.good, ?_, htgt, (by simp [htgt]; omega), rfl, rfl, rfl, rfl⟩
      · rw [List.append_nil]
        refine { hw with idle := ?_ }
        have hi := hw.idle
        refine ⟨?_, hi.idx, hi.good, hi.a3, hi.k3, hi.kbase, hi.pos_le, hi.last_le, hi.end_le, hi.end_eq, (by intro h; cases h),
          fun _ hf => hf.elim, hi.zero⟩
        have hs := hi.shows_
        simp only [hcur, Option.toList_some] at hs
        simpa using hs
      · intro hf w hw'
        right
        have := (h.idle.cur (by simp [hcur])).2.1
        simpa using this
  · have htgt : s.targets ≠ [] := by rw [h.tgt]; simpa using hP
    obtain ⟨s1, V1, k1, r1, r2, r3, ⟨last, r4⟩, r5, r6⟩ :=
      doSearch_spec h.dec h.cut_base h.coords hsearch s P V _ h.buf h.sub h.tgt h.tgtc h.left h.idle
    have r5' := (r5 False False.elim False.elim).weaken
    have hbase := h.base_le
    have htl : s.targets.length = P.length := by rw [h.tgt, List.length_map]
    have hnews : firsts (tokE env) skip0 L = (F ++ P) ++ [] := by rw [List.append_nil]; exact h.news
    have hfsub : (F ++ P).Sublist (L.take L.length) := by
      rw [List.take_length, ← h.news]; exact firsts_sublist _ _
    have hG : ((F ++ P).filter (overE env dist)).reverse =
        (P.filter fun e => env.over (dist (env.tokenize (txt env e)))).reverse ++ (F.filter (overE env dist)).reverse := by
      rw [List.filter_append, List.reverse_append]; rfl
    have mk : ∀ (cur : Option (AnomalyContext D)) (an : List (AnomalyContext D)),
        Idle env dist L False (fun _ => True) L.length k1 em cur an V1 ((F ++ P).filter (overE env dist)).reverse →
        Inv env dist False (fun _ => True) skip0 m mb em L L.length k1 (F ++ P) [] V1
          { s1 with currentAnomaly := cur, anomalies := an } := by
      intro cur an hi
      have e1 : s1.coord = s.coord := by rw [r2]
      have e2 : s1.skipLines = s.skipLines := by rw [r2]
      have e3 : s1.lineCount = s.lineCount := by rw [r2]
      have e4 : s1.byteCount = s.byteCount := by rw [r2]
      have e5 : s1.buffer = [] := by rw [r2]
      have e6 : s1.targets = [] := by rw [r2]
      have e7 : s1.targetsCoord = [] := by rw [r2]
      refine ⟨h.dec, h.coords, ?_, fun _ => trivial, ?_, List.nil_sublist _, ?_, ?_, r3, hi, hnews, hfsub, ?_, by simp, by simp, ?_, ?_, ?_⟩
      · intro e he; rw [e1]; exact h.coordLe e he
      · show s1.buffer = _
        rw [e5, List.drop_length]
      · show s1.targets = _
        rw [e6]; rfl
      · show s1.targetsCoord = _
        rw [e7]; rfl
      · intro x; rw [e2]; exact h.skip x
      · show s1.coord = _
        rw [e1]; exact h.cntC
      · show s1.lineCount = s1.coord
        rw [e1, e3]; exact h.cntL
      · show s1.byteCount = _
        rw [e4]; exact h.cntB
    have hend : full → ∀ w ∈ V1.head?, w.a = 3 ∨ lastEnd V1 = if P = [] then base else L.length := by
      intro hf w hw'
      rw [if_neg hP]
      cases hcur : s1.currentAnomaly with
      | none => exact .inl (r4.noCur hcur hf w hw')
      | some a =>
        right
        have := (r4.curEnd (by simp [hcur])).1
        omega
    have hfin : s.finish env = (match s1.currentAnomaly with
        | some anomaly => some { s1 with anomalies := s1.anomalies ++ [anomaly], currentAnomaly := none }
        | none => some s1) := by
      unfold St.finish St.flushTargets
      rw [if_neg htgt, r1]
      rfl
    rw [hG] at mk
    cases hcur : s1.currentAnomaly with
    | none =>
      rw [hcur] at hfin
      simp only at hfin
      refine ⟨s1, L.length, k1, V1, hfin, ?_, hcur, r4.good, hend, by rw [r2], ?_, by rw [r2], by rw [r2], by rw [r2], by rw [r2]⟩
      · exact mk s1.currentAnomaly s1.anomalies r5'
      · rw [hcur] at r6; simp at r6; omega
    | some a =>
      rw [hcur] at hfin r5' r6
      simp only at hfin
      refine ⟨_, L.length, k1, V1, hfin, ?_, rfl, r4.good, hend, ?_, ?_, ?_, ?_, ?_, ?_⟩
      · apply mk
        have hi := r5'
        refine ⟨?_, hi.idx, hi.good, hi.a3, hi.k3, hi.kbase, hi.pos_le, hi.last_le, hi.end_le, hi.end_eq, (by intro h; cases h),
          fun _ hf => hf.elim, hi.zero⟩
        have hs := hi.shows_
        simpa using hs
      · show s1.targets = []
        rw [r2]
      · simp only [List.length_append, List.length_cons, List.length_nil]
        simp at r6; omega
      · show s1.skipLines = _
        rw [r2]
      · show s1.coord = _
        rw [r2]
      · show s1.lineCount = _
        rw [r2]
      · show s1.byteCount = _
        rw [r2]

/-- popping a context -/
theorem Inv.pop {a : AnomalyContext D} {as : List (AnomalyContext D)} (ha : s.anomalies = a :: as)
    (h : Inv env dist full cut skip0 m mb em L base k F P V s) :
    Inv env dist full cut skip0 m mb (a :: em) L base k F P V { s with anomalies := as } := by
  refine { h with idle := ?_ }
  have hi := h.idle
  refine ⟨?_, hi.idx, hi.good, hi.a3, hi.k3, hi.kbase, hi.pos_le, hi.last_le, hi.end_le, hi.end_eq, hi.cur, hi.noCur, hi.zero⟩
  have hs := hi.shows_
  simp only [ha] at hs
  simpa using hs

theorem collect_pop (n : Nat) (r : List (Ev ε)) {a : AnomalyContext D} {as : List (AnomalyContext D)} (ha : s.anomalies = a :: as) :
    collect env (n + 1) r s = (a :: (collect env n r { s with anomalies := as }).1, (collect env n r { s with anomalies := as }).2) := by
  conv => lhs; unfold collect
  unfold next
  simp only [ha]

theorem collect_read (n : Nat) (r r' : List (Ev ε)) {s' : St D} {a : AnomalyContext D} {as : List (AnomalyContext D)}
    (h0 : s.anomalies = []) (hr : readAnomalies env r s = some (.ok (), r', s')) (ha : s'.anomalies = a :: as) :
    collect env (n + 1) r s = (a :: (collect env n r' { s' with anomalies := as }).1, (collect env n r' { s' with anomalies := as }).2) := by
  conv => lhs; unfold collect
  unfold next
  simp only [h0, hr, ha, Option.bind_eq_bind, Option.bind_some]

theorem collect_done (n : Nat) (r r' : List (Ev ε)) {s' : St D}
    (h0 : s.anomalies = []) (hr : readAnomalies env r s = some (.ok (), r', s')) (ha : s'.anomalies = []) :
    collect env (n + 1) r s = ([], .finished, s') := by
  conv => lhs; unfold collect
  unfold next
  simp only [h0, hr, ha, Option.bind_eq_bind, Option.bind_some]

theorem collect_fail (n : Nat) (r r' : List (Ev ε)) {s' : St D} {e : Err ε}
    (h0 : s.anomalies = []) (hr : readAnomalies env r s = some (.error e, r', s')) :
    collect env (n + 1) r s = ([], .failed e, s') := by
  conv => lhs; unfold collect
  unfold next
  simp only [h0, hr, Option.bind_eq_bind, Option.bind_some]

theorem collect_congr (n : Nat) (r r' : List (Ev ε)) {s' : St D}
    (h0 : s.anomalies = []) (h0' : s'.anomalies = []) (hr : readAnomalies env r s = readAnomalies env r' s') :
    collect env (n + 1) r s = collect env (n + 1) r' s' := by
  unfold collect next
  simp only [h0, h0', hr]

theorem ents_append (c : Nat) (a b : List LogLine) : ents c (a ++ b) = ents c a ++ ents (c + a.length) b := by
  induction a generalizing c with
  | nil => rfl
  | cons l a ih => simp [ents, ih]; congr 1; omega

/-- All the contexts up to the end of plain lines. -/
theorem collect_spec (hsearch : ∀ ts, env.search ts = ts.map dist) :
    ∀ (n : Nat) (ls : List LogLine) (em : List (AnomalyContext D)) (L : List Entry) (base k : Nat) (F P : List Entry)
      (V : List Win) (s : St D),
      Inv env dist full cut skip0 m mb em L base k F P V s → Plain env ls →
      (∀ c ∈ cutsOf env s L.length ls, cut c) → ls.length + pend s ≤ n →
      ∃ outs base' k' F' P' V' s', outs.length + pend s' ≤ ls.length + pend s ∧
        (∀ (ε : Type) (n : Nat) (tl : List (Ev ε)), ls.length + pend s ≤ n → 0 < n - outs.length →
          collect env n (ls.map Except.ok ++ tl) s =
            (outs ++ (collect env (n - outs.length) tl s').1, (collect env (n - outs.length) tl s').2)) ∧
        s'.anomalies = [] ∧ s'.coord = s.coord + ls.length ∧
        Inv env dist full cut skip0 m mb (outs.reverse ++ em) (L ++ ents s.coord ls) base' k' F' P' V' s' := by
  intro n
  induction n with
  | zero =>
    intro ls em L base k F P V s h hp hc hw
    have hls : ls = [] := List.length_eq_zero_iff.mp (by omega)
    subst hls
    refine ⟨[], base, k, F, P, V, s, by simp, fun _ _ _ _ _ => rfl, ?_, rfl, by simpa [ents] using h⟩
    exact List.length_eq_zero_iff.mp (by unfold pend at hw; omega)
  | succ n ih =>
    intro ls em L base k F P V s h hp hc hw
    cases ha : s.anomalies with
    | cons a as =>
      have hpend : pend s = pend { s with anomalies := as } + 1 := by unfold pend; rw [ha]; simp; omega
      obtain ⟨outs, b', k', F', P', V', s', g0, g1, g2, g4, g5⟩ := ih ls (a :: em) L base k F P V _ (h.pop ha) hp hc (by omega)
      refine ⟨a :: outs, b', k', F', P', V', s', ?_, ?_, g2, g4, ?_⟩
      · rw [List.length_cons]; omega
      · intro ε n tl h1 h2
        rw [List.length_cons] at h2
        obtain ⟨n, rfl⟩ : ∃ n', n = n' + 1 := ⟨n - 1, by omega⟩
        rw [collect_pop n _ ha, g1 ε n tl (by omega) (by omega), List.length_cons]
        simp
      · simpa using g5
    | nil =>
      obtain ⟨ls1, ls2, L', b1, k1, F1, P1, V1, s1, g1, g2, g3, g4, g5, g6, g7⟩ := read_spec hsearch ls L base k F P V s h hp hc ha
      rcases g7 with ⟨g8, g7⟩ | ⟨g8, g9, g7⟩
      · cases ha1 : s1.anomalies with
        | nil => exact absurd ha1 g8
        | cons a as =>
          have hpend : pend s1 = pend { s1 with anomalies := as } + 1 := by unfold pend; rw [ha1]; simp; omega
          obtain ⟨outs, b', k', F', P', V', s', q0, q1, q2, q4, q5⟩ := ih ls2 (a :: em) L' b1 k1 F1 P1 V1 _ (g4.pop ha1)
            (fun l hl => hp l (by rw [g1]; simp [hl])) g5 (by omega)
          refine ⟨a :: outs, b', k', F', P', V', s', ?_, ?_, q2, ?_, ?_⟩
          · rw [List.length_cons]; omega
          · intro ε n tl h1 h2
            rw [List.length_cons] at h2
            obtain ⟨n, rfl⟩ : ∃ n', n = n' + 1 := ⟨n - 1, by omega⟩
            rw [collect_read n _ _ ha (g7 ε tl) ha1, q1 ε n tl (by omega) (by omega), List.length_cons]
            simp
          · rw [q4]; show s1.coord + _ = _
            rw [g3, g1, List.length_append]; omega
          · have : L ++ ents s.coord ls = L' ++ ents s1.coord ls2 := by
              rw [g2, g1, ents_append, g3, List.append_assoc]
            rw [this]
            simpa using q5
      · subst g9
        rw [List.append_nil] at g1
        subst g1
        refine ⟨[], b1, k1, F1, P1, V1, s1, ?_, ?_, g8, g3, by rw [← g2]; exact g4⟩
        · simpa using g6
        · intro ε n tl h1 h2
          obtain ⟨n, rfl⟩ : ∃ n', n = n' + 1 := ⟨n - 1, by simp at h2; omega⟩
          rw [collect_congr n _ tl ha g8 (g7 ε tl)]
          rfl

/-- After the end: all the pending contexts are returned. -/
theorem collect_end :
    ∀ (n : Nat) (r' : List (Ev ε)) (s : St D) , s.anomalies.length ≤ n →
      collect env n r' s = (s.anomalies ++ (collect env (n - s.anomalies.length) r' { s with anomalies := [] }).1,
        (collect env (n - s.anomalies.length) r' { s with anomalies := [] }).2) := by
  intro n r'
  induction n with
  | zero =>
    intro s h
    have : s.anomalies = [] := List.length_eq_zero_iff.mp (by omega)
    obtain ⟨a, b, c, d, e, f, g, h, i, j⟩ := s
    simp only at this
    subst this
    rfl
  | succ n ih =>
    intro s h
    cases ha : s.anomalies with
    | nil =>
      obtain ⟨a, b, c, d, e, f, g, h, i, j⟩ := s
      simp only at ha
      subst ha
      rfl
    | cons a as =>
      rw [collect_pop n r' ha, ih _ (by rw [ha] at h; simp at h; exact h)]
      simp

end LJ.Process

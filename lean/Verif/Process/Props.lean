/-
C24 to C33 and C72: the trainer and the processor.

The theorems on processing are for any reader, any conversion of bytes to text, any tokenizer, any
threshold, and any search which handles each target on its own (`Spec.Pointwise`).
-/
import Verif.Process.Toy
namespace LJ.Process
open Spec (firsts cuts)
variable {D ε : Type} {env : Env D} {dist : Str → D}

/-! ### C24: training -/

/-- The chunks given to the index are the distinct tokenized lines in first-seen order, cut every 512
lines; the counts are those of the lines read.  A reader which fails counts up to its failure. -/
theorem C24_chunks (readers : List (List (Ev ε))) :
    (trained env readers).chunks.flatten = firsts id [] (trainedTokens env readers) ∧
    (∀ c ∈ (trained env readers).chunks, c ≠ [] ∧ c.length ≤ 512) ∧
    (∀ c ∈ (trained env readers).chunks.dropLast, c.length = 512) ∧
    (trained env readers).lineCount = (readers.map (Spec.readable env.decode)).flatten.length ∧
    (trained env readers).byteCount = ((readers.map (Spec.readable env.decode)).flatten.map fun x => x.1.length).sum := by
  obtain ⟨h, hb⟩ := TInv.new.addAll (env := env) readers
  rw [List.nil_append, ← trainedTokens_eq] at h
  have hlines : (Trainer.new.addAll env readers).lineCount = (readers.map (Spec.readable env.decode)).flatten.length := by
    rw [h.lines, trainedTokens, List.length_map]
  have hbytes : (Trainer.new.addAll env readers).byteCount =
      ((readers.map (Spec.readable env.decode)).flatten.map fun x => x.1.length).sum := by
    rw [hb]; simp [Trainer.new]
  unfold trained Trainer.complete
  split
  · rename_i hn
    have hf := h.flat
    rw [hn, List.append_nil] at hf
    refine ⟨hf, ?_, fun c hc => h.full c (List.dropLast_subset _ hc), hlines, hbytes⟩
    intro c hc
    have := h.full c hc
    refine ⟨?_, by omega⟩
    rintro rfl
    cases this
  · rename_i hn
    refine ⟨?_, ?_, ?_, hlines, hbytes⟩
    · show ((Trainer.new.addAll env readers).chunks ++ [(Trainer.new.addAll env readers).baselines]).flatten = _
      rw [← h.flat]; simp
    · intro c hc
      rcases List.mem_append.1 hc with hc | hc
      · have := h.full c hc
        refine ⟨?_, by omega⟩
        rintro rfl
        cases this
      · rw [List.mem_singleton] at hc
        subst hc
        exact ⟨hn, Nat.le_of_lt h.part⟩
    · intro c hc
      apply h.full
      simpa using hc

/-- Each distinct tokenized line is given to the index exactly once. -/
theorem C24_once (readers : List (List (Ev ε))) :
    (trained env readers).chunks.flatten.Nodup ∧
    ∀ x, x ∈ (trained env readers).chunks.flatten ↔ x ∈ trainedTokens env readers := by
  rw [(C24_chunks readers).1]
  refine ⟨?_, fun x => by rw [firsts_id_mem]; simp⟩
  have := (firsts_nodup (key := id) [] (trainedTokens env readers)).1
  rwa [List.map_id] at this


example : (trained toy [[.ok (toyL "a" 1), .ok (toyL "b" 2), .error ()], [.ok (toyL "b" 1), .ok (toyL "c" 2), .ok ([200], 3), .ok (toyL "d" 4)]]).chunks
    = [["a".toList, "b".toList, "c".toList]] := by decide +kernel

/-! ### C25: every anomalous line is reported exactly once, in order -/

/-- The anomalies of the contexts are exactly the anomalies of the source, in order, and the
iteration ends normally. -/
theorem C25_anomalies (hs : Spec.Pointwise env.search dist) (skip : List Str) {lines : List LogLine} {src : List Spec.Line}
    (hr : Spec.Reads env.decode lines src) (hm : Spec.NoMarker src) :
    (process env skip (lines.map (Except.ok (ε := ε)))).1.map (·.anomaly) =
      Spec.anomalies env.tokenize dist env.over skip src ∧
    (process env skip (lines.map (Except.ok (ε := ε)))).2.1 = .finished := by
  obtain ⟨outs, ws, s, h1, h2, h3, h4, h5, h6, h7, h8, h9, h10, h11⟩ := run_full ε hs skip hr hm
  rw [h1]
  exact ⟨h4, rfl⟩

/-- The processor counts the lines and bytes of the source. -/
theorem C25_counts (hs : Spec.Pointwise env.search dist) (skip : List Str) {lines : List LogLine} {src : List Spec.Line}
    (hr : Spec.Reads env.decode lines src) (hm : Spec.NoMarker src) :
    (process env skip (lines.map (Except.ok (ε := ε)))).2.2.lineCount = src.length ∧
    (process env skip (lines.map (Except.ok (ε := ε)))).2.2.byteCount = (lines.map fun l => l.1.length).sum := by
  obtain ⟨outs, ws, s, h1, h2, h3, h4, h5, h6, h7, h8, h9, h10, h11⟩ := run_full ε hs skip hr hm
  rw [h1]
  exact h11

example : Spec.anomalies toy.tokenize toyDist toy.over [] src1 = [⟨1, 3, "X1".toList⟩, ⟨1, 6, "X2".toList⟩] := by decide +kernel
example : ((process toy [] (lines1.map (Except.ok (ε := Unit)))).1).map (·.anomaly) = [⟨1, 3, "X1".toList⟩, ⟨1, 6, "X2".toList⟩] := by
  rw [(C25_anomalies toy_pointwise [] reads1 noMarker1).1]; decide +kernel

/-! ### C26: contexts are the adjacent lines -/

/-- The contexts show windows of the source around the anomalies, with at most three lines on each
side. -/
theorem C26_windows (hs : Spec.Pointwise env.search dist) (skip : List Str) {lines : List LogLine} {src : List Spec.Line}
    (hr : Spec.Reads env.decode lines src) (hm : Spec.NoMarker src) :
    ∃ ws, ws.map (·.i) = Spec.positions env.tokenize dist env.over skip src ∧
      List.Forall₂ (Spec.Shows env.tokenize dist src) (process env skip (lines.map (Except.ok (ε := ε)))).1 ws ∧
      ∀ w ∈ ws, w.b ≤ 3 ∧ w.a ≤ 3 := by
  obtain ⟨outs, ws, s, h1, h2, h3, h4, h5, h6, h7, h8, h9, h10, h11⟩ := run_full ε hs skip hr hm
  rw [h1]
  exact ⟨ws, h3, h5, h6⟩

/-- The windows of the contexts are determined by the positions and the lengths. -/
theorem windows_unique {tok : Str → Str} {src : List Spec.Line} {cs : List (AnomalyContext D)} {ws : List Spec.Window}
    (h : List.Forall₂ (Spec.Shows tok dist src) cs ws) : ws = Spec.windows (ws.map (·.i)) cs := by
  induction h with
  | nil => rfl
  | cons hc _ ih =>
    obtain ⟨pre, bef, l, aft, post, _, _, h2, h3, h4, h5, _⟩ := hc
    simp only [Spec.windows, List.map_cons, List.zipWith_cons_cons] at ih ⊢
    rw [← ih, h4, h5, List.length_map, List.length_map, h2, h3]

example : (process toy [] (lines1.map (Except.ok (ε := Unit)))).1.map (fun c => (c.before, c.after)) =
    [(["a".toList, "b".toList], ["c".toList, "X1".toList]), ([], ["d".toList])] := by decide +kernel

/-! ### C27: the after context is complete -/

/-- The windows of the contexts of a run. -/
def runWindows (env : Env D) (dist : Str → D) (skip : List Str) (lines : List LogLine) (src : List Spec.Line) : List Spec.Window :=
  Spec.windows (Spec.positions env.tokenize dist env.over skip src) (process env skip (lines.map (Except.ok (ε := Unit)))).1

/-- C27 in full: an after context has three lines, or stops before the next anomaly or at the end of the source. -/
def AfterComplete (ws : List Spec.Window) (n : Nat) : Prop :=
  Spec.Consecutive (fun w w' => w.a = min 3 (w'.i - w.i - 1)) ws ∧ ∀ w ∈ ws.getLast?, w.a = min 3 (n - w.i - 1)

/-- The after context is complete, except that the one of the last anomaly may stop at the end of a
chunk when all the lines after it are repeated lines. -/
theorem C27_partial (hs : Spec.Pointwise env.search dist) (skip : List Str) {lines : List LogLine} {src : List Spec.Line}
    (hr : Spec.Reads env.decode lines src) (hm : Spec.NoMarker src) :
    Spec.Consecutive (fun w w' => w.a = min 3 (w'.i - w.i - 1)) (runWindows env dist skip lines src) ∧
    ∀ w ∈ (runWindows env dist skip lines src).getLast?, w.a = min 3 (src.length - w.i - 1) ∨
      (w.i + w.a + 1 ∈ cuts (fun l => env.tokenize l.text) skip 0 0 0 src ∧
        ∀ l ∈ src.drop (w.i + w.a + 1), env.tokenize l.text ∈ skip ∨
          ∃ l' ∈ src.take (w.i + w.a + 1), env.tokenize l'.text = env.tokenize l.text) := by
  obtain ⟨outs, ws, s, h1, h2, h3, h4, h5, h6, h7, h8, h9, h10, h11⟩ := run_full Unit hs skip hr hm
  have e : runWindows env dist skip lines src = ws := by unfold runWindows; rw [h1, h2]
  rw [e]
  exact ⟨fun pre x y post he => (h7 pre x y post he).2.2.1, h9⟩

theorem cuts_short {α : Type} (key : α → Str) (xs : List α) (seen : List Str) (pos u b : Nat) (h1 : u + xs.length < 512)
    (h2 : b + xs.length ≤ 5120) : cuts key seen pos u b xs = [] := by
  induction xs generalizing seen pos u b with
  | nil => rfl
  | cons x xs ih =>
    rw [List.length_cons] at h1 h2
    unfold cuts
    split
    · rw [if_neg (by omega)]; exact ih _ _ _ _ (by omega) (by omega)
    · rw [if_neg (by omega)]; exact ih _ _ _ _ (by omega) (by omega)

/-- The after contexts are all complete in a source of less than 512 lines. -/
theorem C27_short_partial (hs : Spec.Pointwise env.search dist) (skip : List Str) {lines : List LogLine} {src : List Spec.Line}
    (hr : Spec.Reads env.decode lines src) (hm : Spec.NoMarker src) (hn : src.length < 512) :
    AfterComplete (runWindows env dist skip lines src) src.length := by
  obtain ⟨h1, h2⟩ := C27_partial hs skip hr hm
  refine ⟨h1, fun w hw => ?_⟩
  rcases h2 w hw with h | ⟨h, _⟩
  · exact h
  · rw [cuts_short _ _ _ _ _ _ (by omega) (by omega)] at h
    cases h

/-- The after contexts are all complete when the last line of the source is not a repeated line. -/
theorem C27_new_end_partial (hs : Spec.Pointwise env.search dist) (skip : List Str) {lines : List LogLine} {src : List Spec.Line}
    {l : Spec.Line} (hr : Spec.Reads env.decode lines (src ++ [l])) (hm : Spec.NoMarker (src ++ [l]))
    (hnew : env.tokenize l.text ∉ skip ∧ ∀ l' ∈ src, env.tokenize l'.text ≠ env.tokenize l.text) :
    AfterComplete (runWindows env dist skip lines (src ++ [l])) (src ++ [l]).length := by
  obtain ⟨h1, h2⟩ := C27_partial hs skip hr hm
  refine ⟨h1, fun w hw => ?_⟩
  rcases h2 w hw with h | ⟨_, h⟩
  · exact h
  · by_cases hlt : w.i + w.a + 1 ≤ src.length
    · exfalso
      rcases h l (by rw [List.drop_append_of_le_length hlt]; simp) with h | ⟨l', h, h'⟩
      · exact hnew.1 h
      · rw [List.take_append_of_le_length hlt] at h
        exact hnew.2 l' (List.take_subset _ _ h) h'
    · obtain ⟨outs, ws, s, e1, e2, e3, e4, e5, e6, e7, e8, e9, e10, e11⟩ := run_full Unit hs skip hr hm
      have e : runWindows env dist skip lines (src ++ [l]) = ws := by unfold runWindows; rw [e1, e2]
      rw [e] at hw
      have hw' := List.mem_of_getLast? hw
      have h3 := (e6 w hw').2
      have hin : ∀ (cs : List (AnomalyContext D)) (W : List Spec.Window), List.Forall₂ (Spec.Shows env.tokenize dist (src ++ [l])) cs W →
          ∀ w ∈ W, w.i + w.a + 1 ≤ (src ++ [l]).length := by
        intro cs W h
        induction h with
        | nil => intro w hw; cases hw
        | cons hc _ ih =>
          intro w hw
          rcases List.mem_cons.1 hw with rfl | hw
          · obtain ⟨pre, bef, l, aft, post, g1, g2, g3, g4, _⟩ := hc
            rw [g1]; simp; omega
          · exact ih w hw
      have := hin _ _ e5 w hw'
      simp only [List.length_append, List.length_cons, List.length_nil] at this ⊢
      omega

example : AfterComplete (runWindows toy toyDist [] lines1 src1) src1.length :=
  C27_short_partial toy_pointwise [] reads1 noMarker1 (by decide)
example : runWindows toy toyDist [] lines1 src1 = [⟨2, 2, 2⟩, ⟨5, 0, 1⟩] := by decide +kernel

/-! ### C28: contexts do not overlap -/

/-- C28 in full: each window starts after the end of the previous one. -/
def NoOverlap (ws : List Spec.Window) : Prop :=
  Spec.Consecutive (fun w w' => w.i + w.a + w'.b < w'.i) ws

/-- Contexts do not overlap unless a chunk ends between the two anomalies; in any case, the before
context of an anomaly does not reach the previous anomaly, and the after context does not reach the
next one. -/
theorem C28_partial (hs : Spec.Pointwise env.search dist) (skip : List Str) {lines : List LogLine} {src : List Spec.Line}
    (hr : Spec.Reads env.decode lines src) (hm : Spec.NoMarker src) :
    Spec.Consecutive (fun w w' => w.i + w'.b < w'.i ∧ w.i + w.a < w'.i ∧
      (w.i + w.a + w'.b < w'.i ∨ ∃ c ∈ cuts (fun l => env.tokenize l.text) skip 0 0 0 src, w.i < c ∧ c ≤ w'.i))
      (runWindows env dist skip lines src) := by
  obtain ⟨outs, ws, s, h1, h2, h3, h4, h5, h6, h7, h8, h9, h10, h11⟩ := run_full Unit hs skip hr hm
  have e : runWindows env dist skip lines src = ws := by unfold runWindows; rw [h1, h2]
  rw [e]
  intro pre x y post he
  obtain ⟨r1, r2, r3, r4, r5⟩ := h7 pre x y post he
  refine ⟨r1, r2, ?_⟩
  rcases r5 with r5 | r5
  · exact .inl (by omega)
  · exact .inr r5

/-- Contexts do not overlap in a source of less than 512 lines. -/
theorem C28_short_partial (hs : Spec.Pointwise env.search dist) (skip : List Str) {lines : List LogLine} {src : List Spec.Line}
    (hr : Spec.Reads env.decode lines src) (hm : Spec.NoMarker src) (hn : src.length < 512) :
    NoOverlap (runWindows env dist skip lines src) := by
  intro pre x y post he
  obtain ⟨_, _, h | ⟨c, h, _⟩⟩ := C28_partial hs skip hr hm pre x y post he
  · exact h
  · rw [cuts_short _ _ _ _ _ _ (by omega) (by omega)] at h
    cases h

example : NoOverlap (runWindows toy toyDist [] lines1 src1) :=
  C28_short_partial toy_pointwise [] reads1 noMarker1 (by decide)

/-! ### C72: the before context is complete -/

/-- The before context of the first anomaly has three lines or starts with the source; the one of
another anomaly has three lines or starts at the latest right after the context of the previous
anomaly. -/
theorem C72_before (hs : Spec.Pointwise env.search dist) (skip : List Str) {lines : List LogLine} {src : List Spec.Line}
    (hr : Spec.Reads env.decode lines src) (hm : Spec.NoMarker src) :
    (∀ w ∈ (runWindows env dist skip lines src).head?, w.b = min 3 w.i) ∧
    Spec.Consecutive (fun w w' => w'.b = 3 ∨ w'.i ≤ w.i + w.a + 1 + w'.b) (runWindows env dist skip lines src) := by
  obtain ⟨outs, ws, s, h1, h2, h3, h4, h5, h6, h7, h8, h9, h10, h11⟩ := run_full Unit hs skip hr hm
  have e : runWindows env dist skip lines src = ws := by unfold runWindows; rw [h1, h2]
  rw [e]
  refine ⟨h8, fun pre x y post he => ?_⟩
  obtain ⟨r1, r2, r3, r4, r5⟩ := h7 pre x y post he
  have := (h6 y (by rw [he]; simp)).1
  omega

example : (runWindows toy toyDist [] lines1 src1).head? = some ⟨2, 2, 2⟩ := by decide +kernel

/-! ### C29: bounded buffering -/

/-- In every state of the processor, on any source, the buffer has at most 5632 lines, at most 512
targets are pending, at most three lines are left over, and at most 514 contexts are waiting. -/
theorem C29_bounded (hs : Spec.Pointwise env.search dist) {b : Bool} {s : St D} (h : Reach env b s) :
    s.buffer.length ≤ 10 * 512 + 512 ∧ s.targets.length ≤ 512 ∧ s.targetsCoord.length = s.targets.length ∧
    s.leftOvers.length ≤ 3 ∧ s.currentAnomaly.toList.length + s.anomalies.length ≤ 513 := by
  have key : ∀ s : St D, WInv env dist s → s.buffer.length ≤ 5631 ∧ s.targets.length < 512 ∧ s.leftOvers.length ≤ 3 ∧
      s.targetsCoord.length = s.targets.length := by
    rintro s ⟨skip0, m, mb, em, L, base, k, F, P, V, hi⟩
    have h1 := hi.ulen
    have h2 := hi.blen
    have h3 : s.targets.length = P.length := by rw [hi.tgt, List.length_map]
    have h4 : s.targetsCoord.length = P.length := by rw [hi.tgtc, List.length_map]
    have h5 : s.buffer.length = L.length - base := by rw [hi.buf, List.length_drop]
    have h6 : s.leftOvers.length ≤ 3 := by
      rw [hi.left, List.length_map, List.length_take]
      have := hi.idle.k3
      omega
    omega
  have hi := reach_inv hs h
  cases b with
  | false =>
    obtain ⟨hi, hb⟩ := hi
    have := key s hi
    omega
  | true =>
    obtain ⟨ha, s0, l, raw, hw, hd, rfl, hf⟩ := hi
    have := key s0 hw
    have hcur : ∀ o : Option (AnomalyContext D), o.toList.length ≤ 1 := by intro o; cases o <;> simp
    have hl : ((s0.count l).push env l raw).leftOvers = s0.leftOvers := by unfold St.push; simp only; split <;> rfl
    have hb : ((s0.count l).push env l raw).buffer.length = s0.buffer.length + 1 := by
      unfold St.push; simp only; split <;> simp [St.count]
    have ht : ((s0.count l).push env l raw).targets.length ≤ s0.targets.length + 1 := by
      unfold St.push; simp only; split <;> simp [St.count]
    have ht2 : ((s0.count l).push env l raw).targetsCoord.length = ((s0.count l).push env l raw).targets.length := by
      unfold St.push; simp only; split <;> simp [St.count] <;> omega
    have := hcur ((s0.count l).push env l raw).currentAnomaly
    refine ⟨by omega, by omega, ht2, by rw [hl]; omega, ?_⟩
    rw [ha]
    simp only [List.length_nil]
    omega

/-- The states of a run are among those of `Reach`: reading lines leads from one to another. -/
theorem C29_states {s s' : St D} {r r' : List (Ev ε)} {res : Option (Except (Err ε) (AnomalyContext D))} (h : Reach env false s)
    (hn : next env r s = some (res, r', s')) : Reach env false s' := by
  unfold next at hn
  cases ha : s.anomalies with
  | cons a as =>
    simp only [ha] at hn
    cases hn
    exact .pop h ha
  | nil =>
    simp only [ha] at hn
    cases hr : readAnomalies env r s with
    | none => simp [hr] at hn
    | some x =>
      obtain ⟨res', r2, s2⟩ := x
      have h2 := reach_read h ha hr
      simp only [hr, Option.bind_eq_bind, Option.bind_some] at hn
      cases res' with
      | error e => simp at hn; rw [← hn.2.2]; exact h2
      | ok =>
        simp only at hn
        cases ha2 : s2.anomalies with
        | nil => simp [ha2] at hn; rw [← hn.2.2]; exact h2
        | cons a as => simp [ha2] at hn; rw [← hn.2.2]; exact .pop h2 ha2


/-! ### C30: processing never panics -/

/-- Whatever the reader returns (lines, read errors, invalid text, markers at any place), the
iteration neither panics nor goes on forever. -/
theorem C30_no_panic (hs : Spec.Pointwise env.search dist) (skip : List Str) (r : List (Ev ε)) :
    (process env skip r).2.1 = .finished ∨ ∃ e, (process env skip r).2.1 = .failed e := by
  obtain ⟨outs, stop, m', mb', X, b', k', F', P', V', s', h1, h2, h3, h4, h5⟩ :=
    collect_total hs (r.length + 2) r 0 0 [] [] 0 0 [] [] [] (St.new skip) (Inv.start skip) (by simp [pend, St.new])
  unfold process
  rw [h1]
  cases stop with
  | finished => exact .inl rfl
  | failed e => exact .inr ⟨e, rfl⟩
  | panicked => exact absurd rfl h2
  | timeout => exact absurd rfl h3

/-- Neither does a search that is due, in any state of the processor. -/
theorem C30_search (hs : Spec.Pointwise env.search dist) {s : St D} (h : Reach env true s) : ∃ s', s.doSearch env = some s' := by
  obtain ⟨ha, s0, l, raw, ⟨skip0, m, mb, em, L, base, k, F, P, V, hi⟩, hd, rfl, hf⟩ := reach_inv hs h
  obtain ⟨s1, b1, k1, F1, P1, V1, e1, _⟩ := hi.line hs l raw hd (fun _ => trivial)
  have hl : s0.line env l raw = ((s0.count l).push env l raw).doSearch env := by
    unfold St.line
    simp only
    have : (s0.count l).skipLines = s0.skipLines := rfl
    rw [this, if_pos hf]
  exact ⟨s1, by rw [← hl, e1]⟩

/-- The end of the source, or the marker, in any state of the processor. -/
theorem C30_finish (hs : Spec.Pointwise env.search dist) {s : St D} (h : Reach env false s) : ∃ s', s.finish env = some s' := by
  obtain ⟨⟨skip0, m, mb, em, L, base, k, F, P, V, hi⟩, _⟩ := reach_inv hs h
  obtain ⟨s', _, _, _, f1, _⟩ := finish_spec hs hi
  exact ⟨s', f1⟩

example : (process toy [] [.ok (toyL "Xa" 1), .ok (toyL "TASK [log-classify" 2), .ok (toyL "Xb" 3), .ok ([200], 4), Except.error ()]).2.1 =
    .failed .utf8 := by decide +kernel

/-! ### C31: processing stops at its own output -/

theorem visible_eq (r : List (Ev ε)) : Spec.visible env.decode r = (plainOf env r).map (lineL env) := by
  induction r with
  | nil => rfl
  | cons ev r ih =>
    cases ev with
    | error => rfl
    | ok l =>
      unfold plainOf Spec.visible
      cases hd : env.decode l.1 with
      | none => rfl
      | some raw =>
        simp only
        by_cases hm : contains MARKER raw = true
        · have h : "TASK [log-classify".toList <:+: raw := (contains_iff _ _).1 hm
          rw [if_pos hm, if_pos h]; exact ih
        · have h : ¬ "TASK [log-classify".toList <:+: raw := fun h => hm ((contains_iff _ _).2 h)
          rw [if_neg hm, if_neg h, List.map_cons, ih]
          simp [lineL, hd]

theorem visible_noMarker {decode : Bytes → Option Str} (r : List (Ev ε)) : Spec.NoMarker (Spec.visible decode r) := by
  induction r with
  | nil => intro l hl; cases hl
  | cons ev r ih =>
    cases ev with
    | error => intro l hl; cases hl
    | ok l =>
      unfold Spec.visible
      cases hd : decode l.1 with
      | none => intro l hl; cases hl
      | some raw =>
        simp only
        split
        · exact ih
        · rename_i h
          intro x hx
          rcases List.mem_cons.1 hx with rfl | hx
          · exact h
          · exact ih x hx

theorem spec_shows_append {tok : Str → Str} {ls : List Spec.Line} {c : AnomalyContext D} {w : Spec.Window} (X : List Spec.Line)
    (h : Spec.Shows tok dist ls c w) : Spec.Shows tok dist (ls ++ X) c w := by
  obtain ⟨pre, bef, l, aft, post, rfl, h⟩ := h
  exact ⟨pre, bef, l, aft, post ++ X, by simp, h⟩

theorem forall₂_append_left {α β : Type} {R : α → β → Prop} {a b : List α} {V : List β} (h : List.Forall₂ R (a ++ b) V) :
    ∃ V1 V2, V = V1 ++ V2 ∧ List.Forall₂ R a V1 ∧ List.Forall₂ R b V2 := by
  induction a generalizing V with
  | nil => exact ⟨[], V, rfl, .nil, h⟩
  | cons x a ih =>
    cases h with
    | @cons _ v _ V' hx h =>
      obtain ⟨V1, V2, rfl, h1, h2⟩ := ih h
      exact ⟨v :: V1, V2, rfl, .cons hx h1, h2⟩

theorem good_pairwise {full : Prop} {cut : Nat → Prop} {V : List Win} (h : Good full cut V) :
    V.Pairwise fun w' w => w.i < w'.i := by
  induction V with
  | nil => exact .nil
  | cons v V ih =>
    cases V with
    | nil => exact List.pairwise_singleton _ _
    | cons v' V =>
      have hp := ih h.2
      have h1 : v'.i < v.i := by have := h.1.2.1; omega
      refine List.pairwise_cons.2 ⟨?_, hp⟩
      intro w hw
      rcases List.mem_cons.1 hw with rfl | hw
      · exact h1
      · exact Nat.lt_trans ((List.pairwise_cons.1 hp).1 w hw) h1

/-- On any source, the contexts show windows of the visible lines, at most three lines on each side;
the reported lines are over the threshold, in order and each once. -/
theorem C26_any (hs : Spec.Pointwise env.search dist) (skip : List Str) (r : List (Ev ε)) :
    ∃ ws, List.Forall₂ (Spec.Shows env.tokenize dist (Spec.visible env.decode r)) (process env skip r).1 ws ∧
      (∀ w ∈ ws, w.b ≤ 3 ∧ w.a ≤ 3) ∧ (ws.map (·.i)).Pairwise (· < ·) ∧
      ∀ c ∈ (process env skip r).1, env.over c.anomaly.distance = true := by
  obtain ⟨outs, stop, m', mb', X, b', k', F', P', V', s', h1, h2, h3, h4, h5, h6⟩ :=
    collect_total hs (r.length + 2) r 0 0 [] [] 0 0 [] [] [] (St.new skip) (Inv.start skip) (by simp [pend, St.new])
  unfold process
  rw [h1]
  have hsh := h4.idle.shows_
  rw [h5] at hsh
  simp only [List.nil_append, List.append_nil, List.reverse_nil] at hsh h4
  have hgood := h4.idle.good
  have ha3 := h4.idle.a3
  have hlen : outs.length ≤ V'.length := by
    have := hsh.length_eq
    simp at this; omega
  have hover := shows_anomaly hsh h4.idle.idx
  obtain ⟨V1, V2, rfl, hs1, hs2⟩ := forall₂_append_left hsh
  obtain ⟨Y, hY⟩ := h6
  have hvis : Spec.visible env.decode r = X.map (lineE env) ++ Y.map (lineL env) := by
    rw [visible_eq, ← hY, List.map_append, List.map_map]
    rfl
  have hs2' : List.Forall₂ (Shows env dist X) outs V2.reverse := by
    rw [← List.forall₂_reverse_iff, List.reverse_reverse]; exact hs2
  have hpw := good_pairwise hgood
  refine ⟨V2.reverse.map winS, ?_, ?_, ?_, ?_⟩
  · rw [hvis]
    have : ∀ (cs : List (AnomalyContext D)) (W : List Win), List.Forall₂ (Shows env dist X) cs W →
        List.Forall₂ (Spec.Shows env.tokenize dist (X.map (lineE env) ++ Y.map (lineL env))) cs (W.map winS) := by
      intro cs W h
      induction h with
      | nil => exact .nil
      | cons hc _ ih => exact .cons (spec_shows_append _ (shows_spec hc)) ih
    exact this _ _ hs2'
  · intro w hw
    obtain ⟨v, hv, rfl⟩ := List.mem_map.1 hw
    have hv : v ∈ V1 ++ V2 := by simp at hv; simp [hv]
    exact ⟨good_b3 hgood v hv, ha3 v hv⟩
  · rw [List.map_map, List.pairwise_map, List.pairwise_reverse]
    exact (List.pairwise_append.1 hpw).2.1
  · intro c hc
    have : c.anomaly ∈ (s'.currentAnomaly.toList ++ outs.reverse).map (·.anomaly) :=
      List.mem_map_of_mem (by simp [hc])
    rw [hover] at this
    obtain ⟨e, he, h⟩ := List.mem_map.1 this
    rw [← h]
    rw [List.mem_reverse, List.mem_filter] at he
    exact he.2

/-- Neither the marker line nor a line with the marker appears in any context. -/
theorem C31_marker_partial (hs : Spec.Pointwise env.search dist) (skip : List Str) (r : List (Ev ε)) :
    ∀ c ∈ (process env skip r).1, ∀ t ∈ c.before ++ c.anomaly.line :: c.after, ¬ "TASK [log-classify".toList <:+: t := by
  obtain ⟨ws, h1, _⟩ := C26_any hs skip r
  have hno := visible_noMarker (decode := env.decode) r
  intro c hc t ht
  have key : ∀ (cs : List (AnomalyContext D)) (W : List Spec.Window), List.Forall₂ (Spec.Shows env.tokenize dist (Spec.visible env.decode r)) cs W →
      ∀ c ∈ cs, ∃ w, Spec.Shows env.tokenize dist (Spec.visible env.decode r) c w := by
    intro cs W h
    induction h with
    | nil => intro c hc; cases hc
    | cons hx _ ih =>
      intro c hc
      rcases List.mem_cons.1 hc with rfl | hc
      · exact ⟨_, hx⟩
      · exact ih c hc
  obtain ⟨w, pre, bef, l, aft, post, g1, g2, g3, g4, g5, g6, g7⟩ := key _ _ h1 c hc
  rw [g5, g6, g7] at ht
  rcases List.mem_append.1 ht with ht | ht
  · obtain ⟨x, hx, rfl⟩ := List.mem_map.1 ht
    exact hno x (by rw [g1]; simp [hx])
  · rcases List.mem_cons.1 ht with rfl | ht
    · exact hno l (by rw [g1]; simp)
    · obtain ⟨x, hx, rfl⟩ := List.mem_map.1 ht
      exact hno x (by rw [g1]; simp [hx])

/-- Everything found before the marker is reported first, exactly as if the source ended there. -/
theorem C31_prefix_partial (hs : Spec.Pointwise env.search dist) (skip : List Str) {lines : List LogLine} {src : List Spec.Line}
    (hr : Spec.Reads env.decode lines src) (hm : Spec.NoMarker src) (marker : LogLine) (text : Str)
    (hd : env.decode marker.1 = some text) (hmk : "TASK [log-classify".toList <:+: text) (rest : List (Ev ε)) :
    (process env skip (lines.map (Except.ok (ε := ε)))).1 <+:
      (process env skip (lines.map Except.ok ++ Except.ok marker :: rest)).1 := by
  obtain ⟨outs, base, k, F, P, V, s, h1, h2, h3, h4⟩ := start_spec (env := env) (dist := dist) hs skip lines (reads_plain hr hm)
  obtain ⟨s', b', k', V', f1, f2, f3, f4, f5, f6, f7, f8, f9, f10, f11⟩ := finish_spec hs h4
  obtain ⟨s2, b2, k2, V2, q1, q2, q3, q4, q5, q6, q7, q8, q9, q10, q11⟩ := finish_spec hs (h4.count marker)
  have hsame : s2.anomalies = s'.anomalies := by
    -- the two searches differ by the counters only
    have : ∀ (s s' : St D), s.buffer = s'.buffer → s.targets = s'.targets → s.targetsCoord = s'.targetsCoord →
        s.leftOvers = s'.leftOvers → s.currentAnomaly = s'.currentAnomaly → s.anomalies = s'.anomalies →
        (s.finish env).map (·.anomalies) = (s'.finish env).map (·.anomalies) := by
      rintro ⟨a1, a2, a3, a4, a5, a6, a7, a8, a9, a10⟩ ⟨b1, b2, b3, b4, b5, b6, b7, b8, b9, b10⟩ rfl rfl rfl rfl rfl rfl
      unfold St.finish St.flushTargets
      simp only
      split
      · simp only [Option.bind_eq_bind, Option.bind_some]
        cases a5 <;> rfl
      · unfold St.doSearch St.reset
        simp only [Option.bind_eq_bind]
        cases List.foldlM (onTarget env a1 a4) ⟨0, 0, a5, a6⟩ ((env.search a2).zip a3) with
        | none => rfl
        | some f =>
          simp only [Option.bind_some]
          cases lastAfter env a1 f with
          | none => rfl
          | some f =>
            simp only [Option.bind_some]
            cases sliceFrom a1 (max f.lastContextPos (if a1.length < CTX_DISTANCE then 0 else a1.length - CTX_DISTANCE)) with
            | none => rfl
            | some x =>
              simp only [Option.bind_some]
              cases texts env x with
              | none => rfl
              | some y =>
                simp only [Option.bind_some]
                cases f.currentAnomaly <;> rfl
    have := this (s.count marker) s rfl rfl rfl rfl rfl rfl
    rw [f1, q1] at this
    simpa using this
  have hlen : s'.anomalies.length < lines.length + 2 - outs.length := by unfold pend at h1; omega
  have hrun := h2 ε (lines.length + 2) [] (by omega)
  rw [List.append_nil, collect_eof _ h3 f1 f6 f3 hlen] at hrun
  have hrun1 : (process env skip (lines.map (Except.ok (ε := ε)))).1 = outs ++ s'.anomalies := by
    unfold process; rw [List.length_map, hrun]
  have hrun2 := h2 ε ((lines.map Except.ok ++ Except.ok marker :: rest).length + 2) (Except.ok marker :: rest) (by simp; omega)
  have hmk' : contains MARKER text = true := (contains_iff _ _).2 hmk
  have hread : readAnomalies env (Except.ok marker :: rest) s = some (.ok (), rest, s2) := by
    unfold readAnomalies
    simp only [hd, hmk', if_true, q1]
    rfl
  rw [hrun1]
  unfold process
  rw [hrun2]
  refine (List.prefix_append_right_inj outs).2 ?_
  rw [← hsame]
  have hle : outs.length ≤ lines.length := by omega
  obtain ⟨n, hn⟩ : ∃ n, (lines.map Except.ok ++ Except.ok (ε := ε) marker :: rest).length + 2 - outs.length = n + 1 :=
    ⟨(lines.map Except.ok ++ Except.ok (ε := ε) marker :: rest).length + 2 - outs.length - 1, by simp; omega⟩
  rw [hn]
  cases ha : s2.anomalies with
  | nil => exact List.nil_prefix
  | cons a as =>
    rw [collect_read n _ _ h3 hread ha]
    have hn' : as.length ≤ n := by
      have : s2.anomalies.length ≤ lines.length - outs.length := by
        rw [hsame]; unfold pend at h1; omega
      rw [ha] at this
      simp at this hn
      omega
    rw [collect_end n rest { s2 with anomalies := as } hn']
    simp only
    exact (List.cons_prefix_cons).2 ⟨rfl, List.prefix_append _ _⟩

/-- When nothing is reported before the marker, nothing is reported at all. -/
theorem C31_nothing_partial (hs : Spec.Pointwise env.search dist) (skip : List Str) {lines : List LogLine} {src : List Spec.Line}
    (hr : Spec.Reads env.decode lines src) (hm : Spec.NoMarker src) (marker : LogLine) (text : Str)
    (hd : env.decode marker.1 = some text) (hmk : "TASK [log-classify".toList <:+: text) (rest : List (Ev ε))
    (hnone : Spec.anomalies env.tokenize dist env.over skip src = []) :
    (process env skip (lines.map Except.ok ++ Except.ok marker :: rest)).1 = [] ∧
    (process env skip (lines.map Except.ok ++ Except.ok marker :: rest)).2.1 = .finished := by
  obtain ⟨outs, base, k, F, P, V, s, h1, h2, h3, h4⟩ := start_spec (env := env) (dist := dist) hs skip lines (reads_plain hr hm)
  obtain ⟨s2, b2, k2, V2, q1, q2, q3, q4, q5, q6, q7, q8, q9, q10, q11⟩ := finish_spec hs (h4.count marker)
  have hV : V2 = [] := by
    have hi := q2.idle.idx
    rw [← h4.news] at hi
    have hn : (firsts (tokE env) skip (ents 0 lines)).filter (overE env dist) = [] := by
      rw [reads_eq hr, anomalies_eq] at hnone
      exact List.map_eq_nil_iff.1 hnone
    rw [hn] at hi
    simpa using hi
  have hall : s2.currentAnomaly.toList ++ s2.anomalies.reverse ++ outs.reverse = [] := by
    have := q2.idle.shows_
    rw [hV] at this
    exact List.forall₂_nil_right_iff.1 this
  simp only [List.append_eq_nil_iff, List.reverse_eq_nil_iff] at hall
  have hrun2 := h2 ε ((lines.map Except.ok ++ Except.ok marker :: rest).length + 2) (Except.ok marker :: rest) (by simp; omega)
  have hmk' : contains MARKER text = true := (contains_iff _ _).2 hmk
  have hread : readAnomalies env (Except.ok marker :: rest) s = some (.ok (), rest, s2) := by
    unfold readAnomalies
    simp only [hd, hmk', if_true, q1]
    rfl
  unfold process
  rw [hrun2, hall.2]
  have := collect_done ((lines.map Except.ok ++ Except.ok (ε := ε) marker :: rest).length + 1) _ _ h3 hread hall.1.2
  simp only [List.length_nil, Nat.sub_zero]
  rw [this]
  exact ⟨rfl, rfl⟩

/-- C31 does not hold in full: after an anomaly, the marker ends neither the source nor the report. -/
theorem C31_false : (process toy [] [.ok (toyL "Xa" 1), .ok (toyL "TASK [log-classify : x]" 2), .ok (toyL "Xb" 3), Except.ok (ε := Unit) (toyL "c" 4)]).1.map
    (fun c => (c.anomaly.pos, c.anomaly.line)) = [(1, "Xa".toList), (3, "Xb".toList)] := by decide +kernel

example : (process toy [] [.ok (toyL "a" 1), .ok (toyL "TASK [log-classify : x]" 2), .ok (toyL "Xb" 3), Except.ok (ε := Unit) (toyL "c" 4)]).1 = [] :=
  (C31_nothing_partial toy_pointwise [] (lines := [toyL "a" 1]) (src := [toyS "a" 1]) (by decide +kernel)
    ((noMarker_iff _).2 (by decide +kernel)) (toyL "TASK [log-classify : x]" 2) "TASK [log-classify : x]".toList (by decide +kernel)
    (by decide +kernel) _ (by decide +kernel)).1

/-! ### C32: read errors -/

/-- what makes the iteration fail: a read error or a line which is not text -/
def Fails (env : Env D) (ev : Ev ε) (e : Err ε) : Prop :=
  (∃ x, ev = .error x ∧ e = .io x) ∨ (∃ l, ev = .ok l ∧ env.decode l.1 = none ∧ e = .utf8)

/-- When the reader fails after some lines, the error ends the iteration, and the contexts returned
before are the first ones of those reported for the same lines without the failure. -/
theorem C32_prefix_partial (hs : Spec.Pointwise env.search dist) (skip : List Str) {lines : List LogLine} {src : List Spec.Line}
    (hr : Spec.Reads env.decode lines src) (hm : Spec.NoMarker src) (ev : Ev ε) (e : Err ε) (hf : Fails env ev e) (rest : List (Ev ε)) :
    (process env skip (lines.map Except.ok ++ ev :: rest)).2.1 = .failed e ∧
    (process env skip (lines.map Except.ok ++ ev :: rest)).1 <+: (process env skip (lines.map (Except.ok (ε := ε)))).1 := by
  obtain ⟨outs, base, k, F, P, V, s, h1, h2, h3, h4⟩ := start_spec (env := env) (dist := dist) hs skip lines (reads_plain hr hm)
  obtain ⟨s', b', k', V', f1, f2, f3, f4, f5, f6, f7, f8, f9, f10, f11⟩ := finish_spec hs h4
  have hlen : s'.anomalies.length < lines.length + 2 - outs.length := by unfold pend at h1; omega
  have hrun := h2 ε (lines.length + 2) [] (by omega)
  rw [List.append_nil, collect_eof _ h3 f1 f6 f3 hlen] at hrun
  have hrun1 : (process env skip (lines.map (Except.ok (ε := ε)))).1 = outs ++ s'.anomalies := by
    unfold process; rw [List.length_map, hrun]
  have hrun2 := h2 ε ((lines.map Except.ok ++ ev :: rest).length + 2) (ev :: rest) (by simp; omega)
  have hread : readAnomalies env (ev :: rest) s = some (.error e, rest, s) := by
    rcases hf with ⟨x, rfl, rfl⟩ | ⟨l, rfl, hd, rfl⟩
    · unfold readAnomalies; rfl
    · unfold readAnomalies; simp only [hd]
  obtain ⟨n, hn⟩ : ∃ n, (lines.map Except.ok ++ ev :: rest).length + 2 - outs.length = n + 1 :=
    ⟨(lines.map Except.ok ++ ev :: rest).length + 2 - outs.length - 1, by simp; omega⟩
  rw [hn, collect_fail n _ _ h3 hread, List.append_nil] at hrun2
  unfold process at hrun1 ⊢
  rw [hrun2, hrun1]
  exact ⟨rfl, List.prefix_append _ _⟩

/-- The lines read before the failure are in the skip set of the next source. -/
theorem C32_skip (hs : Spec.Pointwise env.search dist) (skip : List Str) {lines : List LogLine} {src : List Spec.Line}
    (hr : Spec.Reads env.decode lines src) (hm : Spec.NoMarker src) (ev : Ev ε) (e : Err ε) (hf : Fails env ev e) (rest : List (Ev ε)) (x : Str) :
    x ∈ (process env skip (lines.map Except.ok ++ ev :: rest)).2.2.skipLines ↔ x ∈ skip ∨ ∃ l ∈ src, env.tokenize l.text = x := by
  obtain ⟨outs, base, k, F, P, V, s, h1, h2, h3, h4⟩ := start_spec (env := env) (dist := dist) hs skip lines (reads_plain hr hm)
  have hrun2 := h2 ε ((lines.map Except.ok ++ ev :: rest).length + 2) (ev :: rest) (by simp; omega)
  have hread : readAnomalies env (ev :: rest) s = some (.error e, rest, s) := by
    rcases hf with ⟨x, rfl, rfl⟩ | ⟨l, rfl, hd, rfl⟩
    · unfold readAnomalies; rfl
    · unfold readAnomalies; simp only [hd]
  obtain ⟨n, hn⟩ : ∃ n, (lines.map Except.ok ++ ev :: rest).length + 2 - outs.length = n + 1 :=
    ⟨(lines.map Except.ok ++ ev :: rest).length + 2 - outs.length - 1, by simp; omega⟩
  rw [hn, collect_fail n _ _ h3 hread] at hrun2
  unfold process
  rw [hrun2]
  show x ∈ s.skipLines ↔ _
  rw [h4.skip, reads_eq hr, ← ents_lines 0 lines]
  constructor
  · rintro (h | ⟨e, he, rfl⟩)
    · exact .inl h
    · exact .inr ⟨lineE env e, List.mem_map_of_mem he, rfl⟩
  · rintro (h | ⟨l, hl, rfl⟩)
    · exact .inl h
    · obtain ⟨e, he, rfl⟩ := List.mem_map.1 hl
      exact .inr ⟨e, he, rfl⟩

/-- C32 does not hold in full: the anomaly read before the failure is not reported, and neither is the
same line of the next source, because its tokens are already in the skip set. -/
theorem C32_false :
    let first := process toy [] [.ok (toyL "Xa" 1), .error ()]
    let second := process toy first.2.2.skipLines [.ok (toyL "Xa" 1), Except.ok (ε := Unit) (toyL "b" 2)]
    first.1 = [] ∧ first.2.1 = .failed (.io ()) ∧ second.1 = [] ∧ second.2.1 = .finished := by decide +kernel

example : Fails toy (ε := Unit) (.ok ([200], 3)) .utf8 := .inr ⟨_, rfl, by decide +kernel, rfl⟩

/-! ### C33: sources sharing the skip set -/

theorem noMarker_append {a b : List Spec.Line} (ha : Spec.NoMarker a) (hb : Spec.NoMarker b) : Spec.NoMarker (a ++ b) := by
  intro l hl
  rcases List.mem_append.1 hl with h | h
  · exact ha l h
  · exact hb l h

theorem reads_append {decode : Bytes → Option Str} {l1 l2 : List LogLine} {s1 s2 : List Spec.Line} (h1 : Spec.Reads decode l1 s1)
    (h2 : Spec.Reads decode l2 s2) : Spec.Reads decode (l1 ++ l2) (s1 ++ s2) := by
  induction h1 with
  | nil => exact h2
  | cons h _ ih => exact .cons h ih

/-- Two sources processed in sequence report the anomalies of their concatenation. -/
theorem C33_concat (hs : Spec.Pointwise env.search dist) (skip : List Str) {l1 l2 : List LogLine} {s1 s2 : List Spec.Line}
    (hr1 : Spec.Reads env.decode l1 s1) (hr2 : Spec.Reads env.decode l2 s2) (hm1 : Spec.NoMarker s1) (hm2 : Spec.NoMarker s2) :
    let first := process env skip (l1.map (Except.ok (ε := ε)))
    let second := process env first.2.2.skipLines (l2.map (Except.ok (ε := ε)))
    first.1.map (·.anomaly) ++ second.1.map (·.anomaly) =
      (process env skip ((l1 ++ l2).map (Except.ok (ε := ε)))).1.map (·.anomaly) := by
  intro first second
  have h1 := (C25_anomalies (ε := ε) hs skip hr1 hm1).1
  have h2 := (C25_anomalies (ε := ε) hs first.2.2.skipLines hr2 hm2).1
  have h3 := (C25_anomalies (ε := ε) hs skip (reads_append hr1 hr2) (noMarker_append hm1 hm2)).1
  rw [h1, h2, h3]
  obtain ⟨outs, ws, s, e1, e2, e3, e4, e5, e6, e7, e8, e9, e10, e11⟩ := run_full ε hs skip hr1 hm1
  have hskip : first.2.2 = s := by show (process _ _ _).2.2 = s; rw [e1]
  unfold Spec.anomalies
  rw [firsts_append, List.filter_append, List.map_append, hskip]
  congr 3
  apply firsts_congr
  intro x
  rw [e10, List.mem_append, List.mem_map]

/-- A line is reported once: over two sources, the tokens of the reported lines are distinct, and were
not in the skip set at the start. -/
theorem C33_once (hs : Spec.Pointwise env.search dist) (skip : List Str) {l1 l2 : List LogLine} {s1 s2 : List Spec.Line}
    (hr1 : Spec.Reads env.decode l1 s1) (hr2 : Spec.Reads env.decode l2 s2) (hm1 : Spec.NoMarker s1) (hm2 : Spec.NoMarker s2) :
    let first := process env skip (l1.map (Except.ok (ε := ε)))
    let second := process env first.2.2.skipLines (l2.map (Except.ok (ε := ε)))
    ((first.1 ++ second.1).map fun c => env.tokenize c.anomaly.line).Nodup ∧
      ∀ c ∈ first.1 ++ second.1, env.tokenize c.anomaly.line ∉ skip := by
  intro first second
  have h := C33_concat (ε := ε) hs skip hr1 hr2 hm1 hm2
  have h3 := (C25_anomalies (ε := ε) hs skip (reads_append hr1 hr2) (noMarker_append hm1 hm2)).1
  have h' : (first.1 ++ second.1).map (·.anomaly) = Spec.anomalies env.tokenize dist env.over skip (s1 ++ s2) := by
    rw [List.map_append, ← h3]; exact h
  obtain ⟨n1, n2⟩ := firsts_nodup (key := fun l : Spec.Line => env.tokenize l.text) skip (s1 ++ s2)
  have hmap : (first.1 ++ second.1).map (fun c => env.tokenize c.anomaly.line) =
      ((firsts (fun l : Spec.Line => env.tokenize l.text) skip (s1 ++ s2)).filter fun l => env.over (dist (env.tokenize l.text))).map
        fun l => env.tokenize l.text := by
    have : (first.1 ++ second.1).map (fun c => env.tokenize c.anomaly.line) =
        ((first.1 ++ second.1).map (·.anomaly)).map fun a => env.tokenize a.line := by rw [List.map_map]; rfl
    rw [this, h']
    unfold Spec.anomalies
    rw [List.map_map]
    rfl
  constructor
  · rw [hmap]
    exact n1.sublist ((List.filter_sublist).map _)
  · intro c hc
    have : env.tokenize c.anomaly.line ∈ (first.1 ++ second.1).map (fun c => env.tokenize c.anomaly.line) := List.mem_map_of_mem hc
    rw [hmap] at this
    obtain ⟨l, hl, he⟩ := List.mem_map.1 this
    rw [← he]
    exact n2 l (List.mem_filter.1 hl).1

example :
    let first := process toy [] (lines1.map (Except.ok (ε := Unit)))
    (process toy first.2.2.skipLines [.ok (toyL "X2" 1), Except.ok (ε := Unit) (toyL "X3" 2)]).1.map (·.anomaly.line) = ["X3".toList] := by
  decide +kernel

end LJ.Process

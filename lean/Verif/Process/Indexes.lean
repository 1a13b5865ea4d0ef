/-
C34, and the two kinds of index: training on sources and processing others, end to end.
-/
import Verif.Process.Props
import Verif.Index.Props
import Verif.Tokenizer.Props
namespace LJ.Process
open LJ.Index (FP HashingIndex viaChunks)
variable {ε : Type}

/-- The parameters of the program: conversion of the bytes, Unicode word characters, hash of the words
and arithmetic. -/
structure Cfg where
  decode : Bytes → Option Str
  wd : Char → Bool
  hash : Str → Nat
  fp : FP

/-- model.rs:558-562 `ChunkIndex` -/
inductive ChunkIndex where
  | hashingTrick (i : HashingIndex)
  | noop

/-- model.rs:566-571, 602-604 and 621-623 `tokenize` -/
def ChunkIndex.tokenize (cfg : Cfg) : ChunkIndex → Str → Str
  | .hashingTrick _, line => LJ.Tokenizer.process cfg.wd line
  | .noop, line => line

/-- model.rs:573-578 and 606-608 `add` -/
noncomputable def ChunkIndex.add (cfg : Cfg) (self : ChunkIndex) (baselines : List Str) : Option ChunkIndex :=
  match self with
  | .hashingTrick i => (i.add cfg.fp cfg.hash baselines).map .hashingTrick
  | .noop => some .noop

/-- model.rs:580-585, 609-611 and 625-629 `search` -/
noncomputable def ChunkIndex.search (cfg : Cfg) (self : ChunkIndex) (targets : List Str) : Option (List ℝ) :=
  match self with
  | .hashingTrick i => i.search cfg.fp cfg.hash targets
  | .noop => some (List.replicate targets.length 0)

/-- process.rs:13 `THRESHOLD`: the `f32` nearest to 0.3 -/
noncomputable def THRESHOLD : ℝ := 10066330 / 2 ^ 25

open Classical in
/-- What the trainer and the processor use of an index.  A panic of the search would give no distance
(`C34_search` shows that there is none). -/
noncomputable def ChunkIndex.env (cfg : Cfg) (self : ChunkIndex) : Env ℝ where
  decode := cfg.decode
  tokenize := self.tokenize cfg
  search targets := (self.search cfg targets).getD []
  over d := decide (d > THRESHOLD)

/-- model.rs:260-288 `Index::train` on open readers -/
noncomputable def trainIndex (cfg : Cfg) (index : ChunkIndex) (readers : List (List (Ev ε))) : Option ChunkIndex :=
  (trained (index.env cfg) readers).chunks.foldlM (ChunkIndex.add cfg) index

/-- model.rs:596-600 and 616-618 `hashing_index::new`, `noop_index::new` -/
def newIndex : Bool → ChunkIndex
  | true => .hashingTrick HashingIndex.new
  | false => .noop

/-- the tokens of a line -/
def tokens (cfg : Cfg) : Bool → Str → Str
  | true, line => LJ.Tokenizer.process cfg.wd line
  | false, line => line

/-- the tokens of the lines readers return before they fail -/
def allTokens (cfg : Cfg) (hashing : Bool) (readers : List (List (Ev ε))) : List Str :=
  (readers.map (Spec.readable cfg.decode)).flatten.map fun x => tokens cfg hashing x.2

theorem foldl_hashing (cfg : Cfg) (chunks : List (List Str)) (i : HashingIndex) :
    chunks.foldlM (ChunkIndex.add cfg) (.hashingTrick i) = (chunks.foldlM (HashingIndex.add cfg.fp cfg.hash) i).map .hashingTrick := by
  induction chunks generalizing i with
  | nil => rfl
  | cons c chunks ih =>
    rw [List.foldlM_cons, List.foldlM_cons]
    show ((i.add cfg.fp cfg.hash c).map ChunkIndex.hashingTrick).bind _ = ((i.add cfg.fp cfg.hash c).bind _).map _
    cases i.add cfg.fp cfg.hash c with
    | none => rfl
    | some j => exact ih j

theorem foldl_noop (cfg : Cfg) (chunks : List (List Str)) : chunks.foldlM (ChunkIndex.add cfg) .noop = some .noop := by
  induction chunks with
  | nil => rfl
  | cons c chunks ih => rw [List.foldlM_cons]; exact ih

/-- Training never panics, and the search of the trained index gives one distance per target; a target
among the trained tokens is not over the threshold. -/
theorem C34_search (cfg : Cfg) (hfp : cfg.fp.Standard) (hashing : Bool) (readers : List (List (Ev ε))) :
    ∃ index dist, trainIndex cfg (newIndex hashing) readers = some index ∧ (∀ line, index.tokenize cfg line = tokens cfg hashing line) ∧
      (∀ ts, index.search cfg ts = some (ts.map dist)) ∧
      (∀ t ∈ allTokens cfg hashing readers, dist t ≤ 0.07) ∧
      (hashing = false → ∀ t, dist t = 0) ∧
      (hashing = true → ∀ t, (∀ b ∈ allTokens cfg hashing readers, ¬ LJ.Index.Share cfg.hash b t) → dist t = 1) := by
  cases hashing with
  | false =>
    refine ⟨.noop, fun _ => 0, foldl_noop cfg _, fun _ => rfl, ?_, fun _ _ => by norm_num, fun _ _ => rfl, nofun⟩
    intro ts
    show some (List.replicate ts.length (0 : ℝ)) = _
    rw [List.map_const']
  | true =>
    have hb := fun ts => LJ.Index.viaChunks_eq (hash := cfg.hash) cfg.fp (trained ((newIndex true).env cfg) readers).chunks ts
    unfold viaChunks at hb
    cases hi : HashingIndex.build cfg.fp cfg.hash (trained ((newIndex true).env cfg) readers).chunks with
    | none => have := hb []; rw [hi] at this; cases this
    | some i =>
      simp only [hi, Option.bind_eq_bind, Option.bind_some] at hb
      refine ⟨.hashingTrick i, _, ?_, fun _ => rfl, hb, ?_, nofun, ?_⟩
      · unfold trainIndex
        show List.foldlM (ChunkIndex.add cfg) (.hashingTrick HashingIndex.new) _ = _
        rw [foldl_hashing]
        unfold HashingIndex.build at hi
        rw [hi]; rfl
      · intro t ht
        have hmem : t ∈ (trained ((newIndex true).env cfg) readers).chunks.flatten := by
          rw [(C24_once (env := (newIndex true).env cfg) readers).2]; exact ht
        have h1 := LJ.Index.viaChunks_eq (hash := cfg.hash) cfg.fp (trained ((newIndex true).env cfg) readers).chunks [t]
        obtain ⟨ds, e, h⟩ := LJ.Index.C18_rounding (hash := cfg.hash) cfg.fp hfp (trained ((newIndex true).env cfg) readers).chunks [t]
        rw [h1] at e
        cases e
        cases h with
        | cons h _ => exact (le_abs_self _).trans (h hmem).1
      · intro _ t hno
        obtain ⟨ds, e, h⟩ := LJ.Index.C23_disjoint (hash := cfg.hash) cfg.fp (trained ((newIndex true).env cfg) readers).chunks [t]
        rw [LJ.Index.viaChunks_eq] at e
        cases e
        cases h with
        | cons h _ =>
          refine h fun b hb => hno b ?_
          rw [(C24_once (env := (newIndex true).env cfg) readers).2] at hb
          exact hb

theorem readable_visible {decode : Bytes → Option Str} (r : List (Ev ε)) {l : Spec.Line} (h : l ∈ Spec.visible decode r) :
    ∃ x ∈ Spec.readable decode r, x.2 = l.text := by
  induction r with
  | nil => cases h
  | cons ev r ih =>
    cases ev with
    | error => cases h
    | ok x =>
      unfold Spec.visible at h
      unfold Spec.readable
      cases hd : decode x.1 with
      | none => rw [hd] at h; cases h
      | some t =>
        rw [hd] at h
        simp only at h ⊢
        split at h
        · obtain ⟨y, hy, e⟩ := ih h
          exact ⟨y, by simp [hy], e⟩
        · rcases List.mem_cons.1 h with rfl | h
          · exact ⟨(x.1, t), by simp, rfl⟩
          · obtain ⟨y, hy, e⟩ := ih h
            exact ⟨y, by simp [hy], e⟩

/-- A source whose lines all have trained tokens yields no anomaly, for both kinds of index. -/
theorem C34_known (cfg : Cfg) (hfp : cfg.fp.Standard) (hashing : Bool) (readers : List (List (Ev ε)))
    (skip : List Str) (r : List (Ev ε))
    (h : ∀ l ∈ Spec.visible cfg.decode r, tokens cfg hashing l.text ∈ allTokens cfg hashing readers) :
    ∃ index, trainIndex cfg (newIndex hashing) readers = some index ∧
      (process (index.env cfg) skip r).1 = [] ∧ ((process (index.env cfg) skip r).2.1 = .finished ∨ ∃ e, (process (index.env cfg) skip r).2.1 = .failed e) := by
  obtain ⟨index, dist, h1, h2, h3, h4, _⟩ := C34_search cfg hfp hashing readers
  have hp : Spec.Pointwise (index.env cfg).search dist := by
    intro ts
    show (index.search cfg ts).getD [] = _
    rw [h3]; rfl
  refine ⟨index, h1, ?_, C30_no_panic hp skip r⟩
  obtain ⟨ws, g1, _, _, g4⟩ := C26_any hp skip r
  rcases hcs : (process (index.env cfg) skip r).1 with _ | ⟨c, cs⟩
  · rfl
  · exfalso
    rw [hcs] at g1 g4
    have hov := g4 c (by simp)
    cases g1 with
    | cons hc _ =>
      obtain ⟨pre, bef, l, aft, post, e1, _, _, _, _, _, e7⟩ := hc
      have hl : l ∈ Spec.visible cfg.decode r := by
        have : l ∈ Spec.visible (index.env cfg).decode r := by rw [e1]; simp
        exact this
      have := h4 _ (h l hl)
      rw [e7] at hov
      have hov : dist (index.tokenize cfg l.text) > THRESHOLD := of_decide_eq_true hov
      rw [h2] at hov
      unfold THRESHOLD at hov
      have : (0.07 : ℝ) < 10066330 / 2 ^ 25 := by norm_num
      linarith

/-- Training on sources and processing one of them yields nothing, whatever it contains, and whether
or not it can be read to the end. -/
theorem C34_self (cfg : Cfg) (hfp : cfg.fp.Standard) (hashing : Bool) (readers : List (List (Ev ε)))
    (skip : List Str) (r : List (Ev ε)) (hr : r ∈ readers) :
    ∃ index, trainIndex cfg (newIndex hashing) readers = some index ∧ (process (index.env cfg) skip r).1 = [] := by
  obtain ⟨index, h1, h2, _⟩ := C34_known cfg hfp hashing readers skip r (by
    intro l hl
    obtain ⟨x, hx, e⟩ := readable_visible r hl
    unfold allTokens
    rw [← e]
    exact List.mem_map_of_mem (List.mem_flatten.2 ⟨_, List.mem_map_of_mem hr, hx⟩))
  exact ⟨index, h1, h2⟩

/-- The test index reports nothing, whatever the sources. -/
theorem C34_noop (cfg : Cfg) (hfp : cfg.fp.Standard) (readers : List (List (Ev ε))) (skip : List Str) (r : List (Ev ε)) :
    ∃ index, trainIndex cfg (newIndex false) readers = some index ∧ (process (index.env cfg) skip r).1 = [] := by
  obtain ⟨index, dist, h1, h2, h3, _, h5, _⟩ := C34_search cfg hfp false readers
  refine ⟨index, h1, ?_⟩
  have hp : Spec.Pointwise (index.env cfg).search dist := by
    intro ts
    show (index.search cfg ts).getD [] = _
    rw [h3]; rfl
  obtain ⟨ws, g1, _, _, g4⟩ := C26_any hp skip r
  rcases hcs : (process (index.env cfg) skip r).1 with _ | ⟨c, cs⟩
  · rfl
  · exfalso
    rw [hcs] at g1 g4
    have hov := g4 c (by simp)
    cases g1 with
    | cons hc _ =>
      obtain ⟨pre, bef, l, aft, post, e1, _, _, _, _, _, e7⟩ := hc
      rw [e7] at hov
      have hov : dist (index.tokenize cfg l.text) > THRESHOLD := of_decide_eq_true hov
      rw [h5 rfl] at hov
      unfold THRESHOLD at hov
      norm_num at hov

/-! ### C73: unrelated lines are reported -/

/-- A line whose tokens share no word with those of the baselines, seen for the first time, is
reported with distance 1. -/
theorem C73_unrelated (cfg : Cfg) (hfp : cfg.fp.Standard) (readers : List (List (Ev ε))) (skip : List Str)
    {lines : List LogLine} {pre post : List Spec.Line} {l : Spec.Line}
    (hr : Spec.Reads cfg.decode lines (pre ++ l :: post)) (hm : Spec.NoMarker (pre ++ l :: post))
    (hskip : LJ.Tokenizer.process cfg.wd l.text ∉ skip)
    (hnew : ∀ p ∈ pre, LJ.Tokenizer.process cfg.wd p.text ≠ LJ.Tokenizer.process cfg.wd l.text)
    (hno : ∀ b ∈ allTokens cfg true readers, ¬ LJ.Index.Share cfg.hash b (LJ.Tokenizer.process cfg.wd l.text)) :
    ∃ index, trainIndex cfg (newIndex true) readers = some index ∧
      ∃ c ∈ (process (index.env cfg) skip (lines.map (Except.ok (ε := ε)))).1, c.anomaly = ⟨1, l.num, l.text⟩ := by
  obtain ⟨index, dist, h1, h2, h3, _, _, h6⟩ := C34_search cfg hfp true readers
  refine ⟨index, h1, ?_⟩
  have hp : Spec.Pointwise (index.env cfg).search dist := by
    intro ts
    show (index.search cfg ts).getD [] = _
    rw [h3]; rfl
  have h := (C25_anomalies (ε := ε) (env := index.env cfg) hp skip hr hm).1
  have htok : ∀ t, (index.env cfg).tokenize t = LJ.Tokenizer.process cfg.wd t := h2
  have hmem : l ∈ Spec.firsts (fun l : Spec.Line => (index.env cfg).tokenize l.text) skip (pre ++ l :: post) := by
    rw [firsts_append, firsts_cons]
    apply List.mem_append_right
    rw [if_neg]
    · simp
    · simp only [List.mem_append, List.mem_map, htok, not_or, not_exists, not_and]
      exact ⟨hskip, fun p hp => hnew p hp⟩
  have hd : dist ((index.env cfg).tokenize l.text) = 1 := by rw [htok]; exact h6 rfl _ hno
  have hov : (index.env cfg).over (dist ((index.env cfg).tokenize l.text)) = true := by
    rw [hd]
    apply decide_eq_true
    unfold THRESHOLD
    norm_num
  have hres : (⟨1, l.num, l.text⟩ : Anomaly ℝ) ∈ Spec.anomalies (index.env cfg).tokenize dist (index.env cfg).over skip (pre ++ l :: post) := by
    unfold Spec.anomalies
    refine List.mem_map.2 ⟨l, List.mem_filter.2 ⟨hmem, hov⟩, ?_⟩
    rw [hd]
  rw [← h] at hres
  obtain ⟨c, hc, e⟩ := List.mem_map.1 hres
  exact ⟨c, hc, e⟩

/-- ASCII decoding and any hash, exact arithmetic: the hypotheses are met, with lines which are equal
only up to their noise. -/
example : ∃ index, trainIndex ⟨toy.decode, LJ.Tokenizer.asciiWord, fun w => w.length, FP.exact⟩ (newIndex true)
      [[Except.ok (ε := Unit) (toyL "error 2024-01-02" 1)]] = some index ∧
    (process (index.env ⟨toy.decode, LJ.Tokenizer.asciiWord, fun w => w.length, FP.exact⟩) [] [Except.ok (ε := Unit) (toyL "error 2023-11-12" 1)]).1 = [] := by
  obtain ⟨i, h1, h2, _⟩ := C34_known (ε := Unit) ⟨toy.decode, LJ.Tokenizer.asciiWord, fun w => w.length, FP.exact⟩ (LJ.Index.fused_standard LJ.Index.rounding_id) true
    [[.ok (toyL "error 2024-01-02" 1)]] [] [.ok (toyL "error 2023-11-12" 1)] (by decide +kernel)
  exact ⟨i, h1, h2⟩

/-- a line with another word than the baseline -/
example : ∃ index, trainIndex ⟨toy.decode, LJ.Tokenizer.asciiWord, fun w => w.length, FP.exact⟩ (newIndex true)
      [[Except.ok (ε := Unit) (toyL "server ready" 1)]] = some index ∧
    ∃ c ∈ (process (index.env ⟨toy.decode, LJ.Tokenizer.asciiWord, fun w => w.length, FP.exact⟩) []
      ([toyL "server ready" 1, toyL "crashed abruptly" 2].map (Except.ok (ε := Unit)))).1, c.anomaly = ⟨1, 2, "crashed abruptly".toList⟩ := by
  refine C73_unrelated (ε := Unit) ⟨toy.decode, LJ.Tokenizer.asciiWord, fun w => w.length, FP.exact⟩
    (LJ.Index.fused_standard LJ.Index.rounding_id) [[.ok (toyL "server ready" 1)]] []
    (pre := [toyS "server ready" 1]) (l := toyS "crashed abruptly" 2) (post := []) (by decide +kernel) ((noMarker_iff _).2 (by decide +kernel))
    (by simp) (by decide +kernel) ?_
  have h1 : allTokens ⟨toy.decode, LJ.Tokenizer.asciiWord, fun w => w.length, FP.exact⟩ true [[Except.ok (ε := Unit) (toyL "server ready" 1)]] =
      ["server ready".toList] := by decide +kernel
  have h2 : LJ.Tokenizer.process LJ.Tokenizer.asciiWord (toyS "crashed abruptly" 2).text = "crashed abruptly".toList := by decide +kernel
  rw [h1, h2]
  intro b hb
  rw [List.mem_singleton] at hb
  subst hb
  have h3 : "server ready".toList.splitOn ' ' = ["server".toList, "ready".toList] := by decide +kernel
  have h4 : "crashed abruptly".toList.splitOn ' ' = ["crashed".toList, "abruptly".toList] := by decide +kernel
  rintro ⟨w, hw, w', hw', e⟩
  rw [h3] at hw
  rw [h4] at hw'
  revert e
  revert w'
  revert w
  decide +kernel

end LJ.Process

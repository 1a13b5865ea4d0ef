/-
C131: more baselines never report more lines.
-/
import Verif.Report.ExactProps
import Verif.Report.Learned
import Verif.Process.More
namespace LJ.Report
open LJ.Process (Str Bytes Ev Env Err Anomaly AnomalyContext Stop)
open LJ.Process (toyL)
open LJ.Process.Spec (lineOf Unmarked)
variable {C S N D E ε : Type} [DecidableEq N]

namespace Spec

/-- The lines which a report has for a name: for each of them its source, its number and its text, in the order of the report. -/
def linesOf (r : Report C S N D E ε) (n : N) : List (S × Nat × Str) :=
  (r.logReports.filter fun l => l.indexName = n).flatMap fun l => l.anomalies.map fun c => (l.source, lineOf c.anomaly)

end Spec

/-- What is over the threshold with more lines known is over it with less. -/
def Shrinks (w : World C S N D E ε) : Prop :=
  ∀ chunks chunks' dist dist', LJ.Process.Spec.Pointwise (w.search chunks) dist → LJ.Process.Spec.Pointwise (w.search chunks') dist' →
    (∀ l ∈ chunks.flatten, l ∈ chunks'.flatten) → ∀ t, w.over (dist' t) = true → w.over (dist t) = true

/-- what is said of a source with smaller distances -/
def Fewer (x' x : Spec.Said S D E ε) : Prop :=
  x'.source = x.source ∧ (x'.anomalies.map fun c => lineOf c.anomaly).Sublist (x.anomalies.map fun c => lineOf c.anomaly) ∧
    x'.lines = x.lines ∧ x'.bytes = x.bytes ∧ x'.error = x.error

omit [DecidableEq N] in
theorem said_fewer {tok : Str → Str} {dist dist' : Str → D} {over : D → Bool} {decode : Bytes → Option Str} {content : S → Except E (List (Ev ε))}
    (hle : ∀ t, over (dist' t) = true → over (dist t) = true) : ∀ (ss : List S) (a' a : List Str), (∀ t, t ∈ a' ↔ t ∈ a) →
    (∀ s ∈ ss, ∀ evs, content s = .ok evs → Unmarked decode evs) →
    List.Forall₂ Fewer (Spec.said tok dist' over decode content a' ss) (Spec.said tok dist over decode content a ss)
  | [], _, _, _, _ => .nil
  | s :: ss, a', a, h, hu => by
    unfold Spec.said
    cases hc : content s with
    | error e => exact .cons ⟨rfl, List.Sublist.refl _, rfl, rfl, rfl⟩ .nil
    | ok evs =>
      simp only
      let env : Env D := ⟨decode, tok, fun ts => ts.map dist, over⟩
      let env' : Env D := ⟨decode, tok, fun ts => ts.map dist', over⟩
      have hs : LJ.Process.Spec.Pointwise env.search dist := fun _ => rfl
      have hs' : LJ.Process.Spec.Pointwise env'.search dist' := fun _ => rfl
      obtain ⟨g0, g⟩ := LJ.Process.C131_source (env := env) (env' := env') rfl rfl rfl hs hs' hle a evs
      obtain ⟨g1, g2, g3, g4⟩ := g (hu s (.head _) evs hc)
      obtain ⟨p1, p2, p3, p4, p5⟩ := LJ.Process.C128_exact hs a evs
      obtain ⟨q1, q2, q3, q4, q5⟩ := process_congr hs' a a' (fun t => (h t).symm) evs
      simp only [env, env'] at g0 g1 g2 g3 g4 p1 p2 p3 p4 p5 q1 q2 q3 q4 q5
      refine .cons ⟨rfl, ?_, ?_, ?_, ?_⟩ (said_fewer hle ss _ _ ?_ fun s hs => hu s (.tail _ hs))
      · simp only; rw [← p1, ← q1]; exact g0
      · simp only; rw [← p4, ← q4]; exact g3
      · simp only; rw [← p5, ← q5]; exact g4
      · simp only; rw [← p2, ← q2, g1]
      · intro t; rw [← p3, ← q3]; exact g2 t

/-- what is learned from more sources, when there is one before -/
theorem learned_more {tok : Str → Str} {decode : Bytes → Option Str} {isJson : S → Bool} {lines : S → Bool → List (Ev ε)} {ss more : List S} (hne : ss ≠ []) :
    ∀ x ∈ Spec.learned tok decode isJson lines ss, x ∈ Spec.learned tok decode isJson lines (ss ++ more) := by
  intro x hx
  unfold Spec.learned at hx ⊢
  have : (ss ++ more).head? = ss.head? := by
    cases ss with
    | nil => exact absurd rfl hne
    | cons s ss => rfl
  rw [this, List.flatMap_append]
  exact List.mem_append_left _ hx

variable {w : World C S N D E ε}

theorem dist_of_search (hs : SearchOk w) (m : Model C S N) : ∃ dist : N → Option (Str → D), ∀ n, match lookupOrSingle m.indexes n with
      | some i => ∃ f, dist n = some f ∧ LJ.Process.Spec.Pointwise (w.search i.chunks) f
      | none => dist n = none := by
  choose f hf using hs
  refine ⟨fun n => (lookupOrSingle m.indexes n).map fun i => f i.chunks, fun n => ?_⟩
  cases hl : lookupOrSingle m.indexes n with
  | none => simp only [hl, Option.map_none]
  | some i => exact ⟨f i.chunks, by simp only [hl, Option.map_some], hf _⟩

/-- the lines of a report of a name -/
theorem linesOf_said {r : Report C S N D E ε} {n : N} {xs : List (Spec.Said S D E ε)}
    (h : (r.logReports.filter fun l => l.indexName = n).map (fun l => (l.source, l.anomalies, l.lineCount, l.byteCount)) =
      (xs.filter fun x => !x.anomalies.isEmpty).map fun x => (x.source, x.anomalies, x.lines, x.bytes)) :
    Spec.linesOf r n = xs.flatMap fun x => x.anomalies.map fun c => (x.source, lineOf c.anomaly) := by
  have key : ∀ ys : List (S × List (AnomalyContext D) × Nat × Nat), (ys.flatMap fun y => y.2.1.map fun c => (y.1, lineOf c.anomaly)) =
      ys.flatMap fun y => y.2.1.map fun c => (y.1, lineOf c.anomaly) := fun _ => rfl
  have h' := congrArg (List.flatMap fun y : S × List (AnomalyContext D) × Nat × Nat => y.2.1.map fun c => (y.1, lineOf c.anomaly)) h
  rw [List.flatMap_map, List.flatMap_map] at h'
  unfold Spec.linesOf
  rw [h']
  clear h h' key
  induction xs with
  | nil => rfl
  | cons x xs ih =>
    rw [List.filter_cons, List.flatMap_cons]
    cases hx : x.anomalies with
    | nil => simpa [hx] using ih
    | cons c cs => simp only [List.isEmpty_cons, Bool.not_false, if_true, List.flatMap_cons, ih, hx]

omit [DecidableEq N] in
theorem fewer_lines {xs' xs : List (Spec.Said S D E ε)} (h : List.Forall₂ Fewer xs' xs) :
    (xs'.flatMap fun x => x.anomalies.map fun c => (x.source, lineOf c.anomaly)).Sublist
      (xs.flatMap fun x => x.anomalies.map fun c => (x.source, lineOf c.anomaly)) ∧
    (xs'.filterMap fun x => x.error.map fun e => (x.source, e)) = xs.filterMap fun x => x.error.map fun e => (x.source, e) := by
  induction h with
  | nil => exact ⟨.slnil, rfl⟩
  | cons hx _ ih =>
    rename_i x' x l' l _
    obtain ⟨h1, h2, h3, h4, h5⟩ := hx
    refine ⟨?_, ?_⟩
    · rw [List.flatMap_cons, List.flatMap_cons]
      refine List.Sublist.append ?_ ih.1
      have e : ∀ y : Spec.Said S D E ε, (y.anomalies.map fun c => (y.source, lineOf c.anomaly)) =
          (y.anomalies.map fun c => lineOf c.anomaly).map (Prod.mk y.source) := fun y => by rw [List.map_map]; rfl
      rw [e, e, h1]
      exact h2.map _
    · rw [List.filterMap_cons, List.filterMap_cons, h1, h5, ih.2]

/-- C131, for every listing, every content and every result of the readers: a target is reported against baselines, and against the same ones and more.  For a name which has a
source in the baselines, when no source of this name in the target has a marker line, the lines reported against more are among the lines reported against less, in the
same order, and the errors are the same.  What is missing: the names without a source in the baselines, and the marker lines (`C131_false`, `C131_marker_false`). -/
theorem C131_partial (hs : SearchOk w) (hw : Shrinks w) {o1 o2 o3 o4 : List (N × List S) → List (N × List S)} (h1 : ∀ g, (o1 g).Perm g) (h2 : ∀ g, (o2 g).Perm g)
    (h3 : ∀ g, (o3 g).Perm g) (h4 : ∀ g, (o4 g).Perm g) {cs more : List C} {target : C} {m m' : Model C S N} {r r' : Report C S N D E ε}
    (hm : train w o1 cs = .ok m) (hm' : train w o2 (cs ++ more) = .ok m') (hr : report w m o3 target = some (.ok r)) (hr' : report w m' o4 target = some (.ok r'))
    {n : N} (hn : ∃ c ∈ cs, ∃ s ∈ Spec.validSources w.valid (w.list c), w.nameOf s = n)
    (hu : ∀ s ∈ Spec.validSources w.valid (w.list target), w.nameOf s = n → ∀ reader, w.openSource s = .ok reader → Unmarked w.decode (reader (w.isJson s))) :
    (Spec.linesOf r' n).Sublist (Spec.linesOf r n) ∧
      r'.readErrors.filter (fun x => w.nameOf x.1 = n) = r.readErrors.filter fun x => w.nameOf x.1 = n := by
  have hus : Spec.Usable w.valid (w.list target) := by
    obtain ⟨_, e, h⟩ := report_total hs m o3 h3 target
    rw [hr] at e
    cases e
    exact h.1 ⟨r, rfl⟩
  obtain ⟨dist, hd⟩ := dist_of_search hs m
  obtain ⟨dist', hd'⟩ := dist_of_search hs m'
  obtain ⟨_, e, g1, g2, _⟩ := C127_report m h3 target hs hus (dist := dist) hd
  rw [hr] at e; cases e
  obtain ⟨_, e, g1', g2', _⟩ := C127_report m' h4 target hs hus (dist := dist') hd'
  rw [hr'] at e; cases e
  have hl := lookup_baseline h1 hm n
  have hl' := lookup_baseline h2 hm' n
  rw [List.flatMap_append] at hl'
  have hmem : n ∈ (cs.flatMap fun c => Spec.validSources w.valid (w.list c)).map w.nameOf := by
    obtain ⟨c, hc, s, hs, e⟩ := hn
    exact List.mem_map.2 ⟨s, List.mem_flatMap.2 ⟨c, hc, hs⟩, e⟩
  generalize (cs.flatMap fun c => Spec.validSources w.valid (w.list c)) = all at hl hl' hmem
  generalize (more.flatMap fun c => Spec.validSources w.valid (w.list c)) = extra at hl'
  unfold Spec.baselineFor at hl hl'
  rw [if_pos hmem] at hl
  rw [List.map_append, if_pos (List.mem_append_left _ hmem), List.filter_append] at hl'
  obtain ⟨i, k1, k2⟩ := hl
  obtain ⟨i', k1', k2'⟩ := hl'
  have hd := hd n
  have hd' := hd' n
  rw [k1] at hd
  rw [k1'] at hd'
  obtain ⟨f, e1, f1⟩ := hd
  obtain ⟨f', e1', f1'⟩ := hd'
  have hne : all.filter (fun s => decide (w.nameOf s = n)) ≠ [] := by
    obtain ⟨s, hs, e⟩ := List.mem_map.1 hmem
    exact List.ne_nil_of_mem (List.mem_filter.2 ⟨hs, by simpa using e⟩)
  have hle := hw i.chunks i'.chunks f f' f1 f1' (fun l hl => by
    rw [learned_index k2']
    exact learned_more hne l ((learned_index k2 l).1 hl))
  have hfew : List.Forall₂ Fewer (Spec.saidOf w (Spec.validSources w.valid (w.list target)) dist' n)
      (Spec.saidOf w (Spec.validSources w.valid (w.list target)) dist n) := by
    unfold Spec.saidOf
    rw [e1, e1']
    refine said_fewer hle _ _ _ (fun _ => Iff.rfl) ?_
    intro s hs evs hc
    obtain ⟨hs, hsn⟩ := List.mem_filter.1 hs
    unfold content at hc
    cases ho : w.openSource s with
    | error e => rw [ho] at hc; cases hc
    | ok reader =>
      rw [ho] at hc
      cases hc
      exact hu s hs (by simpa using hsn) reader ho
  obtain ⟨b1, b2⟩ := fewer_lines hfew
  rw [linesOf_said (g1 n), linesOf_said (g1' n), g2 n, g2' n]
  exact ⟨b1, b2⟩

/-- for the indexes of the program -/
theorem shrinks_indexWorld {C S N E ε : Type} [DecidableEq N] {cfg : LJ.Process.Cfg} {hashing : Bool} {list : C → List (Except E S)} {valid : S → Bool}
    {nameOf : S → N} {isJson : S → Bool} {openSource : S → Except E (Bool → List (Ev ε))} : Shrinks (indexWorld cfg hashing list valid nameOf isJson openSource) := by
  intro chunks chunks' dist dist' hd hd' hsub t ht
  have h1 := hd [t]
  have h1' := hd' [t]
  cases hashing with
  | false =>
    have e : ∀ (ch : List (List Str)), (indexWorld cfg false list valid nameOf isJson openSource).search ch [t] = [0] := by
      intro ch
      show ((List.foldlM (LJ.Process.ChunkIndex.add cfg) .noop ch).bind fun i => i.search cfg [t]).getD [] = _
      rw [LJ.Process.foldl_noop]
      rfl
    rw [e] at h1 h1'
    rw [h1] at h1'
    have : dist' t = dist t := by simpa using h1'.symm
    rw [← this]; exact ht
  | true =>
    have e : ∀ (ch : List (List Str)), (indexWorld cfg true list valid nameOf isJson openSource).search ch [t] =
        [LJ.Index.rowDistance cfg.fp (ch.flatten.map (LJ.Index.rowOf cfg.fp cfg.hash)) (LJ.Index.rowOf cfg.fp cfg.hash t)] := by
      intro ch
      show ((List.foldlM (LJ.Process.ChunkIndex.add cfg) (.hashingTrick LJ.Index.HashingIndex.new) ch).bind fun i => i.search cfg [t]).getD [] = _
      rw [LJ.Process.foldl_hashing]
      have hb := LJ.Index.viaChunks_eq (hash := cfg.hash) cfg.fp ch [t]
      unfold LJ.Index.viaChunks LJ.Index.HashingIndex.build at hb
      revert hb
      cases ch.foldlM (LJ.Index.HashingIndex.add cfg.fp cfg.hash) LJ.Index.HashingIndex.new with
      | none => intro hb; cases hb
      | some i =>
        intro hb
        show (i.search cfg.fp cfg.hash [t]).getD [] = _
        have hb' : i.search cfg.fp cfg.hash [t] = _ := hb
        rw [hb']
        rfl
    rw [e] at h1 h1'
    simp only [List.map_cons, List.map_nil, List.cons.injEq, and_true] at h1 h1'
    have hm := LJ.Index.rowDistance_mono cfg.fp (bs := chunks.flatten.map (LJ.Index.rowOf cfg.fp cfg.hash))
      (bs' := chunks'.flatten.map (LJ.Index.rowOf cfg.fp cfg.hash)) (fun b hb => by
        obtain ⟨l, hl, rfl⟩ := List.mem_map.1 hb
        exact List.mem_map.2 ⟨l, hsub l hl, rfl⟩) (LJ.Index.rowOf cfg.fp cfg.hash t)
    rw [h1, h1'] at hm
    have ht' : dist' t > LJ.Process.THRESHOLD := by
      unfold indexWorld at ht
      exact of_decide_eq_true ht
    show decide (dist t > LJ.Process.THRESHOLD) = true
    exact decide_eq_true (lt_of_lt_of_le ht' hm)

theorem small_shrinks (list : Nat → List (Except Unit String)) (table : List (String × (Bool → List (Ev Unit)))) : Shrinks (small list table) := by
  intro chunks chunks' dist dist' hd hd' hsub t ht
  have h1 := hd [t]
  have h1' := hd' [t]
  simp only [small, List.map_cons, List.map_nil, List.cons.injEq, and_true] at h1 h1' ht ⊢
  rw [← h1]
  rw [← h1'] at ht
  by_cases h : t ∈ chunks.flatten
  · rw [if_pos (hsub t h)] at ht; cases ht
  · rw [if_neg h]; rfl

/-- the number of the lines reported for each source of a name, if the comparison is made -/
def linesFor (w : World Nat String String Nat Unit Unit) (cs : List Nat) (target : Nat) (n : String) : Option (List (String × Nat × Str)) :=
  match train w id cs with
  | .ok m => (match report w m id target with | some (.ok r) => some (Spec.linesOf r n) | _ => none)
  | .error _ => none

/-- C131 does not hold in full: without a source of this name, the only index is used.  One more baseline has a source of this name, which knows less. -/
theorem C131_false :
    let w := small (fun | 0 => [.ok "b1"] | 1 => [.ok "a1"] | _ => [.ok "a2"])
      [("b1", fun _ => [.ok (toyL "p" 1)]), ("a1", fun _ => [.ok (toyL "q" 1)]), ("a2", fun _ => [.ok (toyL "p" 1)])]
    linesFor w [0] 2 "a" = some [] ∧ linesFor w [0, 1] 2 "a" = some [("a2", 1, "p".toList)] := by decide +kernel

/-- Nor for the sources with a marker line: after an anomaly the marker line does not end the report of a source.  With one more baseline it is no anomaly, the report ends, and
the lines which follow it are new when the next source has them. -/
theorem C131_marker_false :
    let w := small (fun | 0 => [.ok "a1"] | 1 => [.ok "a2"] | _ => [.ok "a3", .ok "a4"])
      [("a1", fun _ => [.ok (toyL "p" 1)]), ("a2", fun _ => [.ok (toyL "q" 1)]),
       ("a3", fun _ => [.ok (toyL "q" 1), .ok (toyL "TASK [log-classify" 2), .ok (toyL "r" 3)]), ("a4", fun _ => [.ok (toyL "r" 1)])]
    linesFor w [0] 2 "a" = some [("a3", 1, "q".toList), ("a3", 3, "r".toList)] ∧ linesFor w [0, 1] 2 "a" = some [("a4", 1, "r".toList)] := by decide +kernel

/-- C131 on two sources of a name, with one more baseline of this name and one of another -/
example :
    let w := small (fun | 0 => [.ok "a1"] | 1 => [.ok "b1", .ok "a2"] | _ => [.ok "a3", .ok "b2", .ok "a4"])
      [("a1", fun _ => [.ok (toyL "p" 1)]), ("b1", fun _ => [.ok (toyL "p" 1)]), ("a2", fun _ => [.ok (toyL "q" 1)]),
       ("a3", fun _ => [.ok (toyL "q" 1), .ok (toyL "r" 2), .ok (toyL "p" 3)]), ("b2", fun _ => [.ok (toyL "q" 1)]), ("a4", fun _ => [.ok (toyL "r" 1), .ok (toyL "s" 2)])]
    linesFor w [0] 2 "a" = some [("a3", 1, "q".toList), ("a3", 2, "r".toList), ("a4", 2, "s".toList)] ∧
      linesFor w [0, 1] 2 "a" = some [("a3", 2, "r".toList), ("a4", 2, "s".toList)] := by decide +kernel

end LJ.Report

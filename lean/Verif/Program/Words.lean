/-
C138: how much of a line has to be new for it to be reported, in numbers of words.
-/
import Verif.Index.Words
import Verif.Program.Debug
import Verif.Whole.Rotated
namespace LJ.Program
open LJ.Process (Str Bytes)
open LJ.Paths (Input Res Outside Source)
open LJ.Output (OutputMode)
open LJ.Cli (Fs)
open LJ.Whole (Machine Local)
open LJ.Report (train report)
open LJ.Index.Spec (words common Apart)
open Spec (Log Orders)
variable {M : Machine} {X : Outside Empty} {G : PageMaker} {T : Tool Local Source Str ℝ Unit Unit}

namespace Spec

/-- Two lines share at least 72.2% of the geometric mean of their numbers of words (with squares: 52% of the product).  For lines of `n` words, that is `0.722 n` words. -/
def Similar (hash : Str → Nat) (a b : Str) : Prop :=
  Apart hash a b ∧ 13 * ((words a).card * (words b).card) ≤ 25 * common a b ^ 2

/-- Two lines share at most 67.8% of the geometric mean of their numbers of words (with squares: 46% of the product). -/
def Far (hash : Str → Nat) (a b : Str) : Prop :=
  Apart hash a b ∧ 50 * common a b ^ 2 ≤ 23 * ((words a).card * (words b).card)

end Spec

/-! ### The number of words of a line -/

theorem splitOn_length (l : Str) : (l.splitOn ' ').length ≤ l.length + 1 := by
  show (l.splitOnP _).length ≤ _
  induction l with
  | nil => simp
  | cons c l ih =>
    rw [List.splitOnP_cons_eq_if_modifyHead]
    split
    · simp only [List.length_cons]; omega
    · rw [List.length_modifyHead]; simp only [List.length_cons]; omega

theorem length_bytes (l : Str) : l.length ≤ LJ.Tokenizer.Spec.bytes l := by
  unfold LJ.Tokenizer.Spec.bytes
  induction l with
  | nil => simp
  | cons c l ih =>
    rw [List.map_cons, List.sum_cons, List.length_cons]
    have := c.utf8Size_pos
    omega

theorem utf8_bytes (l : Str) : (LJ.Whole.Spec.utf8 l).length = LJ.Tokenizer.Spec.bytes l := by
  rw [LJ.Whole.utf8_eq]
  unfold LJ.Tokenizer.Spec.bytes
  induction l with
  | nil => rfl
  | cons c l ih => rw [List.flatMap_cons, List.length_append, ih, List.map_cons, List.sum_cons, String.length_utf8EncodeChar]

theorem decode_bytes {b : Bytes} {l : Str} (h : LJ.Whole.decode b = some l) : b.length = LJ.Tokenizer.Spec.bytes l := by
  unfold LJ.Whole.decode at h
  obtain ⟨s, h1, rfl⟩ := Option.map_eq_some_iff.1 h
  rw [← utf8_bytes, LJ.Whole.Spec.utf8, String.ofList_toList, LJ.Codec.stringBytes_bytesString h1]

theorem tok_words (M : Machine) {l : Str} (h : LJ.Tokenizer.Spec.bytes l ≤ 6000) : ((M.tok l).splitOn ' ').length ≤ 84001 := by
  have h1 := splitOn_length (M.tok l)
  have h2 := length_bytes (M.tok l)
  have h3 : LJ.Tokenizer.Spec.bytes (M.tok l) ≤ max (14 * LJ.Tokenizer.Spec.bytes l) 10 := LJ.Tokenizer.C14_linear l
  omega

/-! ### The threshold -/

theorem near_similar {hash : Str → Nat} {known : List Str} {dist : Str → ℝ} (hn : LJ.Whole.Spec.Near hash known dist) {t b : Str}
    (hw : (t.splitOn ' ').length ≤ 84001) (hb : b ∈ known) (h : Spec.Similar hash b t) : ¬ dist t > LJ.Process.THRESHOLD := by
  have hd := LJ.Index.rowDistance_exact hash known t
  have h1 := hd.2 (.inr ⟨b, hb, rfl⟩)
  have h2 := LJ.Index.cosine_similar h.1 h.2
  have h3 := (abs_le.1 ((hn t _ hd).2 84001 hw)).2
  unfold LJ.Process.THRESHOLD
  norm_num at h2 h3 ⊢
  linarith

theorem near_far {hash : Str → Nat} {known : List Str} {dist : Str → ℝ} (hn : LJ.Whole.Spec.Near hash known dist) {t : Str}
    (hw : (t.splitOn ' ').length ≤ 84001) (h : ∀ b ∈ known, Spec.Far hash b t) : dist t > LJ.Process.THRESHOLD := by
  have hd := LJ.Index.rowDistance_exact hash known t
  have h1 : (0.3217 : ℝ) ≤ LJ.Index.rowDistance LJ.Index.FP.exact (known.map (LJ.Index.rowOf LJ.Index.FP.exact hash)) (LJ.Index.rowOf LJ.Index.FP.exact hash t) := by
    rcases hd.1 with e | ⟨b, hb, e⟩
    · rw [e]; norm_num
    · have := LJ.Index.cosine_far (h b hb).1 (h b hb).2
      rw [e]; norm_num at this ⊢; linarith
  have h3 := (abs_le.1 ((hn t _ hd).2 84001 hw)).1
  unfold LJ.Process.THRESHOLD
  norm_num at h1 h3 ⊢
  linarith

/-! ### `diff` -/

/-- C138, `diff a b` of two logs, when the standard output is not a terminal.  The new lines are shown in their order.  A line whose tokens share 72.2% of the words with those
of a line of `a` is not new, and a line whose tokens share at most 67.8% with those of each line of `a` is new, when it is the first one of `b` with its tokens. -/
theorem C138_diff (hM : LJ.Whole.Spec.Ordinary M) (ho : Orders T) {a b : Str} {la lb : List Str} (ha : Log M X a la) (hb : Log M X b lb)
    (hmark : ∀ l ∈ lb, ¬ "TASK [log-classify".toList <:+: l) {mode : OutputMode} (hmode : mode ≠ .fastTerminal) (cache : Bool) (fs : Fs Str) :
    ∃ dist ws, LJ.Whole.Spec.Near M.hash (la.map M.tok) dist ∧ ((localTool M X G T).run mode cache fs ⟨none, none, .diff [a] b⟩).printed =
        (LJ.Output.Spec.page (Spec.lineList lb) ws).map (fun r =>
          LJ.Output.Spec.console (fun l => T.live.score (dist (M.tok l))) (LJ.Output.Spec.shifted r)) ∧
      (ws.map (·.i)).Pairwise (· < ·) ∧ Spec.LongContexts lb.length ws ∧ (lb.length < 512 → Spec.Contexts lb.length ws) ∧
      (∀ (k : Nat) l, lb[k]? = some l → k ∈ ws.map (·.i) → ∀ l' ∈ la, ¬ Spec.Similar M.hash (M.tok l') (M.tok l)) ∧
      ∀ (k : Nat) l, lb[k]? = some l → (∀ j < k, ∀ l', lb[j]? = some l' → M.tok l' ≠ M.tok l) → (∀ l' ∈ la, Spec.Far M.hash (M.tok l') (M.tok l)) →
        k ∈ ws.map (·.i) := by
  obtain ⟨_, _, dist, ws, h1, h2, h3, hlong, hctx, h4⟩ := C101_diff (G := G) hM ho ha hb hmark hmode cache fs
  have hw : ∀ (k : Nat) l, lb[k]? = some l → ((M.tok l).splitOn ' ').length ≤ 84001 := by
    intro k l hl
    obtain ⟨_, _, _, h⟩ := hb.lines l (List.mem_of_getElem? hl)
    rw [utf8_bytes] at h
    exact tok_words M (by omega)
  refine ⟨dist, ws, h1, h4, h3, hlong, hctx, ?_, ?_⟩
  · intro k l hl hk l' hl' hs
    obtain ⟨x, hx, _, hd⟩ := (h2 k).1 hk
    rw [hl] at hx
    cases hx
    exact near_similar h1 (hw k l hl) (List.mem_map_of_mem hl') hs hd
  · intro k l hl hfirst hf
    refine (h2 k).2 ⟨l, hl, fun j hj x hx => hfirst j hj x hx, near_far h1 (hw k l hl) fun t ht => ?_⟩
    obtain ⟨l', hl', rfl⟩ := List.mem_map.1 ht
    exact hf l' hl'

/-! ### Trees -/

theorem content_words (M : Machine) {s : Source} {evs : List (LJ.Process.Ev Unit)} (h : LJ.Whole.Spec.contentOf M s = .ok evs) {l : LJ.Process.LogLine}
    (hl : .ok l ∈ evs) {t : Str} (ht : LJ.Whole.decode l.1 = some t) : ((M.tok t).splitOn ' ').length ≤ 84001 := by
  refine tok_words M ?_
  rw [← decode_bytes ht]
  unfold LJ.Whole.Spec.contentOf at h
  split at h
  · cases h
    unfold LJ.Whole.Spec.read at hl
    obtain ⟨x, hx, e⟩ := List.mem_map.1 hl
    cases e
    unfold LJ.Iterator.Spec.lines LJ.Iterator.Spec.keep at hx
    have := (List.mem_filter.1 hx).2
    rw [Bool.and_eq_true, decide_eq_true_eq, decide_eq_true_eq] at this
    exact this.2
  · cases h

theorem texts_words (M : Machine) {target : Local} {n t : Str} (h : t ∈ LJ.Whole.Spec.tokensOf M target n) : (t.splitOn ' ').length ≤ 84001 := by
  unfold LJ.Whole.Spec.tokensOf at h
  obtain ⟨s, _, hs⟩ := List.mem_flatMap.1 h
  obtain ⟨l, hl, rfl⟩ := List.mem_map.1 hs
  unfold LJ.Whole.Spec.textsOf at hl
  split at hl
  · rename_i evs hc
    obtain ⟨e, he, hd⟩ := List.mem_filterMap.1 hl
    cases e with
    | error e => cases hd
    | ok x => exact content_words M hc he hd
  · cases hl

/-- C138, for files and directories of any content, by a release build.  An anomaly does not share 72.2% of its words with a line which was learned for its name.  When the files
of the target can be read, each of their lines which shares at most 67.8% of its words with each line learned for its name is reported: there is an anomaly
with the same tokens for this name. -/
theorem C138_trees (hrel : M.checks = false) (hfp : M.fp.Standard) (hblocks : ∀ p d, LJ.Iterator.Spec.Blocks (M.cut p d))
    {o1 o2 : List (Str × List Source) → List (Str × List Source)} (h1 : ∀ g, (o1 g).Perm g) (h2 : ∀ g, (o2 g).Perm g) {baselines : List Local} {target : Local}
    {m : LJ.Report.Model Local Source Str} {r : LJ.Report.Report Local Source Str ℝ Unit Unit} (hm : train M.world o1 baselines = .ok m)
    (hr : report M.world m o2 target = some (.ok r)) {n : Str} {tokens : List Str} (hk : LJ.Whole.Spec.known M baselines n = some tokens) :
    (∀ a ∈ Spec.anomaliesOf r n, ∀ b ∈ tokens, ¬ Spec.Similar M.hash b (M.tok a.anomaly.line)) ∧
    ((∀ s ∈ LJ.Whole.Spec.sourcesOf M target, LJ.Whole.Spec.Readable M s) →
      ∀ t ∈ LJ.Whole.Spec.tokensOf M target n, (∀ b ∈ tokens, Spec.Far M.hash b t) → ∃ a ∈ Spec.anomaliesOf r n, M.tok a.anomaly.line = t) := by
  have hs : LJ.Report.SearchOk M.world := LJ.Report.searchOk_indexWorld hfp
  obtain ⟨dist, hd, hpt⟩ := LJ.Whole.trained_distances hrel hfp hblocks h1 hm
  have hd' := hd n
  rw [hk] at hd'
  obtain ⟨f, e1, hnear⟩ := hd'
  have hpt' := hpt n
  cases hi : LJ.Report.lookupOrSingle m.indexes n with
  | none => rw [hi] at hpt'; rw [hpt'] at e1; cases e1
  | some i =>
    rw [hi] at hpt'
    obtain ⟨f', e2, hf⟩ := hpt'
    rw [e1] at e2
    cases e2
    constructor
    · intro a ha b hb hsim
      obtain ⟨_, g2⟩ := LJ.Report.C33_report hs h2 hr n
      rw [found_anomalies] at g2
      obtain ⟨i', f', hi', hf', hall⟩ := g2 (by intro h; rw [List.map_eq_nil_iff] at h; rw [h] at ha; cases ha)
      rw [hi] at hi'
      cases hi'
      have e : f' (M.tok a.anomaly.line) = f (M.tok a.anomaly.line) := by
        have x1 := hf [M.tok a.anomaly.line]
        have x2 := hf' [M.tok a.anomaly.line]
        rw [x1] at x2
        simpa using x2.symm
      obtain ⟨x1, x2⟩ := hall _ (List.mem_map_of_mem ha)
      simp only at x1 x2
      rw [LJ.Whole.over_of, x1, e] at x2
      unfold LJ.Whole.Spec.over at x2
      rw [decide_eq_true_eq] at x2
      refine near_similar hnear ?_ hb hsim x2
      obtain ⟨l, hl, hal⟩ := List.mem_flatMap.1 ha
      obtain ⟨reader, bytes, y1, y2, y3⟩ := anomaly_event hfp h2 hr (List.mem_filter.1 hl).1 hal
      have hc : LJ.Whole.Spec.contentOf M l.source = .ok (reader (M.world.isJson l.source)) := by
        rw [← LJ.Whole.content_of hrel hblocks]
        unfold LJ.Report.content
        rw [y1]
      exact content_words M hc y2 y3
    · intro hgood t ht hfar
      obtain ⟨text, t1, t2⟩ := LJ.Whole.target_read hrel hblocks hgood
      have hnear' : ∀ i : LJ.Report.Index Source, ∃ f, LJ.Process.Spec.Pointwise (M.world.search i.chunks) f :=
        fun i => (LJ.Whole.index_near hfp i.chunks).imp fun _ h => h.1
      choose g hg using hnear'
      have e := LJ.Report.found_normals (n := n) hs hg h2 hr t1
      rw [hi, found_anomalies] at e
      simp only at e
      have eg : g i t = f t := by
        have x1 := hf [t]
        have x2 := hg i [t]
        rw [x1] at x2
        simpa using x2.symm
      have : (t, g i t) ∈ (Spec.anomaliesOf r n).map fun a => (M.tok a.anomaly.line, a.anomaly.distance) := by
        rw [e]
        refine List.mem_map.2 ⟨t, List.mem_filter.2 ⟨?_, ?_⟩, rfl⟩
        · rw [LJ.Process.firsts_id_mem, t2]
          exact ⟨ht, by simp⟩
        · rw [LJ.Whole.over_of, eg]
          exact decide_eq_true (near_far hnear (texts_words M ht) hfar)
      obtain ⟨a, ha, ea⟩ := List.mem_map.1 this
      exact ⟨a, ha, congrArg Prod.fst ea⟩

end LJ.Program

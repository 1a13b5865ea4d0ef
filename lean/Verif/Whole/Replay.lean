/-
C144: a line which was seen before, but for its dates, identifiers and numbers, is not reported.
-/
import Verif.Whole.Known
import Verif.Whole.Listed
import Verif.Report.Once
import Verif.Tokenizer.Props
namespace LJ.Whole
open LJ.Process (Str Bytes Ev)
open LJ.Paths (Source)
open LJ.Report (train report lookupOrSingle)

namespace Spec
open LJ.Tokenizer.Spec (Strip InClass Numbers Uncut ErrorKeyword Trimmed Noise IsSplit SecretAssignment)

/-- Two words are equal, or values of the same volatile kind (dates, hashes, identifiers, cookies, uuids, urls, temporary paths, git references, base64), or
ordinary words which are equal but for their numbers, or ordinary words with a value for the same secret looking key. -/
def SameWord (wd : Char → Bool) (x y : Str) : Prop :=
  x = y ∨ (∃ c k k', Strip x k ∧ Strip y k' ∧ InClass wd c k ∧ InClass wd c k') ∨
  (∃ key w w', Strip x w ∧ Strip y w' ∧ ∀ v ∈ [w, w'], SecretAssignment v key ∧ LJ.Tokenizer.Spec.Ordinary wd v) ∨
  ∃ w w' s, Strip x w ∧ Strip y w' ∧ Numbers w s ∧ Numbers w' s ∧
    (∀ v ∈ [w, w'], LJ.Tokenizer.Spec.Ordinary wd v ∧ Uncut v ∧ ¬ ErrorKeyword v ∧ LJ.Tokenizer.Spec.bytes v < 32)

/-- A line says the same as another one, but for values which change from one run to the next; or both are noise. -/
def Replay (wd : Char → Bool) (l l' : Str) : Prop :=
  ∃ t t', Trimmed l t ∧ Trimmed l' t' ∧
    ((Noise wd t ∧ Noise wd t') ∨
      ¬ Noise wd t ∧ ¬ Noise wd t' ∧ ∃ ps : List (Str × Str), IsSplit t (ps.map Prod.fst) ∧ IsSplit t' (ps.map Prod.snd) ∧ ∀ p ∈ ps, SameWord wd p.1 p.2)

/-- The lines of the baselines which are learned for a name: those of the files of the name (of all files, when they have one other name), each one until a line which is no text. -/
def learnedLines (M : Machine) (baselines : List Local) (n : Str) : List Str :=
  match LJ.Report.Spec.baselineFor nameOf (baselines.flatMap (sourcesOf M)) n with
  | none => []
  | some ss => ss.flatMap fun s => (LJ.Process.Spec.readable decode (((reads M s).map (read (ss.head?.any json))).getD [])).map Prod.snd

end Spec

theorem replay_tokens {wd : Char → Bool} {l l' : Str} (h : Spec.Replay wd l l') : LJ.Tokenizer.process wd l = LJ.Tokenizer.process wd l' := by
  obtain ⟨t, t', h1, h2, ⟨n1, n2⟩ | ⟨n1, n2, ps, s1, s2, hw⟩⟩ := h
  · rw [(LJ.Tokenizer.C15_global_filter l).2 ⟨t, h1, n1⟩, (LJ.Tokenizer.C15_global_filter l').2 ⟨t', h2, n2⟩]
  · refine LJ.Tokenizer.process_pairs h1 h2 n1 n2 s1 s2 fun p hp => ?_
    rcases hw p hp with h | ⟨c, k, k', a1, a2, a3, a4⟩ | ⟨k, w, w', a1, a2, a3⟩ | ⟨w, w', s, a1, a2, a3, a4, a5⟩
    · rw [h]
    · unfold LJ.Tokenizer.tokensOf; rw [LJ.Tokenizer.doProcess_literal a1 a3, LJ.Tokenizer.doProcess_literal a2 a4]
    · obtain ⟨⟨s, v, e, hsep, ⟨d, k', hk, hd⟩, hno, _, _, hsec⟩, b1, b2, b3, b4⟩ := a3 w (by simp)
      obtain ⟨⟨s', v', e', hsep', _, _, _, _, _⟩, c1, c2, c3, c4⟩ := a3 w' (by simp)
      unfold LJ.Tokenizer.tokensOf
      rw [LJ.Tokenizer.doProcess_reach a1 e hk hd hsep hno hsec b1 b2 b3 b4, LJ.Tokenizer.doProcess_reach a2 e' hk hd hsep' hno hsec c1 c2 c3 c4]
    · obtain ⟨b1, b2, b3, b4⟩ := a5 w (by simp)
      obtain ⟨c1, c2, c3, c4⟩ := a5 w' (by simp)
      unfold LJ.Tokenizer.tokensOf
      rw [LJ.Tokenizer.doProcess_plain a1 b1 b2 b3 b4, LJ.Tokenizer.doProcess_plain a2 c1 c2 c3 c4, LJ.Tokenizer.removeNumbers_of a3,
        LJ.Tokenizer.removeNumbers_of a4]

theorem learnedLines_known {M : Machine} {baselines : List Local} {n : Str} {tokens : List Str} (h : Spec.known M baselines n = some tokens) :
    tokens = (Spec.learnedLines M baselines n).map M.tok := by
  unfold Spec.known at h
  unfold Spec.learnedLines
  cases hb : LJ.Report.Spec.baselineFor Spec.nameOf (baselines.flatMap (Spec.sourcesOf M)) n with
  | none => rw [hb] at h; cases h
  | some ss =>
    rw [hb] at h
    simp only [Option.map_some, Option.some.injEq] at h
    rw [← h]
    unfold LJ.Report.Spec.learned
    simp only [List.map_flatMap, List.map_map]
    rfl

/-- C144, for files and directories of any content, read in any way, by a release build.  A line which is a learned line of the baselines of its name with
other dates, identifiers or numbers is not reported.  No two lines which are reported for a name are the same but for such values. -/
theorem C144_replay {M : Machine} (hrel : M.checks = false) (hfp : M.fp.Standard) (hblocks : ∀ p d, LJ.Iterator.Spec.Blocks (M.cut p d))
    {o1 o2 : List (Str × List Source) → List (Str × List Source)} (h1 : ∀ g, (o1 g).Perm g) (h2 : ∀ g, (o2 g).Perm g) {baselines : List Local} {target : Local}
    {m : LJ.Report.Model Local Source Str} (hm : train M.world o1 baselines = .ok m) {r : LJ.Report.Report Local Source Str ℝ Unit Unit}
    (hr : report M.world m o2 target = some (.ok r)) :
    (∀ l ∈ r.logReports, ∀ a ∈ l.anomalies, ∀ b ∈ Spec.learnedLines M baselines l.indexName, ¬ Spec.Replay M.wd b a.anomaly.line) ∧
    ∀ n, ((r.logReports.filter fun l => l.indexName = n).flatMap fun l => l.anomalies).Pairwise fun a a' => ¬ Spec.Replay M.wd a.anomaly.line a'.anomaly.line := by
  have hs : LJ.Report.SearchOk M.world := LJ.Report.searchOk_indexWorld hfp
  obtain ⟨dist, hd, hpt⟩ := trained_distances hrel hfp hblocks h1 hm
  constructor
  · intro l hl a ha b hb hrep
    have hx : (M.world.tokenize a.anomaly.line, a.anomaly.distance) ∈ LJ.Report.found M.world r l.indexName := by
      unfold LJ.Report.found
      exact List.mem_flatMap.2 ⟨l, List.mem_filter.2 ⟨hl, by simp⟩, List.mem_map.2 ⟨a, ha, rfl⟩⟩
    obtain ⟨i, g, e1, e2, e3⟩ := (LJ.Report.C33_report hs h2 hr l.indexName).2 (List.ne_nil_of_mem hx)
    obtain ⟨e4, e5⟩ := e3 _ hx
    have hp := hpt l.indexName
    rw [e1] at hp
    obtain ⟨f, f1, f2⟩ := hp
    have hfg : g (M.world.tokenize a.anomaly.line) = f (M.world.tokenize a.anomaly.line) := by
      have := (e2 [M.world.tokenize a.anomaly.line]).symm.trans (f2 [M.world.tokenize a.anomaly.line])
      simpa using this
    have hk := hd l.indexName
    cases hkn : Spec.known M baselines l.indexName with
    | none => rw [hkn, f1] at hk; cases hk
    | some tokens =>
      rw [hkn] at hk
      obtain ⟨f', g1, g2⟩ := hk
      rw [f1] at g1
      cases g1
      have hin : M.world.tokenize a.anomaly.line ∈ tokens := by
        rw [learnedLines_known hkn]
        exact List.mem_map.2 ⟨b, hb, replay_tokens hrep⟩
      refine near_known g2 hin ?_
      rw [over_of] at e5
      simp only at e4
      rw [e4, hfg] at e5
      exact of_decide_eq_true e5
  · intro n
    have h := (LJ.Report.C33_report hs h2 hr n).1
    unfold LJ.Report.found at h
    rw [List.Nodup, List.pairwise_map] at h
    have e : ((r.logReports.filter fun l => decide (l.indexName = n)).flatMap fun l => l.anomalies.map fun a => (M.world.tokenize a.anomaly.line, a.anomaly.distance)) =
        ((r.logReports.filter fun l => decide (l.indexName = n)).flatMap fun l => l.anomalies).map fun a => (M.world.tokenize a.anomaly.line, a.anomaly.distance) := by
      rw [List.map_flatMap]
    rw [e, List.pairwise_map] at h
    exact h.imp fun hne hrep => hne (replay_tokens hrep)

/-! ### Cases -/

theorem strip_self {x : Str} (h1 : ¬ ['u', '"'] <+: x) (h2 : ¬ ['u', '\''] <+: x) (h3 : ∀ c, x.head? = some c → ¬ LJ.Tokenizer.Spec.Punct c)
    (h4 : ∀ c, x.getLast? = some c → ¬ LJ.Tokenizer.Spec.Punct c) : LJ.Tokenizer.Spec.Strip x x :=
  ⟨0, 0, [], [], by simp, by simpa using h1, by simpa using h2, by simp, by simp, h3, h4⟩

/-- The same line on two days, with other numbers. -/
theorem two_days : Spec.Replay Char.isAlphanum "Monday disk 1 vanished".toList "Friday disk 23 vanished".toList := by
  have trimmed : ∀ l : Str, (∀ c, l.head? = some c → ¬ LJ.Tokenizer.Spec.Ws c) → (∀ c, l.getLast? = some c → ¬ LJ.Tokenizer.Spec.Ws c) → LJ.Tokenizer.Spec.Trimmed l l :=
    fun l h1 h2 => ⟨[], [], by simp, by simp [LJ.Tokenizer.Spec.AllWs], by simp [LJ.Tokenizer.Spec.AllWs], h1, h2⟩
  have ha : LJ.Tokenizer.Spec.Trimmed "Monday disk 1 vanished".toList "Monday disk 1 vanished".toList :=
    trimmed _ (by intro c hc; cases hc; unfold LJ.Tokenizer.Spec.Ws; decide) (by intro c hc; cases hc; unfold LJ.Tokenizer.Spec.Ws; decide)
  have hb : LJ.Tokenizer.Spec.Trimmed "Friday disk 23 vanished".toList "Friday disk 23 vanished".toList :=
    trimmed _ (by intro c hc; cases hc; unfold LJ.Tokenizer.Spec.Ws; decide) (by intro c hc; cases hc; unfold LJ.Tokenizer.Spec.Ws; decide)
  refine ⟨_, _, ha, hb, .inr ⟨?_, ?_, [("Monday".toList, "Friday".toList), ("disk".toList, "disk".toList), ("1".toList, "23".toList),
    ("vanished".toList, "vanished".toList)], ?_, ?_, ?_⟩⟩
  · intro h
    exact absurd ((LJ.Tokenizer.C15_global_filter (wd := Char.isAlphanum) _).2 ⟨_, ha, h⟩) (by decide +kernel)
  · intro h
    exact absurd ((LJ.Tokenizer.C15_global_filter (wd := Char.isAlphanum) _).2 ⟨_, hb, h⟩) (by decide +kernel)
  · refine ⟨[], [("Monday".toList, [' ']), ("disk".toList, [' ']), ("1".toList, [' ']), ("vanished".toList, [])], by decide, by decide, ⟨[], rfl, by simp⟩, ?_, by decide⟩
    intro p hp
    simp only [List.mem_cons, List.not_mem_nil, or_false] at hp
    rcases hp with rfl | rfl | rfl | rfl
    all_goals refine ⟨by unfold LJ.Tokenizer.Spec.IsWord; decide, ?_⟩
    · exact ⟨[[' ']], rfl, by simp⟩
    · exact ⟨[[' ']], rfl, by simp⟩
    · exact ⟨[[' ']], rfl, by simp⟩
    · exact ⟨[], rfl, by simp⟩
  · refine ⟨[], [("Friday".toList, [' ']), ("disk".toList, [' ']), ("23".toList, [' ']), ("vanished".toList, [])], by decide, by decide, ⟨[], rfl, by simp⟩, ?_, by decide⟩
    intro p hp
    simp only [List.mem_cons, List.not_mem_nil, or_false] at hp
    rcases hp with rfl | rfl | rfl | rfl
    all_goals refine ⟨by unfold LJ.Tokenizer.Spec.IsWord; decide, ?_⟩
    · exact ⟨[[' ']], rfl, by simp⟩
    · exact ⟨[[' ']], rfl, by simp⟩
    · exact ⟨[[' ']], rfl, by simp⟩
    · exact ⟨[], rfl, by simp⟩
  · intro p hp
    simp only [List.mem_cons, List.not_mem_nil, or_false] at hp
    have strip : ∀ x ∈ ["Monday".toList, "Friday".toList, "1".toList, "23".toList], LJ.Tokenizer.Spec.Strip x x := by
      intro x hx
      simp only [List.mem_cons, List.not_mem_nil, or_false] at hx
      rcases hx with rfl | rfl | rfl | rfl <;>
        exact strip_self (by decide) (by decide) (by intro c hc; cases hc; unfold LJ.Tokenizer.Spec.Punct; decide)
          (by intro c hc; cases hc; unfold LJ.Tokenizer.Spec.Punct; decide)
    rcases hp with rfl | rfl | rfl | rfl
    · refine .inr (.inl ⟨.date, _, _, strip _ (by simp), strip _ (by simp), ⟨⟨"monday", by decide, by decide⟩, ?_⟩, ⟨⟨"friday", by decide, by decide⟩, ?_⟩⟩)
      · intro c hc; simp [LJ.Tokenizer.Spec.Class.rank] at hc
      · intro c hc; simp [LJ.Tokenizer.Spec.Class.rank] at hc
    · exact .inl rfl
    · exact .inr (.inl ⟨.id, _, _, strip _ (by simp), strip _ (by simp), LJ.Tokenizer.C12_hex_is_id _ (by decide) (by decide) (by decide),
        LJ.Tokenizer.C12_hex_is_id _ (by decide) (by decide) (by decide)⟩)
    · exact .inl rfl

/-- The hypotheses of C144 are met by `rawTree_meets` (the comparison is made by `C127_trees`).  Here is a line which is learned, of which another day has a replay. -/
example : Spec.learnedLines twoDays [.file "old/app.log".toList] (LJ.Paths.indexName "old/app.log".toList) =
    ["Monday disk 1 vanished".toList, "Tuesday all lost".toList] ∧ twoDays.wd = Char.isAlphanum := ⟨by decide +kernel, rfl⟩

end LJ.Whole

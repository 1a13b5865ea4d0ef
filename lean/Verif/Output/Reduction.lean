/-
The reduction shown by the page of a report (C151): the part of the lines of the target which are not reported.
-/
import Verif.Process.ExactProps
import Verif.Report.Props
import Verif.Report.Witness
import Verif.Index.F32
import Mathlib.Tactic.Linarith
import Mathlib.Tactic.Ring
import Mathlib.Tactic.NormNum
import Mathlib.Tactic.FieldSimp
namespace LJ.Output
open LJ.Process (Str Ev Env process)
open LJ.Process.Spec (Pointwise Progress reported)
open LJ.Report (World Model Report report SearchOk)
open LJ.Index (Nearest IsF32 u eta u_pos eta_pos)

/-! ### No more anomalies than lines -/

section
variable {D ε : Type}

theorem reported_count (tok : Str → Str) (dist : Str → D) (over : D → Bool) (decode : LJ.Process.Bytes → Option Str) (r : List (Ev ε)) (p : Progress D) :
    (reported tok dist over decode p r).1.length + p.read ≤ p.held.length + (reported tok dist over decode p r).2.2.read := by
  induction r generalizing p with
  | nil => exact Nat.le_refl _
  | cons e r ih =>
    cases e with
    | error e => simp [reported]
    | ok l =>
      unfold reported
      cases decode l.1 with
      | none => simp
      | some t =>
        simp only
        split
        · split
          · simp only [Progress.count, List.length_nil]; omega
          · have := ih (p.count l).marker
            simp only [Progress.marker, Progress.count, List.length_nil] at this
            simp only [List.length_append, Progress.marker, Progress.count]
            omega
        · have h1 : ((p.count l).line tok dist over ⟨t, l.2⟩).read = p.read + 1 := by
            unfold Progress.line; split
            · rfl
            · split <;> rfl
          have h2 : ((p.count l).line tok dist over ⟨t, l.2⟩).held.length ≤ p.held.length + 1 := by
            unfold Progress.line; split
            · simp [Progress.count]
            · split <;> simp [Progress.count]
          generalize (p.count l).line tok dist over ⟨t, l.2⟩ = p' at h1 h2
          split
          · have := ih p'.next
            have h3 : p'.out.length + p'.next.held.length = p'.held.length := by
              unfold Progress.out Progress.next
              split
              · simp only
                rcases List.eq_nil_or_concat p'.held with h | ⟨a, b, h⟩
                · rw [h]; rfl
                · rw [h]; simp
              · simp
            have h4 : p'.next.read = p'.read := rfl
            simp only [List.length_append]
            omega
          · have := ih p'
            omega

/-- the anomalies of a source are some of its lines -/
theorem process_count {env : Env D} {dist : Str → D} (hs : Pointwise env.search dist) (skip : List Str) (r : List (Ev ε)) :
    (process env skip r).1.length ≤ (process env skip r).2.2.lineCount := by
  obtain ⟨h1, _, _, h2, _⟩ := LJ.Process.C126_exact hs skip r
  have := reported_count env.tokenize dist env.over env.decode r (Progress.start skip)
  rw [h2, ← List.length_map (f := fun c : LJ.Process.AnomalyContext D => c.anomaly), h1]
  simpa [Progress.start] using this

variable {C S N E : Type} [DecidableEq N] {w : World C S N D E ε}

/-- C151: a report never has more anomalies than lines. -/
theorem C151_count (hs : SearchOk w) {m : Model C S N} {order : List (N × List S) → List (N × List S)} (ho : ∀ g, (order g).Perm g)
    {target : C} {r : Report C S N D E ε} (h : report w m order target = some (.ok r)) : r.totalAnomalyCount ≤ r.totalLineCount := by
  obtain ⟨gs, _, rfl⟩ := LJ.Report.report_ok hs ho h
  simp only [LJ.Report.total, LJ.Report.emptyReport, Nat.zero_add]
  refine LJ.Report.sum_mono _ _ _ fun g => ?_
  unfold LJ.Report.groupRuns
  cases LJ.Report.indexFor m g with
  | none => simp
  | some index =>
    simp only
    generalize ([] : List Str) = skip
    induction g.2 generalizing skip with
    | nil => simp [LJ.Report.runs]
    | cons s ss ih =>
      unfold LJ.Report.runs
      cases w.openSource s with
      | error e => simp [LJ.Report.Run.count, LJ.Report.Run.lines]
      | ok reader =>
        obtain ⟨dist, hd⟩ := hs index.chunks
        have h1 := process_count (env := LJ.Report.envOf w index.chunks) hd skip (reader (w.isJson s))
        have h2 := ih (process (LJ.Report.envOf w index.chunks) skip (reader (w.isJson s))).2.2.skipLines
        simp only [List.map_cons, List.sum_cons]
        exact Nat.add_le_add h1 h2

end

/-! ### The number shown -/

/-- A number of `f32`: finite, or what a division by zero gives. -/
inductive Float32 where
  | number (x : ℝ)
  | nan
  | minusInfinity

/-- report.rs:182-185, with `fl` the rounding of `f32`: `as f32`, the division, the product and the difference are rounded. 0 / 0 is NaN,
and 100 minus an infinity is one. -/
noncomputable def reduction (fl : ℝ → ℝ) (anomalies lines : ℕ) : Float32 :=
  if fl lines = 0 then if fl anomalies = 0 then .nan else .minusInfinity
  else .number (fl (100 - fl (fl (fl anomalies / fl lines) * 100)))

section
variable {fl : ℝ → ℝ}

theorem nat_small {n : ℕ} (h : n < 2 ^ 64) : |(n : ℝ)| ≤ 2 ^ 101 := by
  rw [abs_of_nonneg (by positivity)]
  have h2 : (n : ℝ) ≤ ((2 ^ 64 : ℕ) : ℝ) := by exact_mod_cast h.le
  refine h2.trans ?_
  norm_num

theorem fl_nat (hn : Nearest fl) {n : ℕ} (h : n ≤ 2 ^ 24) : fl n = n :=
  hn.exact (nat_small (by omega)) (LJ.Index.isF32_nat h)

theorem fl_between (hn : Nearest fl) {x : ℝ} {a b : ℕ} (ha : (a : ℝ) ≤ x) (hb : x ≤ b) (h : b ≤ 2 ^ 24) : (a : ℝ) ≤ fl x ∧ fl x ≤ b := by
  have hab : a ≤ b := by exact_mod_cast ha.trans hb
  have h0 : (0:ℝ) ≤ x := le_trans (by positivity) ha
  have hx : |x| ≤ 2 ^ 101 := by
    rw [abs_of_nonneg h0]
    refine hb.trans ?_
    have := nat_small (n := b) (by omega)
    rwa [abs_of_nonneg (by positivity)] at this
  refine ⟨?_, ?_⟩
  · rw [← fl_nat hn (n := a) (by omega)]
    exact hn.mono (nat_small (by omega)) hx ha
  · rw [← fl_nat hn (n := b) h]
    exact hn.mono hx (nat_small (by omega)) hb

/-- the steps of the computation -/
theorem steps (hn : Nearest fl) {a l : ℕ} (hal : a ≤ l) (hl : 0 < l) (h64 : l < 2 ^ 64) :
    1 ≤ fl l ∧ 0 ≤ fl a ∧ fl a ≤ fl l ∧ 0 ≤ fl (fl a / fl l) ∧ fl (fl a / fl l) ≤ 1 ∧
    0 ≤ fl (fl (fl a / fl l) * 100) ∧ fl (fl (fl a / fl l) * 100) ≤ 100 ∧
    0 ≤ fl (100 - fl (fl (fl a / fl l) * 100)) ∧ fl (100 - fl (fl (fl a / fl l) * 100)) ≤ 100 := by
  have h1 : (1:ℝ) ≤ fl l := by
    have := hn.mono (nat_small (n := 1) (by norm_num)) (nat_small h64) (by exact_mod_cast hl : ((1:ℕ):ℝ) ≤ (l:ℝ))
    rwa [fl_nat hn (n := 1) (by norm_num), Nat.cast_one] at this
  have h2 : (0:ℝ) ≤ fl a := by
    have := hn.mono (nat_small (n := 0) (by norm_num)) (nat_small (by omega)) (by exact_mod_cast Nat.zero_le a : ((0:ℕ):ℝ) ≤ (a:ℝ))
    rwa [fl_nat hn (n := 0) (by norm_num), Nat.cast_zero] at this
  have h3 : fl a ≤ fl l := hn.mono (nat_small (by omega)) (nat_small h64) (by exact_mod_cast hal)
  have hp : (0:ℝ) < fl l := by linarith
  have h4 := fl_between hn (x := fl a / fl l) (a := 0) (b := 1) (by rw [Nat.cast_zero]; positivity)
    (by rw [Nat.cast_one, div_le_one hp]; exact h3) (by norm_num)
  simp only [Nat.cast_zero, Nat.cast_one] at h4
  have h5 := fl_between hn (x := fl (fl a / fl l) * 100) (a := 0) (b := 100) (by rw [Nat.cast_zero]; linarith [h4.1])
    (by push_cast; linarith [h4.2]) (by norm_num)
  simp only [Nat.cast_zero, Nat.cast_ofNat] at h5
  have h6 := fl_between hn (x := 100 - fl (fl (fl a / fl l) * 100)) (a := 0) (b := 100) (by rw [Nat.cast_zero]; linarith [h5.2])
    (by push_cast; linarith [h5.1]) (by norm_num)
  simp only [Nat.cast_zero, Nat.cast_ofNat] at h6
  exact ⟨h1, h2, h3, h4.1, h4.2, h5.1, h5.2, h6.1, h6.2⟩

/-- the quotient is right to a few units -/
theorem quotient (hn : Nearest fl) {a l : ℕ} (hal : a ≤ l) (hl : 0 < l) (h64 : l < 2 ^ 64) : |fl a / fl l - a / l| ≤ 4 * u + 4 * eta := by
  obtain ⟨h1, h2, h3, _⟩ := steps hn hal hl h64
  have ha := hn.rounding.err a (nat_small (by omega))
  have hb := hn.rounding.err l (nat_small h64)
  have a0 : (0:ℝ) ≤ a := by positivity
  have l1 : (1:ℝ) ≤ l := by exact_mod_cast hl
  have al : (a:ℝ) ≤ l := by exact_mod_cast hal
  rw [abs_of_nonneg a0] at ha
  rw [abs_of_nonneg (by linarith : (0:ℝ) ≤ l)] at hb
  generalize fl (a:ℝ) = A at *
  generalize fl (l:ℝ) = L at *
  generalize (a:ℝ) = a at *
  generalize (l:ℝ) = l at *
  have hu := u_pos
  have he := eta_pos
  have hus : u ≤ 1 / 1000 := by unfold u; norm_num
  have hes : eta ≤ 1 / 1000 := (LJ.Index.eta_le).trans (by linarith)
  have hL : l / 2 ≤ L := by
    have := (abs_le.1 hb).1
    nlinarith
  have e : A / L - a / l = ((A - a) * l - a * (L - l)) / (L * l) := by
    have : L ≠ 0 := by linarith
    have : l ≠ 0 := by linarith
    field_simp
    ring
  have hLl : 0 < L * l := by nlinarith
  rw [e, abs_div, abs_of_pos hLl, div_le_iff₀ hLl]
  have n1 : |(A - a) * l - a * (L - l)| ≤ (u * a + eta) * l + a * (u * l + eta) := by
    refine (abs_sub _ _).trans ?_
    rw [abs_mul, abs_mul, abs_of_nonneg (by linarith : (0:ℝ) ≤ l), abs_of_nonneg a0]
    exact add_le_add (mul_le_mul_of_nonneg_right ha (by linarith)) (mul_le_mul_of_nonneg_left hb a0)
  refine n1.trans ?_
  have n2 : (u * a + eta) * l + a * (u * l + eta) ≤ (2 * u * l + 2 * eta) * l := by
    have : u * a * l ≤ u * l * l := by
      refine mul_le_mul_of_nonneg_right (mul_le_mul_of_nonneg_left al hu.le) (by linarith)
    nlinarith
  refine n2.trans ?_
  have n3 : 2 * u * l + 2 * eta ≤ (4 * u + 4 * eta) * L := by nlinarith
  calc (2 * u * l + 2 * eta) * l ≤ ((4 * u + 4 * eta) * L) * l := mul_le_mul_of_nonneg_right n3 (by linarith)
    _ = (4 * u + 4 * eta) * (L * l) := by ring

/-- C151: the number shown for a target with lines is a percentage, the part of the lines which are not reported, with an error below a
hundredth of a hundredth: all of them when nothing is reported, and none when all are. -/
theorem C151_partial (hn : Nearest fl) {a l : ℕ} (hal : a ≤ l) (hl : 0 < l) (h64 : l < 2 ^ 64) :
    ∃ x, reduction fl a l = .number x ∧ 0 ≤ x ∧ x ≤ 100 ∧ |x - 100 * (1 - (a : ℝ) / l)| ≤ 1 / 10000 ∧ (a = 0 → x = 100) ∧ (a = l → x = 0) := by
  obtain ⟨h1, h2, h3, h4, h5, h6, h7, h8, h9⟩ := steps hn hal hl h64
  refine ⟨_, if_neg (by linarith), h8, h9, ?_, ?_, ?_⟩
  · have q := quotient hn hal hl h64
    have q0 : 0 ≤ fl a / fl l := div_nonneg h2 (by linarith)
    have q1 : fl a / fl l ≤ 1 := by rw [div_le_one (by linarith)]; exact h3
    have big : ∀ x : ℝ, 0 ≤ x → x ≤ 100 → |x| ≤ 2 ^ 101 := fun x h0 h1 => by
      rw [abs_of_nonneg h0]; refine h1.trans ?_; norm_num
    have r1 := hn.rounding.err (fl a / fl l) (big _ q0 (by linarith))
    have r2 := hn.rounding.err (fl (fl a / fl l) * 100) (big _ (by linarith) (by linarith))
    have r3 := hn.rounding.err (100 - fl (fl (fl a / fl l) * 100)) (big _ (by linarith) (by linarith))
    rw [abs_of_nonneg q0] at r1
    rw [abs_of_nonneg (by linarith : (0:ℝ) ≤ fl (fl a / fl l) * 100)] at r2
    rw [abs_of_nonneg (by linarith : (0:ℝ) ≤ 100 - fl (fl (fl a / fl l) * 100))] at r3
    have hu := u_pos
    have he := eta_pos
    have hes := LJ.Index.eta_le
    have huv : u = 1 / 16777216 := rfl
    have m1 : u * (fl a / fl l) ≤ u := by nlinarith
    have m2 : u * (fl (fl a / fl l) * 100) ≤ 100 * u := by nlinarith
    have m3 : u * (100 - fl (fl (fl a / fl l) * 100)) ≤ 100 * u := by nlinarith
    rw [abs_le] at q r1 r2 r3 ⊢
    obtain ⟨qa, qb⟩ := q
    obtain ⟨r1a, r1b⟩ := r1
    obtain ⟨r2a, r2b⟩ := r2
    obtain ⟨r3a, r3b⟩ := r3
    constructor <;> linarith
  · rintro rfl
    have e0 : fl ((0:ℕ):ℝ) = 0 := by simpa using fl_nat hn (n := 0) (by norm_num)
    have z0 : fl 0 = 0 := by simpa using e0
    have e100 : fl 100 = 100 := by simpa using fl_nat hn (n := 100) (by norm_num)
    rw [e0, zero_div, z0, zero_mul, z0, sub_zero, e100]
  · rintro rfl
    have z0 : fl 0 = 0 := by simpa using fl_nat hn (n := 0) (by norm_num)
    have e1 : fl 1 = 1 := by simpa using fl_nat hn (n := 1) (by norm_num)
    have e100 : fl 100 = 100 := by simpa using fl_nat hn (n := 100) (by norm_num)
    rw [div_self (by linarith), e1, one_mul, e100, sub_self, z0]

/-- C151: of two reports on as many lines, the one with more anomalies never shows a higher reduction. -/
theorem C151_monotone (hn : Nearest fl) {a b l : ℕ} (hab : a ≤ b) (hbl : b ≤ l) (hl : 0 < l) (h64 : l < 2 ^ 64) :
    ∃ x y, reduction fl a l = .number x ∧ reduction fl b l = .number y ∧ y ≤ x := by
  obtain ⟨a1, a2, a3, a4, a5, a6, a7, a8, a9⟩ := steps hn (hab.trans hbl) hl h64
  obtain ⟨_, b2, b3, b4, b5, b6, b7, b8, b9⟩ := steps hn hbl hl h64
  refine ⟨_, _, if_neg (by linarith), if_neg (by linarith), ?_⟩
  have big : ∀ x : ℝ, 0 ≤ x → x ≤ 100 → |x| ≤ 2 ^ 101 := fun x h0 h1 => by
    rw [abs_of_nonneg h0]; refine h1.trans ?_; norm_num
  have hp : (0:ℝ) < fl l := by linarith
  have s0 : fl a ≤ fl b := hn.mono (nat_small (by omega)) (nat_small (by omega)) (by exact_mod_cast hab)
  have da : fl a / fl l ≤ 1 := by rw [div_le_one hp]; exact a3
  have db : fl b / fl l ≤ 1 := by rw [div_le_one hp]; exact b3
  have s1 : fl (fl a / fl l) ≤ fl (fl b / fl l) :=
    hn.mono (big _ (div_nonneg a2 hp.le) (by linarith)) (big _ (div_nonneg b2 hp.le) (by linarith)) (div_le_div_of_nonneg_right s0 hp.le)
  have s2 : fl (fl (fl a / fl l) * 100) ≤ fl (fl (fl b / fl l) * 100) :=
    hn.mono (big _ (by linarith) (by linarith)) (big _ (by linarith) (by linarith)) (by linarith)
  exact hn.mono (big _ (by linarith) (by linarith)) (big _ (by linarith) (by linarith)) (by linarith)

variable {C S N D E ε : Type} [DecidableEq N] {w : World C S N D E ε}

/-- C151: exactly what the page of a report shows: a percentage, or NaN when no line of the target was read. -/
theorem C151_report (hn : Nearest fl) (hs : SearchOk w) {m : Model C S N} {order : List (N × List S) → List (N × List S)}
    (ho : ∀ g, (order g).Perm g) {target : C} {r : Report C S N D E ε} (h : report w m order target = some (.ok r)) (h64 : r.totalLineCount < 2 ^ 64) :
    (0 < r.totalLineCount → ∃ x, reduction fl r.totalAnomalyCount r.totalLineCount = .number x ∧ 0 ≤ x ∧ x ≤ 100 ∧
      |x - 100 * (1 - (r.totalAnomalyCount : ℝ) / r.totalLineCount)| ≤ 1 / 10000) ∧
    (r.totalLineCount = 0 → reduction fl r.totalAnomalyCount r.totalLineCount = .nan) := by
  have hc := C151_count hs ho h
  refine ⟨fun h0 => ?_, fun h0 => ?_⟩
  · obtain ⟨x, h1, h2, h3, h4, _⟩ := C151_partial hn hc h0 h64
    exact ⟨x, h1, h2, h3, h4⟩
  · have : r.totalAnomalyCount = 0 := by omega
    have z0 : fl ((0:ℕ):ℝ) = 0 := by simpa using fl_nat hn (n := 0) (by norm_num)
    rw [h0, this, reduction, if_pos z0, if_pos z0]

/-- C151: the two decimals shown, whatever the rule for ties: between 0.00 and 100.00, within 0.0051 of the part of the lines which are not
reported. -/
theorem C151_decimals (hn : Nearest fl) {a l : ℕ} (hal : a ≤ l) (hl : 0 < l) (h64 : l < 2 ^ 64) {x : ℝ} (hx : reduction fl a l = .number x) {k : ℤ}
    (hk : |100 * x - k| ≤ 1 / 2) : 0 ≤ k ∧ k ≤ 10000 ∧ |(k : ℝ) / 100 - 100 * (1 - (a : ℝ) / l)| ≤ 51 / 10000 := by
  obtain ⟨y, h1, h2, h3, h4, _⟩ := C151_partial hn hal hl h64
  rw [hx] at h1
  cases h1
  rw [abs_le] at hk h4
  refine ⟨?_, ?_, ?_⟩
  · have : (-1 : ℝ) < k := by linarith
    have : (-1 : ℤ) < k := by exact_mod_cast this
    omega
  · have : (k : ℝ) < 10001 := by linarith
    have : k < 10001 := by exact_mod_cast this
    omega
  · rw [abs_le]
    constructor <;> linarith

end

/-- The full claim: the number shown by the page of a report on a target which could be read is a percentage. -/
def Spec.C151 {C S N D E ε : Type} [DecidableEq N] (fl : ℝ → ℝ) (w : World C S N D E ε) : Prop :=
  ∀ m target r, report w m id target = some (.ok r) → r.totalLineCount < 2 ^ 64 →
    ∃ x, reduction fl r.totalAnomalyCount r.totalLineCount = .number x ∧ 0 ≤ x ∧ x ≤ 100

/-- a baseline, an empty file, and a file with a known line and a new one -/
def emptyTarget : World Nat String String Nat Unit Unit :=
  LJ.Report.small (fun | 0 => [.ok "a1"] | 1 => [.ok "a2"] | _ => [.ok "a3"])
    [("a1", fun _ => [.ok (LJ.Process.toyL "p" 1)]), ("a2", fun _ => []), ("a3", fun _ => [.ok (LJ.Process.toyL "p" 1), .ok (LJ.Process.toyL "q" 2)])]

/-- C151 does not hold: the page of the report on an empty file shows "NaN% reduction (from 0 to 0)". -/
theorem C151_false {fl : ℝ → ℝ} (hn : Nearest fl) : ¬ Spec.C151 fl emptyTarget := by
  intro h
  have e : ∃ m r, LJ.Report.train emptyTarget id [0] = .ok m ∧ report emptyTarget m id 1 = some (.ok r) ∧ r.indexErrors = [] ∧ r.readErrors = [] ∧
      r.totalLineCount = 0 :=
    ⟨⟨[0], [("a", ⟨["a1"], [["p".toList]], 1, 1⟩)]⟩, _, rfl, rfl, by decide +kernel, by decide +kernel, by decide +kernel⟩
  obtain ⟨m, r, _, h1, _, _, h2⟩ := e
  obtain ⟨x, h3, _⟩ := h m 1 r h1 (by omega)
  have hs : SearchOk emptyTarget := LJ.Report.small_search _ _
  rw [(C151_report hn hs (fun _ => .refl _) h1 (by omega)).2 h2] at h3
  cases h3

/-- Non-vacuity: a report with two lines and an anomaly, and a rounding to nearest; the reduction is 50 up to the error. -/
example : ∃ m r fl, report emptyTarget m id 2 = some (.ok r) ∧ r.totalLineCount = 2 ∧ r.totalAnomalyCount = 1 ∧ Nearest fl ∧
    ∃ x, reduction fl r.totalAnomalyCount r.totalLineCount = .number x ∧ |x - 50| ≤ 1 / 10000 := by
  obtain ⟨fl, hn⟩ := LJ.Index.exists_nearest
  have e : ∃ m r, report emptyTarget m id 2 = some (.ok r) ∧ r.totalLineCount = 2 ∧ r.totalAnomalyCount = 1 :=
    ⟨⟨[0], [("a", ⟨["a1"], [["p".toList]], 1, 1⟩)]⟩, _, rfl, by decide +kernel, by decide +kernel⟩
  obtain ⟨m, r, h1, h2, h3⟩ := e
  refine ⟨m, r, fl, h1, h2, h3, hn, ?_⟩
  obtain ⟨x, h4, _, _, h5, _⟩ := C151_partial hn (a := 1) (l := 2) (by norm_num) (by norm_num) (by norm_num)
  refine ⟨x, by rw [h2, h3]; exact h4, ?_⟩
  have : (100 * (1 - ((1:ℕ) : ℝ) / (2:ℕ)) : ℝ) = 50 := by norm_num
  rwa [this] at h5

end LJ.Output

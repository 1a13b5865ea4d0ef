/-
C140: a baseline whose reading fails.
-/
import Verif.Report.More
import Verif.Report.Secret
namespace LJ.Report
open LJ.Process (Str Bytes Ev Env Trainer toyL)
open LJ.Process.Spec (Unmarked)
variable {C S N D E ε : Type} [DecidableEq N]

namespace Spec

/-- A line of text. -/
def isText (decode : Bytes → Option Str) : Ev ε → Bool
  | .ok l => (decode l.1).isSome
  | .error _ => false

/-- The same world, in which each file ends where its reading fails: before the first error, or before the first line which is no text. -/
def shortened (w : World C S N D E ε) : World C S N D E ε :=
  { w with openSource := fun s => (w.openSource s).map fun reader json => (reader json).takeWhile (isText w.decode) }

/-- Some lines, and the same lines interrupted by an error at some place. -/
def Interrupted (r r' : List (Ev ε)) : Prop := r' = r ∨ ∃ k e, r' = r.take k ++ [.error e]

/-- The readers of the baselines may fail before the end. -/
def MayFail (w : World C S N D E ε) (cs : List C) (o : S → Except E (Bool → List (Ev ε))) : Prop :=
  ∀ s ∈ cs.flatMap (fun c => validSources w.valid (w.list c)), ∀ reader reader', w.openSource s = .ok reader → o s = .ok reader' →
    ∀ json, Interrupted (reader json) (reader' json)

/-- C140 in full: a comparison with baselines whose reading fails does not end as if nothing had happened: the training is an error, or the failure is in the report, or the lines
reported are those which would be reported without the failure. -/
def C140 (w : World C S N D E ε) : Prop :=
  ∀ (cs : List C) (target : C) (o : S → Except E (Bool → List (Ev ε))) (m m' : Model C S N) (r r' : Report C S N D E ε), MayFail w cs o →
    train w id cs = .ok m → train { w with openSource := o } id cs = .ok m' → report w m id target = some (.ok r) → report w m' id target = some (.ok r') →
    (∃ s ∈ cs.flatMap (fun c => validSources w.valid (w.list c)), (∃ e, (s, e) ∈ r'.readErrors) ∨ ∃ ss ∈ r'.indexErrors, s ∈ ss) ∨ ∀ n, linesOf r' n = linesOf r n

end Spec
open Spec (isText shortened Interrupted MayFail)

omit [DecidableEq N] in
theorem add_shortened {env : Env D} : ∀ (r : List (Ev ε)) (t : Trainer), (t.add env r).2 = (t.add env (r.takeWhile (isText env.decode))).2
  | [], _ => rfl
  | .error _ :: _, _ => rfl
  | .ok l :: r, t => by
    rw [List.takeWhile_cons]
    unfold Trainer.add
    cases h : env.decode l.1 with
    | none => simp only [isText, h, Option.isSome_none, Bool.false_eq_true, if_false]
    | some x =>
      simp only [isText, h, Option.isSome_some, if_true]
      exact add_shortened r _

variable {w : World C S N D E ε}

omit [DecidableEq N] in
theorem sources_shortened (json : Bool) : ∀ (ss : List S) (t : Trainer), trainSources w json ss t = trainSources (shortened w) json ss t
  | [], _ => rfl
  | s :: ss, t => by
    unfold trainSources
    cases h : w.openSource s with
    | error e =>
      have : (shortened w).openSource s = .error e := by simp only [shortened, h, Except.map]
      rw [this]
    | ok reader =>
      have : (shortened w).openSource s = .ok fun json => (reader json).takeWhile (isText w.decode) := by simp only [shortened, h, Except.map]
      rw [this]
      simp only
      rw [add_shortened (env := envOf w []) (reader json) t]
      exact sources_shortened json ss _

omit [DecidableEq N] in
theorem index_shortened (ss : List S) : trainIndex w ss = trainIndex (shortened w) ss := by
  unfold trainIndex
  have := fun json => sources_shortened (w := w) json ss .new
  cases ss with
  | nil => rfl
  | cons s ss =>
    simp only
    rw [this]
    rfl

omit [DecidableEq N] in
theorem groups_shortened : ∀ g : List (N × List S), trainGroups w g = trainGroups (shortened w) g
  | [] => rfl
  | (n, ss) :: g => by
    unfold trainGroups
    rw [index_shortened ss, groups_shortened g]

/-- C140: the model which is trained is exactly the one of files which end where their reading fails.  Neither the model nor the result of the training has a trace of the failure. -/
theorem C140_exact (order : List (N × List S) → List (N × List S)) (cs : List C) : train w order cs = train (shortened w) order cs := by
  unfold train
  have e : groupSources (shortened w) cs = groupSources w cs := group_open cs []
  rw [e]
  cases groupSources w cs with
  | error _ => rfl
  | ok g =>
    simp only
    rw [groups_shortened]

/-- reports of models of which one knows more -/
theorem report_fewer (hs : SearchOk w) (hw : Shrinks w) {o3 o4 : List (N × List S) → List (N × List S)} (h3 : ∀ g, (o3 g).Perm g) (h4 : ∀ g, (o4 g).Perm g)
    {target : C} {m m' : Model C S N} {r r' : Report C S N D E ε} (hr : report w m o3 target = some (.ok r)) (hr' : report w m' o4 target = some (.ok r'))
    (hl : ∀ n, match lookupOrSingle m.indexes n, lookupOrSingle m'.indexes n with
      | some i, some i' => ∀ l ∈ i'.chunks.flatten, l ∈ i.chunks.flatten
      | none, none => True
      | _, _ => False) :
    (∀ ss, ss ∈ r'.indexErrors ↔ ss ∈ r.indexErrors) ∧
    ∀ n, (∀ s ∈ Spec.validSources w.valid (w.list target), w.nameOf s = n → ∀ reader, w.openSource s = .ok reader → Unmarked w.decode (reader (w.isJson s))) →
      (Spec.linesOf r n).Sublist (Spec.linesOf r' n) ∧ r'.readErrors.filter (fun x => w.nameOf x.1 = n) = r.readErrors.filter fun x => w.nameOf x.1 = n := by
  have hus : Spec.Usable w.valid (w.list target) := by
    obtain ⟨_, e, h⟩ := report_total hs m o3 h3 target
    rw [hr] at e
    cases e
    exact h.1 ⟨r, rfl⟩
  obtain ⟨dist, hd⟩ := dist_of_search hs m
  obtain ⟨dist', hd'⟩ := dist_of_search hs m'
  obtain ⟨_, e, g1, g2, _, g4⟩ := C127_report m h3 target hs hus (dist := dist) hd
  rw [hr] at e; cases e
  obtain ⟨_, e, g1', g2', _, g4'⟩ := C127_report m' h4 target hs hus (dist := dist') hd'
  rw [hr'] at e; cases e
  constructor
  · intro ss
    rw [g4, g4']
    have : ∀ n, dist' n = none ↔ dist n = none := by
      intro n
      have a := hl n
      have b := hd n
      have b' := hd' n
      cases e : lookupOrSingle m.indexes n with
      | none =>
        cases e' : lookupOrSingle m'.indexes n with
        | none => rw [e] at b; rw [e'] at b'; simp only at b b'; rw [b, b']
        | some i' => rw [e, e'] at a; exact a.elim
      | some i =>
        cases e' : lookupOrSingle m'.indexes n with
        | none => rw [e, e'] at a; exact a.elim
        | some i' =>
          rw [e] at b; rw [e'] at b'
          obtain ⟨f, b, _⟩ := b
          obtain ⟨f', b', _⟩ := b'
          rw [b, b']
          simp
    simp only [this]
  · intro n hu
    have a := hl n
    have b := hd n
    have b' := hd' n
    have hfew : List.Forall₂ Fewer (Spec.saidOf w (Spec.validSources w.valid (w.list target)) dist n)
        (Spec.saidOf w (Spec.validSources w.valid (w.list target)) dist' n) := by
      unfold Spec.saidOf
      cases e : lookupOrSingle m.indexes n with
      | none =>
        cases e' : lookupOrSingle m'.indexes n with
        | none => rw [e] at b; rw [e'] at b'; simp only at b b'; rw [b, b']; exact .nil
        | some i' => rw [e, e'] at a; exact a.elim
      | some i =>
        cases e' : lookupOrSingle m'.indexes n with
        | none => rw [e, e'] at a; exact a.elim
        | some i' =>
          rw [e] at b; rw [e'] at b'
          rw [e, e'] at a
          obtain ⟨f, b, f1⟩ := b
          obtain ⟨f', b', f1'⟩ := b'
          rw [b, b']
          refine said_fewer (hw i'.chunks i.chunks f' f f1' f1 a) _ _ _ (fun _ => Iff.rfl) ?_
          intro s hs evs hc
          obtain ⟨hs, hsn⟩ := List.mem_filter.1 hs
          unfold content at hc
          cases ho : w.openSource s with
          | error e => rw [ho] at hc; cases hc
          | ok reader =>
            rw [ho] at hc
            cases hc
            exact hu s hs (by simpa using hsn) reader ho
    obtain ⟨b1, b2⟩ := fewer_lines hfew
    rw [linesOf_said (g1 n), linesOf_said (g1' n), g2 n, g2' n]
    exact ⟨b1, b2.symm⟩

omit [DecidableEq N] in
theorem readable_interrupted {decode : Bytes → Option Str} {r r' : List (Ev ε)} (h : Interrupted r r') :
    ∀ y ∈ LJ.Process.Spec.readable decode r', y ∈ LJ.Process.Spec.readable decode r := by
  rcases h with rfl | ⟨k, e, rfl⟩
  · exact fun _ h => h
  · induction r generalizing k with
    | nil => intro y hy; rw [List.take_nil] at hy; cases hy
    | cons x r ih =>
      intro y hy
      cases k with
      | zero => cases hy
      | succ k =>
        rw [List.take_succ_cons, List.cons_append] at hy
        cases x with
        | error _ => exact hy
        | ok l =>
          unfold LJ.Process.Spec.readable at hy ⊢
          cases hd : decode l.1 with
          | none => rw [hd] at hy; exact hy
          | some t =>
            rw [hd] at hy
            simp only at hy ⊢
            rcases List.mem_cons.1 hy with h | h
            · exact List.mem_cons.2 (.inl h)
            · exact List.mem_cons.2 (.inr (ih k y h))

/-- C140, what holds: a failure while the baselines are read can only add lines to a report.  For each name, when no source of this name in the target has a marker line, the lines
reported with the whole baselines are reported, in the same order, and the errors of the report are the same: those of the target, and the kinds of files without a baseline.
What is missing: that nothing is added (`C140_false`), and the marker lines (see `C131_marker_false`). -/
theorem C140_partial (hs : SearchOk w) (hw : Shrinks w) {o : S → Except E (Bool → List (Ev ε))} {o1 o2 o3 o4 : List (N × List S) → List (N × List S)} (h1 : ∀ g, (o1 g).Perm g)
    (h2 : ∀ g, (o2 g).Perm g) (h3 : ∀ g, (o3 g).Perm g) (h4 : ∀ g, (o4 g).Perm g) {cs : List C} {target : C} {m m' : Model C S N} {r r' : Report C S N D E ε}
    (hc : MayFail w cs o) (hm : train w o1 cs = .ok m) (hm' : train { w with openSource := o } o2 cs = .ok m')
    (hr : report w m o3 target = some (.ok r)) (hr' : report w m' o4 target = some (.ok r')) :
    (∀ ss, ss ∈ r'.indexErrors ↔ ss ∈ r.indexErrors) ∧
    ∀ n, (∀ s ∈ Spec.validSources w.valid (w.list target), w.nameOf s = n → ∀ reader, w.openSource s = .ok reader → Unmarked w.decode (reader (w.isJson s))) →
      (Spec.linesOf r n).Sublist (Spec.linesOf r' n) ∧ r'.readErrors.filter (fun x => w.nameOf x.1 = n) = r.readErrors.filter fun x => w.nameOf x.1 = n := by
  refine report_fewer hs hw h3 h4 hr hr' fun n => ?_
  have l := lookup_baseline h1 hm n
  have l' := lookup_baseline h2 hm' n
  have opened := ((C75_train h1 cs).1.1 ⟨m, hm⟩).2
  have opened' := ((C75_train h2 cs).1.1 ⟨m', hm'⟩).2
  have hsub : ∀ ss, Spec.baselineFor w.nameOf (cs.flatMap fun c => Spec.validSources w.valid (w.list c)) n = some ss →
      ∀ s ∈ ss, s ∈ cs.flatMap fun c => Spec.validSources w.valid (w.list c) := by
    intro ss hss s hs
    unfold Spec.baselineFor at hss
    split at hss
    · cases hss
      exact (List.mem_filter.1 hs).1
    · split at hss
      · cases hss
      · rename_i e
        split at hss
        · cases hss; exact hs
        · cases hss
  simp only at l l'
  cases e : Spec.baselineFor w.nameOf (cs.flatMap fun c => Spec.validSources w.valid (w.list c)) n with
  | none =>
    rw [e] at l l'
    simp only at l l'
    rw [l, l']
    trivial
  | some ss =>
    rw [e] at l l'
    obtain ⟨i, a1, a2⟩ := l
    obtain ⟨i', b1, b2⟩ := l'
    rw [a1, b1]
    intro x hx
    rw [learned_index a2]
    rw [learned_index b2] at hx
    unfold Spec.learned at hx ⊢
    rw [List.mem_flatMap] at hx ⊢
    obtain ⟨s, hs, hx⟩ := hx
    refine ⟨s, hs, ?_⟩
    obtain ⟨y, hy, rfl⟩ := List.mem_map.1 hx
    refine List.mem_map.2 ⟨y, ?_, rfl⟩
    obtain ⟨c, hcm, hsc⟩ := List.mem_flatMap.1 (hsub ss e s hs)
    obtain ⟨reader, r1⟩ := opened c hcm s hsc
    obtain ⟨reader', r2⟩ := opened' c hcm s hsc
    have r2 : o s = .ok reader' := r2
    unfold readLines at hy ⊢
    simp only [r2] at hy
    rw [r1]
    exact readable_interrupted (hc s (hsub ss e s hs) reader reader' r1 r2 _) y hy

/-- a baseline of two lines, and a target which has the second one -/
def twoLines : World Nat String String Nat Unit Unit :=
  small (fun | 0 => [.ok "a1"] | _ => [.ok "a2"]) [("a1", fun _ => [.ok (toyL "p" 1), .ok (toyL "q" 2)]), ("a2", fun _ => [.ok (toyL "q" 1)])]

/-- the reading of the baseline fails after its first line -/
def failing : String → Except Unit (Bool → List (Ev Unit)) := fun s => if s = "a1" then .ok fun _ => [.ok (toyL "p" 1), .error ()] else twoLines.openSource s

theorem failing_may : MayFail twoLines [0] failing := by
  intro s hs reader reader' h h' json
  have e : ([0].flatMap fun c => Spec.validSources twoLines.valid (twoLines.list c)) = ["a1"] := by decide +kernel
  rw [e] at hs
  rw [List.mem_singleton] at hs
  subst hs
  cases h
  cases h'
  exact .inr ⟨1, (), rfl⟩

/-- C140 does not hold: the reading of the baseline fails after its first line, the comparison is made without an error, and its second line is reported in the target as new. -/
theorem C140_false : ¬ Spec.C140 twoLines := by
  intro h
  have t1 : (match train twoLines id [0] with
    | .ok m => (match train { twoLines with openSource := failing } id [0] with
      | .ok m' => (match report twoLines m id 1, report twoLines m' id 1 with
        | some (.ok r), some (.ok r') => r'.readErrors.isEmpty && r'.indexErrors.isEmpty && decide (Spec.linesOf r "a" = [] ∧ Spec.linesOf r' "a" = [("a2", 1, "q".toList)])
        | _, _ => false)
      | _ => false)
    | _ => false) = true := by decide +kernel
  cases hm : train twoLines id [0] with
  | error e => rw [hm] at t1; cases t1
  | ok m =>
    rw [hm] at t1
    cases hm' : train { twoLines with openSource := failing } id [0] with
    | error e => rw [hm'] at t1; cases t1
    | ok m' =>
      rw [hm'] at t1
      simp only at t1
      cases hr : report twoLines m id 1 with
      | none => rw [hr] at t1; cases t1
      | some x =>
        cases x with
        | error e => rw [hr] at t1; cases t1
        | ok r =>
          cases hr' : report twoLines m' id 1 with
          | none => rw [hr, hr'] at t1; cases t1
          | some x =>
            cases x with
            | error e => rw [hr, hr'] at t1; cases t1
            | ok r' =>
              rw [hr, hr'] at t1
              simp only [Bool.and_eq_true, List.isEmpty_iff, decide_eq_true_eq] at t1
              obtain ⟨⟨a1, a2⟩, a3, a4⟩ := t1
              rcases h [0] 1 failing m m' r r' failing_may hm hm' hr hr' with ⟨s, _, ⟨e, h⟩ | ⟨ss, h, _⟩⟩ | h
              · rw [a1] at h; cases h
              · rw [a2] at h; cases h
              · have := h "a"
                rw [a3, a4] at this
                cases this

/-- The hypotheses of `C140_partial` are met by this case. -/
example : SearchOk twoLines ∧ Shrinks twoLines ∧ MayFail twoLines [0] failing := ⟨small_search _ _, small_shrinks _ _, failing_may⟩

end LJ.Report

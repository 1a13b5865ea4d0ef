/-
C135: only the normalised lines of the target decide what is reported of it.
-/
import Verif.Process.Alike
import Verif.Report.Kinds
import Verif.Report.Known
import Mathlib.Data.List.Forall2
namespace LJ.Report
open LJ.Process (Str Bytes Ev Env AnomalyContext)
open LJ.Process (toyL)
open LJ.Process.Spec (Alike normal)
variable {C S N D E ε : Type} [DecidableEq N]

namespace Spec

/-- Two contents which differ at most in what is removed by the normalisation: their lines are alike, or they can't be opened for the same reason. -/
def AlikeContent (tok : Str → Str) (decode : Bytes → Option Str) : Except E (List (Ev ε)) → Except E (List (Ev ε)) → Prop
  | .ok r, .ok r' => List.Forall₂ (Alike tok decode) r r'
  | .error e, .error e' => e = e'
  | _, _ => False

/-- Two sources of the same name whose contents are alike, in two worlds. -/
def AlikeSource (w w' : World C S N D E ε) (s s' : S) : Prop :=
  w.nameOf s = w.nameOf s' ∧ AlikeContent w.tokenize w.decode (content w s) (content w' s')

end Spec
open Spec (AlikeContent AlikeSource)

/-- what is said of two sources is alike -/
def AlikeSaid (tok : Str → Str) (R : S → S → Prop) (x x' : Spec.Said S D E ε) : Prop :=
  R x.source x'.source ∧ x.anomalies.map (normal tok) = x'.anomalies.map (normal tok) ∧ x.lines = x'.lines ∧ x.error = x'.error

theorem said_alike {tok : Str → Str} {dist : Str → D} {over : D → Bool} {decode : Bytes → Option Str} {content content' : S → Except E (List (Ev ε))} {R : S → S → Prop} :
    ∀ {ss ss' : List S} (seen : List Str), List.Forall₂ (fun s s' => R s s' ∧ AlikeContent tok decode (content s) (content' s')) ss ss' →
      List.Forall₂ (AlikeSaid tok R) (Spec.said tok dist over decode content seen ss) (Spec.said tok dist over decode content' seen ss')
  | _, _, _, .nil => .nil
  | s :: ss, s' :: ss', seen, .cons ⟨hR, h⟩ hs => by
    rw [Spec.said, Spec.said]
    cases hc : content s with
    | error e =>
      rw [hc] at h
      cases hc' : content' s' with
      | error e' =>
        rw [hc'] at h
        have : e = e' := h
        subst this
        exact .cons ⟨hR, rfl, rfl, rfl⟩ .nil
      | ok r' => rw [hc'] at h; exact h.elim
    | ok r =>
      rw [hc] at h
      cases hc' : content' s' with
      | error e' => rw [hc'] at h; exact h.elim
      | ok r' =>
        rw [hc'] at h
        obtain ⟨c1, c2, c3⟩ := LJ.Process.shown_alike (dist := dist) (over := over) (p := .start seen) (p' := .start seen) h rfl
        obtain ⟨d1, _, _, _, _, d6⟩ := LJ.Process.norm_seen c3
        simp only
        refine .cons ⟨hR, c1, d6, by simp only [c2]⟩ ?_
        rw [d1]
        exact said_alike _ hs

theorem alike_filter {f : S → N} {R : S → S → Prop} (hR : ∀ s s', R s s' → f s = f s') (n : N) : ∀ {ss ss' : List S}, List.Forall₂ R ss ss' →
    List.Forall₂ R (ss.filter fun s => f s = n) (ss'.filter fun s => f s = n)
  | _, _, .nil => .nil
  | s :: ss, s' :: ss', .cons h hs => by
    rw [List.filter_cons, List.filter_cons, hR _ _ h]
    split
    · exact .cons h (alike_filter hR n hs)
    · exact alike_filter hR n hs

theorem alike_shown {tok : Str → Str} {R : S → S → Prop} : ∀ {xs xs' : List (Spec.Said S D E ε)}, List.Forall₂ (AlikeSaid tok R) xs xs' →
    List.Forall₂ (AlikeSaid tok R) (xs.filter fun x => !x.anomalies.isEmpty) (xs'.filter fun x => !x.anomalies.isEmpty)
  | _, _, .nil => .nil
  | x :: xs, x' :: xs', .cons h hs => by
    have : x.anomalies.isEmpty = x'.anomalies.isEmpty := by
      have := congrArg List.isEmpty h.2.1
      simpa using this
    rw [List.filter_cons, List.filter_cons, this]
    split
    · exact .cons h (alike_shown hs)
    · exact alike_shown hs

theorem alike_errors {tok : Str → Str} {R : S → S → Prop} : ∀ {xs xs' : List (Spec.Said S D E ε)}, List.Forall₂ (AlikeSaid tok R) xs xs' →
    List.Forall₂ (fun (a b : S × ReadErr E ε) => R a.1 b.1 ∧ a.2 = b.2) (xs.filterMap fun x => x.error.map fun e => (x.source, e))
      (xs'.filterMap fun x => x.error.map fun e => (x.source, e))
  | _, _, .nil => .nil
  | x :: xs, x' :: xs', .cons h hs => by
    obtain ⟨s, a, l, b, e⟩ := x
    obtain ⟨s', a', l', b', e'⟩ := x'
    obtain ⟨h1, _, _, h4⟩ := h
    have : e = e' := h4
    subst this
    cases e with
    | none =>
      have := alike_errors hs
      simpa using this
    | some e => exact .cons ⟨h1, rfl⟩ (alike_errors hs)

theorem alike_lines {tok : Str → Str} {R : S → S → Prop} : ∀ {xs xs' : List (Spec.Said S D E ε)}, List.Forall₂ (AlikeSaid tok R) xs xs' →
    xs.map (·.lines) = xs'.map (·.lines)
  | _, _, .nil => rfl
  | x :: xs, x' :: xs', .cons h hs => by
    rw [List.map_cons, List.map_cons, h.2.2.1, alike_lines hs]

omit [DecidableEq N] in
theorem alike_names {f : S → N} {R : S → S → Prop} (hR : ∀ s s', R s s' → f s = f s') : ∀ {ss ss' : List S}, List.Forall₂ R ss ss' → ss.map f = ss'.map f
  | _, _, .nil => rfl
  | _ :: _, _ :: _, .cons h hs => by rw [List.map_cons, List.map_cons, hR _ _ h, alike_names hR hs]

/-- C135, for every model, listing, content and result of the readers: two targets whose sources have pairwise the same names, and contents which differ at most in what is
removed by the normalisation, are reported in the same way: for each name, the sources at the same places, with anomalies at the same positions and distances, contexts with the
same normalised lines, the same numbers of lines, and the same errors; the same total; and the same names are without a baseline. -/
theorem C135_report {w : World C S N D E ε} {o : S → Except E (Bool → List (Ev ε))} (hs : SearchOk w) (m : Model C S N)
    {o1 o2 : List (N × List S) → List (N × List S)} (h1 : ∀ g, (o1 g).Perm g) (h2 : ∀ g, (o2 g).Perm g) {target target' : C} {r r' : Report C S N D E ε}
    (hr : report w m o1 target = some (.ok r)) (hr' : report { w with openSource := o } m o2 target' = some (.ok r'))
    (ha : List.Forall₂ (AlikeSource w { w with openSource := o }) (Spec.validSources w.valid (w.list target)) (Spec.validSources w.valid (w.list target'))) :
    (∀ n, List.Forall₂ (fun l l' => AlikeSource w { w with openSource := o } l.source l'.source ∧
        l.anomalies.map (normal w.tokenize) = l'.anomalies.map (normal w.tokenize) ∧ l.lineCount = l'.lineCount)
      (r.logReports.filter fun l => l.indexName = n) (r'.logReports.filter fun l => l.indexName = n)) ∧
    (∀ n, List.Forall₂ (fun x x' => AlikeSource w { w with openSource := o } x.1 x'.1 ∧ x.2 = x'.2)
      (r.readErrors.filter fun x => w.nameOf x.1 = n) (r'.readErrors.filter fun x => w.nameOf x.1 = n)) ∧
    r.totalLineCount = r'.totalLineCount ∧
    ∀ n, ((∃ s, w.nameOf s = n ∧ ∃ ss ∈ r.indexErrors, s ∈ ss) ↔ ∃ s, w.nameOf s = n ∧ ∃ ss ∈ r'.indexErrors, s ∈ ss) := by
  have hs' : SearchOk { w with openSource := o } := hs
  have usable : Spec.Usable w.valid (w.list target) := by
    obtain ⟨_, e, g⟩ := report_total hs m o1 h1 target
    rw [hr] at e
    cases e
    exact g.1 ⟨r, rfl⟩
  have usable' : Spec.Usable w.valid (w.list target') := by
    obtain ⟨_, e, g⟩ := report_total hs' m o2 h2 target'
    rw [hr'] at e
    cases e
    exact g.1 ⟨r', rfl⟩
  obtain ⟨dist, hd⟩ := dist_of_search hs m
  obtain ⟨_, e, g1, g2, g3, g4⟩ := C127_report m h1 target hs usable (dist := dist) hd
  rw [hr] at e; cases e
  obtain ⟨_, e, g1', g2', g3', g4'⟩ := C127_report (w := { w with openSource := o }) m h2 target' hs' usable' (dist := dist) hd
  rw [hr'] at e; cases e
  have hname : ∀ s s', AlikeSource w { w with openSource := o } s s' → w.nameOf s = w.nameOf s' := fun _ _ h => h.1
  have said : ∀ n, List.Forall₂ (AlikeSaid w.tokenize (AlikeSource w { w with openSource := o })) (Spec.saidOf w (Spec.validSources w.valid (w.list target)) dist n)
      (Spec.saidOf { w with openSource := o } (Spec.validSources w.valid (w.list target')) dist n) := by
    intro n
    unfold Spec.saidOf
    cases dist n with
    | none => exact .nil
    | some f => exact said_alike [] ((alike_filter hname n ha).imp fun _ _ h => ⟨h, h.2⟩)
  refine ⟨fun n => ?_, fun n => ?_, ?_, fun n => ?_⟩
  · have key := alike_shown (said n)
    have k1 : List.Forall₂ (fun (a b : S × List (AnomalyContext D) × Nat × Nat) => AlikeSource w { w with openSource := o } a.1 b.1 ∧
        a.2.1.map (normal w.tokenize) = b.2.1.map (normal w.tokenize) ∧ a.2.2.1 = b.2.2.1)
        ((r.logReports.filter fun l => l.indexName = n).map fun l => (l.source, l.anomalies, l.lineCount, l.byteCount))
        ((r'.logReports.filter fun l => l.indexName = n).map fun l => (l.source, l.anomalies, l.lineCount, l.byteCount)) := by
      rw [g1 n, g1' n, List.forall₂_map_left_iff, List.forall₂_map_right_iff]
      exact key.imp fun _ _ h => ⟨h.1, h.2.1, h.2.2.1⟩
    rw [List.forall₂_map_left_iff, List.forall₂_map_right_iff] at k1
    exact k1
  · have g2' : (r'.readErrors.filter fun x => w.nameOf x.1 = n) = _ := g2' n
    rw [g2 n, g2']
    exact alike_errors (said n)
  · obtain ⟨names, hnd, hnames⟩ := names_once ((Spec.validSources w.valid (w.list target)).map w.nameOf)
    have e := alike_names hname ha
    have hnames' : ∀ n, n ∈ names ↔ ∃ s ∈ Spec.validSources w.valid (w.list target'), w.nameOf s = n := by
      intro n
      rw [hnames, e, List.mem_map]
    have hnames : ∀ n, n ∈ names ↔ ∃ s ∈ Spec.validSources w.valid (w.list target), w.nameOf s = n := by
      intro n
      rw [hnames, List.mem_map]
    rw [g3 names hnd hnames, g3' names hnd hnames']
    congr 1
    exact List.map_congr_left fun n _ => by rw [alike_lines (said n)]
  · have side : ∀ (V : List S) (ie : List (List S)), (∀ ss, ss ∈ ie ↔ ∃ n, dist n = none ∧ ss ≠ [] ∧ ss = V.filter fun s => w.nameOf s = n) →
        ((∃ s, w.nameOf s = n ∧ ∃ ss ∈ ie, s ∈ ss) ↔ dist n = none ∧ n ∈ V.map w.nameOf) := by
      intro V ie hie
      constructor
      · rintro ⟨s, hn, ss, hss, hmem⟩
        obtain ⟨n', hd, _, rfl⟩ := (hie ss).1 hss
        obtain ⟨hV, hn'⟩ := List.mem_filter.1 hmem
        have hn' : w.nameOf s = n' := by simpa using hn'
        rw [← hn, hn']
        exact ⟨hd, hn' ▸ List.mem_map_of_mem hV⟩
      · rintro ⟨hd, hm⟩
        obtain ⟨s, hV, hn⟩ := List.mem_map.1 hm
        have hmem : s ∈ V.filter fun s => w.nameOf s = n := List.mem_filter.2 ⟨hV, by simpa using hn⟩
        exact ⟨s, hn, _, (hie _).2 ⟨n, hd, List.ne_nil_of_mem hmem, rfl⟩, hmem⟩
    rw [side _ _ g4, side _ _ g4', alike_names hname ha]

/-- a log of one day and of another, in a world which normalises a line by removing its digits -/
def alike1 : World Nat String String Nat Unit Unit :=
  { small (fun | 0 => [.ok "a1"] | 1 => [.ok "a2", .ok "b2"] | _ => [.ok "a3", .ok "b3"])
      [("a1", fun _ => [.ok (toyL "1 p" 1)]), ("a2", fun _ => [.ok (toyL "2 p" 1), .ok (toyL "2 q" 2)]), ("b2", fun _ => [.ok (toyL "6 b" 1)]),
        ("a3", fun _ => [.ok (toyL "33 p" 1), .ok (toyL "34 q" 2)]), ("b3", fun _ => [.ok (toyL "5 b" 1)])] with
    tokenize := fun t => t.filter fun c => !c.isDigit }

/-- The hypotheses are met. -/
example : List.Forall₂ (AlikeSource alike1 { alike1 with openSource := alike1.openSource }) (Spec.validSources alike1.valid (alike1.list 1))
    (Spec.validSources alike1.valid (alike1.list 2)) := by
  have e1 : Spec.validSources alike1.valid (alike1.list 1) = ["a2", "b2"] := by decide +kernel
  have e2 : Spec.validSources alike1.valid (alike1.list 2) = ["a3", "b3"] := by decide +kernel
  rw [e1, e2]
  refine .cons ⟨by decide +kernel, .cons (LJ.Process.alike_of (t := "2 p".toList) (t' := "33 p".toList) ?_)
    (.cons (LJ.Process.alike_of (t := "2 q".toList) (t' := "34 q".toList) ?_) .nil)⟩
    (.cons ⟨by decide +kernel, .cons (LJ.Process.alike_of (t := "6 b".toList) (t' := "5 b".toList) ?_) .nil⟩ .nil) <;> decide +kernel

end LJ.Report

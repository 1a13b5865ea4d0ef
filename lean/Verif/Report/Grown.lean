/-
C133: a log which grows keeps its anomalies, in a report.
-/
import Verif.Process.Grown
import Verif.Report.Kinds
namespace LJ.Report
open LJ.Process (Str Bytes Ev Env AnomalyContext)
open LJ.Process (toyL)
open LJ.Process.Spec (Kept)
variable {C S N D E ε : Type} [DecidableEq N]

namespace Spec

/-- All the contexts reported for a name. -/
def contextsOf (r : Report C S N D E ε) (n : N) : List (AnomalyContext D) := (r.logReports.filter fun l => l.indexName = n).flatMap (·.anomalies)

end Spec

theorem shown_ends {tok : Str → Str} {dist : Str → D} {over : D → Bool} {decode : Bytes → Option Str} :
    ∀ (r : List (Ev ε)) (p : LJ.Process.Spec.Display D), (∃ e, (LJ.Process.Spec.shown tok dist over decode p r).2.1 = .failed e) ∨
      (LJ.Process.Spec.shown tok dist over decode p r).2.1 = .finished
  | [], _ => .inr rfl
  | .error e :: _, _ => .inl ⟨_, rfl⟩
  | .ok l :: r, p => by
    rw [LJ.Process.Spec.shown]
    cases decode l.1 with
    | none => exact .inl ⟨_, rfl⟩
    | some t =>
      simp only
      split
      · split
        · exact .inr rfl
        · exact shown_ends r _
      · split
        · exact shown_ends r _
        · exact shown_ends r _

theorem said_grown {tok : Str → Str} {dist : Str → D} {over : D → Bool} {decode : Bytes → Option Str} {content content' : S → Except E (List (Ev ε))} {s : S}
    {evs more : List (Ev ε)} (h : content s = .ok evs) (h' : content' s = .ok (evs ++ more)) :
    ∀ (ss : List S) (seen : List Str), (∀ x ∈ ss, content' x = content x) →
      (∀ x ∈ Spec.said tok dist over decode content' seen (ss ++ [s]), x.error = none) →
      Kept ((Spec.said tok dist over decode content seen (ss ++ [s])).flatMap (·.anomalies)) ((Spec.said tok dist over decode content' seen (ss ++ [s])).flatMap (·.anomalies))
  | [], seen, _, he => by
    simp only [List.nil_append, Spec.said, h, h', List.flatMap_cons, List.flatMap_nil, List.append_nil] at he ⊢
    refine LJ.Process.shown_grown more evs _ ?_
    rcases shown_ends (tok := tok) (dist := dist) (over := over) (decode := decode) (evs ++ more) (.start seen) with ⟨e, g⟩ | g
    · have := he _ (.head _)
      simp only [g] at this
      cases this
    · exact g
  | x :: ss, seen, hs, he => by
    rw [List.cons_append] at he ⊢
    rw [Spec.said, hs x (.head _)] at he
    rw [Spec.said, Spec.said, hs x (.head _)]
    cases hc : content x with
    | error e => exact .rfl _
    | ok evs =>
      rw [hc] at he
      simp only [List.flatMap_cons] at he ⊢
      exact .after _ (said_grown h h' ss _ (fun y hy => hs y (.tail _ hy)) fun y hy => he y (.tail _ hy))

omit [DecidableEq N] in
theorem flatMap_nonempty (xs : List (Spec.Said S D E ε)) : (xs.filter fun x => !x.anomalies.isEmpty).flatMap (·.anomalies) = xs.flatMap (·.anomalies) := by
  induction xs with
  | nil => rfl
  | cons x xs ih =>
    rw [List.filter_cons]
    cases hx : x.anomalies with
    | nil => simp [hx, ih]
    | cons a as => simp [hx, ih]

theorem contextsOf_said {r : Report C S N D E ε} {n : N} {xs : List (Spec.Said S D E ε)}
    (h : (r.logReports.filter fun l => l.indexName = n).map (fun l => (l.source, l.anomalies, l.lineCount, l.byteCount)) =
      (xs.filter fun x => !x.anomalies.isEmpty).map fun x => (x.source, x.anomalies, x.lines, x.bytes)) :
    Spec.contextsOf r n = xs.flatMap (·.anomalies) := by
  unfold Spec.contextsOf
  rw [← flatMap_nonempty]
  have := congrArg (fun l => l.flatMap fun (x : S × List (AnomalyContext D) × Nat × Nat) => x.2.1) h
  simpa only [List.flatMap_map] using this

/-- C133, for every model, listing and result of the readers: the last source of a name gets more lines.  When nothing of this name fails to be read, the contexts reported for this
name before are still reported, in front of the new ones, with the same anomalies and lines before them, and the same lines after them, possibly followed by more. -/
theorem C133_partial {w : World C S N D E ε} {o : S → Except E (Bool → List (Ev ε))} (hs : SearchOk w) (m : Model C S N)
    {o1 o2 : List (N × List S) → List (N × List S)} (h1 : ∀ g, (o1 g).Perm g) (h2 : ∀ g, (o2 g).Perm g) {target : C} {r r' : Report C S N D E ε}
    (hr : report w m o1 target = some (.ok r)) (hr' : report { w with openSource := o } m o2 target = some (.ok r')) {n : N} {ss : List S} {s : S}
    (ht : ((Spec.validSources w.valid (w.list target)).filter fun s => w.nameOf s = n) = ss ++ [s])
    (hsame : ∀ x ∈ ss, o x = w.openSource x) {reader reader' : Bool → List (Ev ε)} (ho : w.openSource s = .ok reader) (ho' : o s = .ok reader')
    {more : List (Ev ε)} (hmore : reader' (w.isJson s) = reader (w.isJson s) ++ more)
    (herr : ∀ x ∈ r'.readErrors, w.nameOf x.1 ≠ n) : Kept (Spec.contextsOf r n) (Spec.contextsOf r' n) := by
  have hs' : SearchOk { w with openSource := o } := hs
  have usable : Spec.Usable w.valid (w.list target) := by
    obtain ⟨_, e, g⟩ := report_total hs m o1 h1 target
    rw [hr] at e
    cases e
    exact g.1 ⟨r, rfl⟩
  obtain ⟨dist, hd⟩ := dist_of_search hs m
  obtain ⟨_, e, g1, _⟩ := C127_report m h1 target hs usable (dist := dist) hd
  rw [hr] at e; cases e
  obtain ⟨_, e, g1', g2', _⟩ := C127_report (w := { w with openSource := o }) m h2 target hs' usable (dist := dist) hd
  rw [hr'] at e; cases e
  rw [contextsOf_said (g1 n), contextsOf_said (g1' n)]
  have g2' := g2' n
  unfold Spec.saidOf at g2' ⊢
  cases hdn : dist n with
  | none => exact .nil _
  | some f =>
    rw [hdn] at g2'
    simp only at g2' ⊢
    rw [ht]
    refine said_grown (evs := reader (w.isJson s)) (more := more) ?_ ?_ ss [] ?_ ?_
    · unfold content
      rw [ho]
    · unfold content
      simp only [ho', hmore]
    · intro x hx
      unfold content
      simp only [hsame x hx]
    · intro x hx
      cases he : x.error with
      | none => rfl
      | some e =>
        exfalso
        have : (x.source, e) ∈ r'.readErrors.filter fun x => w.nameOf x.1 = n := by
          have g2' : (r'.readErrors.filter fun x => w.nameOf x.1 = n) = _ := g2'
          rw [g2', ht]
          exact List.mem_filterMap.2 ⟨x, hx, by rw [he]; rfl⟩
        have := List.mem_filter.1 this
        exact herr _ this.1 (by simpa using this.2)

namespace Spec

/-- The contexts reported for one source. -/
def contextsIn [DecidableEq S] (r : Report C S N D E ε) (n : N) (s : S) : List (AnomalyContext D) :=
  ((r.logReports.filter fun l => l.indexName = n).filter fun l => l.source = s).flatMap (·.anomalies)

end Spec

theorem said_in [DecidableEq S] {tok : Str → Str} {dist : Str → D} {over : D → Bool} {decode : Bytes → Option Str} {content content' : S → Except E (List (Ev ε))} {s : S}
    {evs more : List (Ev ε)} (h : content s = .ok evs) (h' : content' s = .ok (evs ++ more)) {rest : List S} (hrest : s ∉ rest) :
    ∀ (ss : List S) (seen : List Str), s ∉ ss → (∀ x ∈ ss, content' x = content x) →
      (∀ x ∈ Spec.said tok dist over decode content' seen (ss ++ s :: rest), x.source = s → x.error = none) →
      Kept (((Spec.said tok dist over decode content seen (ss ++ s :: rest)).filter fun x => x.source = s).flatMap (·.anomalies))
        (((Spec.said tok dist over decode content' seen (ss ++ s :: rest)).filter fun x => x.source = s).flatMap (·.anomalies))
  | [], seen, _, _, he => by
    have none : ∀ (c : S → Except E (List (Ev ε))) (seen : List Str), ((Spec.said tok dist over decode c seen rest).filter fun x => x.source = s) = [] := by
      intro c seen
      rw [List.filter_eq_nil_iff]
      intro x hx hxs
      rw [decide_eq_true_eq] at hxs
      exact hrest (hxs ▸ said_source rest seen x hx)
    rw [List.nil_append] at he ⊢
    rw [Spec.said, h'] at he
    rw [Spec.said, Spec.said, h, h']
    simp only [List.filter_cons, decide_true, if_true, none, List.flatMap_cons, List.flatMap_nil, List.append_nil] at he ⊢
    refine LJ.Process.shown_grown more evs _ ?_
    rcases shown_ends (tok := tok) (dist := dist) (over := over) (decode := decode) (evs ++ more) (.start seen) with ⟨e, g⟩ | g
    · have := he _ (.head _) rfl
      simp only [g] at this
      cases this
    · exact g
  | x :: ss, seen, hn, hs, he => by
    have hx : x ≠ s := fun e => hn (e ▸ .head _)
    rw [List.cons_append] at he ⊢
    rw [Spec.said, hs x (.head _)] at he
    rw [Spec.said, Spec.said, hs x (.head _)]
    cases hc : content x with
    | error e => exact .rfl _
    | ok evs =>
      rw [hc] at he
      simp only [List.filter_cons, hx, decide_false, Bool.false_eq_true, if_false] at he ⊢
      exact said_in h h' hrest ss _ (fun h => hn (.tail _ h)) (fun y hy => hs y (.tail _ hy)) fun y hy => he y (.tail _ hy)

theorem contextsIn_said [DecidableEq S] {r : Report C S N D E ε} {n : N} {s : S} {xs : List (Spec.Said S D E ε)}
    (h : (r.logReports.filter fun l => l.indexName = n).map (fun l => (l.source, l.anomalies, l.lineCount, l.byteCount)) =
      (xs.filter fun x => !x.anomalies.isEmpty).map fun x => (x.source, x.anomalies, x.lines, x.bytes)) :
    Spec.contextsIn r n s = (xs.filter fun x => x.source = s).flatMap (·.anomalies) := by
  unfold Spec.contextsIn
  have e := congrArg (fun l => (l.filter fun (x : S × List (AnomalyContext D) × Nat × Nat) => x.1 = s).flatMap fun x => x.2.1) h
  simp only [List.filter_map, List.flatMap_map, Function.comp_def] at e
  rw [e, ← flatMap_nonempty (xs.filter fun x => x.source = s), List.filter_filter, List.filter_filter]
  congr 1
  exact List.filter_congr fun x _ => Bool.and_comm _ _

/-- C133 for one source, wherever it is in the target, whatever happens to the others: when it gets more lines and is read without a failure, the contexts reported for it before are
still reported, in front of the new ones. -/
theorem C133_file_partial [DecidableEq S] {w : World C S N D E ε} {o : S → Except E (Bool → List (Ev ε))} (hs : SearchOk w) (m : Model C S N)
    {o1 o2 : List (N × List S) → List (N × List S)} (h1 : ∀ g, (o1 g).Perm g) (h2 : ∀ g, (o2 g).Perm g) {target : C} {r r' : Report C S N D E ε}
    (hr : report w m o1 target = some (.ok r)) (hr' : report { w with openSource := o } m o2 target = some (.ok r')) {s : S}
    (hnd : (Spec.validSources w.valid (w.list target)).Nodup)
    (hsame : ∀ x ∈ Spec.validSources w.valid (w.list target), x ≠ s → o x = w.openSource x) {reader reader' : Bool → List (Ev ε)} (ho : w.openSource s = .ok reader) (ho' : o s = .ok reader')
    {more : List (Ev ε)} (hmore : reader' (w.isJson s) = reader (w.isJson s) ++ more)
    (herr : ∀ e, (s, e) ∉ r'.readErrors) : Kept (Spec.contextsIn r (w.nameOf s) s) (Spec.contextsIn r' (w.nameOf s) s) := by
  have hs' : SearchOk { w with openSource := o } := hs
  have usable : Spec.Usable w.valid (w.list target) := by
    obtain ⟨_, e, g⟩ := report_total hs m o1 h1 target
    rw [hr] at e
    cases e
    exact g.1 ⟨r, rfl⟩
  obtain ⟨dist, hd⟩ := dist_of_search hs m
  obtain ⟨_, e, g1, _⟩ := C127_report m h1 target hs usable (dist := dist) hd
  rw [hr] at e; cases e
  obtain ⟨_, e, g1', g2', _⟩ := C127_report (w := { w with openSource := o }) m h2 target hs' usable (dist := dist) hd
  rw [hr'] at e; cases e
  rw [contextsIn_said (g1 _), contextsIn_said (g1' _)]
  have g2' : (r'.readErrors.filter fun x => w.nameOf x.1 = w.nameOf s) = _ := g2' (w.nameOf s)
  unfold Spec.saidOf at g2' ⊢
  cases hdn : dist (w.nameOf s) with
  | none => exact .nil _
  | some f =>
    rw [hdn] at g2'
    simp only at g2' ⊢
    by_cases hmem : s ∈ (Spec.validSources w.valid (w.list target)).filter fun x => w.nameOf x = w.nameOf s
    · have hnd := hnd.filter fun x => w.nameOf x = w.nameOf s
      generalize hall : ((Spec.validSources w.valid (w.list target)).filter fun x => w.nameOf x = w.nameOf s) = all at hmem hnd g2'
      obtain ⟨ss, rest, rfl⟩ := List.append_of_mem hmem
      rw [List.nodup_append] at hnd
      obtain ⟨_, hnd2, hnd3⟩ := hnd
      have hss : s ∉ ss := fun h => hnd3 s h s (.head _) rfl
      refine said_in (evs := reader (w.isJson s)) (more := more) ?_ ?_ (List.nodup_cons.1 hnd2).1 ss [] hss ?_ ?_
      · unfold content
        rw [ho]
      · unfold content
        simp only [ho', hmore]
      · intro x hx
        unfold content
        have hin : x ∈ (Spec.validSources w.valid (w.list target)).filter fun x => w.nameOf x = w.nameOf s := hall ▸ List.mem_append_left _ hx
        simp only [hsame x (List.mem_filter.1 hin).1 fun e => hss (e ▸ hx)]
      · intro x hx hxs
        cases he : x.error with
        | none => rfl
        | some e =>
          exfalso
          have : (x.source, e) ∈ r'.readErrors.filter fun x => w.nameOf x.1 = w.nameOf s := by
            rw [g2']
            exact List.mem_filterMap.2 ⟨x, hx, by rw [he]; rfl⟩
          rw [hxs] at this
          exact herr e (List.mem_filter.1 this).1
    · have none : ∀ (c : S → Except E (List (Ev ε))), ((Spec.said w.tokenize f w.over w.decode c []
          ((Spec.validSources w.valid (w.list target)).filter fun x => w.nameOf x = w.nameOf s)).filter fun x => x.source = s) = [] := by
        intro c
        rw [List.filter_eq_nil_iff]
        intro x hx hxs
        rw [decide_eq_true_eq] at hxs
        have := said_source _ _ x hx
        rw [hxs] at this
        exact hmem this
      rw [none]
      exact .nil _

/-- a log, and the same log with more lines -/
def grown1 : World Nat String String Nat Unit Unit := small (fun | 0 => [.ok "a1"] | _ => [.ok "a2", .ok "a3"])
  [("a1", fun _ => [.ok (toyL "p" 1)]), ("a2", fun _ => [.ok (toyL "q" 1)]), ("a3", fun _ => [.ok (toyL "p" 1), .ok (toyL "r" 2), .ok (toyL "p" 3)])]

def grown2 : String → Except Unit (Bool → List (Ev Unit)) :=
  fun s => if s = "a3" then .ok fun _ => [.ok (toyL "p" 1), .ok (toyL "r" 2), .ok (toyL "p" 3), .ok (toyL "s" 4)] else grown1.openSource s

/-- The hypotheses are met: two contexts are kept and one is new. -/
example : ∃ m r r', train grown1 id [0] = .ok m ∧ report grown1 m id 1 = some (.ok r) ∧ report { grown1 with openSource := grown2 } m id 1 = some (.ok r') ∧
    (∀ x ∈ r'.readErrors, grown1.nameOf x.1 ≠ "a") ∧ (Spec.contextsOf r "a").length = 2 ∧ (Spec.contextsOf r' "a").length = 3 ∧
    Kept (Spec.contextsOf r "a") (Spec.contextsOf r' "a") := by
  have hs : SearchOk grown1 := small_search _ _
  have e1 : ∃ m, train grown1 id [0] = .ok m := ⟨_, rfl⟩
  obtain ⟨m, hm⟩ := e1
  have e2 : (match train grown1 id [0] with
      | .ok m => (match report grown1 m id 1, report { grown1 with openSource := grown2 } m id 1 with
        | some (.ok r), some (.ok r') => decide (r'.readErrors.length = 0 ∧ (Spec.contextsOf r "a").length = 2 ∧ (Spec.contextsOf r' "a").length = 3)
        | _, _ => false)
      | .error _ => false) = true := by decide +kernel
  rw [hm] at e2
  simp only at e2
  cases hr : report grown1 m id 1 with
  | none => rw [hr] at e2; cases e2
  | some x =>
    cases x with
    | error e => rw [hr] at e2; cases e2
    | ok r =>
      cases hr' : report { grown1 with openSource := grown2 } m id 1 with
      | none => rw [hr, hr'] at e2; cases e2
      | some x =>
        cases x with
        | error e => rw [hr, hr'] at e2; cases e2
        | ok r' =>
          rw [hr, hr'] at e2
          obtain ⟨a, b, c⟩ := of_decide_eq_true e2
          have he : ∀ x ∈ r'.readErrors, grown1.nameOf x.1 ≠ "a" := by
            rw [List.eq_nil_of_length_eq_zero a]
            simp
          exact ⟨m, r, r', hm, hr, hr', he, b, c,
            C133_partial (w := grown1) (o := grown2) hs m (fun _ => .rfl) (fun _ => .rfl) hr hr' (ss := ["a2"]) (s := "a3") (by decide +kernel)
              (fun x hx => by rw [List.mem_singleton] at hx; subst hx; rfl) (reader := fun _ => [.ok (toyL "p" 1), .ok (toyL "r" 2), .ok (toyL "p" 3)]) rfl rfl
              (more := [.ok (toyL "s" 4)]) rfl he⟩

/-- The other log of the same name gets a line. -/
def grown3 : String → Except Unit (Bool → List (Ev Unit)) :=
  fun s => if s = "a2" then .ok fun _ => [.ok (toyL "q" 1), .ok (toyL "r" 2)] else grown1.openSource s

/-- The hypotheses of C133_file_partial are met, by a log which is not the last of its name: its context is kept, while the line which it got is not reported any more in the other one. -/
example : ∃ m r r', train grown1 id [0] = .ok m ∧ report grown1 m id 1 = some (.ok r) ∧ report { grown1 with openSource := grown3 } m id 1 = some (.ok r') ∧
    (Spec.validSources grown1.valid (grown1.list 1)).Nodup ∧ (∀ e, ("a2", e) ∉ r'.readErrors) ∧
    (Spec.contextsIn r "a" "a2").length = 1 ∧ (Spec.contextsIn r' "a" "a2").length = 2 ∧
    (Spec.contextsIn r "a" "a3").length = 1 ∧ (Spec.contextsIn r' "a" "a3").length = 0 ∧ Kept (Spec.contextsIn r "a" "a2") (Spec.contextsIn r' "a" "a2") := by
  have hs : SearchOk grown1 := small_search _ _
  have e1 : ∃ m, train grown1 id [0] = .ok m := ⟨_, rfl⟩
  obtain ⟨m, hm⟩ := e1
  have hnd : (Spec.validSources grown1.valid (grown1.list 1)).Nodup := by decide +kernel
  have e2 : (match train grown1 id [0] with
      | .ok m => (match report grown1 m id 1, report { grown1 with openSource := grown3 } m id 1 with
        | some (.ok r), some (.ok r') => decide (r'.readErrors.length = 0 ∧ (Spec.contextsIn r "a" "a2").length = 1 ∧ (Spec.contextsIn r' "a" "a2").length = 2 ∧
          (Spec.contextsIn r "a" "a3").length = 1 ∧ (Spec.contextsIn r' "a" "a3").length = 0)
        | _, _ => false)
      | .error _ => false) = true := by decide +kernel
  rw [hm] at e2
  simp only at e2
  cases hr : report grown1 m id 1 with
  | none => rw [hr] at e2; cases e2
  | some x =>
    cases x with
    | error e => rw [hr] at e2; cases e2
    | ok r =>
      cases hr' : report { grown1 with openSource := grown3 } m id 1 with
      | none => rw [hr, hr'] at e2; cases e2
      | some x =>
        cases x with
        | error e => rw [hr, hr'] at e2; cases e2
        | ok r' =>
          rw [hr, hr'] at e2
          obtain ⟨a, b, c, d, f⟩ := of_decide_eq_true e2
          have he : ∀ e, ("a2", e) ∉ r'.readErrors := by
            rw [List.eq_nil_of_length_eq_zero a]
            simp
          exact ⟨m, r, r', hm, hr, hr', hnd, he, b, c, d, f,
            C133_file_partial (w := grown1) (o := grown3) (s := "a2") hs m (fun _ => .rfl) (fun _ => .rfl) hr hr' hnd
              (fun x _ hx => if_neg hx) (reader := fun _ => [.ok (toyL "q" 1)]) rfl (reader' := fun _ => [.ok (toyL "q" 1), .ok (toyL "r" 2)]) rfl
              (more := [.ok (toyL "r" 2)]) rfl he⟩

end LJ.Report

/-
C132: the files of other kinds have no effect on what is reported of a kind.
-/
import Verif.Report.More
namespace LJ.Report
open LJ.Process (Str Bytes Ev Env)
open LJ.Process (toyL)
variable {C S N D E ε : Type} [DecidableEq N]

omit [DecidableEq N] in
theorem trainSources_congr {w : World C S N D E ε} {l : C → List (Except E S)} {o : S → Except E (Bool → List (Ev ε))} (json : Bool) :
    ∀ (ss : List S) (t : LJ.Process.Trainer), (∀ s ∈ ss, o s = w.openSource s) →
      trainSources { w with list := l, openSource := o } json ss t = trainSources w json ss t
  | [], _, _ => rfl
  | s :: ss, t, h => by
    have h0 := h s (.head _)
    unfold trainSources
    simp only [h0]
    cases w.openSource s with
    | error e => rfl
    | ok reader => exact trainSources_congr json ss _ fun s hs => h s (.tail _ hs)

omit [DecidableEq N] in
theorem trainIndex_congr {w : World C S N D E ε} {l : C → List (Except E S)} {o : S → Except E (Bool → List (Ev ε))} {ss : List S}
    (h : ∀ s ∈ ss, o s = w.openSource s) : trainIndex { w with list := l, openSource := o } ss = trainIndex w ss := by
  unfold trainIndex
  simp only [trainSources_congr _ ss _ h]

omit [DecidableEq N] in
theorem said_congr {tok : Str → Str} {dist : Str → D} {over : D → Bool} {decode : Bytes → Option Str} {content content' : S → Except E (List (Ev ε))} :
    ∀ (ss : List S) (seen : List Str), (∀ s ∈ ss, content' s = content s) →
      Spec.said tok dist over decode content' seen ss = Spec.said tok dist over decode content seen ss
  | [], _, _ => rfl
  | s :: ss, seen, h => by
    unfold Spec.said
    rw [h s (.head _)]
    cases content s with
    | error e => rfl
    | ok evs =>
      simp only
      rw [said_congr ss _ fun s hs => h s (.tail _ hs)]

omit [DecidableEq N] in
theorem logs_eq {n : N} : ∀ {a b : List (LogReport S N D)}, (∀ l ∈ a, l.indexName = n) → (∀ l ∈ b, l.indexName = n) →
    a.map (fun l => (l.source, l.anomalies, l.lineCount, l.byteCount)) = b.map (fun l => (l.source, l.anomalies, l.lineCount, l.byteCount)) → a = b
  | [], [], _, _, _ => rfl
  | [], _ :: _, _, _, h => by cases h
  | _ :: _, [], _, _, h => by cases h
  | x :: a, y :: b, ha, hb, h => by
    simp only [List.map_cons, List.cons.injEq, Prod.mk.injEq] at h
    obtain ⟨⟨h1, h2, h3, h4⟩, h5⟩ := h
    rw [logs_eq (fun l hl => ha l (.tail _ hl)) (fun l hl => hb l (.tail _ hl)) h5]
    have h6 := (ha x (.head _)).trans (hb y (.head _)).symm
    cases x
    cases y
    simp only at h1 h2 h3 h4 h6
    rw [h1, h2, h3, h4, h6]

/-- C132, for every listing, content and result of the readers: two comparisons whose baselines have the same sources of a name, at least one, and whose targets have the same
sources of this name, which are opened and read in the same way, report the same of this name: the sources with their anomalies, contexts and counts, and the errors. What the
other sources are, whether they can be opened and what they contain does not matter. -/
theorem C132_kind {w w' : World C S N D E ε} (hsame : { w' with list := w.list, openSource := w.openSource } = w) (hs : SearchOk w)
    {o1 o2 o3 o4 : List (N × List S) → List (N × List S)} (h1 : ∀ g, (o1 g).Perm g) (h2 : ∀ g, (o2 g).Perm g) (h3 : ∀ g, (o3 g).Perm g) (h4 : ∀ g, (o4 g).Perm g)
    {cs cs' : List C} {target target' : C} {m m' : Model C S N} {r r' : Report C S N D E ε}
    (hm : train w o1 cs = .ok m) (hm' : train w' o2 cs' = .ok m') (hr : report w m o3 target = some (.ok r)) (hr' : report w' m' o4 target' = some (.ok r')) {n : N}
    (hopen : ∀ c ∈ target :: cs, ∀ s ∈ Spec.validSources w.valid (w.list c), w.nameOf s = n → w'.openSource s = w.openSource s)
    (hb : ((cs'.flatMap fun c => Spec.validSources w.valid (w'.list c)).filter fun s => w.nameOf s = n) =
      (cs.flatMap fun c => Spec.validSources w.valid (w.list c)).filter fun s => w.nameOf s = n)
    (hne : ∃ c ∈ cs, ∃ s ∈ Spec.validSources w.valid (w.list c), w.nameOf s = n)
    (ht : ((Spec.validSources w.valid (w'.list target')).filter fun s => w.nameOf s = n) =
      (Spec.validSources w.valid (w.list target)).filter fun s => w.nameOf s = n) :
    (r'.logReports.filter fun l => l.indexName = n) = (r.logReports.filter fun l => l.indexName = n) ∧
      (r'.readErrors.filter fun x => w.nameOf x.1 = n) = r.readErrors.filter fun x => w.nameOf x.1 = n := by
  obtain ⟨list', valid', nameOf', isJson', open', decode', tok', search', over'⟩ := w'
  obtain ⟨list, valid, nameOf, isJson, opn, decode, tok, search, over⟩ := w
  simp only [World.mk.injEq] at hsame
  obtain ⟨_, rfl, rfl, rfl, _, rfl, rfl, rfl, rfl⟩ := hsame
  simp only at hopen hb hne ht ⊢
  have hs' : SearchOk (⟨list', valid', nameOf', isJson', open', decode', tok', search', over'⟩ : World C S N D E ε) := hs
  have usable : ∀ {w : World C S N D E ε} {m o t r} (_ : SearchOk w) (_ : ∀ g : List (N × List S), (o g).Perm g), report w m o t = some (.ok r) → Spec.Usable w.valid (w.list t) := by
    intro w m o t r hs ho h
    obtain ⟨_, e, g⟩ := report_total hs m o ho t
    rw [h] at e
    cases e
    exact g.1 ⟨r, rfl⟩
  have hl := lookup_baseline h1 hm n
  have hl' := lookup_baseline h2 hm' n
  simp only at hl hl'
  have hmem : n ∈ (cs.flatMap fun c => Spec.validSources valid' (list c)).map nameOf' := by
    obtain ⟨c, hc, s, hs, e⟩ := hne
    exact List.mem_map.2 ⟨s, List.mem_flatMap.2 ⟨c, hc, hs⟩, e⟩
  have hmem' : n ∈ (cs'.flatMap fun c => Spec.validSources valid' (list' c)).map nameOf' := by
    obtain ⟨s, hs, e⟩ := List.mem_map.1 hmem
    have : s ∈ (cs'.flatMap fun c => Spec.validSources valid' (list' c)).filter fun s => nameOf' s = n := by
      rw [hb]
      exact List.mem_filter.2 ⟨hs, by simpa using e⟩
    exact List.mem_map.2 ⟨s, (List.mem_filter.1 this).1, e⟩
  unfold Spec.baselineFor at hl hl'
  rw [if_pos hmem] at hl
  rw [if_pos hmem', hb] at hl'
  obtain ⟨i, k1, k2⟩ := hl
  obtain ⟨i', k1', k2'⟩ := hl'
  have hi : i' = i := by
    have hc := trainIndex_congr (w := ⟨list, valid', nameOf', isJson', opn, decode', tok', search', over'⟩) (l := list') (o := open')
      (ss := (cs.flatMap fun c => Spec.validSources valid' (list c)).filter fun s => nameOf' s = n) (fun s hs => by
        have hs := List.mem_filter.1 hs
        obtain ⟨c, hc, h⟩ := List.mem_flatMap.1 hs.1
        exact hopen c (.tail _ hc) s h (by simpa using hs.2))
    have := k2'.symm.trans (hc.trans k2)
    cases this
    rfl
  subst hi
  obtain ⟨dist, hd⟩ := dist_of_search hs m
  obtain ⟨dist', hd'⟩ := dist_of_search hs' m'
  obtain ⟨_, e, g1, g2, _⟩ := C127_report m h3 target hs (usable hs h3 hr) (dist := dist) hd
  rw [hr] at e; cases e
  obtain ⟨_, e, g1', g2', _⟩ := C127_report m' h4 target' hs' (usable hs' h4 hr') (dist := dist') hd'
  rw [hr'] at e; cases e
  have hd := hd n
  have hd' := hd' n
  rw [k1] at hd
  rw [k1'] at hd'
  obtain ⟨f, e1, f1⟩ := hd
  obtain ⟨f', e1', f1'⟩ := hd'
  have hf : f' = f := by
    funext t
    have a := f1 [t]
    have b := f1' [t]
    simp only at a b
    rw [a] at b
    simpa using b.symm
  subst hf
  have g1 := g1 n
  have g1' := g1' n
  have g2 := g2 n
  have g2' := g2' n
  unfold Spec.saidOf at g1 g1' g2 g2'
  rw [e1] at g1 g2
  rw [e1'] at g1' g2'
  simp only at g1 g1' g2 g2'
  rw [ht] at g1' g2'
  have hsaid := said_congr (tok := tok') (dist := f') (over := over') (decode := decode')
    (content' := content (⟨list', valid', nameOf', isJson', open', decode', tok', search', over'⟩ : World C S N D E ε))
    (content := content (⟨list, valid', nameOf', isJson', opn, decode', tok', search', over'⟩ : World C S N D E ε))
    ((Spec.validSources valid' (list target)).filter fun s => nameOf' s = n) [] (fun s hs => by
      unfold content
      have hs := List.mem_filter.1 hs
      simp only
      rw [hopen target (.head _) s hs.1 (by simpa using hs.2)])
  rw [hsaid] at g1' g2'
  constructor
  · refine logs_eq (n := n) (fun l hl => by simpa using (List.mem_filter.1 hl).2) (fun l hl => by simpa using (List.mem_filter.1 hl).2) ?_
    rw [g1, g1']
  · rw [g2, g2']

/-- two comparisons with other files of the name `b` -/
def kind1 : World Nat String String Nat Unit Unit := small (fun | 0 => [.ok "a1", .ok "b1"] | _ => [.ok "a2", .ok "b2", .ok "a3"])
  [("a1", fun _ => [.ok (toyL "p" 1)]), ("b1", fun _ => [.ok (toyL "p" 1)]), ("a2", fun _ => [.ok (toyL "q" 1)]), ("b2", fun _ => [.ok (toyL "r" 1)]),
   ("a3", fun _ => [.ok (toyL "q" 1), .ok (toyL "r" 2)])]

def kind2 : World Nat String String Nat Unit Unit :=
  { kind1 with
    list := fun | 0 => [.ok "a1"] | _ => [.ok "b2", .ok "a2", .ok "a3", .ok "b3"]
    openSource := fun s => if s = "b2" ∨ s = "b3" then .error () else kind1.openSource s }

/-- The same is reported of `a`. -/
example : ∃ m m' r r', train kind1 id [0] = .ok m ∧ train kind2 id [0] = .ok m' ∧ report kind1 m id 1 = some (.ok r) ∧ report kind2 m' id 1 = some (.ok r') ∧
    (r'.logReports.filter fun l => l.indexName = "a") = (r.logReports.filter fun l => l.indexName = "a") ∧
    Spec.linesOf r "a" = [("a2", 1, "q".toList), ("a3", 2, "r".toList)] ∧ r'.readErrors.length = 1 := by
  have hs : SearchOk kind1 := small_search _ _
  have e1 : ∃ m, train kind1 id [0] = .ok m := ⟨_, rfl⟩
  have e2 : ∃ m, train kind2 id [0] = .ok m := ⟨_, rfl⟩
  obtain ⟨m, hm⟩ := e1
  obtain ⟨m', hm'⟩ := e2
  have e3 : (match train kind1 id [0] with
      | .ok m => (match report kind1 m id 1 with | some (.ok r) => decide (Spec.linesOf r "a" = [("a2", 1, "q".toList), ("a3", 2, "r".toList)]) | _ => false)
      | .error _ => false) = true := by decide +kernel
  have e4 : (match train kind2 id [0] with
      | .ok m => (match report kind2 m id 1 with | some (.ok r) => r.readErrors.length == 1 | _ => false)
      | .error _ => false) = true := by decide +kernel
  rw [hm] at e3
  rw [hm'] at e4
  simp only at e3 e4
  cases hr : report kind1 m id 1 with
  | none => rw [hr] at e3; cases e3
  | some x =>
    cases x with
    | error e => rw [hr] at e3; cases e3
    | ok r =>
      cases hr' : report kind2 m' id 1 with
      | none => rw [hr'] at e4; cases e4
      | some x =>
        cases x with
        | error e => rw [hr'] at e4; cases e4
        | ok r' =>
          rw [hr] at e3
          rw [hr'] at e4
          refine ⟨m, m', r, r', hm, hm', hr, hr', ?_, of_decide_eq_true e3, by simpa using e4⟩
          refine (C132_kind (w := kind1) (w' := kind2) rfl hs (fun _ => .rfl) (fun _ => .rfl) (fun _ => .rfl) (fun _ => .rfl) hm hm' hr hr' ?_ (by decide +kernel)
            ⟨0, .head _, "a1", by decide +kernel, by decide +kernel⟩ (by decide +kernel)).1
          intro c _ s _ hn
          have : ¬ (s = "b2" ∨ s = "b3") := by
            rintro (rfl | rfl)
            · exact absurd hn (by decide +kernel)
            · exact absurd hn (by decide +kernel)
          show (if s = "b2" ∨ s = "b3" then _ else _) = _
          rw [if_neg this]

end LJ.Report

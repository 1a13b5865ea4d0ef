/-
Two worlds whose contents have the same sources under other names give the same report, with the other names.
-/
import Verif.Report.Props
import Mathlib.Data.List.Perm.Basic
namespace LJ.Report
open LJ.Process (Str Bytes Ev Env Err AnomalyContext Trainer Stop)

section
variable {C C' S S' N D E ε : Type}

/-- The same result of listing, under other names -/
inductive ListedAs (R : S → S' → Prop) : Except E S → Except E S' → Prop
  | ok {s s'} : R s s' → ListedAs R (.ok s) (.ok s')
  | error (e) : ListedAs R (.error e) (.error e)

/-- `R` relates sources which are the same for the program, under other names, and `RC` contents which have the same sources
in the same order. -/
structure Renamed (R : S → S' → Prop) (RC : C → C' → Prop) (w : World C S N D E ε) (w' : World C' S' N D E ε) : Prop where
  list : ∀ c c', RC c c' → List.Forall₂ (ListedAs R) (w.list c) (w'.list c')
  valid : ∀ s s', R s s' → w.valid s = w'.valid s'
  nameOf : ∀ s s', R s s' → w.nameOf s = w'.nameOf s'
  isJson : ∀ s s', R s s' → w.isJson s = w'.isJson s'
  openSource : ∀ s s', R s s' → w.openSource s = w'.openSource s'
  decode : w.decode = w'.decode
  tokenize : w.tokenize = w'.tokenize
  search : w.search = w'.search
  over : w.over = w'.over

/-- The same log report, under another name -/
structure LogAs (R : S → S' → Prop) (l : LogReport S N D) (l' : LogReport S' N D) : Prop where
  lines : l.lineCount = l'.lineCount
  bytes : l.byteCount = l'.byteCount
  anomalies : l.anomalies = l'.anomalies
  source : R l.source l'.source
  name : l.indexName = l'.indexName

/-- Groups with the same names, of the same sources under other names -/
def GroupAs (R : S → S' → Prop) (g : N × List S) (g' : N × List S') : Prop := g.1 = g'.1 ∧ List.Forall₂ R g.2 g'.2

/-- The same error, of the same source under another name -/
def ErrorAs (R : S → S' → Prop) (x : S × ReadErr E ε) (x' : S' × ReadErr E ε) : Prop := R x.1 x'.1 ∧ x.2 = x'.2

/-- The same report, under other names -/
structure ReportAs (R : S → S' → Prop) (RC : C → C' → Prop) (r : Report C S N D E ε) (r' : Report C' S' N D E ε) : Prop where
  target : RC r.target r'.target
  baselines : List.Forall₂ RC r.baselines r'.baselines
  logs : List.Forall₂ (LogAs R) r.logReports r'.logReports
  indexes : List.Forall₂ (GroupAs R) r.indexReports r'.indexReports
  unknown : List.Forall₂ (List.Forall₂ R) r.indexErrors r'.indexErrors
  errors : List.Forall₂ (ErrorAs R) r.readErrors r'.readErrors
  lines : r.totalLineCount = r'.totalLineCount
  anomalies : r.totalAnomalyCount = r'.totalAnomalyCount

/-- The same index, of sources under other names -/
structure IndexAs (R : S → S' → Prop) (i : Index S) (i' : Index S') : Prop where
  sources : List.Forall₂ R i.sources i'.sources
  chunks : i.chunks = i'.chunks
  lines : i.lineCount = i'.lineCount
  bytes : i.byteCount = i'.byteCount

/-- The same model, under other names -/
structure ModelAs (R : S → S' → Prop) (RC : C → C' → Prop) (m : Model C S N) (m' : Model C' S' N) : Prop where
  baselines : List.Forall₂ RC m.baselines m'.baselines
  indexes : List.Forall₂ (fun p p' => p.1 = p'.1 ∧ IndexAs R p.2 p'.2) m.indexes m'.indexes

/-- The same result or errors -/
inductive ExceptAs {E E' α β : Type} (RE : E → E' → Prop) (RA : α → β → Prop) : Except E α → Except E' β → Prop
  | ok {a b} : RA a b → ExceptAs RE RA (.ok a) (.ok b)
  | error {e e'} : RE e e' → ExceptAs RE RA (.error e) (.error e')

/-- The same error of listing -/
inductive ListErrAs (RC : C → C' → Prop) : ListErr E C → ListErr E C' → Prop
  | failed (e) : ListErrAs RC (.failed e) (.failed e)
  | empty {c c'} : RC c c' → ListErrAs RC (.empty c) (.empty c')

/-- The same failure -/
inductive FailAs (RC : C → C' → Prop) : Fail E C → Fail E C' → Prop
  | sources {e e'} : ListErrAs RC e e' → FailAs RC (.sources e) (.sources e')
  | read (e) : FailAs RC (.read e) (.read e)

variable {R : S → S' → Prop} {RC : C → C' → Prop} {w : World C S N D E ε} {w' : World C' S' N D E ε}

theorem filter_as {v : S → Bool} {v' : S' → Bool} (hv : ∀ s s', R s s' → v s = v' s') {l : List (Except E S)} {l' : List (Except E S')}
    (h : List.Forall₂ (ListedAs R) l l') : List.Forall₂ (ListedAs R) (l.filter (keepSource v)) (l'.filter (keepSource v')) := by
  induction h with
  | nil => exact .nil
  | cons h _ ih =>
    cases h with
    | ok h =>
      rw [List.filter_cons, List.filter_cons, show keepSource (E := E) v (.ok _) = keepSource (E := E) v' (.ok _) from hv _ _ h]
      split
      · exact .cons (.ok h) ih
      · exact ih
    | error e => exact .cons (.error e) ih

theorem collectOk_as {l : List (Except E S)} {l' : List (Except E S')} (h : List.Forall₂ (ListedAs R) l l') :
    ExceptAs (· = ·) (List.Forall₂ R) (collectOk l) (collectOk l') := by
  induction h with
  | nil => exact .ok .nil
  | @cons _ _ l l' h _ ih =>
    cases h with
    | ok h =>
      unfold collectOk
      generalize collectOk l = x at ih
      generalize collectOk l' = y at ih
      cases ih with
      | ok hs => exact .ok (.cons h hs)
      | error e => exact .error e
    | error e => exact .error rfl

theorem getSources_as (hw : Renamed R RC w w') {c : C} {c' : C'} (hc : RC c c') :
    ExceptAs (ListErrAs RC) (List.Forall₂ R) (getSources w c) (getSources w' c') := by
  unfold getSources
  have := collectOk_as (filter_as hw.valid (hw.list c c' hc))
  generalize collectOk ((w.list c).filter (keepSource w.valid)) = a at this
  generalize collectOk ((w'.list c').filter (keepSource w'.valid)) = b at this
  cases this with
  | ok h =>
    cases h with
    | nil => exact .error (.empty hc)
    | cons h hs => exact .ok (.cons h hs)
  | error h => subst h; exact .error (.failed _)

variable [DecidableEq N]

theorem push_as {n : N} {s : S} {s' : S'} (h : R s s') {g : List (N × List S)} {g' : List (N × List S')} (hg : List.Forall₂ (GroupAs R) g g') :
    List.Forall₂ (GroupAs R) (push n s g) (push n s' g') := by
  induction hg with
  | nil => exact .cons ⟨rfl, .cons h .nil⟩ .nil
  | @cons a b _ _ hab hrest ih =>
    obtain ⟨n1, ss⟩ := a
    obtain ⟨n2, ss'⟩ := b
    obtain ⟨e, hs⟩ := hab
    simp only at e hs
    subst e
    unfold push
    split
    · exact .cons ⟨rfl, List.rel_append hs (.cons h .nil)⟩ hrest
    · exact .cons ⟨rfl, hs⟩ ih

theorem pushes_as (hw : Renamed R RC w w') {ss : List S} {ss' : List S'} (h : List.Forall₂ R ss ss') {g : List (N × List S)} {g' : List (N × List S')}
    (hg : List.Forall₂ (GroupAs R) g g') :
    List.Forall₂ (GroupAs R) (ss.foldl (fun g s => push (w.nameOf s) s g) g) (ss'.foldl (fun g s => push (w'.nameOf s) s g) g') := by
  induction h generalizing g g' with
  | nil => exact hg
  | cons h _ ih =>
    rw [List.foldl_cons, List.foldl_cons, hw.nameOf _ _ h]
    exact ih (push_as h hg)

theorem groupInto_as (hw : Renamed R RC w w') {cs : List C} {cs' : List C'} (h : List.Forall₂ RC cs cs') {g : List (N × List S)} {g' : List (N × List S')}
    (hg : List.Forall₂ (GroupAs R) g g') : ExceptAs (ListErrAs RC) (List.Forall₂ (GroupAs R)) (groupInto w cs g) (groupInto w' cs' g') := by
  induction h generalizing g g' with
  | nil => exact .ok hg
  | @cons c c' _ _ hc _ ih =>
    unfold groupInto
    have := getSources_as hw hc
    generalize getSources w c = a at this
    generalize getSources w' c' = b at this
    cases this with
    | ok hs => exact ih (pushes_as hw hs hg)
    | error h => exact .error h

omit [DecidableEq N] in
theorem envOf_as (hw : Renamed R RC w w') : envOf w = envOf w' := by
  funext chunks
  unfold envOf
  rw [hw.decode, hw.tokenize, hw.search, hw.over]

omit [DecidableEq N] in
theorem trainSources_as (hw : Renamed R RC w w') (json : Bool) {ss : List S} {ss' : List S'} (h : List.Forall₂ R ss ss') (t : Trainer) :
    trainSources w json ss t = trainSources w' json ss' t := by
  induction h generalizing t with
  | nil => rfl
  | cons h _ ih =>
    unfold trainSources
    rw [hw.openSource _ _ h, envOf_as hw]
    split
    · rfl
    · exact ih _

omit [DecidableEq N] in
theorem trainIndex_as (hw : Renamed R RC w w') {ss : List S} {ss' : List S'} (h : List.Forall₂ R ss ss') :
    ExceptAs (· = ·) (IndexAs R) (trainIndex w ss) (trainIndex w' ss') := by
  unfold trainIndex
  cases h with
  | nil => exact .ok ⟨.nil, rfl, rfl, rfl⟩
  | cons h hs =>
    simp only
    rw [hw.isJson _ _ h, trainSources_as hw _ (.cons h hs)]
    split
    · exact .error rfl
    · exact .ok ⟨.cons h hs, rfl, rfl, rfl⟩

omit [DecidableEq N] in
theorem trainGroups_as (hw : Renamed R RC w w') {g : List (N × List S)} {g' : List (N × List S')} (h : List.Forall₂ (GroupAs R) g g') :
    ExceptAs (· = ·) (List.Forall₂ fun p p' => p.1 = p'.1 ∧ IndexAs R p.2 p'.2) (trainGroups w g) (trainGroups w' g') := by
  induction h with
  | nil => exact .ok .nil
  | @cons a b l l' hab _ ih =>
    obtain ⟨n1, ss⟩ := a
    obtain ⟨n2, ss'⟩ := b
    obtain ⟨e, hs⟩ := hab
    simp only at e hs
    subst e
    unfold trainGroups
    have := trainIndex_as hw hs
    generalize trainIndex w ss = x at this
    generalize trainIndex w' ss' = y at this
    cases this with
    | error h => exact .error h
    | ok hi =>
      simp only
      generalize trainGroups w l = x at ih
      generalize trainGroups w' l' = y at ih
      cases ih with
      | error h => exact .error h
      | ok his => exact .ok (.cons ⟨rfl, hi⟩ his)

theorem lookup_as {V V' : Type} {RV : V → V' → Prop} {l : List (N × V)} {l' : List (N × V')}
    (h : List.Forall₂ (fun p p' => p.1 = p'.1 ∧ RV p.2 p'.2) l l') (k : N) : Option.Rel RV (l.lookup k) (l'.lookup k) := by
  induction h with
  | nil => exact .none
  | @cons a b _ _ hab _ ih =>
    obtain ⟨n1, v⟩ := a
    obtain ⟨n2, v'⟩ := b
    obtain ⟨e, hv⟩ := hab
    simp only at e hv
    subst e
    rw [List.lookup_cons, List.lookup_cons]
    split
    · exact .some hv
    · exact ih

theorem lookupOrSingle_as {V V' : Type} {RV : V → V' → Prop} {l : List (N × V)} {l' : List (N × V')}
    (h : List.Forall₂ (fun p p' => p.1 = p'.1 ∧ RV p.2 p'.2) l l') (k : N) : Option.Rel RV (lookupOrSingle l k) (lookupOrSingle l' k) := by
  unfold lookupOrSingle
  have h1 := lookup_as h k
  generalize l.lookup k = a at h1
  generalize l'.lookup k = b at h1
  cases h1 with
  | some hv => exact .some hv
  | none =>
    simp only [h.length_eq]
    split
    · cases h with
      | nil => exact .none
      | cons h _ => exact .some h.2
    · exact .none

theorem record_as {name : N} {i : Index S} {i' : Index S'} (hi : IndexAs R i i') {s : S} {s' : S'} (hs : R s s') (anomalies : List (AnomalyContext D))
    (err : Option (Err ε)) (st : LJ.Process.St D) {r : Report C S N D E ε} {r' : Report C' S' N D E ε} (h : ReportAs R RC r r') :
    ReportAs R RC (record name i s anomalies err st r) (record name i' s' anomalies err st r') := by
  have h1 : ReportAs R RC (recordErr s err r) (recordErr s' err r') := by
    unfold recordErr
    cases err with
    | none => exact h
    | some e => exact { h with errors := List.rel_append h.errors (.cons ⟨hs, rfl⟩ .nil) }
  unfold record
  simp only
  generalize recordErr s err r = q at h1
  generalize recordErr s' err r' = q' at h1
  cases anomalies with
  | nil => exact { h1 with lines := by simp only [h1.lines] }
  | cons a as =>
    simp only
    have h2 : ReportAs R RC { q with totalLineCount := q.totalLineCount + st.lineCount, totalAnomalyCount := q.totalAnomalyCount + (a :: as).length }
        { q' with totalLineCount := q'.totalLineCount + st.lineCount, totalAnomalyCount := q'.totalAnomalyCount + (a :: as).length } :=
      { h1 with lines := by simp only [h1.lines], anomalies := by simp only [h1.anomalies] }
    generalize ({ q with totalLineCount := q.totalLineCount + st.lineCount, totalAnomalyCount := q.totalAnomalyCount + (a :: as).length } : Report C S N D E ε) = p at h2
    generalize ({ q' with totalLineCount := q'.totalLineCount + st.lineCount, totalAnomalyCount := q'.totalAnomalyCount + (a :: as).length } : Report C' S' N D E ε) = p' at h2
    have h3 : ReportAs R RC (recordIndex name i p) (recordIndex name i' p') := by
      unfold recordIndex
      have hl := lookup_as h2.indexes name
      generalize p.indexReports.lookup name = x at hl
      generalize p'.indexReports.lookup name = y at hl
      cases hl with
      | some _ => exact h2
      | none => exact { h2 with indexes := List.rel_append h2.indexes (.cons ⟨rfl, hi.sources⟩ .nil) }
    exact { h3 with logs := List.rel_append h3.logs (.cons ⟨rfl, rfl, rfl, hs, rfl⟩ .nil) }

omit [DecidableEq N] in
theorem inspect_as (hw : Renamed R RC w w') {i : Index S} {i' : Index S'} (hi : IndexAs R i i') {s : S} {s' : S'} (hs : R s s') (reader : Bool → List (Ev ε))
    (skip : List Str) : inspect w i s reader skip = inspect w' i' s' reader skip := by
  unfold inspect
  rw [envOf_as hw, hi.chunks, hw.isJson _ _ hs]

theorem reportSources_as (hw : Renamed R RC w w') {name : N} {i : Index S} {i' : Index S'} (hi : IndexAs R i i') {ss : List S} {ss' : List S'}
    (h : List.Forall₂ R ss ss') (skip : List Str) {r : Report C S N D E ε} {r' : Report C' S' N D E ε} (hr : ReportAs R RC r r') :
    Option.Rel (ReportAs R RC) (reportSources w name i ss skip r) (reportSources w' name i' ss' skip r') := by
  induction h generalizing skip r r' with
  | nil => exact .some hr
  | cons h _ ih =>
    unfold reportSources
    rw [hw.openSource _ _ h]
    split
    · exact .some { hr with errors := List.rel_append hr.errors (.cons ⟨h, rfl⟩ .nil) }
    · rw [inspect_as hw hi h]
      split
      · exact .none
      · exact ih _ (record_as hi h _ _ _ hr)

theorem reportGroups_as (hw : Renamed R RC w w') {m : Model C S N} {m' : Model C' S' N} (hm : ModelAs R RC m m') {g : List (N × List S)} {g' : List (N × List S')}
    (h : List.Forall₂ (GroupAs R) g g') {r : Report C S N D E ε} {r' : Report C' S' N D E ε} (hr : ReportAs R RC r r') :
    Option.Rel (ReportAs R RC) (reportGroups w m g r) (reportGroups w' m' g' r') := by
  induction h generalizing r r' with
  | nil => exact .some hr
  | @cons a b _ _ hab _ ih =>
    have h1 : Option.Rel (ReportAs R RC) (reportGroup w m a r) (reportGroup w' m' b r') := by
      obtain ⟨n1, ss⟩ := a
      obtain ⟨n2, ss'⟩ := b
      obtain ⟨e, hs⟩ := hab
      simp only at e hs
      subst e
      unfold reportGroup
      have hl := lookupOrSingle_as hm.indexes n1
      simp only
      generalize lookupOrSingle m.indexes n1 = x at hl
      generalize lookupOrSingle m'.indexes n1 = y at hl
      cases hl with
      | some hi => exact reportSources_as hw hi hs [] hr
      | none => exact .some { hr with unknown := List.rel_append hr.unknown (.cons hs .nil) }
    unfold reportGroups
    generalize reportGroup w m a r = x at h1
    generalize reportGroup w' m' b r' = y at h1
    cases h1 with
    | none => exact .none
    | some h1 => exact ih h1

/-- With the maps drained in corresponding orders, the same model is trained. -/
theorem train_as (hw : Renamed R RC w w') {o : List (N × List S) → List (N × List S)} {o' : List (N × List S') → List (N × List S')}
    (ho : ∀ g g', List.Forall₂ (GroupAs R) g g' → List.Forall₂ (GroupAs R) (o g) (o' g')) {cs : List C} {cs' : List C'} (hc : List.Forall₂ RC cs cs') :
    ExceptAs (FailAs RC) (ModelAs R RC) (train w o cs) (train w' o' cs') := by
  unfold train groupSources
  have := groupInto_as hw hc (g := []) (g' := []) .nil
  generalize groupInto w cs [] = x at this
  generalize groupInto w' cs' [] = y at this
  cases this with
  | error h => exact .error (.sources h)
  | ok hg =>
    simp only
    have := trainGroups_as hw (ho _ _ hg)
    generalize trainGroups w (o _) = x at this
    generalize trainGroups w' (o' _) = y at this
    cases this with
    | error h => subst h; exact .error (.read _)
    | ok hi => exact .ok ⟨hc, hi⟩

/-- With the maps drained in corresponding orders, the same report is made. -/
theorem report_as (hw : Renamed R RC w w') {m : Model C S N} {m' : Model C' S' N} (hm : ModelAs R RC m m') {o : List (N × List S) → List (N × List S)}
    {o' : List (N × List S') → List (N × List S')} (ho : ∀ g g', List.Forall₂ (GroupAs R) g g' → List.Forall₂ (GroupAs R) (o g) (o' g')) {c : C} {c' : C'} (hc : RC c c') :
    Option.Rel (ExceptAs (ListErrAs RC) (ReportAs R RC)) (report w m o c) (report w' m' o' c') := by
  unfold report groupSources
  have := groupInto_as hw (.cons hc .nil) (g := []) (g' := []) .nil
  generalize groupInto w [c] [] = x at this
  generalize groupInto w' [c'] [] = y at this
  cases this with
  | error h => exact .some (.error h)
  | ok hg =>
    simp only
    have := reportGroups_as hw hm (ho _ _ hg) (r := ⟨c, m.baselines, [], [], [], [], 0, 0⟩) (r' := ⟨c', m'.baselines, [], [], [], [], 0, 0⟩)
      ⟨hc, hm.baselines, .nil, .nil, .nil, .nil, rfl, rfl⟩
    generalize reportGroups w m (o _) _ = x at this
    generalize reportGroups w' m' (o' _) _ = y at this
    cases this with
    | none => exact .none
    | some h => exact .some (.ok h)

/-- `l` and `l'` have related elements, in any order. -/
def AnyOrder {α β : Type} (Q : α → β → Prop) (l : List α) (l' : List β) : Prop := ∃ k, List.Forall₂ Q l k ∧ k.Perm l'

omit [DecidableEq N] in
theorem anyOrder_of {α β : Type} {Q : α → β → Prop} {l k : List α} {k' l' : List β} (h1 : l.Perm k) (h2 : List.Forall₂ Q k k') (h3 : k'.Perm l') :
    AnyOrder Q l l' := by
  obtain ⟨x, hx, hp⟩ := List.perm_comp_forall₂ h1 h2
  exact ⟨x, hx, hp.trans h3⟩

/-- The same report, under other names and in any order. -/
structure SameAs (R : S → S' → Prop) (RC : C → C' → Prop) (r : Report C S N D E ε) (r' : Report C' S' N D E ε) : Prop where
  target : RC r.target r'.target
  baselines : List.Forall₂ RC r.baselines r'.baselines
  logs : AnyOrder (LogAs R) r.logReports r'.logReports
  indexes : AnyOrder (GroupAs R) r.indexReports r'.indexReports
  unknown : AnyOrder (List.Forall₂ R) r.indexErrors r'.indexErrors
  errors : AnyOrder (ErrorAs R) r.readErrors r'.readErrors
  lines : r.totalLineCount = r'.totalLineCount
  anomalies : r.totalAnomalyCount = r'.totalAnomalyCount

/-- When a comparison gives a report, the same comparison under other names gives the same report, whatever the orders of
the maps. -/
theorem renamed_report (hw : Renamed R RC w w') (hs : SearchOk w) {o1 o2 : List (N × List S) → List (N × List S)} {o3 o4 : List (N × List S') → List (N × List S')}
    (h1 : ∀ g, (o1 g).Perm g) (h2 : ∀ g, (o2 g).Perm g) (h3 : ∀ g, (o3 g).Perm g) (h4 : ∀ g, (o4 g).Perm g) {cs : List C} {cs' : List C'}
    (hc : List.Forall₂ RC cs cs') {c : C} {c' : C'} (ht : RC c c') {m : Model C S N} {r : Report C S N D E ε}
    (hm : train w o1 cs = .ok m) (hr : report w m o2 c = some (.ok r)) :
    ∃ m' r', train w' o3 cs' = .ok m' ∧ report w' m' o4 c' = some (.ok r') ∧ SameAs R RC r r' := by
  have hs' : SearchOk w' := fun chunks => by
    obtain ⟨d, hd⟩ := hs chunks
    exact ⟨d, hw.search ▸ hd⟩
  rcases C39_train (w := w) h1 (fun g => List.Perm.refl (id g)) cs with ⟨e1, e2, a1, _⟩ | ⟨m1, m2, a1, a2, a3, a4, a5⟩
  · rw [hm] at a1; cases a1
  · rw [hm] at a1
    cases a1
    rw [C39_model a3 a5 a4] at hr
    obtain ⟨r2, b1, b2, b3, b4, b5, b6, b7, b8, b9⟩ := C39_report hs h2 (fun g => List.Perm.refl (id g)) hr
    have t := train_as hw (o := id) (o' := id) (fun _ _ h => h) hc
    rw [a2] at t
    generalize ht3 : train w' id cs' = y at t
    cases t with
    | @ok _ m3 t =>
      have q := report_as hw t (o := id) (o' := id) (fun _ _ h => h) ht
      rw [b1] at q
      generalize hq3 : report w' m3 id c' = y at q
      cases q with
      | some q =>
        cases q with
        | @ok _ r3 q =>
          rcases C39_train (w := w') (fun g => List.Perm.refl (id g)) h3 cs' with ⟨e1, e2, c1, _⟩ | ⟨m4, m5, c1, c2, c3, c4, c5⟩
          · rw [ht3] at c1; cases c1
          · rw [ht3] at c1
            cases c1
            rw [C39_model c3 c5 c4] at hq3
            obtain ⟨r5, d1, d2, d3, d4, d5, d6, d7, d8, d9⟩ := C39_report hs' (fun g => List.Perm.refl (id g)) h4 hq3
            refine ⟨m5, r5, c2, d1, ?_, ?_, anyOrder_of b2 q.logs d2, anyOrder_of b3 q.indexes d3, anyOrder_of b4 q.unknown d4, anyOrder_of b5 q.errors d5,
              by rw [b6, q.lines, d6], by rw [b7, q.anomalies, d7]⟩
            · rw [b8, ← d8]; exact q.target
            · rw [b9, ← d9]; exact q.baselines

end
end LJ.Report

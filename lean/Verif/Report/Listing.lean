/-
C120: the order in which the files of a content are listed.

files.rs:55-64 `Source::dir_iter` walks a directory with `walkdir` and does not sort: the files come in
the order of the file system, which two copies of a directory need not share.  Two worlds which differ
only by the order of the listings are compared here.
-/
import Verif.Report.Witness
import Verif.Report.Relate
namespace LJ.Report
open LJ.Process (Str Bytes Ev Env Err AnomalyContext Trainer Stop toyL)
set_option linter.unusedSectionVars false
variable {C S N D E ε : Type} [DecidableEq N] {w : World C S N D E ε}

/-! ### Specification -/

/-- the same files, in another order -/
def relist (w : World C S N D E ε) (list : C → List (Except E S)) : World C S N D E ε := { w with list := list }

/-- The search depends on the lines which were indexed, not on their arrangement (C20). -/
def Unordered (w : World C S N D E ε) : Prop :=
  ∀ cs cs', (∀ x, x ∈ cs.flatten ↔ x ∈ cs'.flatten) → w.search cs = w.search cs'

/-- What a report found for a name: the normalised form of each anomalous line, and its distance. -/
def found (w : World C S N D E ε) (r : Report C S N D E ε) (n : N) : List (Str × D) :=
  (r.logReports.filter fun l => l.indexName = n).flatMap fun l => l.anomalies.map fun a => (w.tokenize a.anomaly.line, a.anomaly.distance)

/-- Two indexes made of the same sources. -/
structure SameIndex (i i' : Index S) : Prop where
  sources : i.sources.Perm i'.sources
  tokens : ∀ x, x ∈ i.chunks.flatten ↔ x ∈ i'.chunks.flatten
  lines : i.lineCount = i'.lineCount
  bytes : i.byteCount = i'.byteCount

/-- Two models made of the same baselines. -/
structure SameModel (m m' : Model C S N) : Prop where
  baselines : m.baselines.Perm m'.baselines
  indexes : AnyOrder (fun a b => a.1 = b.1 ∧ SameIndex a.2 b.2) m.indexes m'.indexes

/-! ### Listings -/

theorem validSources_perm {valid : S → Bool} {xs ys : List (Except E S)} (h : xs.Perm ys) :
    (Spec.validSources valid xs).Perm (Spec.validSources valid ys) := h.filterMap _

theorem usable_perm {valid : S → Bool} {xs ys : List (Except E S)} (h : xs.Perm ys) (hu : Spec.Usable valid xs) : Spec.Usable valid ys := by
  refine ⟨fun e he => hu.1 e (h.mem_iff.2 he), fun hn => hu.2 ?_⟩
  have := validSources_perm (valid := valid) h
  rw [hn] at this
  exact this.eq_nil

theorem all_perm {list : C → List (Except E S)} {cs cs' : List C} (hl : ∀ c, (w.list c).Perm (list c)) (hc : cs.Perm cs') :
    (cs.flatMap fun c => Spec.validSources w.valid (w.list c)).Perm (cs'.flatMap fun c => Spec.validSources w.valid (list c)) := by
  refine (hc.flatMap_right _).trans ?_
  clear hc
  induction cs' with
  | nil => exact List.Perm.refl _
  | cons c cs' ih =>
    rw [List.flatMap_cons, List.flatMap_cons]
    exact (validSources_perm (hl c)).append ih

/-! ### Training -/

theorem trainSources_relist (list : C → List (Except E S)) (json : Bool) (ss : List S) (t : Trainer) :
    trainSources (relist w list) json ss t = trainSources w json ss t := by
  induction ss generalizing t with
  | nil => rfl
  | cons s ss ih =>
    unfold trainSources
    show (match w.openSource s with | .error e => _ | .ok reader => _) = _
    cases w.openSource s with
    | error e => rfl
    | ok reader => exact ih _

theorem trainIndex_relist (list : C → List (Except E S)) (ss : List S) : trainIndex (relist w list) ss = trainIndex w ss := by
  unfold trainIndex
  simp only [trainSources_relist]
  rfl

theorem groupJson_perm {ss ss' : List S} (hp : ss.Perm ss') (hj : ∀ s ∈ ss, ∀ t ∈ ss, w.isJson s = w.isJson t) :
    groupJson w ss = groupJson w ss' := by
  cases ss with
  | nil => rw [hp.symm.eq_nil]
  | cons a l =>
    cases ss' with
    | nil => exact absurd hp.eq_nil (by simp)
    | cons b l' => exact hj a (by simp) b (hp.mem_iff.2 (by simp))

theorem trainIndex_perm {ss ss' : List S} (hp : ss.Perm ss') (hj : ∀ s ∈ ss, ∀ t ∈ ss, w.isJson s = w.isJson t)
    {i : Index S} (h : trainIndex w ss = .ok i) : ∃ i', trainIndex w ss' = .ok i' ∧ SameIndex i i' := by
  have hopen : ∀ s ∈ ss, ∃ reader, w.openSource s = .ok reader := by
    intro s hs
    cases ho : w.openSource s with
    | ok reader => exact ⟨reader, rfl⟩
    | error e =>
      obtain ⟨s', _, e', _, h3⟩ := trainIndex_err ss hs ho
      rw [h] at h3; cases h3
  have hopen' : ∀ s ∈ ss', ∃ reader, w.openSource s = .ok reader := fun s hs => hopen s (hp.mem_iff.2 hs)
  rw [trainIndex_ok ss hopen] at h
  cases h
  refine ⟨_, trainIndex_ok ss' hopen', ?_⟩
  rw [← groupJson_perm hp hj]
  have ho : (opened w (groupJson w ss) ss).Perm (opened w (groupJson w ss) ss') := hp.filterMap _
  have hr : ((opened w (groupJson w ss) ss).map (LJ.Process.Spec.readable (envOf w []).decode)).flatten.Perm
      ((opened w (groupJson w ss) ss').map (LJ.Process.Spec.readable (envOf w []).decode)).flatten := (ho.map _).flatten
  obtain ⟨_, _, _, a4, a5⟩ := LJ.Process.C24_chunks (env := envOf w []) (opened w (groupJson w ss) ss)
  obtain ⟨_, _, _, b4, b5⟩ := LJ.Process.C24_chunks (env := envOf w []) (opened w (groupJson w ss) ss')
  refine ⟨hp, ?_, ?_, ?_⟩
  · intro x
    rw [(LJ.Process.C24_once _).2, (LJ.Process.C24_once _).2]
    exact (hr.map _).mem_iff
  · simp only
    rw [a4, b4]
    exact hr.length_eq
  · simp only
    rw [a5, b5]
    exact (hr.map _).sum_eq

/-- two maps with the same keys and related values, as lists in an arbitrary order -/
theorem anyOrder_of_keys {V V' : Type} {R : V → V' → Prop} {l : List (N × V)} {l' : List (N × V')} (hn : (l.map Prod.fst).Nodup)
    (hn' : (l'.map Prod.fst).Nodup) (h : ∀ n v, (n, v) ∈ l → ∃ v', (n, v') ∈ l' ∧ R v v') (h' : ∀ n v', (n, v') ∈ l' → ∃ v, (n, v) ∈ l) :
    AnyOrder (fun a b => a.1 = b.1 ∧ R a.2 b.2) l l' := by
  induction l generalizing l' with
  | nil =>
    cases l' with
    | nil => exact ⟨[], .nil, .refl _⟩
    | cons b l' => obtain ⟨v, hv⟩ := h' b.1 b.2 (by simp); cases hv
  | cons a l ih =>
    obtain ⟨n, v⟩ := a
    obtain ⟨v', hv', hr⟩ := h n v (by simp)
    obtain ⟨p, q, rfl⟩ := List.append_of_mem hv'
    have hp : (p ++ (n, v') :: q).Perm ((n, v') :: (p ++ q)) := List.perm_middle
    have hk := (hp.map Prod.fst).nodup_iff.1 hn'
    rw [List.map_cons, List.nodup_cons] at hn hk
    obtain ⟨k, k1, k2⟩ := ih (l' := p ++ q) hn.2 hk.2 (by
      intro x u hu
      obtain ⟨u', hu', hr'⟩ := h x u (by simp [hu])
      rcases List.mem_cons.1 (hp.mem_iff.1 hu') with he | hu'
      · simp only [Prod.mk.injEq] at he
        rw [he.1] at hu
        exact absurd (List.mem_map_of_mem (f := Prod.fst) hu) hn.1
      · exact ⟨u', hu', hr'⟩) (by
      intro x u' hu'
      obtain ⟨u, hu⟩ := h' x u' (hp.mem_iff.2 (List.mem_cons_of_mem _ hu'))
      rcases List.mem_cons.1 hu with he | hu
      · simp only [Prod.mk.injEq] at he
        rw [he.1] at hu'
        exact absurd (List.mem_map_of_mem (f := Prod.fst) hu') hk.1
      · exact ⟨u, hu⟩)
    exact ⟨(n, v') :: k, .cons ⟨rfl, hr⟩ k1, (k2.cons _).trans hp.symm⟩

/-- When the baselines, or the files in them, are listed in another order, the training makes the same
model.  The sources of a name must be all JSON or all not, since the first one decides for all. -/
theorem C120_train_partial {o o' : List (N × List S) → List (N × List S)} (ho : ∀ g, (o g).Perm g) (ho' : ∀ g, (o' g).Perm g)
    {list : C → List (Except E S)} (hl : ∀ c, (w.list c).Perm (list c)) {cs cs' : List C} (hc : cs.Perm cs')
    (hj : ∀ s ∈ cs.flatMap (fun c => Spec.validSources w.valid (w.list c)),
      ∀ t ∈ cs.flatMap (fun c => Spec.validSources w.valid (w.list c)), w.nameOf s = w.nameOf t → w.isJson s = w.isJson t)
    {m : Model C S N} (hm : train w o cs = .ok m) : ∃ m', train (relist w list) o' cs' = .ok m' ∧ SameModel m m' := by
  obtain ⟨t1, t2⟩ := C75_train (w := w) ho cs
  obtain ⟨u1, u2⟩ := C75_train (w := relist w list) ho' cs'
  obtain ⟨hu, hop⟩ := t1.1 ⟨m, hm⟩
  obtain ⟨m', hm'⟩ := u1.2 ⟨fun c hcs => usable_perm (hl c) (hu c (hc.mem_iff.2 hcs)),
    fun c hcs s hs => hop c (hc.mem_iff.2 hcs) s ((validSources_perm (hl c)).mem_iff.2 hs)⟩
  obtain ⟨a1, a2, a3⟩ := t2 m hm
  obtain ⟨b1, b2, b3⟩ := u2 m' hm'
  have hall := all_perm (w := w) hl hc
  have hcls : ∀ n, ((cs.flatMap fun c => Spec.validSources w.valid (w.list c)).filter fun s => decide (w.nameOf s = n)).Perm
      ((cs'.flatMap fun c => Spec.validSources w.valid (list c)).filter fun s => decide (w.nameOf s = n)) := fun n => hall.filter _
  refine ⟨m', hm', by rw [a1, b1]; exact hc, anyOrder_of_keys a2 b2 ?_ ?_⟩
  · intro n i hi
    obtain ⟨c1, c2, c3⟩ := (a3 n i).1 hi
    have hp := hcls n
    rw [← c2] at hp
    obtain ⟨i', d1, d2⟩ := trainIndex_perm (w := w) hp (by
      intro s hs t ht
      rw [c2, List.mem_filter, decide_eq_true_eq] at hs ht
      exact hj s hs.1 t ht.1 (hs.2.trans ht.2.symm)) c3
    have hsrc := (C75_tokens _ d1).1
    refine ⟨i', (b3 n i').2 ⟨?_, hsrc, ?_⟩, d2⟩
    · intro hnil
      rw [hsrc] at hnil
      rw [hnil] at hp
      exact c1 hp.eq_nil
    · rw [trainIndex_relist, hsrc]; exact d1
  · intro n i' hi'
    obtain ⟨c1, c2, c3⟩ := (b3 n i').1 hi'
    have hp : ((cs.flatMap fun c => Spec.validSources w.valid (w.list c)).filter fun s => decide (w.nameOf s = n)).Perm i'.sources := by
      rw [c2]; exact hcls n
    obtain ⟨i, hi⟩ : ∃ i, trainIndex w ((cs.flatMap fun c => Spec.validSources w.valid (w.list c)).filter
        (fun s => decide (w.nameOf s = n))) = .ok i := by
      refine ⟨_, trainIndex_ok _ ?_⟩
      intro s hs
      rw [List.mem_filter] at hs
      obtain ⟨c, hcm, hs⟩ := List.mem_flatMap.1 hs.1
      exact hop c hcm s hs
    have hsrc := (C75_tokens _ hi).1
    refine ⟨i, (a3 n i).2 ⟨?_, hsrc, by rw [hsrc]; exact hi⟩⟩
    intro hnil
    rw [← hsrc, hnil] at hp
    exact c1 hp.symm.eq_nil

/-! ### The report with another order of the baselines -/

theorem anyOrder_length {α β : Type} {Q : α → β → Prop} {l : List α} {l' : List β} (h : AnyOrder Q l l') : l.length = l'.length := by
  obtain ⟨k, h1, h2⟩ := h
  rw [← h2.length_eq]
  exact h1.length_eq

theorem same_lookup {m m' : Model C S N} (h : SameModel m m') (hn : (m.indexes.map Prod.fst).Nodup) (k : N) :
    (lookupOrSingle m.indexes k = none ∧ lookupOrSingle m'.indexes k = none) ∨
    ∃ i i', lookupOrSingle m.indexes k = some i ∧ lookupOrSingle m'.indexes k = some i' ∧ SameIndex i i' := by
  obtain ⟨l, h1, h2⟩ := h.indexes
  have hk : l.map Prod.fst = m.indexes.map Prod.fst := by
    clear h2 hn
    generalize m.indexes = l0 at h1
    induction h1 with
    | nil => rfl
    | cons a _ ih => rw [List.map_cons, List.map_cons, ih, a.1]
  rw [← lookupOrSingle_perm (by rw [hk]; exact hn) h2 k]
  rcases lookupOrSingle_as (RV := SameIndex) h1 k with hx
  revert hx
  cases lookupOrSingle m.indexes k <;> cases lookupOrSingle l k <;> simp

theorem runs_same {i i' : Index S} (h : w.search i.chunks = w.search i'.chunks) (ss : List S) (skip : List Str) :
    runs w i ss skip = runs w i' ss skip := by
  have he : envOf w i.chunks = envOf w i'.chunks := by unfold envOf; rw [h]
  induction ss generalizing skip with
  | nil => rfl
  | cons s ss ih =>
    unfold runs
    cases w.openSource s with
    | error e => rfl
    | ok reader =>
      simp only
      rw [he, ih]

theorem filterMap_anyOrder {α β γ δ : Type} {Q : α → β → Prop} {P : γ → δ → Prop} {f : α → Option γ} {f' : β → Option δ} {l : List α}
    {l' : List β} (h : AnyOrder Q l l') (hf : ∀ a ∈ l, ∀ b, Q a b → Option.Rel P (f a) (f' b)) : AnyOrder P (l.filterMap f) (l'.filterMap f') := by
  obtain ⟨k, h1, h2⟩ := h
  refine ⟨k.filterMap f', ?_, h2.filterMap _⟩
  clear h2
  induction h1 with
  | nil => exact .nil
  | @cons a b l k hab _ ih =>
    have ih := ih fun a ha => hf a (List.mem_cons_of_mem _ ha)
    have h := hf a (by simp) b hab
    rw [List.filterMap_cons, List.filterMap_cons]
    generalize f a = x at h
    generalize f' b = y at h
    cases h with
    | none => exact ih
    | some h => exact .cons h ih

theorem flatMap_anyOrder {α β γ : Type} {Q : α → β → Prop} {f : α → List γ} {f' : β → List γ} {l : List α}
    {l' : List β} (h : AnyOrder Q l l') (hf : ∀ a ∈ l, ∀ b, Q a b → (f a).Perm (f' b)) : (l.flatMap f).Perm (l'.flatMap f') := by
  obtain ⟨k, h1, h2⟩ := h
  refine List.Perm.trans ?_ (h2.flatMap_right _)
  clear h2
  induction h1 with
  | nil => exact .refl _
  | @cons a b l k hab _ ih =>
    rw [List.flatMap_cons, List.flatMap_cons]
    exact (hf a (by simp) b hab).append (ih fun a ha => hf a (List.mem_cons_of_mem _ ha))

theorem sum_anyOrder {α β : Type} {Q : α → β → Prop} {f : α → Nat} {f' : β → Nat} {l : List α}
    {l' : List β} (h : AnyOrder Q l l') (hf : ∀ a ∈ l, ∀ b, Q a b → f a = f' b) : (l.map f).sum = (l'.map f').sum := by
  obtain ⟨k, h1, h2⟩ := h
  refine Eq.trans ?_ (h2.map _).sum_eq
  clear h2
  induction h1 with
  | nil => rfl
  | @cons a b l k hab _ ih =>
    rw [List.map_cons, List.map_cons, List.sum_cons, List.sum_cons, hf a (by simp) b hab, ih fun a ha => hf a (List.mem_cons_of_mem _ ha)]

/-- The report of a target does not depend on the order in which the baselines and their files are
listed, whatever the target; only the order of the sources of the index reports does. -/
theorem C120_baseline_partial (hs : SearchOk w) (hu : Unordered w) {o o' o2 o2' : List (N × List S) → List (N × List S)}
    (ho : ∀ g, (o g).Perm g) (ho' : ∀ g, (o' g).Perm g) (ho2 : ∀ g, (o2 g).Perm g) (ho2' : ∀ g, (o2' g).Perm g)
    {list : C → List (Except E S)} (hl : ∀ c, (w.list c).Perm (list c)) {cs cs' : List C} (hc : cs.Perm cs')
    (hj : ∀ s ∈ cs.flatMap (fun c => Spec.validSources w.valid (w.list c)),
      ∀ t ∈ cs.flatMap (fun c => Spec.validSources w.valid (w.list c)), w.nameOf s = w.nameOf t → w.isJson s = w.isJson t)
    {m : Model C S N} (hm : train w o cs = .ok m) {target : C} {r : Report C S N D E ε} (hr : report w m o2 target = some (.ok r)) :
    ∃ m' r', train (relist w list) o' cs' = .ok m' ∧ report w m' o2' target = some (.ok r') ∧
      r.logReports.Perm r'.logReports ∧ AnyOrder (fun a b => a.1 = b.1 ∧ a.2.Perm b.2) r.indexReports r'.indexReports ∧
      r.indexErrors.Perm r'.indexErrors ∧ r.readErrors.Perm r'.readErrors ∧ r.totalLineCount = r'.totalLineCount ∧
      r.totalAnomalyCount = r'.totalAnomalyCount ∧ r'.target = target ∧ r'.baselines = cs' := by
  obtain ⟨m', hm', hsame⟩ := C120_train_partial ho ho' hl hc hj hm
  have hnd := ((C75_train (w := w) ho cs).2 m hm).2.1
  have hb := ((C75_train (w := relist w list) ho' cs').2 m' hm').1
  have husable : Spec.Usable w.valid (w.list target) := by
    obtain ⟨res, h1, h2⟩ := report_total hs m o2 ho2 target
    rw [hr] at h1
    cases h1
    exact h2.1 ⟨r, rfl⟩
  obtain ⟨res, h1, h2⟩ := report_total hs m' o2 ho2 target
  obtain ⟨r1, rfl⟩ := h2.2 husable
  obtain ⟨r', hr', p1, p2, p3, p4, p5, p6, p7, p8⟩ := C39_report hs ho2 ho2' h1
  refine ⟨m', r', hm', hr', ?_⟩
  rw [← p5, ← p6, ← p7, ← p8]
  unfold report at hr h1
  cases hg : groupSources w [target] with
  | error e => rw [hg] at hr; cases hr
  | ok gs =>
    have hp := (groupSources_ok_iff hg).2
    rw [hg] at hr h1
    simp only at hr h1
    have hn : ((o2 gs).map Prod.fst).Nodup := ((ho2 gs).map Prod.fst).nodup_iff.2 hp.1
    rw [reportGroups_eq hs m (o2 gs) _ hn (by simp)] at hr
    rw [reportGroups_eq hs m' (o2 gs) _ hn (by simp)] at h1
    cases hr
    cases h1
    have hruns : ∀ g, groupRuns w m g = groupRuns w m' g := by
      intro g
      unfold groupRuns indexFor
      rcases same_lookup hsame hnd g.1 with ⟨a, b⟩ | ⟨i, i', a, b, c⟩
      · rw [a, b]
      · rw [a, b]
        exact runs_same (hu _ _ c.tokens) _ _
    have hlogs : ∀ g, groupLogs w m g = groupLogs w m' g := fun g => by unfold groupLogs; rw [hruns]
    have herr : ∀ g, groupError m g = groupError m' g := by
      intro g
      unfold groupError indexFor
      rcases same_lookup hsame hnd g.1 with ⟨a, b⟩ | ⟨i, i', a, b, c⟩ <;> rw [a, b]
    have hidx : ∀ g, Option.Rel (fun a b => a.1 = b.1 ∧ a.2.Perm b.2) (groupIndexReport w m g) (groupIndexReport w m' g) := by
      intro g
      unfold groupIndexReport indexFor
      rw [hlogs]
      rcases same_lookup hsame hnd g.1 with ⟨a, b⟩ | ⟨i, i', a, b, c⟩
      · rw [a, b]; exact .none
      · rw [a, b]
        simp only
        split
        · exact .none
        · exact .some ⟨rfl, c.sources⟩
    simp only [total, List.nil_append, Nat.zero_add, hruns, herr] at p1 p2 p3 p4 ⊢
    refine ⟨?_, ?_, ?_, ?_, trivial, trivial, trivial, ?_⟩
    · simpa only [funext hlogs] using p1
    · obtain ⟨k, k1, k2⟩ := filterMap_anyOrder (Q := Eq) (P := fun a b : N × List S => a.1 = b.1 ∧ a.2.Perm b.2)
        (f := groupIndexReport w m) (f' := groupIndexReport w m') (l := o2 gs) (l' := o2 gs)
        ⟨_, List.forall₂_eq_eq_eq ▸ rfl, .refl _⟩ (by rintro a _ b rfl; exact hidx a)
      exact ⟨k, k1, k2.trans p2⟩
    · simpa only [funext herr] using p3
    · exact p4
    · exact hb

/-! ### The report with another order of the target -/

theorem runs_relist (list : C → List (Except E S)) (i : Index S) (ss : List S) (skip : List Str) :
    runs (relist w list) i ss skip = runs w i ss skip := by
  induction ss generalizing skip with
  | nil => rfl
  | cons s ss ih =>
    unfold runs
    show (match w.openSource s with | .error e => _ | .ok reader => _) = _
    cases w.openSource s with
    | error e => rfl
    | ok reader =>
      simp only [ih]
      rfl

theorem firsts_map {α : Type} (key : α → Str) (seen : List Str) (X : List α) :
    (LJ.Process.Spec.firsts key seen X).map key = LJ.Process.Spec.firsts id seen (X.map key) := by
  induction X generalizing seen with
  | nil => rfl
  | cons x X ih =>
    rw [List.map_cons, LJ.Process.firsts_cons, LJ.Process.firsts_cons]
    simp only [id_eq]
    split
    · exact ih _
    · rw [List.map_cons, ih]

/-- the normalised anomalies of a list of lines do not depend on the order of the lines -/
theorem anomalies_perm (tok : Str → Str) (dist : Str → D) (over : D → Bool) {X Y : List LJ.Process.Spec.Line} (h : X.Perm Y) :
    ((LJ.Process.Spec.anomalies tok dist over [] X).map fun a => (tok a.line, a.distance)).Perm
      ((LJ.Process.Spec.anomalies tok dist over [] Y).map fun a => (tok a.line, a.distance)) := by
  have key : ∀ X : List LJ.Process.Spec.Line, (LJ.Process.Spec.anomalies tok dist over [] X).map (fun a => (tok a.line, a.distance)) =
      ((LJ.Process.Spec.firsts id [] (X.map fun l => tok l.text)).filter fun t => over (dist t)).map fun t => (t, dist t) := by
    intro X
    unfold LJ.Process.Spec.anomalies
    rw [← firsts_map, List.filter_map, List.map_map, List.map_map]
    rfl
  rw [key, key]
  refine (List.Perm.filter _ ?_).map _
  have hnd : ∀ Z : List Str, (LJ.Process.Spec.firsts id [] Z).Nodup := by
    intro Z
    have := (LJ.Process.firsts_nodup (key := id) [] Z).1
    rwa [List.map_id] at this
  rw [List.perm_ext_iff_of_nodup (hnd _) (hnd _)]
  intro x
  rw [LJ.Process.firsts_id_mem, LJ.Process.firsts_id_mem, (h.map _).mem_iff]

/-- the normalised anomalies of log reports -/
def keys (w : World C S N D E ε) (ls : List (LogReport S N D)) : List (Str × D) :=
  ls.flatMap fun l => l.anomalies.map fun a => (w.tokenize a.anomaly.line, a.anomaly.distance)

theorem keys_length (ls : List (LogReport S N D)) : (keys w ls).length = (ls.map fun l => l.anomalies.length).sum := by
  unfold keys
  induction ls with
  | nil => rfl
  | cons l ls ih => rw [List.flatMap_cons, List.length_append, ih, List.map_cons, List.sum_cons, List.length_map]

/-- a group whose sources are listed in another order -/
theorem group_same (hs : SearchOk w) (hu : Unordered w) {m m' : Model C S N} (hsame : SameModel m m') (hn : (m.indexes.map Prod.fst).Nodup)
    {n : N} {ss ss' : List S} (hp : ss.Perm ss') (text : S → List LJ.Process.Spec.Line)
    (hgood : ∀ s ∈ ss, ∃ reader lines, w.openSource s = .ok reader ∧ reader (w.isJson s) = lines.map Except.ok ∧
      LJ.Process.Spec.Reads w.decode lines (text s) ∧ LJ.Process.Spec.NoMarker (text s)) :
    (groupRuns w m (n, ss)).filterMap Run.err = [] ∧ (groupRuns w m' (n, ss')).filterMap Run.err = [] ∧
    ((groupRuns w m (n, ss)).map Run.lines).sum = ((groupRuns w m' (n, ss')).map Run.lines).sum ∧
    (keys w (groupLogs w m (n, ss))).Perm (keys w (groupLogs w m' (n, ss'))) ∧
    Option.Rel List.Perm (groupError m (n, ss)) (groupError m' (n, ss')) ∧
    Option.Rel (fun a b => a.1 = b.1 ∧ a.2.Perm b.2) (groupIndexReport w m (n, ss)) (groupIndexReport w m' (n, ss')) := by
  unfold groupIndexReport groupError
  unfold groupLogs groupRuns indexFor
  simp only
  rcases same_lookup hsame hn n with ⟨a, b⟩ | ⟨i, i', a, b, c⟩
  · rw [a, b]
    exact ⟨rfl, rfl, rfl, .refl _, .some hp, .none⟩
  · rw [a, b]
    simp only
    simp only [← runs_same (hu _ _ c.tokens)]
    obtain ⟨dist, hd⟩ := hs i.chunks
    obtain ⟨a1, a2, a3⟩ := runs_good hd ss text hgood n []
    obtain ⟨b1, b2, b3⟩ := runs_good hd ss' text (fun s h => hgood s (hp.mem_iff.2 h)) n []
    have hk : ∀ ls : List (LogReport S N D), keys w ls = (ls.flatMap fun l => l.anomalies.map (·.anomaly)).map
        fun a => (w.tokenize a.line, a.distance) := by
      intro ls
      unfold keys
      rw [List.map_flatMap]
      simp only [List.map_map]
      rfl
    have hkp : (keys w ((runs w i ss []).filterMap (Run.log n))).Perm (keys w ((runs w i ss' []).filterMap (Run.log n))) := by
      rw [hk, hk, a1, b1]
      exact anomalies_perm _ _ _ (hp.flatMap_right text)
    refine ⟨a2, b2, ?_, hkp, .none, ?_⟩
    · rw [a3, b3]
      exact (hp.flatMap_right text).length_eq
    · -- the log reports of a group are empty when there is no anomaly
      have hne : ∀ ss, ((runs w i ss []).filterMap (Run.log n)).isEmpty = (keys w ((runs w i ss []).filterMap (Run.log n))).isEmpty := by
        intro ss
        have : ∀ l ∈ (runs w i ss []).filterMap (Run.log n), l.anomalies ≠ [] := by
          intro l hl
          obtain ⟨x, _, hx⟩ := List.mem_filterMap.1 hl
          cases x with
          | noOpen => cases hx
          | done s p =>
            simp only [Run.log] at hx
            split at hx
            · cases hx
            · rename_i hne
              cases hx
              simpa using hne
        generalize (runs w i ss []).filterMap (Run.log n) = ls at this
        cases ls with
        | nil => rfl
        | cons l ls =>
          have h1 := this l (by simp)
          cases hl : l.anomalies with
          | nil => exact absurd hl h1
          | cons x xs => simp [keys, hl]
      rw [hne, hne]
      have : (keys w ((runs w i ss []).filterMap (Run.log n))).isEmpty = (keys w ((runs w i ss' []).filterMap (Run.log n))).isEmpty := by
        rw [Bool.eq_iff_iff, List.isEmpty_iff, List.isEmpty_iff]
        constructor
        · intro h; rw [h] at hkp; exact hkp.symm.eq_nil
        · intro h; rw [h] at hkp; exact hkp.eq_nil
      rw [this]
      split
      · exact .none
      · exact .some ⟨rfl, c.sources⟩

/-- When the baselines and the target, or the files in them, are listed in another order, the report
finds the same lines for each name: the same normalised lines, with the same distances, as many of
them, among as many lines.  What is missing: which of several equal lines is shown, hence its source
and its context, depends on the order (`C120_false`); so does what is found after a source which can't
be opened (`C120_open_false`), and what the sources of a name which are not all JSON or all not are
read as (`C120_json_false`). -/
theorem C120_partial (hs : SearchOk w) (hu : Unordered w) {o o' o2 o2' : List (N × List S) → List (N × List S)}
    (ho : ∀ g, (o g).Perm g) (ho' : ∀ g, (o' g).Perm g) (ho2 : ∀ g, (o2 g).Perm g) (ho2' : ∀ g, (o2' g).Perm g)
    {list : C → List (Except E S)} (hl : ∀ c, (w.list c).Perm (list c)) {cs cs' : List C} (hc : cs.Perm cs')
    (hj : ∀ s ∈ cs.flatMap (fun c => Spec.validSources w.valid (w.list c)),
      ∀ t ∈ cs.flatMap (fun c => Spec.validSources w.valid (w.list c)), w.nameOf s = w.nameOf t → w.isJson s = w.isJson t)
    {m : Model C S N} (hm : train w o cs = .ok m) {target : C} {r : Report C S N D E ε} (hr : report w m o2 target = some (.ok r))
    (text : S → List LJ.Process.Spec.Line)
    (hgood : ∀ s ∈ Spec.validSources w.valid (w.list target), ∃ reader lines, w.openSource s = .ok reader ∧
      reader (w.isJson s) = lines.map Except.ok ∧ LJ.Process.Spec.Reads w.decode lines (text s) ∧ LJ.Process.Spec.NoMarker (text s)) :
    ∃ m' r', train (relist w list) o' cs' = .ok m' ∧ report (relist w list) m' o2' target = some (.ok r') ∧
      (∀ n, (found w r n).Perm (found w r' n)) ∧ r.totalAnomalyCount = r'.totalAnomalyCount ∧ r.totalLineCount = r'.totalLineCount ∧
      AnyOrder (fun a b => a.1 = b.1 ∧ a.2.Perm b.2) r.indexReports r'.indexReports ∧ AnyOrder List.Perm r.indexErrors r'.indexErrors ∧
      r.readErrors = [] ∧ r'.readErrors = [] := by
  obtain ⟨m', hm', hsame⟩ := C120_train_partial ho ho' hl hc hj hm
  have hnd := ((C75_train (w := w) ho cs).2 m hm).2.1
  have husable : Spec.Usable w.valid (w.list target) := by
    obtain ⟨res, h1, h2⟩ := report_total hs m o2 ho2 target
    rw [hr] at h1
    cases h1
    exact h2.1 ⟨r, rfl⟩
  have hs' : SearchOk (relist w list) := hs
  obtain ⟨res, h1, h2⟩ := report_total hs' m' o2' ho2' target
  obtain ⟨r', rfl⟩ := h2.2 (usable_perm (hl target) husable)
  refine ⟨m', r', hm', h1, ?_⟩
  obtain ⟨gs, hp, rfl⟩ := report_ok hs ho2 hr
  obtain ⟨gs', hp', rfl⟩ := report_ok hs' ho2' h1
  have hpv := validSources_perm (valid := w.valid) (hl target)
  have hg : AnyOrder (fun a b => a.1 = b.1 ∧ a.2.Perm b.2) gs gs' := by
    refine anyOrder_of_keys (R := fun a b : List S => a.Perm b) hp.1 hp'.1 ?_ ?_
    · intro n ss h
      obtain ⟨a1, a2⟩ := (hp.2 n ss).1 h
      have hq := hpv.filter (fun s => decide (w.nameOf s = n))
      rw [← a2] at hq
      exact ⟨_, (hp'.2 n _).2 ⟨fun hnil => a1 (by
        have hnil : (Spec.validSources w.valid (list target)).filter (fun s => decide (w.nameOf s = n)) = [] := hnil
        rw [hnil] at hq; exact hq.eq_nil), rfl⟩, hq⟩
    · intro n ss' h
      obtain ⟨a1, a2⟩ := (hp'.2 n ss').1 h
      have hq := hpv.filter (fun s => decide (w.nameOf s = n))
      refine ⟨_, (hp.2 n _).2 ⟨fun hnil => a1 ?_, rfl⟩⟩
      rw [hnil] at hq
      rw [a2]
      exact hq.symm.eq_nil
  have hruns : ∀ g, groupRuns (relist w list) m' g = groupRuns w m' g := by
    intro g
    unfold groupRuns
    cases indexFor m' g with
    | none => rfl
    | some i => exact runs_relist _ _ _ _
  have hlogs : groupLogs (relist w list) m' = groupLogs w m' := by funext g; unfold groupLogs; rw [hruns]
  have hidx : groupIndexReport (relist w list) m' = groupIndexReport w m' := by funext g; unfold groupIndexReport; rw [hlogs]
  have H : ∀ a ∈ gs, ∀ b : N × List S, a.1 = b.1 ∧ a.2.Perm b.2 →
      (groupRuns w m a).filterMap Run.err = [] ∧ (groupRuns w m' b).filterMap Run.err = [] ∧
      ((groupRuns w m a).map Run.lines).sum = ((groupRuns w m' b).map Run.lines).sum ∧
      (keys w (groupLogs w m a)).Perm (keys w (groupLogs w m' b)) ∧
      Option.Rel List.Perm (groupError m a) (groupError m' b) ∧
      Option.Rel (fun a b => a.1 = b.1 ∧ a.2.Perm b.2) (groupIndexReport w m a) (groupIndexReport w m' b) := by
    rintro ⟨n, ss⟩ ha ⟨n', ss'⟩ ⟨rfl, hq⟩
    exact group_same hs hu hsame hnd (n := n) hq text (fun s hss => hgood s (by
      rw [((hp.2 n ss).1 ha).2, List.mem_filter] at hss
      exact hss.1))
  simp only [total, emptyReport, List.nil_append, Nat.zero_add, hruns, hlogs, hidx, found]
  have hfilter : ∀ (m : Model C S N) (gs : List (N × List S)) (n : N),
      ((gs.flatMap (groupLogs w m)).filter fun l => decide (l.indexName = n)) = (gs.filter fun g => decide (g.1 = n)).flatMap (groupLogs w m) := by
    intro m gs n
    induction gs with
    | nil => rfl
    | cons g gs ih =>
      rw [List.flatMap_cons, List.filter_append, ih, List.filter_cons]
      by_cases hgn : g.1 = n
      · rw [if_pos (by simpa using hgn), List.flatMap_cons]
        congr 1
        rw [List.filter_eq_self]
        intro l hl'
        rw [(groupLogs_spec hl').1]; simpa using hgn
      · rw [if_neg (by simpa using hgn)]
        have : (groupLogs w m g).filter (fun l => decide (l.indexName = n)) = [] := by
          rw [List.filter_eq_nil_iff]
          intro l hl'
          rw [(groupLogs_spec hl').1]; simpa using hgn
        rw [this, List.nil_append]
  refine ⟨?_, ?_, ?_, ?_, ?_, ?_, ?_⟩
  · intro n
    rw [hfilter, hfilter, List.flatMap_assoc, List.flatMap_assoc]
    have hgf : AnyOrder (fun a b => a.1 = b.1 ∧ a.2.Perm b.2) (gs.filter fun g => decide (g.1 = n)) (gs'.filter fun g => decide (g.1 = n)) := by
      have := filterMap_anyOrder (f := fun g : N × List S => if g.1 = n then some g else none)
        (f' := fun g : N × List S => if g.1 = n then some g else none) (P := fun a b => a.1 = b.1 ∧ a.2.Perm b.2) hg (by
          rintro a _ b hab
          rw [← hab.1]
          split
          · exact .some hab
          · exact .none)
      have e : ∀ l : List (N × List S), l.filterMap (fun g => if g.1 = n then some g else none) = l.filter fun g => decide (g.1 = n) := by
        intro l
        induction l with
        | nil => rfl
        | cons g l ih =>
          rw [List.filterMap_cons, List.filter_cons, ← ih]
          by_cases hgn : g.1 = n <;> simp [hgn]
      rwa [e, e] at this
    exact flatMap_anyOrder hgf (fun a ha b hab => (H a (List.mem_filter.1 ha).1 b hab).2.2.2.1)
  · refine sum_anyOrder hg ?_
    intro a ha b hab
    rw [← (groupLogs_count w m a).1, ← (groupLogs_count w m' b).1, ← keys_length (w := w), ← keys_length (w := w)]
    exact (H a ha b hab).2.2.2.1.length_eq
  · exact sum_anyOrder hg fun a ha b hab => (H a ha b hab).2.2.1
  · exact filterMap_anyOrder hg fun a ha b hab => (H a ha b hab).2.2.2.2.2
  · exact filterMap_anyOrder hg fun a ha b hab => (H a ha b hab).2.2.2.2.1
  · rw [List.flatMap_eq_nil_iff]
    intro a ha
    obtain ⟨k, k1, k2⟩ := hg
    obtain ⟨b, hb, hab⟩ : ∃ b ∈ k, a.1 = b.1 ∧ a.2.Perm b.2 := by
      clear k2 H hp hr
      induction k1 with
      | nil => cases ha
      | @cons x y l k hxy _ ih =>
        rcases List.mem_cons.1 ha with rfl | ha
        · exact ⟨y, by simp, hxy⟩
        · obtain ⟨b, hb, hab⟩ := ih ha
          exact ⟨b, by simp [hb], hab⟩
    exact (H a ha b hab).1
  · rw [List.flatMap_eq_nil_iff]
    intro b hb
    obtain ⟨k, k1, k2⟩ := hg
    obtain ⟨a, ha, hab⟩ : ∃ a ∈ gs, a.1 = b.1 ∧ a.2.Perm b.2 := by
      have hb := k2.mem_iff.2 hb
      clear k2 H hp hr
      induction k1 with
      | nil => cases hb
      | @cons x y l k hxy _ ih =>
        rcases List.mem_cons.1 hb with rfl | hb
        · exact ⟨x, by simp, hxy⟩
        · obtain ⟨a, ha, hab⟩ := ih hb
          exact ⟨a, by simp [ha], hab⟩
    exact (H a ha b hab).2.1

/-! ### The indexes of the program -/

theorem unordered_indexWorld {C S N E ε : Type} {cfg : LJ.Process.Cfg} {hashing : Bool} {list : C → List (Except E S)} {valid : S → Bool}
    {nameOf : S → N} {isJson : S → Bool} {openSource : S → Except E (Bool → List (Ev ε))} :
    Unordered (indexWorld cfg hashing list valid nameOf isJson openSource) := by
  intro cs cs' h
  funext ts
  cases hashing with
  | false =>
    show ((List.foldlM (LJ.Process.ChunkIndex.add cfg) .noop cs).bind fun i => i.search cfg ts).getD [] =
      ((List.foldlM (LJ.Process.ChunkIndex.add cfg) .noop cs').bind fun i => i.search cfg ts).getD []
    rw [LJ.Process.foldl_noop, LJ.Process.foldl_noop]
  | true =>
    have hfold : ∀ cs, ((List.foldlM (LJ.Process.ChunkIndex.add cfg) (LJ.Process.newIndex true) cs).bind fun i => i.search cfg ts) =
        LJ.Index.viaChunks cfg.fp cfg.hash cs ts := by
      intro cs
      show ((List.foldlM (LJ.Process.ChunkIndex.add cfg) (.hashingTrick LJ.Index.HashingIndex.new) cs).bind fun i => i.search cfg ts) = _
      rw [LJ.Process.foldl_hashing]
      unfold LJ.Index.viaChunks LJ.Index.HashingIndex.build
      cases cs.foldlM (LJ.Index.HashingIndex.add cfg.fp cfg.hash) LJ.Index.HashingIndex.new <;> rfl
    show ((List.foldlM (LJ.Process.ChunkIndex.add cfg) (LJ.Process.newIndex true) cs).bind fun i => i.search cfg ts).getD [] =
      ((List.foldlM (LJ.Process.ChunkIndex.add cfg) (LJ.Process.newIndex true) cs').bind fun i => i.search cfg ts).getD []
    rw [hfold, hfold, LJ.Index.C20_arrangement cfg.fp cs cs' h]

/-- The hypotheses of C120 on the search hold of the two kinds of index of the program. -/
example {C S N E ε : Type} {cfg : LJ.Process.Cfg} (hfp : cfg.fp.Standard) {hashing : Bool} {list : C → List (Except E S)} {valid : S → Bool}
    {nameOf : S → N} {isJson : S → Bool} {openSource : S → Except E (Bool → List (Ev ε))} :
    SearchOk (indexWorld cfg hashing list valid nameOf isJson openSource) ∧ Unordered (indexWorld cfg hashing list valid nameOf isJson openSource) :=
  ⟨searchOk_indexWorld hfp, unordered_indexWorld⟩

/-! ### Cases -/

theorem small_unordered (list : Nat → List (Except Unit String)) (table : List (String × (Bool → List (Ev Unit)))) : Unordered (small list table) := by
  intro cs cs' h
  funext ts
  show (ts.map fun t => if t ∈ cs.flatten then 0 else 1) = ts.map fun t => if t ∈ cs'.flatten then 0 else 1
  simp only [h]

/-- the same files as `list1`, the target in another order -/
def list2 : Nat → List (Except Unit String)
  | 0 => [.ok "b1", .ok "c-", .ok "a1"]
  | 1 => [.ok "b2", .ok "a3", .ok "a2"]
  | 2 => [.error (), .ok "a1"]
  | _ => [.ok "c-"]

theorem relisted : ∀ c, (list1 c).Perm (list2 c)
  | 0 => by decide +kernel
  | 1 => by decide +kernel
  | 2 => by decide +kernel
  | _ + 3 => .refl _

/-- the text of the sources of `table1` -/
def text1 (s : String) : List LJ.Process.Spec.Line :=
  match table1.lookup s with
  | some r => (r false).filterMap fun x => match x with | .ok l => some ⟨(world1.decode l.1).getD [], l.2⟩ | .error _ => none
  | none => []

/-- The hypotheses of C120 are met by `world1`, its model, and the target: a report with two anomalies. -/
example : (∀ c, (world1.list c).Perm (list2 c)) ∧ train world1 id [0] = .ok model1 ∧
    (∀ s ∈ Spec.validSources world1.valid (world1.list 1), ∃ reader lines, world1.openSource s = .ok reader ∧
      reader (world1.isJson s) = lines.map Except.ok ∧ LJ.Process.Spec.Reads world1.decode lines (text1 s) ∧
      LJ.Process.Spec.NoMarker (text1 s)) := by
  refine ⟨relisted, train1, ?_⟩
  intro s hs
  have : s = "a2" ∨ s = "b2" ∨ s = "a3" := by
    have e : Spec.validSources world1.valid (world1.list 1) = ["a2", "b2", "a3"] := by decide +kernel
    rw [e] at hs
    simpa using hs
  rcases this with rfl | rfl | rfl
  · exact ⟨_, [toyL "p" 1, toyL "q" 2], rfl, rfl, by decide +kernel, by unfold LJ.Process.Spec.NoMarker; decide +kernel⟩
  · exact ⟨_, [toyL "p" 1, toyL "q" 2], rfl, rfl, by decide +kernel, by unfold LJ.Process.Spec.NoMarker; decide +kernel⟩
  · exact ⟨_, [toyL "r" 1, toyL "q" 2], rfl, rfl, by decide +kernel, by unfold LJ.Process.Spec.NoMarker; decide +kernel⟩

/-- the report of the target with the two orders: `q` is found in `a2` or in `a3` -/
def shown (x : Option (Except (ListErr Unit Nat) (Report Nat String String Nat Unit Unit))) : List (String × List String) :=
  match x with
  | some (.ok r) => r.logReports.map fun l => (l.source, l.anomalies.map fun a => String.ofList a.anomaly.line)
  | _ => []

/-- C120 does not hold in full: a line which is in two files of the target is reported in the one which
happens to be listed first, and the other one is not in the report. -/
theorem C120_false :
    let files := fun (ss : List String) => small (fun _ => ss.map .ok)
      [("a1", fun _ => [.ok (toyL "p" 1), .ok (toyL "q" 2)]), ("a2", fun _ => [.ok (toyL "q" 1)])]
    let m : Model Nat String String := ⟨[], [("a", ⟨[], [], 0, 0⟩)]⟩
    shown (report (files ["a1", "a2"]) m id 0) = [("a1", ["p", "q"])] ∧
    shown (report (files ["a2", "a1"]) m id 0) = [("a2", ["q"]), ("a1", ["p"])] := by
  decide +kernel

/-- A file which can't be opened: what the other files of its name have is found only if they are
listed before it. -/
theorem C120_open_false :
    let files := fun (ss : List String) => small (fun _ => ss.map .ok) [("a2", fun _ => [.ok (toyL "q" 1)])]
    let m : Model Nat String String := ⟨[], [("a", ⟨[], [], 0, 0⟩)]⟩
    shown (report (files ["a1", "a2"]) m id 0) = [] ∧
    shown (report (files ["a2", "a1"]) m id 0) = [("a2", ["q"])] := by
  decide +kernel

/-- Files of a name, JSON and not, in a baseline: the one listed first decides how all are read, hence
what is known of the target. -/
theorem C120_json_false :
    let files := fun (ss : List String) => small (fun c => if c = 0 then ss.map .ok else [.ok "a3"])
      [("a1j", fun json => if json then [.ok (toyL "p" 1), .ok (toyL "q" 1)] else [.ok (toyL "p, q" 1)]), ("a2", fun _ => []),
       ("a3", fun _ => [.ok (toyL "p" 1)])]
    let run := fun ss => match train (files ss) id [0] with | .ok m => shown (report (files ss) m id 1) | .error _ => []
    run ["a1j", "a2"] = [] ∧ run ["a2", "a1j"] = [("a3", ["p"])] := by
  decide +kernel

end LJ.Report

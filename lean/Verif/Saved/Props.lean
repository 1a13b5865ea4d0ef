/-
C93: a report made with a saved model is the report made when the model was trained.
-/
import Verif.Saved.Lemmas
import Verif.Saved.Spec
namespace LJ.Saved
open LJ.Process (Str Bytes Ev Env Err AnomalyContext Cfg)
open LJ.Report (World Report LogReport groupSources lookupOrSingle recordErr)
open LJ.Codec (Texts Source Content Duration Matrix)
open LJ.Python (toMatrix matOf rawOf)
open LJ.Index (Mat SIZE rowOf)

variable {t : Texts} {E ε : Type} {cfg : Cfg} {hashing : Bool}

/-! ### What is kept in memory -/

/-- the matrix of at most 512 lines is in memory -/
theorem toMatrix_small (c : List Str) (h : c.length ≤ 512) : ∃ m, toMatrix (rows cfg c) = some m := by
  have hl : (rows cfg c).length = c.length := by simp [rows]
  have hrow : ∀ r ∈ rows cfg c, r.length ≤ SIZE := by
    intro r hr
    obtain ⟨l, _, rfl⟩ := List.mem_map.1 hr
    unfold rowOf LJ.Index.toRow
    rw [List.length_map, List.length_map]
    exact LJ.Index.vecOf_length_le l
  have hflat : (rows cfg c).flatten.length ≤ 512 * SIZE := by
    have : ∀ m : Mat, (∀ r ∈ m, r.length ≤ SIZE) → m.flatten.length ≤ m.length * SIZE := by
      intro m
      induction m with
      | nil => intro _; simp
      | cons r m ih =>
        intro hm
        rw [List.flatten_cons, List.length_append, List.length_cons, Nat.succ_mul]
        have h1 := hm r (by simp)
        have h2 := ih fun x hx => hm x (by simp [hx])
        omega
    have h1 := this _ hrow
    rw [hl] at h1
    exact h1.trans (Nat.mul_le_mul_right _ h)
  have hs : 512 * SIZE < 2 ^ 60 := by decide
  have hv := LJ.Python.rawOf_valid (LJ.Python.rows_proper cfg.fp cfg.hash c) (m := rows cfg c) ⟨by omega, by omega⟩
  have h1 : (rawOf (rows cfg c)).indptr.length < 2 ^ 60 := by
    unfold rawOf
    simp only [LJ.Python.starts_length]
    omega
  have h2 : (rawOf (rows cfg c)).indices.length < 2 ^ 60 := by
    unfold rawOf
    simp only [List.length_map]
    omega
  unfold toMatrix
  rw [dif_pos ⟨hv, h1, h2⟩]
  exact ⟨_, rfl⟩

theorem keepIndex_total (chunks : List (List Str)) (h : ∀ c ∈ chunks, c.length ≤ 512) : ∃ i, keepIndex cfg hashing chunks = some i := by
  unfold keepIndex
  cases hashing with
  | false => rw [fold_false]; exact ⟨_, rfl⟩
  | true =>
    rw [fold_true]
    have : ∃ ms, (chunks.map (rows cfg)).mapM toMatrix = some ms := by
      induction chunks with
      | nil => exact ⟨[], rfl⟩
      | cons c chunks ih =>
        obtain ⟨m, hm⟩ := toMatrix_small (cfg := cfg) c (h c (by simp))
        obtain ⟨ms, hms⟩ := ih fun c hc => h c (by simp [hc])
        exact ⟨m :: ms, by rw [List.map_cons, List.mapM_cons, hm, hms]; rfl⟩
    obtain ⟨ms, hms⟩ := this
    simp only [hms]
    exact ⟨_, rfl⟩

/-- the chunks of a trained index -/
theorem trained_chunks {o : Sources t E ε} {ss : List (Source t)} {i : LJ.Report.Index (Source t)} (h : LJ.Report.trainIndex (o.world cfg hashing) ss = .ok i) :
    ∀ c ∈ i.chunks, c.length ≤ 512 := by
  have hopen : ∀ s ∈ ss, ∃ reader, (o.world cfg hashing).openSource s = .ok reader := by
    intro s hs
    cases ho : (o.world cfg hashing).openSource s with
    | ok reader => exact ⟨reader, rfl⟩
    | error e =>
      obtain ⟨s', _, e', _, h3⟩ := LJ.Report.trainIndex_err ss hs ho
      rw [h] at h3; cases h3
  rw [LJ.Report.trainIndex_ok ss hopen] at h
  cases h
  intro c hc
  exact ((LJ.Process.C24_chunks _).2.1 c hc).2

/-- an index and its clocks -/
theorem keepAll {clocks : Clocks} (xs : List (String × LJ.Report.Index (Source t))) (h : ∀ x ∈ xs, ∃ i, keepIndex cfg hashing x.2.chunks = some i) :
    ∃ ps, xs.mapM (keepOne cfg hashing clocks) = some ps ∧
      List.Forall₂ (fun x p => p.1 = x.1 ∧ p.2.sources = x.2.sources ∧ keepIndex cfg hashing x.2.chunks = some p.2.index) xs ps := by
  induction xs with
  | nil => exact ⟨[], rfl, .nil⟩
  | cons x xs ih =>
    obtain ⟨i, hi⟩ := h x (by simp)
    obtain ⟨ps, h1, h2⟩ := ih fun x hx => h x (by simp [hx])
    have e : keepOne cfg hashing clocks x = some (x.1, ⟨(clocks.index x.1).1, (clocks.index x.1).2, x.2.sources, i,
        UInt64.ofNat x.2.lineCount, UInt64.ofNat x.2.byteCount⟩) := by
      unfold keepOne
      rw [hi]
      rfl
    exact ⟨_, by rw [List.mapM_cons, e, h1]; rfl, .cons ⟨rfl, rfl, hi⟩ h2⟩

/-- The trained model is in memory. -/
theorem keep_trained {o : Sources t E ε} (clocks : Clocks) {order : List (String × List (Source t)) → List (String × List (Source t))}
    (ho : ∀ g, (order g).Perm g) {cs : List (Content t)} {m : LJ.Report.Model (Content t) (Source t) String}
    (hm : LJ.Report.train (o.world cfg hashing) order cs = .ok m) :
    ∃ s, keep cfg hashing clocks m = some s ∧ s.baselines = m.baselines ∧
      List.Forall₂ (fun x p => p.1 = x.1 ∧ p.2.sources = x.2.sources ∧ keepIndex cfg hashing x.2.chunks = some p.2.index) m.indexes s.indexes.pairs := by
  obtain ⟨_, hn, hi⟩ := (LJ.Report.C75_train ho cs).2 m hm
  obtain ⟨ps, h1, h2⟩ := keepAll (cfg := cfg) (hashing := hashing) (clocks := clocks) m.indexes fun x hx =>
    keepIndex_total _ (trained_chunks ((hi x.1 x.2).1 hx).2.2)
  have hk : ps.map Prod.fst = m.indexes.map Prod.fst := by
    clear h1 hi hn hm
    generalize m.indexes = xs at h2
    induction h2 with
    | nil => rfl
    | cons h _ ih => rw [List.map_cons, List.map_cons, h.1, ih]
  have hp : (LJ.Codec.Map.ofPairs ps).pairs = ps := by
    have := LJ.Codec.ofPairs_append ps ⟨[], by simp⟩ (by rw [List.nil_append, hk]; exact hn)
    exact this
  refine ⟨⟨clocks.model, m.baselines, LJ.Codec.Map.ofPairs ps⟩, ?_, rfl, ?_⟩
  · unfold keep
    rw [h1]
    rfl
  · show List.Forall₂ _ _ (LJ.Codec.Map.ofPairs ps).pairs
    rw [hp]
    exact h2

theorem forall₂_mem {α β : Type} {R : α → β → Prop} {xs : List α} {ys : List β} (h : List.Forall₂ R xs ys) {y : β} (hy : y ∈ ys) : ∃ x ∈ xs, R x y := by
  induction h with
  | nil => cases hy
  | @cons a b xs ys h _ ih =>
    rcases List.mem_cons.1 hy with rfl | hy
    · exact ⟨a, by simp, h⟩
    · obtain ⟨x, hx, h⟩ := ih hy
      exact ⟨x, by simp [hx], h⟩

/-! ### The same report -/

/-- a trained index, and what is kept of it -/
structure Same (o : Sources t E ε) (cfg : Cfg) (hashing : Bool) (i : LJ.Report.Index (Source t)) (x : LJ.Codec.Index t) : Prop where
  sources : x.sources = i.sources
  env : envOf cfg x.index = some (LJ.Report.envOf (o.world cfg hashing) i.chunks)

theorem inspect_same {o : Sources t E ε} {i : LJ.Report.Index (Source t)} {x : LJ.Codec.Index t} (h : Same o cfg hashing i x) (s : Source t)
    (reader : Bool → List (Ev ε)) (skip : List Str) : inspect cfg o x s reader skip = LJ.Report.inspect (o.world cfg hashing) i s reader skip := by
  unfold inspect LJ.Report.inspect
  rw [h.env]
  have hj : (o.world cfg hashing).isJson s = o.isJson s := rfl
  rw [hj]
  simp only
  rcases LJ.Process.process (LJ.Report.envOf (o.world cfg hashing) i.chunks) skip (reader (o.isJson s)) with ⟨a, stop, st⟩
  cases stop <;> rfl

theorem record_same {o : Sources t E ε} {i : LJ.Report.Index (Source t)} {x : LJ.Codec.Index t} (h : Same o cfg hashing i x) (name : String) (s : Source t)
    (anomalies : List (AnomalyContext ℝ)) (err : Option (Err ε)) (st : LJ.Process.St ℝ) (r : Rep t E ε) :
    record name x s anomalies err st r = LJ.Report.record name i s anomalies err st r := by
  unfold record LJ.Report.record recordIndex LJ.Report.recordIndex
  rw [h.sources]
  cases anomalies <;> rfl

theorem reportSources_same {o : Sources t E ε} {i : LJ.Report.Index (Source t)} {x : LJ.Codec.Index t} (h : Same o cfg hashing i x) (name : String)
    (ss : List (Source t)) (skip : List Str) (r : Rep t E ε) :
    reportSources cfg o name x ss skip r = LJ.Report.reportSources (o.world cfg hashing) name i ss skip r := by
  induction ss generalizing skip r with
  | nil => rfl
  | cons s ss ih =>
    unfold reportSources LJ.Report.reportSources
    show (match o.openSource s with | .error e => _ | .ok reader => _) = (match o.openSource s with | .error e => _ | .ok reader => _)
    cases o.openSource s with
    | error e => rfl
    | ok reader =>
      simp only [inspect_same h]
      cases LJ.Report.inspect (o.world cfg hashing) i s reader skip with
      | none => rfl
      | some y =>
        obtain ⟨a, e, st⟩ := y
        simp only [record_same h]
        exact ih _ _

theorem lookup_same {o : Sources t E ε} {xs : List (String × LJ.Report.Index (Source t))} {ps : List (String × LJ.Codec.Index t)}
    (h : List.Forall₂ (fun x p => p.1 = x.1 ∧ Same o cfg hashing x.2 p.2) xs ps) (k : String) :
    (lookupOrSingle xs k = none ∧ lookupOrSingle ps k = none) ∨
    ∃ i x, lookupOrSingle xs k = some i ∧ lookupOrSingle ps k = some x ∧ Same o cfg hashing i x := by
  have hl : (xs.lookup k = none ∧ ps.lookup k = none) ∨ ∃ i x, xs.lookup k = some i ∧ ps.lookup k = some x ∧ Same o cfg hashing i x := by
    induction h with
    | nil => exact .inl ⟨rfl, rfl⟩
    | @cons x p xs ps h _ ih =>
      obtain ⟨n, i⟩ := x
      obtain ⟨n', y⟩ := p
      obtain ⟨h1, h2⟩ := h
      simp only at h1 h2
      subst h1
      by_cases e : k = n'
      · subst e
        exact .inr ⟨i, y, by simp, by simp, h2⟩
      · have hb : (k == n') = false := by simpa using e
        rw [List.lookup_cons, List.lookup_cons]
        simp only [hb]
        exact ih
  unfold lookupOrSingle
  rcases hl with ⟨h1, h2⟩ | ⟨i, x, h1, h2, h3⟩
  · rw [h1, h2]
    simp only [h.length_eq]
    cases h with
    | nil => exact .inl ⟨by simp, by simp⟩
    | @cons x p xs ps h hs =>
      split
      · exact .inr ⟨x.2, p.2, rfl, rfl, h.2⟩
      · exact .inl ⟨rfl, rfl⟩
  · rw [h1, h2]
    exact .inr ⟨i, x, rfl, rfl, h3⟩

theorem reportGroups_same {o : Sources t E ε} {m : LJ.Report.Model (Content t) (Source t) String} {s : LJ.Codec.Model t}
    {ps : List (String × LJ.Codec.Index t)} (h : List.Forall₂ (fun x p => p.1 = x.1 ∧ Same o cfg hashing x.2 p.2) m.indexes ps)
    (hp : s.indexes.pairs.Perm ps) (gs : List (String × List (Source t))) (r : Rep t E ε) :
    reportGroups cfg o s gs r = LJ.Report.reportGroups (o.world cfg hashing) m gs r := by
  have hlook : ∀ k, lookupOrSingle s.indexes.pairs k = lookupOrSingle ps k := fun k => LJ.Report.lookupOrSingle_perm s.indexes.nodup hp k
  induction gs generalizing r with
  | nil => rfl
  | cons g gs ih =>
    have e : reportGroup cfg o s g r = LJ.Report.reportGroup (o.world cfg hashing) m g r := by
      unfold reportGroup LJ.Report.reportGroup
      rw [hlook]
      rcases lookup_same h g.1 with ⟨h1, h2⟩ | ⟨i, x, h1, h2, h3⟩
      · rw [h1, h2]
      · rw [h1, h2]
        exact reportSources_same h3 _ _ _ _
    unfold reportGroups LJ.Report.reportGroups
    rw [e]
    cases LJ.Report.reportGroup (o.world cfg hashing) m g r with
    | none => rfl
    | some r => exact ih r

theorem groups_same (o : Sources t E ε) (cfg : Cfg) (h1 h2 : Bool) (cs : List (Content t)) (g : List (String × List (Source t))) :
    LJ.Report.groupInto (o.world cfg h1) cs g = LJ.Report.groupInto (o.world cfg h2) cs g := by
  induction cs generalizing g with
  | nil => rfl
  | cons c cs ih =>
    unfold LJ.Report.groupInto
    have e : LJ.Report.getSources (o.world cfg h1) c = LJ.Report.getSources (o.world cfg h2) c := rfl
    rw [e]
    cases LJ.Report.getSources (o.world cfg h2) c with
    | error e => rfl
    | ok ss => exact ih _

theorem report_same {o : Sources t E ε} {m : LJ.Report.Model (Content t) (Source t) String} {s : LJ.Codec.Model t}
    {ps : List (String × LJ.Codec.Index t)} (h : List.Forall₂ (fun x p => p.1 = x.1 ∧ Same o cfg hashing x.2 p.2) m.indexes ps)
    (hp : s.indexes.pairs.Perm ps) (hb : s.baselines = m.baselines)
    (order : List (String × List (Source t)) → List (String × List (Source t))) (target : Content t) :
    report cfg o s order target = LJ.Report.report (o.world cfg hashing) m order target := by
  unfold report LJ.Report.report groupSources
  rw [groups_same o cfg true hashing]
  cases LJ.Report.groupInto (o.world cfg hashing) [target] [] with
  | error e => rfl
  | ok g =>
    simp only [hb]
    rw [reportGroups_same h hp]
    cases LJ.Report.reportGroups (o.world cfg hashing) m (order g) ⟨target, m.baselines, [], [], [], [], 0, 0⟩ <;> rfl

/-! ### C93 -/

/-- A trained model is always in memory, and the report made with what is there is the one of the trained model. -/
theorem C93_memory (hf : cfg.fp.IsF32) (o : Sources t E ε) (clocks : Clocks)
    {order : List (String × List (Source t)) → List (String × List (Source t))} (ho : ∀ g, (order g).Perm g) {cs : List (Content t)}
    {m : LJ.Report.Model (Content t) (Source t) String} (hm : LJ.Report.train (o.world cfg hashing) order cs = .ok m) :
    ∃ s, keep cfg hashing clocks m = some s ∧
      ∀ (order' : List (String × List (Source t)) → List (String × List (Source t))) (target : Content t),
        report cfg o s order' target = LJ.Report.report (o.world cfg hashing) m order' target := by
  obtain ⟨s, h1, h2, h3⟩ := keep_trained clocks ho hm
  refine ⟨s, h1, fun order' target => ?_⟩
  refine report_same (h3.imp fun x p h => ⟨h.1, ⟨h.2.1, keepIndex_env hf o h.2.2⟩⟩) (List.Perm.refl _) h2 order' target

/-- Saving a trained model succeeds when the paths are UTF-8 and the counts fit. -/
theorem C93_saves (hf : cfg.fp.IsF32) {o : Sources t E ε} {clocks : Clocks}
    {order : List (String × List (Source t)) → List (String × List (Source t))} (ho : ∀ g, (order g).Perm g) {cs : List (Content t)}
    {m : LJ.Report.Model (Content t) (Source t) String} (hm : LJ.Report.train (o.world cfg hashing) order cs = .ok m)
    {s : LJ.Codec.Model t} (hk : keep cfg hashing clocks m = some s) (hs : Spec.Saveable m) :
    ∃ b, (LJ.Codec.model t).enc s = some b := by
  obtain ⟨s', h1, h2, h3⟩ := keep_trained clocks ho hm
  rw [hk] at h1
  cases h1
  refine Option.isSome_iff_exists.1 ((LJ.Codec.C70_model_saved t s).2 ⟨?_, ?_⟩)
  · intro n hn
    unfold LJ.Codec.Model.sizes at hn
    rcases List.mem_append.1 hn with hn | hn
    · refine hs.fits n ?_
      unfold Spec.counts
      rw [← h2]
      exact List.mem_append_left _ hn
    · rcases List.mem_cons.1 hn with rfl | hn
      · refine hs.fits _ ?_
        unfold Spec.counts
        rw [← h3.length_eq]
        exact List.mem_append_right _ (List.mem_cons_self)
      · obtain ⟨p, hp, hn⟩ := List.mem_flatMap.1 hn
        obtain ⟨x, hx, e1, e2, e3⟩ : ∃ x ∈ m.indexes, p.1 = x.1 ∧ p.2.sources = x.2.sources ∧ keepIndex cfg hashing x.2.chunks = some p.2.index :=
          forall₂_mem h3 hp
        have hc : ∀ k ∈ (LJ.Codec.stringBytes x.1).length :: x.2.chunks.length :: x.2.sources.length :: x.2.sources.flatMap (LJ.Codec.Source.sizes t),
            k < 2 ^ 64 := by
          intro k hk
          refine hs.fits k ?_
          unfold Spec.counts
          exact List.mem_append_right _ (List.mem_cons_of_mem _ (List.mem_flatMap.2 ⟨x, hx, hk⟩))
        rcases List.mem_append.1 hn with hn | hn
        · rw [List.mem_singleton] at hn
          subst hn
          rw [e1]
          exact hc _ (by simp)
        · unfold LJ.Codec.Index.sizes at hn
          rw [e2] at hn
          rcases List.mem_append.1 hn with hn | hn
          · exact hc _ (List.mem_cons_of_mem _ (List.mem_cons_of_mem _ hn))
          · exact keepIndex_sizes hf e3 (hc _ (by simp)) n hn
  · intro q hq
    refine hs.utf8 q ?_
    unfold LJ.Codec.Model.paths at hq
    unfold Spec.paths
    rw [h2] at hq
    rcases List.mem_append.1 hq with hq | hq
    · exact List.mem_append_left _ hq
    · refine List.mem_append_right _ ?_
      obtain ⟨p, hp, hq⟩ := List.mem_flatMap.1 hq
      unfold LJ.Codec.Index.paths at hq
      obtain ⟨x, hx, _, e2, _⟩ := forall₂_mem h3 hp
      rw [e2] at hq
      exact List.mem_flatMap.2 ⟨x, hx, hq⟩

/-- Training, then saving; and in any later run loading the file and making a report.  The report is the one made when the model was trained,
whatever the clocks were, whatever follows in the file, in whatever order the loaded map has its indexes, and for any target. -/
theorem C93_report (hf : cfg.fp.IsF32) (o : Sources t E ε) (clocks : Clocks)
    {order : List (String × List (Source t)) → List (String × List (Source t))} (ho : ∀ g, (order g).Perm g) {cs : List (Content t)}
    {m : LJ.Report.Model (Content t) (Source t) String} (hm : LJ.Report.train (o.world cfg hashing) order cs = .ok m) (hs : Spec.Saveable m) :
    ∃ s b, keep cfg hashing clocks m = some s ∧ (LJ.Codec.model t).enc s = some b ∧ ∀ rest, ∃ l, LJ.Codec.load (LJ.Codec.model t) (b ++ rest) = some l ∧
      ∀ l' : LJ.Codec.Model t, l'.baselines = l.baselines → l'.indexes.pairs.Perm l.indexes.pairs →
        ∀ (o' : Sources t E ε) (order' : List (String × List (Source t)) → List (String × List (Source t))) (target : Content t),
          report cfg o' l' order' target = LJ.Report.report (o'.world cfg hashing) m order' target := by
  obtain ⟨s, h1, h2, h3⟩ := keep_trained clocks ho hm
  obtain ⟨b, hb⟩ := C93_saves hf ho hm h1 hs
  refine ⟨s, b, h1, hb, fun rest => ⟨s, (LJ.Codec.C70_model t hb rest).2, fun l' hl hp o' order' target => ?_⟩⟩
  exact report_same (h3.imp fun x p h => ⟨h.1, ⟨h.2.1, keepIndex_env hf o' h.2.2⟩⟩) hp (hl.trans h2) order' target

end LJ.Saved

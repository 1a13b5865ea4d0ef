/-
C88: comparing local files, from the bytes of the files to the report.
-/
import Verif.Whole.Bytes
namespace LJ.Whole
open LJ.Process (Str Bytes Ev)
open LJ.Process.Spec (Line firsts)
open LJ.Paths (Source)
open LJ.Report (train report lookupOrSingle)
open Spec (utf8 textFile PlainLine Ordinary HasLines HasTexts reported Near baseFor)

/-! ### Reading -/

theorem openSource_eq (M : Machine) (n : Nat) (path : Str) : M.openSource (.loc n (some path)) =
    match M.files path with
    | none => .error ()
    | some data => .ok fun json => events (LJ.Iterator.allLines (LJ.Iterator.build M.checks) json (LJ.Iterator.fromReads (M.cut path data))) := by
  have h := LJ.Paths.C43_never M.gunzip M.files path
  unfold Machine.openSource
  simp only
  cases hf : LJ.Paths.fromPath M.files path with
  | none => rw [hf] at h; rw [← h]; rfl
  | some r => rw [hf] at h; rw [← h]; rfl

theorem world_open (M : Machine) (s : Source) : M.world.openSource s = M.openSource s := rfl

theorem hasLines_json {M : Machine} {s : Source} {ls : List Line} (h : HasLines M s ls) : M.world.isJson s = false := by
  obtain ⟨rel, h1, h2⟩ := h.relative
  show (s.isJson).getD false = false
  unfold Source.isJson
  rw [h1, Option.map_some, Option.getD_some]
  unfold LJ.Paths.endsWith
  rw [← Bool.not_eq_true, List.isSuffixOf_iff_suffix]
  exact h2

theorem hasLines_read {M : Machine} (hM : Ordinary M) {s : Source} {ls : List Line} (h : HasLines M s ls) :
    ∃ reader lines, M.world.openSource s = .ok reader ∧ reader false = lines.map Except.ok ∧
      LJ.Process.Spec.Reads M.world.decode lines ls := by
  obtain ⟨n, path, data, rfl, h2, h3, h4⟩ := h.data
  refine ⟨_, LJ.Iterator.Spec.lines false 6000 data, by rw [world_open, openSource_eq, h2], ?_, ?_⟩
  · rw [LJ.Iterator.C02_lines_spec Unit M.checks false _ (hM.blocks path data)
      (LJ.Iterator.noOverflow_of_short (by rw [hM.whole]; exact h3)), hM.whole]
    simp [events]
  · refine h4.imp fun p l h => ⟨?_, h.2⟩
    rw [h.1]
    exact decode_utf8 l.text

/-! ### The index -/

theorem index_near {M : Machine} (hfp : M.fp.Standard) (chunks : List (List Str)) :
    ∃ dist, LJ.Process.Spec.Pointwise (M.world.search chunks) dist ∧ Near M.hash chunks.flatten dist := by
  have hb := fun ts => LJ.Index.viaChunks_eq (hash := M.hash) M.fp chunks ts
  have hfold : ∀ ts, ((List.foldlM (LJ.Process.ChunkIndex.add M.cfg) (LJ.Process.newIndex true) chunks).bind fun i => i.search M.cfg ts) =
      LJ.Index.viaChunks M.fp M.hash chunks ts := by
    intro ts
    show ((List.foldlM (LJ.Process.ChunkIndex.add M.cfg) (.hashingTrick LJ.Index.HashingIndex.new) chunks).bind fun i => i.search M.cfg ts) = _
    rw [LJ.Process.foldl_hashing]
    unfold LJ.Index.viaChunks LJ.Index.HashingIndex.build
    show (Option.map _ (chunks.foldlM (LJ.Index.HashingIndex.add M.fp M.hash) LJ.Index.HashingIndex.new)).bind _ = _
    cases chunks.foldlM (LJ.Index.HashingIndex.add M.fp M.hash) LJ.Index.HashingIndex.new <;> rfl
  refine ⟨fun t => LJ.Index.rowDistance M.fp (chunks.flatten.map (LJ.Index.rowOf M.fp M.hash)) (LJ.Index.rowOf M.fp M.hash t), ?_, ?_⟩
  · intro ts
    show ((List.foldlM (LJ.Process.ChunkIndex.add M.cfg) (LJ.Process.newIndex true) chunks).bind fun i => i.search M.cfg ts).getD [] = _
    rw [hfold, hb]
    rfl
  · intro t d hd
    obtain ⟨ds, e, h⟩ := LJ.Index.C19_rounding (hash := M.hash) M.fp hfp chunks [t]
    rw [hb] at e
    cases e
    cases h with
    | cons h _ =>
      refine ⟨(h d hd 260000 (.inr (le_refl _))).trans (by norm_num), fun N hN => h d hd N (.inl hN)⟩

theorem isDistance_congr {hash : Str → Nat} {a b : List Str} (h : ∀ x, x ∈ a ↔ x ∈ b) (t : Str) (d : ℝ) :
    LJ.Index.Spec.IsDistance hash a t d ↔ LJ.Index.Spec.IsDistance hash b t d := by
  unfold LJ.Index.Spec.IsDistance
  simp only [h]

theorem near_congr {hash : Str → Nat} {a b : List Str} (h : ∀ x, x ∈ a ↔ x ∈ b) {dist : Str → ℝ} (hn : Near hash a dist) : Near hash b dist :=
  fun t d hd => hn t d ((isDistance_congr h t d).2 hd)

/-- a known line is below the threshold -/
theorem near_known {hash : Str → Nat} {known : List Str} {dist : Str → ℝ} (hn : Near hash known dist) {t : Str} (ht : t ∈ known) :
    ¬ dist t > LJ.Process.THRESHOLD := by
  have hd := LJ.Index.rowDistance_exact hash known t
  have h0 := LJ.Index.isDistance_mem hd ht
  have h := (hn t _ hd).1
  rw [h0] at h
  have h1 := (abs_le.1 h).2
  unfold LJ.Process.THRESHOLD
  have : (0.07 : ℝ) < 10066330 / 2 ^ 25 := by norm_num
  linarith

/-- a line without a known word is over the threshold -/
theorem near_new {hash : Str → Nat} {known : List Str} {dist : Str → ℝ} (hn : Near hash known dist) {t : Str}
    (ht : ∀ b ∈ known, ¬ LJ.Index.Share hash b t) : dist t > LJ.Process.THRESHOLD := by
  obtain ⟨ds, e, h⟩ := LJ.Index.C23_disjoint (hash := hash) LJ.Index.FP.exact [known] [t]
  rw [LJ.Index.viaChunks_eq] at e
  cases e
  cases h with
  | cons h _ =>
    have h1 := h (by simpa using ht)
    have hd := LJ.Index.rowDistance_exact hash known t
    simp only [List.flatten_cons, List.flatten_nil, List.append_nil] at h1
    rw [h1] at hd
    have h2 := (abs_le.1 (hn t _ hd).1).1
    unfold LJ.Process.THRESHOLD
    have : (10066330 / 2 ^ 25 : ℝ) < 0.93 := by norm_num
    linarith

/-! ### C88 -/

/-- the names of the sources -/
theorem hasLines_name {M : Machine} {s : Source} {ls : List Line} (h : HasLines M s ls) (n : Str) : M.world.nameOf s = n ↔ s.indexName = some n := by
  obtain ⟨rel, hr, _⟩ := h.relative
  show s.indexName.getD [] = n ↔ _
  unfold Source.indexName
  rw [hr]
  simp

theorem hasTexts_sources {M : Machine} {c : Local} {ss : List Source} {text : Source → List Line} (h : HasTexts M c ss text) :
    LJ.Report.Spec.Usable M.world.valid (M.world.list c) ∧ LJ.Report.Spec.validSources M.world.valid (M.world.list c) = ss := by
  have e : LJ.Report.Spec.validSources M.world.valid (M.world.list c) = ss := h.sources.symm
  exact ⟨⟨h.listed, by rw [e]; exact h.some⟩, e⟩

theorem trainIndex_texts {M : Machine} (hM : Ordinary M) {text : Source → List Line} {ss : List Source} (h : ∀ s ∈ ss, HasLines M s (text s)) :
    ∃ i, LJ.Report.trainIndex M.world ss = .ok i ∧ i.sources = ss ∧
      ∀ x, x ∈ i.chunks.flatten ↔ x ∈ ss.flatMap fun b => (text b).map fun l => M.tok l.text := by
  obtain ⟨i, hi⟩ : ∃ i, LJ.Report.trainIndex M.world ss = .ok i := by
    refine ⟨_, LJ.Report.trainIndex_ok _ ?_⟩
    intro s hs
    obtain ⟨reader, _, hr, _⟩ := hasLines_read hM (h s hs)
    exact ⟨reader, hr⟩
  obtain ⟨h1, _, h3⟩ := LJ.Report.C75_tokens _ hi
  refine ⟨i, hi, h1, fun x => ?_⟩
  have hj : LJ.Report.groupJson M.world ss = false := by
    unfold LJ.Report.groupJson
    cases ss with
    | nil => rfl
    | cons s ss => exact hasLines_json (h s (by simp))
  have hread : ∀ (lines : List LJ.Process.LogLine) (ls : List Line), LJ.Process.Spec.Reads M.world.decode lines ls →
      (LJ.Process.Spec.readable (ε := Unit) M.world.decode (lines.map Except.ok)).map Prod.snd = ls.map (·.text) := by
    intro lines ls hr
    induction hr with
    | nil => rfl
    | cons hx _ ih =>
      rw [List.map_cons, LJ.Process.Spec.readable, hx.1]
      simp only [List.map_cons, ih]
  rw [h3, hj, List.mem_flatMap]
  constructor
  · rintro ⟨s, hs, reader, ho, y, hy, rfl⟩
    obtain ⟨reader', lines, ho', hl, hr⟩ := hasLines_read hM (h s hs)
    rw [ho] at ho'
    cases ho'
    rw [hl] at hy
    have := hread lines _ hr
    have hy' : y.2 ∈ (text s).map (·.text) := by rw [← this]; exact List.mem_map_of_mem hy
    obtain ⟨l, hl, e⟩ := List.mem_map.1 hy'
    exact ⟨s, hs, List.mem_map.2 ⟨l, hl, by rw [e]; rfl⟩⟩
  · rintro ⟨s, hs, hx⟩
    obtain ⟨l, hl, rfl⟩ := List.mem_map.1 hx
    obtain ⟨reader, lines, ho, hrd, hr⟩ := hasLines_read hM (h s hs)
    have := hread lines _ hr
    have hl' : l.text ∈ (text s).map (·.text) := List.mem_map_of_mem hl
    rw [← this] at hl'
    obtain ⟨y, hy, e⟩ := List.mem_map.1 hl'
    exact ⟨s, hs, reader, ho, y, by rw [hrd]; exact hy, by rw [e]; rfl⟩

/-- Comparing a content with baselines, all of text files: the training and the report succeed without an error, all
the lines of the target are counted, and the reported lines of the files of a name are the first lines with their
tokens whose distance to the baseline files used for this name is over the threshold. -/
theorem C88_tree {M : Machine} (hM : Ordinary M) {o1 o2 : List (Str × List Source) → List (Str × List Source)} (h1 : ∀ g, (o1 g).Perm g)
    (h2 : ∀ g, (o2 g).Perm g) {cs : List Local} {target : Local} (text : Source → List Line) (src : Local → List Source)
    (hb : ∀ c ∈ cs, HasTexts M c (src c) text) (ht : HasTexts M target (src target) text)
    (hmark : ∀ s ∈ src target, LJ.Process.Spec.NoMarker (text s))
    (hbase : ∀ s ∈ src target, ∀ n, s.indexName = some n → baseFor (cs.flatMap src) n ≠ []) :
    ∃ m r, train M.world o1 cs = .ok m ∧ report M.world m o2 target = some (.ok r) ∧ r.readErrors = [] ∧ r.indexErrors = [] ∧
      r.totalLineCount = ((src target).flatMap text).length ∧
      (∀ l ∈ r.logReports, l.source ∈ src target ∧ l.source.indexName = some l.indexName) ∧
      ∀ n, (∃ s ∈ src target, s.indexName = some n) →
        ∃ dist, Near M.hash ((baseFor (cs.flatMap src) n).flatMap fun b => (text b).map fun l => M.tok l.text) dist ∧
        ((r.logReports.filter fun l => l.indexName = n).flatMap fun l => l.anomalies.map (·.anomaly)) =
          LJ.Process.Spec.anomalies M.tok dist (fun d => decide (d > LJ.Process.THRESHOLD)) []
            (((src target).filter fun s => s.indexName = some n).flatMap text) := by
  classical
  have hbs : (cs.flatMap fun c => LJ.Report.Spec.validSources M.world.valid (M.world.list c)) = cs.flatMap src := by
    rw [List.flatMap_def, List.flatMap_def]
    congr 1
    exact List.map_congr_left fun c hc => (hasTexts_sources (hb c hc)).2
  have hbl : ∀ b ∈ cs.flatMap src, HasLines M b (text b) := by
    intro b hbm
    obtain ⟨c, hc, hbm⟩ := List.mem_flatMap.1 hbm
    exact (hb c hc).lines b hbm
  generalize cs.flatMap src = bs at hbase hbs hbl ⊢
  have hs : LJ.Report.SearchOk M.world := LJ.Report.searchOk_indexWorld hM.fp
  -- training
  obtain ⟨a1, a2⟩ := LJ.Report.C75_train (w := M.world) h1 cs
  obtain ⟨m, hm⟩ := a1.2 ⟨fun c hc => (hasTexts_sources (hb c hc)).1, by
    intro c hc s hsm
    rw [(hasTexts_sources (hb c hc)).2] at hsm
    obtain ⟨reader, _, hr, _⟩ := hasLines_read hM ((hb c hc).lines s hsm)
    exact ⟨reader, hr⟩⟩
  obtain ⟨_, hnd, hidx⟩ := a2 m hm
  rw [hbs] at hidx
  -- the report
  obtain ⟨hu, hts⟩ := hasTexts_sources ht
  obtain ⟨res, hr, hrok⟩ := LJ.Report.report_total hs m o2 h2 target
  obtain ⟨r, rfl⟩ := hrok.2 hu
  -- the index of a name
  have hfor : ∀ n, baseFor bs n ≠ [] → ∃ i, lookupOrSingle m.indexes n = some i ∧
      ∀ x, x ∈ i.chunks.flatten ↔ x ∈ (baseFor bs n).flatMap fun b => (text b).map fun l => M.tok l.text := by
    intro n hne
    have hsub : ∀ b ∈ baseFor bs n, b ∈ bs := by
      intro b hb
      unfold baseFor at hb
      simp only at hb
      split at hb
      · exact (List.mem_filter.1 hb).1
      · split at hb
        · exact hb
        · cases hb
    obtain ⟨i, hi, hsrc, htok⟩ := trainIndex_texts hM (fun b hb => hbl b (hsub b hb))
    refine ⟨i, (LJ.Report.C36_lookup m.indexes hnd n i).2 ?_, htok⟩
    have hfil : ∀ k, bs.filter (fun s => decide (M.world.nameOf s = k)) = bs.filter (fun b => b.indexName = some k) := fun k =>
      List.filter_congr fun b hb => by rw [decide_eq_decide]; exact hasLines_name (hbl b hb) k
    unfold baseFor at hne hsrc hi
    simp only at hne hsrc hi
    split at hne
    · rename_i hsame
      rw [if_pos hsame] at hsrc hi
      exact .inl ((hidx n i).2 ⟨by rw [hsrc]; exact hsame, by rw [hsrc, hfil], by rw [hsrc]; exact hi⟩)
    · rename_i hsame
      rw [if_neg hsame] at hsrc hi
      split at hne
      · rename_i hone
        rw [if_pos hone] at hsrc hi
        have hsame : bs.filter (fun b => b.indexName = some n) = [] := by simpa using hsame
        obtain ⟨b0, hb0⟩ := List.exists_mem_of_ne_nil _ hne
        have hall : ∀ b ∈ bs, M.world.nameOf b = M.world.nameOf b0 := fun b hb =>
          (hasLines_name (hbl b hb) _).2 ((hone b hb b0 hb0).trans ((hasLines_name (hbl b0 hb0) _).1 rfl))
        have hkey : ∀ k j, (k, j) ∈ m.indexes ↔ k = M.world.nameOf b0 ∧ j = i := by
          intro k j
          rw [hidx]
          constructor
          · rintro ⟨g1, g2, g3⟩
            obtain ⟨b, hb⟩ := List.exists_mem_of_ne_nil _ g1
            rw [g2, List.mem_filter, decide_eq_true_eq] at hb
            have hk : k = M.world.nameOf b0 := by rw [← hb.2, hall b hb.1]
            subst hk
            have : j.sources = bs := by
              rw [g2]; exact List.filter_eq_self.2 fun b hb => by simpa using hall b hb
            rw [this, hi] at g3
            cases g3
            exact ⟨rfl, rfl⟩
          · rintro ⟨rfl, rfl⟩
            exact ⟨by rw [hsrc]; exact hne, by
              rw [hsrc]; exact (List.filter_eq_self.2 fun b hb => by simpa using hall b hb).symm, by rw [hsrc]; exact hi⟩
        refine .inr ⟨?_, M.world.nameOf b0, ?_⟩
        · intro hk
          obtain ⟨⟨k, j⟩, hkj, rfl⟩ := List.mem_map.1 hk
          obtain ⟨rfl, _⟩ := (hkey k j).1 hkj
          have : b0 ∈ bs.filter (fun b => b.indexName = some (M.world.nameOf b0)) :=
            List.mem_filter.2 ⟨hb0, by simpa using (hasLines_name (hbl b0 hb0) _).1 rfl⟩
          simp only at hsame
          rw [hsame] at this
          cases this
        · have hmem : (M.world.nameOf b0, i) ∈ m.indexes := (hkey _ _).2 ⟨rfl, rfl⟩
          have hlen : ∀ x ∈ m.indexes, x = (M.world.nameOf b0, i) := by
            rintro ⟨k, j⟩ hx
            obtain ⟨rfl, rfl⟩ := (hkey k j).1 hx
            rfl
          have hnd' : m.indexes.Nodup := List.Nodup.of_map _ hnd
          cases hmi : m.indexes with
          | nil => rw [hmi] at hmem; cases hmem
          | cons x xs =>
            have hx := hlen x (by rw [hmi]; simp)
            cases xs with
            | nil => rw [hx]
            | cons y ys =>
              have hy := hlen y (by rw [hmi]; simp)
              rw [hmi, hx, hy] at hnd'
              simp at hnd'
      · exact absurd rfl hne
  have hgood : ∀ s ∈ LJ.Report.Spec.validSources M.world.valid (M.world.list target), ∃ reader lines, M.world.openSource s = .ok reader ∧
      reader (M.world.isJson s) = lines.map Except.ok ∧ LJ.Process.Spec.Reads M.world.decode lines (text s) ∧ LJ.Process.Spec.NoMarker (text s) := by
    intro s hs
    rw [hts] at hs
    obtain ⟨reader, lines, g1, g2, g3⟩ := hasLines_read hM (ht.lines s hs)
    exact ⟨reader, lines, g1, by rw [hasLines_json (ht.lines s hs)]; exact g2, g3, hmark s hs⟩
  obtain ⟨l1, l2, l3⟩ := LJ.Report.C37_lines hs h2 hr text (by
    intro s hs
    rw [hts] at hs
    obtain ⟨i, hi, _⟩ := hfor _ (hbase s hs _ ((hasLines_name (ht.lines s hs) _).1 rfl))
    exact ⟨i, hi⟩) hgood
  refine ⟨m, r, hm, hr, l2, l3, by rw [l1, hts], ?_, ?_⟩
  · intro l hl
    obtain ⟨_, g2, g3, _⟩ := (LJ.Report.C37_logs hs h2 hr).2.1 l hl
    rw [hts] at g2
    exact ⟨g2, (hasLines_name (ht.lines _ g2) _).1 g3.symm⟩
  · rintro n ⟨s, hsm, hsn⟩
    obtain ⟨i, hi, htok⟩ := hfor n (hbase s hsm n hsn)
    obtain ⟨dist, hd, hnear⟩ := index_near hM.fp i.chunks
    refine ⟨dist, near_congr htok hnear, ?_⟩
    have := LJ.Report.C38_group hs h2 hr n hi text (fun s hs _ => hgood s hs) hd
    rw [this, hts]
    have hfil : (src target).filter (fun s => decide (M.world.nameOf s = n)) = (src target).filter fun s => s.indexName = some n :=
      List.filter_congr fun b hb => by rw [decide_eq_decide]; exact hasLines_name (ht.lines b hb) n
    rw [hfil]
    rfl

/-! ### Two files -/

theorem firsts_mem {α : Type} {key : α → Str} (xs : List α) (seen : List Str) (x : α) :
    x ∈ firsts key seen xs ↔ ∃ i : Nat, xs[i]? = some x ∧ key x ∉ seen ∧ ∀ j, j < i → ∀ y, xs[j]? = some y → key y ≠ key x := by
  induction xs generalizing seen with
  | nil => simp [firsts]
  | cons a xs ih =>
    unfold firsts
    have step : (∃ i : Nat, (a :: xs)[i]? = some x ∧ key x ∉ seen ∧ ∀ j, j < i → ∀ y, (a :: xs)[j]? = some y → key y ≠ key x) ↔
        (a = x ∧ key x ∉ seen) ∨ (key a ≠ key x ∧ ∃ i : Nat, xs[i]? = some x ∧ key x ∉ seen ∧ ∀ j, j < i → ∀ y, xs[j]? = some y → key y ≠ key x) := by
      constructor
      · rintro ⟨i, h1, h2, h3⟩
        cases i with
        | zero => rw [List.getElem?_cons_zero, Option.some.injEq] at h1; exact .inl ⟨h1, h2⟩
        | succ i =>
          rw [List.getElem?_cons_succ] at h1
          exact .inr ⟨h3 0 (by omega) a rfl, i, h1, h2, fun j hj y hy => h3 (j + 1) (by omega) y (by rw [List.getElem?_cons_succ]; exact hy)⟩
      · rintro (⟨rfl, h2⟩ | ⟨h0, i, h1, h2, h3⟩)
        · exact ⟨0, rfl, h2, fun j hj => absurd hj (by omega)⟩
        · refine ⟨i + 1, by rw [List.getElem?_cons_succ]; exact h1, h2, fun j hj y hy => ?_⟩
          cases j with
          | zero => rw [List.getElem?_cons_zero, Option.some.injEq] at hy; rw [← hy]; exact h0
          | succ j => rw [List.getElem?_cons_succ] at hy; exact h3 j (by omega) y hy
    rw [step]
    split
    · rename_i hm
      rw [ih]
      constructor
      · rintro ⟨i, h1, h2, h3⟩
        exact .inr ⟨fun e => h2 (e ▸ hm), i, h1, h2, h3⟩
      · rintro (⟨rfl, h2⟩ | ⟨_, h⟩)
        · exact absurd hm h2
        · exact h
    · rename_i hm
      rw [List.mem_cons, ih]
      constructor
      · rintro (rfl | ⟨i, h1, h2, h3⟩)
        · exact .inl ⟨rfl, hm⟩
        · rw [List.mem_cons, not_or] at h2
          exact .inr ⟨fun e => h2.1 e.symm, i, h1, h2.2, h3⟩
      · rintro (⟨rfl, h2⟩ | ⟨h0, i, h1, h2, h3⟩)
        · exact .inl rfl
        · exact .inr ⟨i, h1, by rw [List.mem_cons, not_or]; exact ⟨fun e => h0 e.symm, h2⟩, h3⟩

/-- lines which end with a line return are determined by their text -/
theorem lines_inj {la lb : List Str} (ha : ∀ l ∈ la, '\n' ∉ l) (hb : ∀ l ∈ lb, '\n' ∉ l)
    (h : la.flatMap (fun l => l ++ ['\n']) = lb.flatMap fun l => l ++ ['\n']) : la = lb := by
  have cut : ∀ (x y r s : Str), '\n' ∉ x → '\n' ∉ y → x ++ '\n' :: r = y ++ '\n' :: s → x = y ∧ r = s := by
    intro x
    induction x with
    | nil =>
      intro y r s _ hy e
      cases y with
      | nil => simpa using e
      | cons c y => simp only [List.nil_append, List.cons_append, List.cons.injEq] at e; exact absurd (by simp [← e.1]) hy
    | cons c x ih =>
      intro y r s hx hy e
      cases y with
      | nil => simp only [List.nil_append, List.cons_append, List.cons.injEq] at e; exact absurd (by simp [e.1]) hx
      | cons d y =>
        simp only [List.cons_append, List.cons.injEq] at e
        obtain ⟨h1, h2⟩ := ih y r s (fun h => hx (by simp [h])) (fun h => hy (by simp [h])) e.2
        exact ⟨by rw [e.1, h1], h2⟩
  induction la generalizing lb with
  | nil =>
    cases lb with
    | nil => rfl
    | cons l lb => simp at h
  | cons l la ih =>
    cases lb with
    | nil => simp at h
    | cons l' lb =>
      simp only [List.flatMap_cons, List.append_assoc, List.singleton_append] at h
      obtain ⟨e1, e2⟩ := cut l l' _ _ (ha l (by simp)) (hb l' (by simp)) h
      rw [e1, ih (fun x hx => ha x (by simp [hx])) (fun x hx => hb x (by simp [hx])) e2]

/-- the source of a local file -/
theorem file_hasLines {M : Machine} {path : Str} {ls : List Str} (hf : M.files path = some (textFile ls)) (hl : ∀ l ∈ ls, PlainLine l)
    (hj : ¬ ".json".toList <:+ path) : HasLines M (.loc 0 (some path)) (numbered ls) where
  data := ⟨0, path, textFile ls, rfl, hf, textFile_lines hl⟩
  relative := ⟨path, by show LJ.Paths.sliceFrom path 0 = some path; cases path <;> rfl, hj⟩

theorem file_hasTexts {M : Machine} {path : Str} {text : Source → List Line} (hv : LJ.Paths.isValid path = true)
    (h : HasLines M (.loc 0 (some path)) (text (.loc 0 (some path)))) : HasTexts M (.file path) [.loc 0 (some path)] text where
  listed := by intro e; simp [Machine.list]
  sources := by
    have : LJ.Paths.isValid (Source.asStr (.loc 0 (some path))) = true := hv
    simp [Machine.list, LJ.Report.Spec.validSources, this]
  some := by simp
  lines := by intro s hs; rw [List.mem_singleton] at hs; rw [hs]; exact h

/-- Comparing two text files: which lines are reported.  The line number `i` is reported exactly when no line before it
has the same tokens and its distance to the baseline is over the threshold; the lines are in order; all are counted,
and there is no error.  The lines do not announce the log classifier, the paths are not ignored and not JSON. -/
theorem C88_diff {M : Machine} (hM : Ordinary M) {o1 o2 : List (Str × List Source) → List (Str × List Source)} (h1 : ∀ g, (o1 g).Perm g)
    (h2 : ∀ g, (o2 g).Perm g) {a b : Str} {la lb : List Str} (ha : M.files a = some (textFile la)) (hb : M.files b = some (textFile lb))
    (hpa : ∀ l ∈ la, PlainLine l) (hpb : ∀ l ∈ lb, PlainLine l) (hva : LJ.Paths.isValid a = true) (hvb : LJ.Paths.isValid b = true)
    (hja : ¬ ".json".toList <:+ a) (hjb : ¬ ".json".toList <:+ b) (hmark : ∀ l ∈ lb, ¬ "TASK [log-classify".toList <:+: l) :
    ∃ m r dist, train M.world o1 [.file a] = .ok m ∧ report M.world m o2 (.file b) = some (.ok r) ∧ r.readErrors = [] ∧ r.indexErrors = [] ∧
      r.totalLineCount = lb.length ∧ Near M.hash (la.map M.tok) dist ∧
      (∀ i l, (i, l) ∈ reported r ↔ ∃ k, i = k + 1 ∧ lb[k]? = some l ∧ (∀ j, j < k → ∀ l', lb[j]? = some l' → M.tok l' ≠ M.tok l) ∧
        dist (M.tok l) > LJ.Process.THRESHOLD) ∧
      ((reported r).map Prod.fst).Pairwise (· < ·) := by
  classical
  have fa := file_hasLines ha hpa hja
  have fb := file_hasLines hb hpb hjb
  -- the lines of the sources
  let text : Source → List Line := fun s => if s = .loc 0 (some b) then numbered lb else numbered la
  have tb : text (.loc 0 (some b)) = numbered lb := if_pos rfl
  have ta : text (.loc 0 (some a)) = numbered la := by
    by_cases e : a = b
    · subst e
      rw [ha] at hb
      have hbytes : textFile la = textFile lb := Option.some.inj hb
      have hstr : la.flatMap (fun l => l ++ ['\n']) = lb.flatMap fun l => l ++ ['\n'] := by
        have := congrArg decode hbytes
        unfold textFile at this
        rw [decode_utf8, decode_utf8] at this
        exact Option.some.inj this
      have : la = lb := lines_inj (fun l hl => (hpa l hl).2.1) (fun l hl => (hpb l hl).2.1) hstr
      rw [tb, this]
    · exact if_neg (by simpa using e)
  let src : Local → List Source := fun c => match c with | .file p => [.loc 0 (some p)] | .directory p => [.loc 0 (some p)]
  have hidx : ∀ p : Str, Source.indexName (.loc 0 (some p)) = some (LJ.Paths.indexName p) := by
    intro p
    have : Source.getRelative (.loc 0 (some p)) = some p := by show LJ.Paths.sliceFrom p 0 = some p; cases p <;> rfl
    unfold Source.indexName
    rw [this]; rfl
  have hbase : ∀ n, baseFor [.loc 0 (some a)] n = [.loc 0 (some a)] := by
    intro n
    unfold baseFor
    simp only
    split
    · rename_i h
      by_cases e : Source.indexName (.loc 0 (some a)) = some n
      · simp [e]
      · simp [e] at h
    · rw [if_pos]
      intro x hx y hy
      rw [List.mem_singleton] at hx hy
      rw [hx, hy]
  obtain ⟨m, r, g1, g2, g3, g4, g5, g6, g7⟩ := C88_tree hM h1 h2 (cs := [.file a]) (target := .file b) text src
    (by intro c hc; rw [List.mem_singleton] at hc; subst hc; exact file_hasTexts hva (by rw [ta]; exact fa))
    (file_hasTexts hvb (by rw [tb]; exact fb))
    (by
      intro s hs l hl
      rw [List.mem_singleton] at hs
      subst hs
      rw [tb] at hl
      obtain ⟨x, hx, rfl⟩ := List.mem_map.1 hl
      exact hmark x.1 (List.fst_mem_of_mem_zipIdx hx))
    (by intro s _ n _; show baseFor [.loc 0 (some a)] n ≠ []; rw [hbase]; simp)
  have hsrc : [Local.file a].flatMap src = [.loc 0 (some a)] := rfl
  obtain ⟨dist, d1, d2⟩ := g7 (LJ.Paths.indexName b) ⟨.loc 0 (some b), by simp [src], hidx b⟩
  have hall : (r.logReports.filter fun l => l.indexName = LJ.Paths.indexName b) = r.logReports := by
    rw [List.filter_eq_self]
    intro l hl
    obtain ⟨e1, e2⟩ := g6 l hl
    rw [List.mem_singleton.1 e1, hidx] at e2
    simpa using (Option.some.inj e2).symm
  have hfil : (src (.file b)).filter (fun s => decide (s.indexName = some (LJ.Paths.indexName b))) = [.loc 0 (some b)] := by
    rw [List.filter_eq_self.2]
    intro s hs
    rw [List.mem_singleton.1 hs, hidx]; simp
  rw [hall, hfil] at d2
  rw [hsrc, hbase] at d1
  simp only [List.flatMap_cons, List.flatMap_nil, List.append_nil, ta, tb] at d1 d2
  have hk : (numbered la).map (fun l => M.tok l.text) = la.map M.tok := by
    unfold numbered
    rw [List.map_map]
    conv => rhs; rw [← List.zipIdx_map_fst 1 la, List.map_map]
    rfl
  rw [hk] at d1
  have hrep : reported r = ((firsts (fun l => M.tok l.text) [] (numbered lb)).filter
      fun l => decide (dist (M.tok l.text) > LJ.Process.THRESHOLD)).map fun l => (l.num, l.text) := by
    unfold reported
    rw [d2, LJ.Process.Spec.anomalies, List.map_map]
    rfl
  refine ⟨m, r, dist, g1, g2, g3, g4, ?_, d1, ?_, ?_⟩
  · rw [g5]
    simp [src, tb, numbered]
  · intro i l
    have hget : ∀ k x, (numbered lb)[k]? = some x ↔ lb[k]? = some x.text ∧ x.num = k + 1 := by
      intro k x
      unfold numbered
      rw [List.getElem?_map, List.getElem?_zipIdx]
      cases lb[k]? with
      | none => simp
      | some y =>
        cases x
        simp only [Option.map_some, Option.some.injEq, Line.mk.injEq]
        rw [Nat.add_comm 1 k]
        constructor
        · rintro ⟨rfl, rfl⟩; exact ⟨rfl, rfl⟩
        · rintro ⟨rfl, rfl⟩; exact ⟨rfl, rfl⟩
    rw [hrep, List.mem_map]
    constructor
    · rintro ⟨x, hx, e⟩
      rw [List.mem_filter, decide_eq_true_eq, firsts_mem] at hx
      obtain ⟨⟨k, k1, _, k3⟩, hd⟩ := hx
      cases e
      obtain ⟨k1, k2⟩ := (hget k x).1 k1
      exact ⟨k, k2, k1, fun j hj l' hl' => k3 j hj ⟨l', j + 1⟩ ((hget j _).2 ⟨hl', rfl⟩), hd⟩
    · rintro ⟨k, rfl, k1, k2, hd⟩
      refine ⟨⟨l, k + 1⟩, ?_, rfl⟩
      rw [List.mem_filter, decide_eq_true_eq, firsts_mem]
      exact ⟨⟨k, (hget k _).2 ⟨k1, rfl⟩, by simp, fun j hj y hy => k2 j hj y.text ((hget j y).1 hy).1⟩, hd⟩
  · rw [hrep, List.map_map]
    have hsub : (((firsts (fun l => M.tok l.text) [] (numbered lb)).filter
        fun l => decide (dist (M.tok l.text) > LJ.Process.THRESHOLD)).map (Prod.fst ∘ fun l => (l.num, l.text))).Sublist
        ((numbered lb).map (·.num)) :=
      List.Sublist.map (fun l : Line => l.num) (List.filter_sublist.trans (LJ.Process.firsts_sublist _ _))
    refine List.Pairwise.sublist hsub ?_
    have : (numbered lb).map (·.num) = List.range' 1 lb.length := by
      unfold numbered
      rw [List.map_map, ← List.zipIdx_map_snd 1 lb]
      rfl
    rw [this]
    exact List.pairwise_lt_range'

/-- A target whose every line has the tokens of a line of the baseline has nothing reported. -/
theorem C88_quiet {M : Machine} (hM : Ordinary M) {o1 o2 : List (Str × List Source) → List (Str × List Source)} (h1 : ∀ g, (o1 g).Perm g)
    (h2 : ∀ g, (o2 g).Perm g) {a b : Str} {la lb : List Str} (ha : M.files a = some (textFile la)) (hb : M.files b = some (textFile lb))
    (hpa : ∀ l ∈ la, PlainLine l) (hpb : ∀ l ∈ lb, PlainLine l) (hva : LJ.Paths.isValid a = true) (hvb : LJ.Paths.isValid b = true)
    (hja : ¬ ".json".toList <:+ a) (hjb : ¬ ".json".toList <:+ b) (hmark : ∀ l ∈ lb, ¬ "TASK [log-classify".toList <:+: l)
    (hk : ∀ l ∈ lb, ∃ l' ∈ la, M.tok l' = M.tok l) :
    ∃ m r, train M.world o1 [.file a] = .ok m ∧ report M.world m o2 (.file b) = some (.ok r) ∧ reported r = [] ∧ r.readErrors = [] ∧
      r.indexErrors = [] ∧ r.totalLineCount = lb.length := by
  obtain ⟨m, r, dist, g1, g2, g3, g4, g5, g6, g7, _⟩ := C88_diff hM h1 h2 ha hb hpa hpb hva hvb hja hjb hmark
  refine ⟨m, r, g1, g2, ?_, g3, g4, g5⟩
  rw [List.eq_nil_iff_forall_not_mem]
  rintro ⟨i, l⟩ hm
  obtain ⟨k, _, k1, _, k2⟩ := (g7 i l).1 hm
  obtain ⟨l', hl', e⟩ := hk l (List.mem_of_getElem? k1)
  exact near_known g6 (List.mem_map.2 ⟨l', hl', e⟩) k2

/-- A line none of whose words hashes as a word of the baseline is reported, with its number, unless a previous line
has the same tokens. -/
theorem C88_found {M : Machine} (hM : Ordinary M) {o1 o2 : List (Str × List Source) → List (Str × List Source)} (h1 : ∀ g, (o1 g).Perm g)
    (h2 : ∀ g, (o2 g).Perm g) {a b : Str} {la lb : List Str} (ha : M.files a = some (textFile la)) (hb : M.files b = some (textFile lb))
    (hpa : ∀ l ∈ la, PlainLine l) (hpb : ∀ l ∈ lb, PlainLine l) (hva : LJ.Paths.isValid a = true) (hvb : LJ.Paths.isValid b = true)
    (hja : ¬ ".json".toList <:+ a) (hjb : ¬ ".json".toList <:+ b) (hmark : ∀ l ∈ lb, ¬ "TASK [log-classify".toList <:+: l) :
    ∃ m r, train M.world o1 [.file a] = .ok m ∧ report M.world m o2 (.file b) = some (.ok r) ∧
      ∀ k l, lb[k]? = some l → (∀ l' ∈ la, ¬ LJ.Index.Share M.hash (M.tok l') (M.tok l)) →
        (∀ j, j < k → ∀ l', lb[j]? = some l' → M.tok l' ≠ M.tok l) → (k + 1, l) ∈ reported r := by
  obtain ⟨m, r, dist, g1, g2, g3, g4, g5, g6, g7, _⟩ := C88_diff hM h1 h2 ha hb hpa hpb hva hvb hja hjb hmark
  refine ⟨m, r, g1, g2, fun k l hk hno hf => (g7 _ _).2 ⟨k, rfl, hk, hf, near_new g6 ?_⟩⟩
  intro x hx
  obtain ⟨l', hl', rfl⟩ := List.mem_map.1 hx
  exact hno l' hl'

end LJ.Whole

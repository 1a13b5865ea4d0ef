/-
Properties of the commands: C67 (model selection, files), C85 (saving) and C86 (crashes).
-/
import Verif.Cli.Spec
import Verif.Codec.Props
namespace LJ.Cli
open Spec (Inputs Baselines Visible Chosen Format ReportPath)

variable {P I C M R Er : Type} [DecidableEq P] {w : World P I C M R Er}

/-! ### Lemmas -/

omit [DecidableEq P] in
theorem exists_iff {fs : Fs P} {p : P} : exists' fs p = true ↔ Visible fs p := by
  unfold exists' Visible
  simp [Option.isSome_iff_exists]

omit [DecidableEq P] in
theorem fromInputs_iff {is : List I} {cs : List C} : fromInputs w is = .ok cs ↔ Inputs w is cs := by
  induction is generalizing cs with
  | nil =>
    constructor
    · intro h; cases h; exact .nil
    · intro h; cases h; rfl
  | cons i is ih =>
    rw [fromInputs]
    constructor
    · intro h
      cases h1 : w.fromInput i with
      | error e => rw [h1] at h; cases h
      | ok c =>
        cases h2 : fromInputs w is with
        | error e => simp only [h1, h2] at h; cases h
        | ok cs' =>
          simp only [h1, h2] at h
          cases h
          exact .cons h1 (ih.1 h2)
    · rintro (_ | ⟨h1, h2⟩)
      simp only [h1, ih.2 h2]

omit [DecidableEq P] in
theorem findBaselines_iff {content : C} {bs : Option (List I)} {cs : List C} : findBaselines w content bs = .ok cs ↔ Baselines w content bs cs := by
  cases bs with
  | none => exact ⟨.discovered, fun h => by cases h; assumption⟩
  | some is => exact ⟨fun h => .given (fromInputs_iff.1 h), fun h => by cases h with | given h => exact fromInputs_iff.2 h⟩

omit [DecidableEq P] in
theorem makeModel_iff {content : C} {bs : Option (List I)} {m : M} :
    makeModel w content bs = .ok m ↔ ∃ cs, Baselines w content bs cs ∧ w.train cs = .ok m := by
  unfold makeModel
  constructor
  · intro h
    split at h
    · cases h
    · rename_i cs hc
      exact ⟨cs, findBaselines_iff.1 hc, h⟩
  · rintro ⟨cs, h1, h2⟩
    rw [findBaselines_iff.2 h1]
    exact h2

omit [DecidableEq P] in
theorem getModel_iff {fs : Fs P} {content : C} {path : Option P} {bs : Option (List I)} {m : M} :
    getModel w fs content path bs = .ok m ↔ Chosen w fs content path bs m := by
  unfold getModel
  cases path with
  | none =>
    simp only
    rw [makeModel_iff]
    constructor
    · rintro ⟨cs, h1, h2⟩; exact .trained (by simp) h1 h2
    · rintro (_ | ⟨_, h1, h2⟩); exact ⟨_, h1, h2⟩
  | some p =>
    simp only
    by_cases hv : exists' fs p = true
    · rw [if_pos hv]
      have hv' := exists_iff.1 hv
      cases bs with
      | none =>
        simp only [existingModel, load, readFile]
        obtain ⟨hd, b, hb⟩ := hv'
        simp only [hd, hb, Bool.false_eq_true, if_false]
        constructor
        · exact fun h => .loaded hd hb h
        · rintro (⟨_, hb', h⟩ | ⟨hn, _, _⟩)
          · rw [hb] at hb'; cases hb'; exact h
          · exact absurd ⟨hd, b, hb⟩ (hn p rfl)
      | some is =>
        simp only [existingModel]
        constructor
        · intro h; cases h
        · rintro (_ | ⟨hn, _, _⟩)
          exact absurd hv' (hn p rfl)
    · rw [if_neg hv, makeModel_iff]
      have hv' : ¬ Visible fs p := fun h => hv (exists_iff.2 h)
      constructor
      · rintro ⟨cs, h1, h2⟩
        exact .trained (by rintro q ⟨⟩; exact hv') h1 h2
      · rintro (⟨hd, hb, _⟩ | ⟨_, h1, h2⟩)
        · exact absurd ⟨hd, _, hb⟩ hv'
        · exact ⟨_, h1, h2⟩

theorem create_other {fs fs' : Fs P} {p q : P} (h : create w fs p = .ok fs') (hq : q ≠ p) : fs'.files q = fs.files q := by
  unfold create at h
  split at h
  · cases h
  · split at h
    · cases h
    · cases h
      simp [put, hq]

theorem create_denied {fs fs' : Fs P} {p : P} (h : create w fs p = .ok fs') : fs'.denied = fs.denied ∧ fs.denied p = false := by
  unfold create at h
  split at h
  · cases h
  · rename_i hd
    split at h
    · cases h
    · cases h
      exact ⟨rfl, by simpa using hd⟩

theorem saveGz_other (fs : Fs P) (p : P) (enc : Except Er Bytes) {q : P} (hq : q ≠ p) :
    (saveGz w fs p enc).2.files q = fs.files q ∧ (saveGz w fs p enc).2.denied = fs.denied := by
  unfold saveGz
  split
  · exact ⟨rfl, rfl⟩
  · rename_i fs' hc
    have h1 := create_other hc hq
    have h2 := (create_denied hc).1
    split
    · exact ⟨h1, h2⟩
    · simp only [writeGz, put]
      rw [if_neg hq]
      exact ⟨h1, h2⟩

theorem saveGz_denied_path (fs : Fs P) (p : P) (enc : Except Er Bytes) (h : fs.denied p = true) :
    (saveGz w fs p enc).2 = fs ∧ (saveGz w fs p enc).1 = .error w.permission := by
  unfold saveGz create
  simp [h]

theorem saveGz_denied (fs : Fs P) (p : P) (enc : Except Er Bytes) : (saveGz w fs p enc).2.denied = fs.denied := by
  unfold saveGz
  split
  · rfl
  · rename_i fs' hc
    have h2 := (create_denied hc).1
    split
    · exact h2
    · exact h2

theorem writeFile_other (fs : Fs P) (p : P) (b : Bytes) {q : P} (hq : q ≠ p) :
    (writeFile w fs p b).2.files q = fs.files q := by
  unfold writeFile
  split
  · rfl
  · rename_i fs' hc
    simp only [put]
    rw [if_neg hq]
    exact create_other hc hq

theorem writeReport_other (cache : Bool) (fs : Fs P) (file : P) (m : M) (content : C) {q : P} (h1 : q ≠ file)
    (h2 : cache = true → q ≠ w.withJson file) : (writeReport w cache fs file m content).2.files q = fs.files q := by
  unfold writeReport
  split
  · rfl
  · rename_i r _
    have hraw : (saveRaw w cache fs file r).2.files q = fs.files q := by
      unfold saveRaw
      split
      · rename_i hc
        exact (saveGz_other fs _ _ (h2 hc)).1
      · rfl
    split
    · rename_i e fs' he
      rw [he] at hraw
      exact hraw
    · rename_i fs' he
      rw [he] at hraw
      unfold writePage
      split
      · exact hraw
      · rw [writeFile_other _ _ _ h1]
        exact hraw

theorem inspect_other (cache : Bool) (fs : Fs P) (report : Option P) (m : M) (content : C) {q : P} (h : ¬ ReportPath w cache report q) :
    (inspect w cache fs report m content).2.files q = fs.files q := by
  unfold inspect
  split
  · rfl
  · rename_i file
    apply writeReport_other
    · rintro rfl; exact h (.inl rfl)
    · rintro hc rfl; exact h (.inr ⟨hc, file, rfl, rfl⟩)

theorem inspect_denied (cache : Bool) (fs : Fs P) (report : Option P) (m : M) (content : C) :
    (inspect w cache fs report m content).2.denied = fs.denied := by
  unfold inspect
  split
  · rfl
  · rename_i file
    unfold writeReport
    split
    · rfl
    · rename_i r _
      have hraw : (saveRaw w cache fs file r).2.denied = fs.denied := by
        unfold saveRaw
        split
        · exact saveGz_denied _ _ _
        · rfl
      split
      · rename_i e fs2 he
        rw [he] at hraw
        exact hraw
      · rename_i fs2 he
        rw [he] at hraw
        unfold writePage
        split
        · exact hraw
        · unfold writeFile
          split
          · exact hraw
          · rename_i fs3 hc3
            have := (create_denied hc3).1
            simp only [put]
            rw [this]
            exact hraw

theorem saveModel_existing (o : Others P) (fs : Fs P) (path : Option P) (m : M) {q : P} {b : Bytes} (ho : o.saving = id) (hq : fs.files q = some b) :
    (saveModel w o fs path m).2.files q = some b := by
  unfold saveModel
  split
  · rename_i p
    split
    · exact hq
    · rename_i hv
      rw [ho]
      by_cases e : q = p
      · subst e
        have hd : fs.denied q = true := by
          unfold exists' at hv
          rw [hq] at hv
          simpa using hv
        show (saveGz w fs q (w.encModel m)).2.files q = some b
        rw [(saveGz_denied_path _ _ _ hd).1]
        exact hq
      · rw [(saveGz_other _ _ _ e).1]
        exact hq
  · exact hq

/-! ### C67: the model and the files of a run -/

/-- The model used to inspect the target is the one to use. -/
theorem C67_model (o : Others P) (cache : Bool) (fs : Fs P) (report path : Option P) (bs : Option (List I)) (input : I) {m : M}
    (h : (process w o cache fs report path bs input).model = some m) :
    ∃ content, w.fromInput input = .ok content ∧ Chosen w fs content path bs m := by
  unfold process at h
  split at h
  · cases h
  · rename_i content hc
    split at h
    · cases h
    · rename_i m' hm
      split at h
      · cases h
      · cases h
        exact ⟨content, hc, getModel_iff.1 hm⟩

/-- When there is no model to use the command fails, and the files are as the others left them. -/
theorem C67_error (o : Others P) (cache : Bool) (fs : Fs P) (report path : Option P) (bs : Option (List I)) (input : I)
    (h : ∀ content m, w.fromInput input = .ok content → ¬ Chosen w fs content path bs m) :
    (∃ e, (process w o cache fs report path bs input).result = .error e) ∧
    (process w o cache fs report path bs input).fs = o.training fs := by
  unfold process
  split
  · exact ⟨⟨_, rfl⟩, rfl⟩
  · rename_i content hc
    split
    · exact ⟨⟨_, rfl⟩, rfl⟩
    · rename_i m hm
      exact absurd (getModel_iff.1 hm) (h content m hc)

/-- Baselines together with an existing model are refused, and no file is changed. -/
theorem C67_ambiguous (cache : Bool) (fs : Fs P) (report : Option P) {p : P} (hv : Visible fs p) (is : List I) (input : I) :
    (∃ e, (process w alone cache fs report (some p) (some is) input).result = .error e) ∧
    (process w alone cache fs report (some p) (some is) input).fs = fs := by
  have := C67_error (w := w) alone cache fs report (some p) (some is) input (by
    rintro content m _ (_ | ⟨hn, _, _⟩)
    exact hn p rfl hv)
  exact this

/-- C67 in full, the part on files: a file which was there before the command, or which was put there by others before the
command creates its own, is there after it, unless it is the report file. -/
def C67 : Prop :=
  ∀ (w : World Nat Unit Unit Unit Unit Unit) (o : Others Nat) (cache : Bool) (fs : Fs Nat) (report path : Option Nat) (bs : Option (List Unit))
    (q : Nat) (b : Bytes), o.reporting = id → (o.training fs).files q = some b → (o.saving (o.training fs)).files q = some b → report ≠ some q →
    (process w o cache fs report path bs ()).fs.files q = some b

/-- What holds: every file which was there, or was put there by others while the model was made, is kept, except the report
and, when `LOGREDUCE_CACHE` is set, the raw report next to it.  Missing: a model file put there by others between
the second test and the creation. -/
theorem C67_kept_partial (o : Others P) (hs : o.saving = id) (hrep : o.reporting = id) (cache : Bool) (fs : Fs P) (report path : Option P)
    (bs : Option (List I)) (input : I) {q : P} {b : Bytes} (hq : (o.training fs).files q = some b) (hr : ¬ ReportPath w cache report q) :
    (process w o cache fs report path bs input).fs.files q = some b := by
  unfold process
  split
  · exact hq
  · rename_i content hc
    split
    · exact hq
    · rename_i m hm
      have hs := saveModel_existing (w := w) o (o.training fs) path m hs hq
      split
      · rename_i e fs' he
        rw [he] at hs
        exact hs
      · rename_i fs' he
        rw [he] at hs
        simp only
        rw [inspect_other _ _ _ _ _ hr, hrep]
        exact hs

/-- The other files are not created either: only the model and the reports are. -/
theorem C67_only (cache : Bool) (fs : Fs P) (report path : Option P) (bs : Option (List I)) (input : I) {q : P}
    (hp : path ≠ some q) (hr : ¬ ReportPath w cache report q) :
    (process w alone cache fs report path bs input).fs.files q = fs.files q := by
  unfold process
  split
  · rfl
  · rename_i content hc
    split
    · rfl
    · rename_i m hm
      have hs : (saveModel w alone fs path m).2.files q = fs.files q := by
        unfold saveModel
        split
        · rename_i p
          split
          · rfl
          · exact (saveGz_other _ _ _ (by rintro rfl; exact hp rfl)).1
        · rfl
      split
      · rename_i e fs' he
        rw [show (alone : Others P).training fs = fs from rfl] at he
        rw [he] at hs
        exact hs
      · rename_i fs' he
        rw [show (alone : Others P).training fs = fs from rfl] at he
        rw [he] at hs
        simp only
        rw [inspect_other _ _ _ _ _ hr]
        exact hs

/-! ### C85: a saved model can be loaded -/

/-- C85 in full: when a save succeeds, the file has the model. -/
def C85 : Prop :=
  ∀ (w : World Nat Unit Unit Bytes Unit Unit) (fs : Fs Nat) (p : Nat) (m : Bytes), Format w → (saveGz w fs p (w.encModel m)).1 = .ok () →
    load w (saveGz w fs p (w.encModel m)).2 p = .ok m

theorem saveGz_ok {fs : Fs P} {p : P} {enc : Except Er Bytes} (h : (saveGz w fs p enc).1 = .ok ()) :
    ∃ b, enc = .ok b ∧ fs.denied p = false ∧ w.createErr p = none ∧ (saveGz w fs p enc).2.denied = fs.denied ∧
      (saveGz w fs p enc).2.files p = some (written w p b) ∧ b.length - w.held b ≤ (written w p b).length := by
  have hden := saveGz_denied (w := w) fs p enc
  unfold saveGz at h hden ⊢
  split at h
  · cases h
  · rename_i fs' hc
    obtain ⟨h1, h2⟩ := create_denied hc
    have h3 : w.createErr p = none := by
      unfold create at hc
      rw [h2] at hc
      simp only [Bool.false_eq_true, if_false] at hc
      split at hc
      · cases hc
      · assumption
    simp only [hc] at hden ⊢
    cases enc with
    | error e => cases h
    | ok b =>
      refine ⟨b, rfl, h2, h3, hden, ?_, ?_⟩
      · simp [writeGz, put]
      · simp only [writeGz] at h
        split at h
        · cases h
        · omega

/-- What holds: when the disk is not full (or has room for the whole file), a successful save can be loaded and gives the
same model. -/
theorem C85_partial (hf : Format w) (fs : Fs P) (p : P) (m : M) (h : (saveGz w fs p (w.encModel m)).1 = .ok ())
    (hroom : ∀ b n, w.encModel m = .ok b → w.limit p = some n → b.length ≤ n) :
    load w (saveGz w fs p (w.encModel m)).2 p = .ok m := by
  obtain ⟨b, hb, h1, _, h2, h3, _⟩ := saveGz_ok h
  have hw : written w p b = b := by
    unfold written
    split
    · rfl
    · rename_i n hn
      exact List.take_of_length_le (hroom b n hb hn)
  unfold load readFile
  rw [h2, h1, h3, hw]
  simp only [Bool.false_eq_true, if_false]
  exact hf.round m b hb

omit [DecidableEq P] in
/-- A model is loaded exactly from a file which exists, can be read and decodes to it. -/
theorem C85_load (fs : Fs P) (p : P) (m : M) :
    load w fs p = .ok m ↔ fs.denied p = false ∧ ∃ b, fs.files p = some b ∧ w.decModel b = .ok m := by
  unfold load readFile
  cases hd : fs.denied p with
  | true => simp
  | false =>
    cases hf : fs.files p with
    | none => simp
    | some b => simp

/-- Whatever happens, loading after a successful save gives the same model or an error. -/
theorem C85_never_wrong (hf : Format w) (fs : Fs P) (p : P) (m m' : M) (h : (saveGz w fs p (w.encModel m)).1 = .ok ())
    (hl : load w (saveGz w fs p (w.encModel m)).2 p = .ok m') : m' = m := by
  obtain ⟨b, hb, h1, _, h2, h3, _⟩ := saveGz_ok h
  unfold load readFile at hl
  rw [h2, h1, h3] at hl
  simp only [Bool.false_eq_true, if_false] at hl
  unfold written at hl
  split at hl
  · rw [hf.round m b hb] at hl
    cases hl
    rfl
  · exact hf.truncated m b _ m' hb hl

/-- The save fails when the disk is full before the last bytes. -/
theorem C85_full (fs : Fs P) (p : P) (m : M) {b : Bytes} {n : Nat} (hb : w.encModel m = .ok b) (hn : w.limit p = some n)
    (h : n < b.length - w.held b) : ∃ e, (saveGz w fs p (w.encModel m)).1 = .error e := by
  cases hr : (saveGz w fs p (w.encModel m)).1 with
  | error e => exact ⟨e, rfl⟩
  | ok u =>
    obtain ⟨b', hb', _, _, _, _, hlen⟩ := saveGz_ok hr
    rw [hb] at hb'
    cases hb'
    unfold written at hlen
    rw [hn] at hlen
    simp only [List.length_take] at hlen
    omega

/-! ### C67 over several runs -/

/-- After a run which made a model and saved it, the file has this model. -/
theorem C67_saved (hf : Format w) (cache : Bool) {fs : Fs P} {report : Option P} {p : P} (bs : Option (List I)) (input : I) {m : M}
    (hp : ¬ Visible fs p) (hr : ¬ ReportPath w cache report p) (hroom : w.limit p = none)
    (h : (process w alone cache fs report (some p) bs input).model = some m) :
    load w (process w alone cache fs report (some p) bs input).fs p = .ok m := by
  have hex : exists' fs p = false := by
    cases he : exists' fs p with
    | false => rfl
    | true => exact absurd (exists_iff.1 he) hp
  unfold process at h ⊢
  cases hc : w.fromInput input with
  | error e => simp only [hc] at h; cases h
  | ok content =>
    simp only [hc] at h ⊢
    cases hm : getModel w fs content (some p) bs with
    | error e => simp only [hm] at h; cases h
    | ok m' =>
      simp only [hm] at h ⊢
      have hsave : saveModel w alone ((alone : Others P).training fs) (some p) m' = saveGz w fs p (w.encModel m') := by
        simp [saveModel, hex, alone]
      rw [hsave] at h ⊢
      cases hs : saveGz w fs p (w.encModel m') with
      | mk res fs' =>
        cases res with
        | error e => simp only [hs] at h; cases h
        | ok u =>
          simp only [hs] at h ⊢
          cases h
          have hok : (saveGz w fs p (w.encModel m)).1 = .ok () := by rw [hs]
          have hload := C85_partial hf fs p m hok (by rintro b n _ hn; rw [hroom] at hn; cases hn)
          rw [hs] at hload
          unfold load readFile at hload ⊢
          rw [show (alone : Others P).reporting fs' = fs' from rfl, inspect_denied, inspect_other _ _ _ _ _ hr]
          exact hload

/-- The command keeps the places that can't be reached. -/
theorem process_denied (cache : Bool) (fs : Fs P) (report path : Option P) (bs : Option (List I)) (input : I) :
    (process w alone cache fs report path bs input).fs.denied = fs.denied := by
  unfold process
  split
  · rfl
  · split
    · rfl
    · rename_i m hm
      have hs : (saveModel w alone fs path m).2.denied = fs.denied := by
        unfold saveModel
        split
        · split
          · rfl
          · exact saveGz_denied _ _ _
        · rfl
      split
      · rename_i e fs' he
        rw [show (alone : Others P).training fs = fs from rfl] at he
        rw [he] at hs
        exact hs
      · rename_i fs' he
        rw [show (alone : Others P).training fs = fs from rfl] at he
        rw [he] at hs
        simp only
        rw [inspect_denied]
        exact hs

/-- One more use of the command with the same model: the report and the input may be different each time. -/
structure Use (P I : Type) where
  cache : Bool
  report : Option P
  baselines : Option (List I)
  input : I

/-- The runs of the uses, in order. -/
def runs (w : World P I C M R Er) (p : P) : Fs P → List (Use P I) → List (Run P M Er)
  | _, [] => []
  | fs, u :: us =>
    let r := process w alone u.cache fs u.report (some p) u.baselines u.input
    r :: runs w p r.fs us

/-- When the file has a model, all the next uses of the file, of any number, use this model or fail, and keep the file. -/
theorem C67_history {p : P} {m : M} {b : Bytes} (hb : w.decModel b = .ok m) :
    ∀ (us : List (Use P I)) (fs : Fs P), fs.denied p = false → fs.files p = some b →
      (∀ u ∈ us, ¬ ReportPath w u.cache u.report p) →
      ∀ r ∈ runs w p fs us, (∀ m', r.model = some m' → m' = m) ∧ r.fs.files p = some b
  | [], _, _, _, _, r, hr => by cases hr
  | u :: us, fs, hd, hp, hu, r, hr => by
    have h1 := C67_kept_partial (w := w) alone rfl rfl u.cache fs u.report (some p) u.baselines u.input hp (hu u (by simp))
    have h2 := process_denied (w := w) u.cache fs u.report (some p) u.baselines u.input
    rw [runs] at hr
    simp only [List.mem_cons] at hr
    rcases hr with rfl | hr
    · refine ⟨?_, h1⟩
      intro m' hm'
      obtain ⟨content, _, hch⟩ := C67_model _ _ _ _ _ _ _ hm'
      generalize u.baselines = bs at hch
      cases hch with
      | loaded _ hb' hdec =>
        rw [hp] at hb'
        cases hb'
        rw [hb] at hdec
        cases hdec
        rfl
      | trained hn _ _ => exact absurd ⟨hd, b, hp⟩ (hn p rfl)
    · exact C67_history hb us _ (by rw [h2]; exact hd) h1 (fun u hm => hu u (by simp [hm])) r hr

/-! ### The `train` command -/

/-- The `train` command succeeds only if it was given a path and all the baselines are good; then, with room on the
disk, the file has the trained model.  It replaces a file which was there. -/
theorem C67_train (hf : Format w) (fs : Fs P) (path : Option P) (is : List I) (h : (trainCommand w fs path is).1 = .ok ())
    (hroom : ∀ p, w.limit p = none) :
    ∃ p cs m, path = some p ∧ Inputs w is cs ∧ w.train cs = .ok m ∧ load w (trainCommand w fs path is).2 p = .ok m := by
  unfold trainCommand at h ⊢
  cases path with
  | none => cases h
  | some p =>
    simp only at h ⊢
    cases hi : fromInputs w is with
    | error e => simp only [hi] at h; cases h
    | ok cs =>
      simp only [hi] at h ⊢
      cases ht : w.train cs with
      | error e => simp only [ht] at h; cases h
      | ok m =>
        simp only [ht] at h ⊢
        exact ⟨p, cs, m, rfl, fromInputs_iff.1 hi, ht, C85_partial hf fs p m h (by rintro b n _ hn; rw [hroom] at hn; cases hn)⟩

/-- When the baselines can't be found or trained on, the `train` command changes no file. -/
theorem C67_train_error (fs : Fs P) (path : Option P) (is : List I) (h : ∀ cs m, Inputs w is cs → w.train cs ≠ .ok m) :
    (∃ e, (trainCommand w fs path is).1 = .error e) ∧ (trainCommand w fs path is).2 = fs := by
  unfold trainCommand
  cases path with
  | none => exact ⟨⟨_, rfl⟩, rfl⟩
  | some p =>
    simp only
    cases hi : fromInputs w is with
    | error e => exact ⟨⟨_, rfl⟩, rfl⟩
    | ok cs =>
      simp only
      cases ht : w.train cs with
      | error e => exact ⟨⟨_, rfl⟩, rfl⟩
      | ok m => exact absurd ht (h cs m (fromInputs_iff.1 hi))

/-! ### C86: a crash while the model is saved -/

/-- After a crash while the model was saved, at any point, the next uses of the file (of any number) never use
another model and keep the file: they use the model, if enough of it was written, or fail. -/
theorem C86_crash (hf : Format w) {m : M} {b : Bytes} (hb : w.encModel m = .ok b) (n : Nat) (fs : Fs P) {p : P} (hd : fs.denied p = false)
    (us : List (Use P I)) (hu : ∀ u ∈ us, ¬ ReportPath w u.cache u.report p) :
    ∀ r ∈ runs w p (crashSave fs p b n) us, (∀ m', r.model = some m' → m' = m) ∧ r.fs.files p = some (b.take n) := by
  have h0 : (crashSave fs p b n).files p = some (b.take n) := by simp [crashSave, put]
  cases hdec : w.decModel (b.take n) with
  | ok m' =>
    have e := hf.truncated m b n m' hb hdec
    subst e
    exact C67_history hdec us _ hd h0 hu
  | error e =>
    -- no run has a model
    have key : ∀ (us : List (Use P I)) (fs' : Fs P), fs'.denied p = false → fs'.files p = some (b.take n) →
        (∀ u ∈ us, ¬ ReportPath w u.cache u.report p) →
        ∀ r ∈ runs w p fs' us, (∀ m', r.model = some m' → m' = m) ∧ r.fs.files p = some (b.take n) := by
      intro us
      induction us with
      | nil => intro _ _ _ _ r hr; cases hr
      | cons u us ih =>
        intro fs' hd' hp' hu' r hr
        have h1 := C67_kept_partial (w := w) alone rfl rfl u.cache fs' u.report (some p) u.baselines u.input hp' (hu' u (by simp))
        have h2 := process_denied (w := w) u.cache fs' u.report (some p) u.baselines u.input
        rw [runs] at hr
        simp only [List.mem_cons] at hr
        rcases hr with rfl | hr
        · refine ⟨?_, h1⟩
          intro m' hm'
          obtain ⟨content, _, hch⟩ := C67_model _ _ _ _ _ _ _ hm'
          generalize u.baselines = bs at hch
          cases hch with
          | loaded _ hb' hdec' =>
            rw [hp'] at hb'
            cases hb'
            rw [hdec] at hdec'
            cases hdec'
          | trained hn _ _ => exact absurd ⟨hd', _, hp'⟩ (hn p rfl)
        · exact ih _ (by rw [h2]; exact hd') h1 (fun u hm => hu' u (by simp [hm])) r hr
    exact key us _ hd h0 hu

/-! ### Witnesses -/

/-- a world where everything is a byte string: paths are numbers, `withJson` of the path 1 is the path 2 -/
def toyWorld (limit : Nat → Option Nat) : World Nat Unit Unit Unit Unit Unit where
  fromInput _ := .ok ()
  discover _ := .ok [()]
  train _ := .ok ()
  report _ _ := .ok ()
  live _ _ := .ok ()
  render _ := .ok [60]
  encModel _ := .ok [1, 2, 3]
  decModel b := if b = [1, 2, 3] then .ok () else .error ()
  encReport _ := .ok [7]
  withJson p := if p = 1 then 2 else p + 10
  createErr _ := none
  limit := limit
  held _ := 2
  notFound := ()
  permission := ()
  noSpace := ()
  ambiguous := ()
  noModelPath := ()

theorem toyFormat (limit : Nat → Option Nat) : Format (toyWorld limit) where
  round m b h := by cases h; rfl
  truncated m b n m' _ _ := rfl

/-- no file -/
def noFiles : Fs Nat := ⟨fun _ => none, fun _ => false⟩

/-- only the file `p` -/
def oneFile (p : Nat) (b : Bytes) : Fs Nat := put noFiles p b

/-- C67 is false: with `LOGREDUCE_CACHE`, `--model run.json --report run.html` loads the model, then replaces it by
the raw report; the next run fails. -/
theorem C67_false : ¬ C67 := by
  intro h
  have := h (toyWorld fun _ => none) alone true (oneFile 2 [1, 2, 3]) (some 1) (some 2) none 2 [1, 2, 3] rfl rfl rfl (by decide)
  revert this
  decide +kernel

/-- the run of `C67_false` succeeds, and the next one fails -/
theorem C67_next_fails :
    let r := process (toyWorld fun _ => none) alone true (oneFile 2 [1, 2, 3]) (some 1) (some 2) none ()
    r.result.isOk = true ∧ r.fs.files 2 = some [7] ∧
    (process (toyWorld fun _ => none) alone true r.fs (some 1) (some 2) none ()).result.isOk = false := by decide +kernel

/-- A race: two commands train a model for the same path; the file of the one which ends first is replaced by the other,
although both look for it. -/
theorem C67_race :
    let others : Others Nat := ⟨id, fun fs => put fs 2 [9, 9], id⟩
    exists' (oneFile 2 [9, 9]) 2 = true ∧
    (process (toyWorld fun _ => none) others false noFiles none (some 2) none ()).result.isOk = true ∧
    (process (toyWorld fun _ => none) others false noFiles none (some 2) none ()).fs.files 2 = some [1, 2, 3] := by decide +kernel

/-- the file put there while the model is made is kept -/
example :
    let others : Others Nat := ⟨fun fs => put fs 2 [9, 9], id, id⟩
    (process (toyWorld fun _ => none) others false noFiles none (some 2) none ()).result.isOk = true ∧
    (process (toyWorld fun _ => none) others false noFiles none (some 2) none ()).fs.files 2 = some [9, 9] := by decide +kernel

/-- a run which trains, saves and reports; then a run which loads -/
example :
    let r := process (toyWorld fun _ => none) alone true noFiles (some 1) (some 5) (some [()]) ()
    r.result.isOk = true ∧ r.model = some () ∧ r.fs.files 5 = some [1, 2, 3] ∧ r.fs.files 1 = some [60] ∧ r.fs.files 2 = some [7] ∧
    (process (toyWorld fun _ => none) alone true r.fs none (some 5) none ()).result.isOk = true ∧
    (process (toyWorld fun _ => none) alone true r.fs none (some 5) (some [()]) ()).result.isOk = false := by decide +kernel

example : Chosen (toyWorld fun _ => none) (oneFile 2 [1, 2, 3]) () (some 2) none () :=
  .loaded (b := [1, 2, 3]) rfl rfl rfl
example : ¬ ReportPath (toyWorld fun _ => none) true (some 1) 5 := by
  rintro (h | ⟨_, f, h, e⟩)
  · cases h
  · cases h; revert e; decide

/-- a world with models which are byte strings -/
def fullDisk : World Nat Unit Unit Bytes Unit Unit where
  fromInput _ := .ok ()
  discover _ := .ok [()]
  train _ := .ok [1]
  report _ _ := .ok ()
  live _ _ := .ok ()
  render _ := .ok []
  encModel m := .ok (m ++ [0])
  decModel b := if b.getLast? = some 0 then .ok b.dropLast else .error ()
  encReport _ := .ok []
  withJson p := p
  createErr _ := none
  limit _ := some 1
  held _ := 1
  notFound := ()
  permission := ()
  noSpace := ()
  ambiguous := ()
  noModelPath := ()

/-- C85 is false: when the disk is full at the end of the file, the error is lost with the encoder, the save
succeeds, and the model can't be loaded. -/
theorem C85_false : ¬ C85 := by
  intro h
  have hf : Format { fullDisk with encModel := fun m => if m = [5] then .ok [5, 0] else .error (), decModel := fun b => if b = [5, 0] then .ok [5] else .error () } := by
    constructor
    · intro m b h
      by_cases e : m = [5]
      · subst e; cases h; rfl
      · simp [e] at h
    · intro m b n m' h h'
      by_cases e : m = [5]
      · subst e
        simp only at h'
        split at h'
        · cases h'; rfl
        · cases h'
      · simp [e] at h
  have := h _ noFiles 0 [5] hf (by rfl)
  cases this

/-- The formats of `Verif/Codec` are such formats: the models are those of `Verif/Codec`, without the compression. -/
def codecWorld (t : LJ.Codec.Texts) : World Nat Unit Unit (LJ.Codec.Model t) Unit Unit where
  fromInput _ := .ok ()
  discover _ := .ok []
  train _ := .error ()
  report _ _ := .ok ()
  live _ _ := .ok ()
  render _ := .ok []
  encModel m := match (LJ.Codec.model t).enc m with | some b => .ok b | none => .error ()
  decModel b := match LJ.Codec.load (LJ.Codec.model t) b with | some m => .ok m | none => .error ()
  encReport _ := .ok []
  withJson p := p
  createErr _ := none
  limit _ := none
  held _ := 0
  notFound := ()
  permission := ()
  noSpace := ()
  ambiguous := ()
  noModelPath := ()

theorem codecFormat (t : LJ.Codec.Texts) : Format (codecWorld t) := by
  have henc : ∀ m b, (codecWorld t).encModel m = .ok b → (LJ.Codec.model t).enc m = some b := by
    intro m b h
    simp only [codecWorld] at h
    split at h
    · rename_i h'; cases h; exact h'
    · cases h
  constructor
  · intro m b h
    have := (LJ.Codec.C70_model t (henc m b h) []).2
    rw [List.append_nil] at this
    simp only [codecWorld, this]
  · intro m b n m' h h'
    have hb := henc m b h
    by_cases e : b.take n = b
    · rw [e] at h'
      have := (LJ.Codec.C70_model t hb []).2
      rw [List.append_nil] at this
      simp only [codecWorld, this] at h'
      cases h'
      rfl
    · have := (LJ.Codec.C80_truncated t).1 m b (b.take n) hb (List.take_prefix n b) e
      simp only [codecWorld, this] at h'
      cases h'

end LJ.Cli

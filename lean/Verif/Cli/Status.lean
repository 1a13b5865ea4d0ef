/-
C89: the exit status and the report file.
-/
import Verif.Cli.Props
namespace LJ.Cli
open Spec (Inputs Baselines Visible Chosen Format ReportPath CanCreate Room CanSave Shown Success)

variable {P I C M R Er : Type} [DecidableEq P] {w : World P I C M R Er}

theorem create_iff {fs fs' : Fs P} {p : P} : create w fs p = .ok fs' ↔ CanCreate w fs p ∧ fs' = put fs p [] := by
  unfold create CanCreate
  cases hd : fs.denied p with
  | true => simp
  | false =>
    cases hc : w.createErr p with
    | some e => simp
    | none => simp [eq_comm]

omit [DecidableEq P] in
theorem written_length (p : P) (b : Bytes) {n : Nat} (hn : n ≤ b.length) : ¬ (written w p b).length < n ↔ Room w p n := by
  unfold written Room
  cases h : w.limit p with
  | none => simp; omega
  | some k =>
    rw [List.length_take]
    constructor
    · rintro h k' ⟨⟩; omega
    · intro h; have := h k rfl; omega

omit [DecidableEq P] in
theorem written_whole (p : P) (b : Bytes) (h : Room w p b.length) : written w p b = b := by
  unfold written
  unfold Room at h
  split
  · rfl
  · rename_i n hn
    exact List.take_of_length_le (h n hn)

theorem saveGz_iff {fs : Fs P} {p : P} {enc : Except Er Bytes} : (saveGz w fs p enc).1 = .ok () ↔ CanSave w fs p enc := by
  unfold saveGz CanSave
  cases hc : create w fs p with
  | error e =>
    simp only
    constructor
    · intro h; cases h
    · rintro ⟨h, _⟩
      rw [(create_iff (fs' := put fs p [])).2 ⟨h, rfl⟩] at hc
      cases hc
  | ok fs' =>
    have h := (create_iff.1 hc).1
    cases enc with
    | error e => simp
    | ok b =>
      simp only [writeGz]
      have := written_length (w := w) p b (n := b.length - w.held b) (by omega)
      split
      · rename_i hlt
        constructor
        · intro h; cases h
        · rintro ⟨_, b', ⟨⟩, hr⟩; exact absurd hlt (this.2 hr)
      · rename_i hlt
        exact ⟨fun _ => ⟨h, b, rfl, this.1 hlt⟩, fun _ => rfl⟩

theorem writeFile_iff {fs : Fs P} {p : P} {b : Bytes} : (writeFile w fs p b).1 = .ok () ↔ CanCreate w fs p ∧ Room w p b.length := by
  unfold writeFile
  cases hc : create w fs p with
  | error e =>
    simp only
    constructor
    · intro h; cases h
    · rintro ⟨h, _⟩
      rw [(create_iff (fs' := put fs p [])).2 ⟨h, rfl⟩] at hc
      cases hc
  | ok fs' =>
    have h := (create_iff.1 hc).1
    simp only
    have := written_length (w := w) p b (n := b.length) le_rfl
    split
    · rename_i hlt
      constructor
      · intro h; cases h
      · rintro ⟨_, hr⟩; exact absurd hlt (this.2 hr)
    · rename_i hlt
      exact ⟨fun _ => ⟨h, this.1 hlt⟩, fun _ => rfl⟩

theorem writeFile_page {fs : Fs P} {p : P} {b : Bytes} (h : (writeFile w fs p b).1 = .ok ()) : (writeFile w fs p b).2.files p = some b := by
  have ⟨h1, h2⟩ := writeFile_iff.1 h
  unfold writeFile
  rw [(create_iff (fs' := put fs p [])).2 ⟨h1, rfl⟩]
  simp [put, written_whole p b h2]

omit [DecidableEq P] in
theorem canSave_congr {fs fs' : Fs P} (h : fs'.denied = fs.denied) {p : P} {enc : Except Er Bytes} : CanSave w fs' p enc ↔ CanSave w fs p enc := by
  unfold CanSave CanCreate; rw [h]

omit [DecidableEq P] in
theorem canCreate_congr {fs fs' : Fs P} (h : fs'.denied = fs.denied) {p : P} : CanCreate w fs' p ↔ CanCreate w fs p := by
  unfold CanCreate; rw [h]

theorem saveRaw_denied (cache : Bool) (fs : Fs P) (file : P) (r : R) : (saveRaw w cache fs file r).2.denied = fs.denied := by
  unfold saveRaw
  split
  · exact saveGz_denied _ _ _
  · rfl

theorem saveRaw_iff {cache : Bool} {fs : Fs P} {file : P} {r : R} :
    (saveRaw w cache fs file r).1 = .ok () ↔ (cache = true → CanSave w fs (w.withJson file) (w.encReport r)) := by
  unfold saveRaw
  split
  · rename_i hc
    rw [saveGz_iff]
    simp [hc]
  · rename_i hc
    simp [hc]

theorem inspect_iff {cache : Bool} {fs : Fs P} {report : Option P} {m : M} {content : C} :
    (inspect w cache fs report m content).1 = .ok () ↔ Shown w cache fs m content report := by
  unfold inspect
  cases report with
  | none => exact ⟨.live, fun h => by cases h; assumption⟩
  | some file =>
    simp only [writeReport]
    cases hr : w.report m content with
    | error e =>
      simp only
      constructor
      · intro h; cases h
      · intro h; cases h; rename_i hr' _ _ _ _; rw [hr] at hr'; cases hr'
    | ok r =>
      simp only
      have hden := saveRaw_denied (w := w) cache fs file r
      have hraw := saveRaw_iff (w := w) (cache := cache) (fs := fs) (file := file) (r := r)
      cases hs : saveRaw w cache fs file r with
      | mk res fs' =>
      rw [hs] at hden hraw
      simp only at hden hraw
      cases res with
      | error e =>
        simp only
        constructor
        · intro h; cases h
        · intro h
          cases h with
          | page hr' hc _ _ _ =>
            rw [hr] at hr'; cases hr'
            have := hraw.2 hc
            cases this
      | ok _ =>
        simp only [writePage]
        cases hp : w.render r with
        | error e =>
          simp only
          constructor
          · intro h; cases h
          · intro h
            cases h with
            | page hr' _ hp' _ _ => rw [hr] at hr'; cases hr'; rw [hp] at hp'; cases hp'
        | ok page =>
          simp only
          rw [writeFile_iff, canCreate_congr hden]
          constructor
          · rintro ⟨h1, h2⟩
            exact .page hr (hraw.1 rfl) hp h1 h2
          · intro h
            cases h with
            | page hr' _ hp' h1 h2 => rw [hr] at hr'; cases hr'; rw [hp] at hp'; cases hp'; exact ⟨h1, h2⟩

theorem saveModel_iff {fs : Fs P} {path : Option P} {m : M} :
    (saveModel w alone fs path m).1 = .ok () ↔ ∀ p, path = some p → ¬ Visible fs p → CanSave w fs p (w.encModel m) := by
  unfold saveModel
  cases path with
  | none => simp
  | some p =>
    simp only
    split
    · rename_i hv
      constructor
      · rintro _ q ⟨⟩ hn; exact absurd (exists_iff.1 hv) hn
      · intro _; rfl
    · rename_i hv
      show (saveGz w fs p _).1 = _ ↔ _
      rw [saveGz_iff]
      constructor
      · rintro h q ⟨⟩ _; exact h
      · intro h; exact h p rfl (fun hc => hv (exists_iff.2 hc))

theorem saveModel_denied (fs : Fs P) (path : Option P) (m : M) : (saveModel w alone fs path m).2.denied = fs.denied := by
  unfold saveModel
  split
  · split
    · rfl
    · exact saveGz_denied _ _ _
  · rfl

omit [DecidableEq P] in
theorem shown_congr {cache : Bool} {fs fs' : Fs P} (h : fs'.denied = fs.denied) {m : M} {content : C} {report : Option P} :
    Shown w cache fs' m content report ↔ Shown w cache fs m content report := by
  constructor
  · intro hs
    cases hs with
    | live h => exact .live h
    | page a b c d e => exact .page a (fun hc => (canSave_congr h).1 (b hc)) c ((canCreate_congr h).1 d) e
  · intro hs
    cases hs with
    | live h => exact .live h
    | page a b c d e => exact .page a (fun hc => (canSave_congr h).2 (b hc)) c ((canCreate_congr h).2 d) e

/-- The command succeeds if and only if every step succeeds: no error is lost, and it fails for no other reason. -/
theorem C89_status (cache : Bool) (fs : Fs P) (report path : Option P) (bs : Option (List I)) (input : I) :
    (process w alone cache fs report path bs input).result = .ok () ↔ Success w cache fs report path bs input := by
  unfold process Success
  cases hc : w.fromInput input with
  | error e =>
    simp only
    constructor
    · intro h; cases h
    · rintro ⟨c, m, h, _⟩; cases h
  | ok content =>
    simp only
    cases hm : getModel w fs content path bs with
    | error e =>
      simp only
      constructor
      · intro h; cases h
      · rintro ⟨c, m, ⟨⟩, h, _⟩
        rw [getModel_iff.2 h] at hm; cases hm
    | ok m =>
      simp only
      have hch := getModel_iff.1 hm
      have hsi := saveModel_iff (w := w) (fs := fs) (path := path) (m := m)
      have hden := saveModel_denied (w := w) fs path m
      show ((match saveModel w alone fs path m with
        | (.error e, fs) => (⟨.error e, none, fs⟩ : Run P M Er)
        | (.ok (), fs) => ⟨(inspect w cache fs report m content).1, some m, (inspect w cache fs report m content).2⟩)).result = _ ↔ _
      cases hs : saveModel w alone fs path m with
      | mk res fs' =>
      rw [hs] at hsi hden
      simp only at hsi hden
      cases res with
      | error e =>
        simp only
        constructor
        · intro h; cases h
        · rintro ⟨c, m', ⟨⟩, h, h2, _⟩
          rw [getModel_iff.2 h] at hm; cases hm
          have := hsi.2 h2
          cases this
      | ok _ =>
        simp only
        rw [inspect_iff, shown_congr hden]
        constructor
        · intro h; exact ⟨content, m, rfl, hch, hsi.1 rfl, h⟩
        · rintro ⟨c, m', ⟨⟩, h, _, h3⟩
          rw [getModel_iff.2 h] at hm; cases hm
          exact h3

theorem saveGz_file {fs : Fs P} {p : P} {enc : Except Er Bytes} (h : (saveGz w fs p enc).1 = .ok ()) :
    ∃ b k, enc = .ok b ∧ b.length - w.held b ≤ k ∧ (Room w p b.length → b.length ≤ k) ∧ (saveGz w fs p enc).2.files p = some (b.take k) := by
  obtain ⟨h1, b, rfl, h2⟩ := saveGz_iff.1 h
  unfold saveGz
  rw [(create_iff (fs' := put fs p [])).2 ⟨h1, rfl⟩]
  simp only [writeGz]
  cases hl : w.limit p with
  | none => exact ⟨b, b.length, rfl, by omega, fun _ => Nat.le_refl _, by simp [put, written, hl]⟩
  | some k => exact ⟨b, k, rfl, h2 k hl, fun h => h k hl, by simp [put, written, hl]⟩

theorem inspect_page {cache : Bool} {fs : Fs P} {file : P} {m : M} {content : C} (h : (inspect w cache fs (some file) m content).1 = .ok ()) :
    ∃ r page, w.report m content = .ok r ∧ w.render r = .ok page ∧ (inspect w cache fs (some file) m content).2.files file = some page ∧
      (cache = true → w.withJson file ≠ file → ∃ b k, w.encReport r = .ok b ∧ b.length - w.held b ≤ k ∧ (Room w (w.withJson file) b.length → b.length ≤ k) ∧
        (inspect w cache fs (some file) m content).2.files (w.withJson file) = some (b.take k)) := by
  simp only [inspect, writeReport] at h ⊢
  cases hr : w.report m content with
  | error e => rw [hr] at h; cases h
  | ok r =>
    simp only [hr] at h ⊢
    have hraw : cache = true → saveRaw w cache fs file r = saveGz w fs (w.withJson file) (w.encReport r) := by
      rintro rfl; rfl
    cases hs : saveRaw w cache fs file r with
    | mk res fs' =>
    rw [hs] at hraw
    simp only [hs] at h ⊢
    cases res with
    | error e => cases h
    | ok _ =>
      simp only [writePage] at h ⊢
      cases hp : w.render r with
      | error e => simp only [hp] at h; cases h
      | ok page =>
        simp only [hp] at h ⊢
        refine ⟨r, page, rfl, hp, writeFile_page h, fun hc hne => ?_⟩
        have e := hraw hc
        have hok : (saveGz w fs (w.withJson file) (w.encReport r)).1 = .ok () := by rw [← e]
        obtain ⟨b, k, h1, h2, h3, h4⟩ := saveGz_file hok
        refine ⟨b, k, h1, h2, h3, ?_⟩
        rw [writeFile_other _ _ _ hne, ← h4, ← e]

/-- After a success, the report file is the whole page of the report of the target with the chosen model, whatever was
there before, and the raw report next to it, when asked for, is what is saved (whole when it has room, and up to the last bytes when the disk is full). -/
theorem C89_page (cache : Bool) (fs : Fs P) {file : P} (path : Option P) (bs : Option (List I)) (input : I)
    (h : (process w alone cache fs (some file) path bs input).result = .ok ()) :
    ∃ content m r page, w.fromInput input = .ok content ∧ Chosen w fs content path bs m ∧ w.report m content = .ok r ∧ w.render r = .ok page ∧
      (process w alone cache fs (some file) path bs input).fs.files file = some page ∧
      (cache = true → w.withJson file ≠ file → ∃ b k, w.encReport r = .ok b ∧ b.length - w.held b ≤ k ∧ (Room w (w.withJson file) b.length → b.length ≤ k) ∧
        (process w alone cache fs (some file) path bs input).fs.files (w.withJson file) = some (b.take k)) := by
  unfold process at h ⊢
  split at h
  · cases h
  rename_i content hc
  split at h
  · cases h
  rename_i m hm
  split at h
  · cases h
  rename_i fs' hs
  have h : (inspect w cache fs' (some file) m content).1 = .ok () := h
  simp only [hc]
  obtain ⟨r, page, h1, h2, h3, h4⟩ := inspect_page h
  exact ⟨content, m, r, page, rfl, getModel_iff.1 hm, h1, h2, h3, h4⟩

/-- A small world for the examples: 0 is the model, 1 the report, 2 the raw report. -/
def pageWorld (limit : Nat → Option Nat) : World Nat Unit Unit Nat Nat Unit where
  fromInput _ := .ok ()
  discover _ := .ok [()]
  train cs := .ok cs.length
  report m _ := .ok (m + 10)
  live _ _ := .ok ()
  render r := .ok [UInt8.ofNat r, 7]
  encModel m := .ok [UInt8.ofNat m, 1, 2]
  decModel b := match b with | [m, 1, 2] => .ok m.toNat | _ => .error ()
  encReport r := .ok [UInt8.ofNat r]
  withJson p := p + 1
  createErr _ := none
  limit := limit
  held _ := 0
  notFound := ()
  permission := ()
  noSpace := ()
  ambiguous := ()
  noModelPath := ()

/-- With room, the three files are written. -/
example :
    let run := process (pageWorld fun _ => none) alone true ⟨fun _ => none, fun _ => false⟩ (some 1) (some 0) none ()
    run.result.isOk = true ∧ (List.range 3).map run.fs.files = [some [1, 1, 2], some [11, 7], some [11]] := by decide +kernel

/-- When the page can't be written whole, the command fails. -/
example : (process (pageWorld fun p => if p = 1 then some 1 else none) alone true ⟨fun _ => none, fun _ => false⟩ (some 1) (some 0) none ()).result.isOk = false := by
  decide +kernel

end LJ.Cli

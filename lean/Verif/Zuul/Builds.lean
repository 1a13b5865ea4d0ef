/-
C109: which JSON documents are builds, and which texts are times.
-/
import Verif.Zuul.Props
import Verif.Tokenizer.Recog
namespace LJ.Zuul
open LJ.Paths (Str)

namespace Spec

/-- A decimal number: digits, at least one. -/
def Decimal (s : Str) (n : Nat) : Prop :=
  s ≠ [] ∧ (∀ c ∈ s, '0' ≤ c ∧ c ≤ '9') ∧ n = s.foldl (fun a c => a * 10 + (c.toNat - '0'.toNat)) 0

/-- A year: up to four digits, or a sign and digits. -/
def Year (s : Str) (y : Int) : Prop :=
  (∃ n, Decimal s n ∧ s.length ≤ 4 ∧ y = n) ∨ (∃ d n, s = '+' :: d ∧ Decimal d n ∧ y = n) ∨ ∃ d n, s = '-' :: d ∧ Decimal d n ∧ y = -n

/-- A number of one or two digits. -/
def Two (s : Str) (n : Nat) : Prop := Decimal s n ∧ s.length ≤ 2

/-- There may be white space before it. -/
def Spaced (P : Str → Prop) (s : Str) : Prop := ∃ sp x, s = sp ++ x ∧ LJ.Tokenizer.Spec.AllWs sp ∧ P x

/-- A time as it is written in the answers of zuul: `2021-10-13T12:57:20`. -/
def TimeText (s : Str) (t : DateTime) : Prop :=
  ∃ y mo d h mi sec, s = y ++ '-' :: mo ++ '-' :: d ++ 'T' :: h ++ ':' :: mi ++ ':' :: sec ∧ Spaced (Year · t.year) y ∧
    Spaced (Two · t.month) mo ∧ Spaced (Two · t.day) d ∧ Spaced (Two · t.hour) h ∧ Spaced (Two · t.minute) mi ∧ Spaced (Two · t.second) sec ∧ t.nanos = 0

/-- The object has this field, for the first time. -/
def Has (fs : List (String × Json)) (name : String) (v : Json) : Prop := ∃ pre post, fs = pre ++ (name, v) :: post ∧ ∀ x ∈ pre, x.1 ≠ name

/-- An optional field: it may be missing or null. -/
def Optional {α : Type} (fs : List (String × Json)) (name : String) (P : Json → α → Prop) : Option α → Prop
  | none => Has fs name .null ∨ ∀ x ∈ fs, x.1 ≠ name
  | some a => ∃ v, Has fs name v ∧ P v a

/-- The text of a URL -/
def IsUrl (v : Json) (u : Url env) : Prop := ∃ s, v = .str s ∧ env.parseUrl s = some u.val

/-- The fields of a structure with these names: those of an object in which no name of the structure is repeated, or the elements of an
array, one for each name. -/
def Fields (names : List String) (v : Json) (fs : List (String × Json)) : Prop :=
  (v = .obj fs ∧ ∀ pre post k x y, fs = pre ++ (k, x) :: post → k ∈ names → (k, y) ∉ post) ∨ ∃ xs, v = .arr xs ∧ xs.length = names.length ∧ fs = names.zip xs

/-- An artifact -/
def IsArtifact (v : Json) (a : Artifact env) : Prop :=
  ∃ fs u, Fields ["name", "url"] v fs ∧ Has fs "name" (.str a.name) ∧ Has fs "url" u ∧ IsUrl u a.url

/-- The names of the fields of a build, in order -/
def names : List String := ["uuid", "job_name", "result", "start_time", "end_time", "duration", "voting", "log_url", "ref_url", "artifacts",
  "project", "branch", "pipeline", "change", "patchset", "ref", "event_id"]

/-- A duration: a number, which is rounded to the precision of a `f32` (C63) and bounded as a `u32`. -/
def IsDuration (env : Env) (v : Json) (n : Nat) : Prop :=
  (∃ k, v = .num (.pos k) ∧ n = min (roundF32 k) (2 ^ 32 - 1)) ∨ (∃ k, v = .num (.neg k) ∧ n = 0) ∨ ∃ k, v = .num (.float k) ∧ n = env.floatAsU32 k

/-- The object of a build -/
structure IsBuild (fs : List (String × Json)) (b : Build env) : Prop where
  uuid : Has fs "uuid" (.str b.uuid)
  jobName : Has fs "job_name" (.str b.jobName)
  result : Has fs "result" (.str b.result)
  startTime : ∃ s, Has fs "start_time" (.str s) ∧ TimeText s b.startTime
  endTime : ∃ s, Has fs "end_time" (.str s) ∧ TimeText s b.endTime
  duration : ∃ v, Has fs "duration" v ∧ IsDuration env v b.duration
  voting : Has fs "voting" (.bool b.voting)
  logUrl : Optional fs "log_url" IsUrl b.logUrl
  refUrl : Optional fs "ref_url" IsUrl b.refUrl
  artifacts : ∃ xs, Has fs "artifacts" (.arr xs) ∧ List.Forall₂ IsArtifact xs b.artifacts
  project : Has fs "project" (.str b.project)
  branch : Has fs "branch" (.str b.branch)
  pipeline : Has fs "pipeline" (.str b.pipeline)
  change : Optional fs "change" (fun v n => v = .num (.pos n)) b.change
  patchset : Optional fs "patchset" (fun v s => v = .str s) b.patchset
  changeRef : Has fs "ref" (.str b.changeRef)
  eventId : Has fs "event_id" (.str b.eventId)

/-- The document is the one of a build. -/
def Reads (j : Json) (b : Build env) : Prop := ∃ fs, Fields names j fs ∧ IsBuild fs b

/-- The builds among these documents -/
inductive Listed {env : Env} : List Json → List (Build env) → Prop
  | nil : Listed [] []
  | keep {x xs b bs} : Reads x b → Listed xs bs → Listed (x :: xs) (b :: bs)
  | skip {x xs bs} : (∀ b : Build env, ¬ Reads x b) → Listed xs bs → Listed (x :: xs) bs

end Spec
open Spec (Decimal Year Two Spaced TimeText Fields Has Optional IsUrl IsArtifact IsDuration IsBuild)

/-! ### Times -/

def value (acc : Nat) (s : Str) : Nat := s.foldl (fun a c => a * 10 + (c.toNat - '0'.toNat)) acc

theorem digitValue_some {c : Char} (h : '0' ≤ c ∧ c ≤ '9') : digitValue c = some (c.toNat - 48) := if_pos h

theorem scanDigits_spec (w k acc : Nat) (s : Str) : ∃ ds r, s = ds ++ r ∧ (∀ c ∈ ds, '0' ≤ c ∧ c ≤ '9') ∧ ds.length ≤ w ∧
    scanDigits w k acc s = (k + ds.length, value acc ds, r) := by
  induction w generalizing k acc s with
  | zero => exact ⟨[], s, rfl, by simp, by simp, rfl⟩
  | succ w ih =>
    cases s with
    | nil => exact ⟨[], [], rfl, by simp, by simp, rfl⟩
    | cons c s =>
      by_cases hc : '0' ≤ c ∧ c ≤ '9'
      · obtain ⟨ds, r, h1, h2, h3, h4⟩ := ih (k + 1) (acc * 10 + (c.toNat - 48)) s
        refine ⟨c :: ds, r, by rw [h1]; rfl, ?_, by simpa using h3, ?_⟩
        · intro x hx
          rcases List.mem_cons.1 hx with rfl | hx
          · exact hc
          · exact h2 x hx
        · rw [scanDigits, digitValue_some hc]
          simp only
          rw [h4, List.length_cons, Nat.add_assoc, Nat.add_comm 1]
          rfl
      · refine ⟨[], c :: s, rfl, by simp, by simp, ?_⟩
        rw [scanDigits, show digitValue c = none from if_neg hc]
        rfl

theorem scanDigits_run (w k acc : Nat) (ds r : Str) (h1 : ∀ c ∈ ds, '0' ≤ c ∧ c ≤ '9') (h2 : ds.length ≤ w)
    (h3 : ∀ c ∈ r.head?, ¬ ('0' ≤ c ∧ c ≤ '9')) : scanDigits w k acc (ds ++ r) = (k + ds.length, value acc ds, r) := by
  induction ds generalizing w k acc with
  | nil =>
    cases w with
    | zero => rfl
    | succ w =>
      cases r with
      | nil => rfl
      | cons c r =>
        rw [List.nil_append, scanDigits, show digitValue c = none from if_neg (h3 c (by simp))]
        rfl
  | cons c ds ih =>
    cases w with
    | zero => simp at h2
    | succ w =>
      rw [List.cons_append, scanDigits, digitValue_some (h1 c (by simp))]
      simp only
      rw [ih w _ _ (fun x hx => h1 x (by simp [hx])) (by simpa using h2), List.length_cons, Nat.add_assoc, Nat.add_comm 1]
      rfl

theorem scanNumber_spec {w : Nat} {s r : Str} {n : Nat} (h : scanNumber w s = some (n, r)) :
    ∃ ds, s = ds ++ r ∧ Decimal ds n ∧ ds.length ≤ w := by
  obtain ⟨ds, r', h1, h2, h3, h4⟩ := scanDigits_spec w 0 0 s
  unfold scanNumber at h
  rw [h4] at h
  cases ds with
  | nil => simp at h
  | cons c ds =>
    rw [List.length_cons, ← Nat.add_assoc] at h
    simp only [Option.some.injEq, Prod.mk.injEq] at h
    obtain ⟨rfl, rfl⟩ := h
    exact ⟨c :: ds, h1, ⟨by simp, h2, rfl⟩, h3⟩

theorem scanNumber_run {w : Nat} {ds r : Str} {n : Nat} (h : Decimal ds n) (hw : ds.length ≤ w) (hr : ∀ c ∈ r.head?, ¬ ('0' ≤ c ∧ c ≤ '9')) :
    scanNumber w (ds ++ r) = some (n, r) := by
  unfold scanNumber
  rw [scanDigits_run w 0 0 ds r h.2.1 hw hr]
  cases ds with
  | nil => exact absurd rfl h.1
  | cons c ds =>
    rw [List.length_cons, ← Nat.add_assoc, h.2.2]
    rfl

theorem scanChar_iff {c : Char} {s r : Str} : scanChar c s = some r ↔ s = c :: r := by
  cases s with
  | nil => simp [scanChar]
  | cons a s =>
    unfold scanChar
    by_cases h : a = c
    · subst h; simp
    · simp [h]

theorem scanYear_spec {s r : Str} {y : Int} (h : scanYear s = some (y, r)) : ∃ ys, s = ys ++ r ∧ Year ys y := by
  unfold scanYear at h
  split at h
  · obtain ⟨⟨n, r'⟩, h1, h2⟩ := Option.map_eq_some_iff.1 h
    cases h2
    obtain ⟨ds, e, hd, _⟩ := scanNumber_spec h1
    exact ⟨'+' :: ds, by rw [e]; rfl, .inr (.inl ⟨ds, n, rfl, hd, rfl⟩)⟩
  · obtain ⟨⟨n, r'⟩, h1, h2⟩ := Option.map_eq_some_iff.1 h
    cases h2
    obtain ⟨ds, e, hd, _⟩ := scanNumber_spec h1
    exact ⟨'-' :: ds, by rw [e]; rfl, .inr (.inr ⟨ds, n, rfl, hd, rfl⟩)⟩
  · obtain ⟨⟨n, r'⟩, h1, h2⟩ := Option.map_eq_some_iff.1 h
    cases h2
    obtain ⟨ds, e, hd, hl⟩ := scanNumber_spec h1
    exact ⟨ds, e, .inl ⟨n, hd, hl, rfl⟩⟩

theorem scanYear_run {ys r : Str} {y : Int} (h : Year ys y) (hr : ∀ c ∈ r.head?, ¬ ('0' ≤ c ∧ c ≤ '9')) : scanYear (ys ++ r) = some (y, r) := by
  rcases h with ⟨n, hd, hl, rfl⟩ | ⟨d, n, rfl, hd, rfl⟩ | ⟨d, n, rfl, hd, rfl⟩
  · unfold scanYear
    split
    · rename_i s e
      cases ys with
      | nil => exact absurd rfl hd.1
      | cons c ys =>
        cases e
        exact absurd (hd.2.1 '+' (by simp)) (by decide)
    · rename_i s e
      cases ys with
      | nil => exact absurd rfl hd.1
      | cons c ys =>
        cases e
        exact absurd (hd.2.1 '-' (by simp)) (by decide)
    · rw [scanNumber_run hd hl hr]; rfl
  · show Option.map _ (scanNumber (d ++ r).length (d ++ r)) = _
    rw [scanNumber_run hd (by simp) hr]; rfl
  · show Option.map _ (scanNumber (d ++ r).length (d ++ r)) = _
    rw [scanNumber_run hd (by simp) hr]; rfl

theorem mkTime_iff {y : Int} {mo d h mi s : Nat} {t : DateTime} : mkTime y mo d h mi s = some t ↔
    t.year = y ∧ t.month = mo ∧ t.day = d ∧ t.hour = h ∧ t.minute = mi ∧ t.second = s ∧ t.nanos = 0 := by
  unfold mkTime
  constructor
  · split
    · intro e; cases e; exact ⟨rfl, rfl, rfl, rfl, rfl, rfl, rfl⟩
    · intro e; cases e
  · obtain ⟨y', mo', d', h', mi', s', ns, v⟩ := t
    rintro ⟨rfl, rfl, rfl, rfl, rfl, rfl, e⟩
    simp only at e
    subst e
    rw [dif_pos v]

theorem trimStart_spec (s : Str) : ∃ sp, s = sp ++ trimStart s ∧ LJ.Tokenizer.Spec.AllWs sp := by
  refine ⟨s.takeWhile LJ.Tokenizer.isWs, (List.takeWhile_append_dropWhile).symm, fun c hc => ?_⟩
  exact (LJ.Tokenizer.isWs_iff c).1 (List.all_eq_true.1 List.all_takeWhile c hc)

theorem trimStart_run {sp x : Str} (h : LJ.Tokenizer.Spec.AllWs sp) (hx : ∀ c ∈ x.head?, LJ.Tokenizer.isWs c = false) : trimStart (sp ++ x) = x := by
  unfold trimStart
  rw [List.dropWhile_append_of_pos fun c hc => (LJ.Tokenizer.isWs_iff c).2 (h c hc)]
  cases x with
  | nil => rfl
  | cons c x => rw [List.dropWhile_cons_of_neg (by rw [hx c (by simp)]; decide)]

theorem digit_not_ws {c : Char} (h : '0' ≤ c ∧ c ≤ '9') : LJ.Tokenizer.isWs c = false := by
  have h1 : 48 ≤ c.toNat := h.1
  have h2 : c.toNat ≤ 57 := h.2
  simp only [LJ.Tokenizer.isWs, Bool.or_eq_false_iff, Bool.and_eq_false_iff, decide_eq_false_iff_not, beq_eq_false_iff_ne]
  omega

theorem decimal_head {s r : Str} {n : Nat} (h : Decimal s n) : ∀ c ∈ (s ++ r).head?, LJ.Tokenizer.isWs c = false := by
  cases s with
  | nil => exact absurd rfl h.1
  | cons a s =>
    intro c hc
    simp only [List.cons_append, List.head?_cons, Option.mem_def, Option.some.injEq] at hc
    exact hc ▸ digit_not_ws (h.2.1 a (by simp))

theorem year_head {s r : Str} {y : Int} (h : Year s y) : ∀ c ∈ (s ++ r).head?, LJ.Tokenizer.isWs c = false := by
  rcases h with ⟨n, h, _⟩ | ⟨d, n, rfl, _⟩ | ⟨d, n, rfl, _⟩
  · exact decimal_head h
  · intro c hc
    simp only [List.cons_append, List.head?_cons, Option.mem_def, Option.some.injEq] at hc
    exact hc ▸ by decide
  · intro c hc
    simp only [List.cons_append, List.head?_cons, Option.mem_def, Option.some.injEq] at hc
    exact hc ▸ by decide

theorem item_spec {w : Nat} {s r : Str} {n : Nat} (h : scanNumber w (trimStart s) = some (n, r)) :
    ∃ ds, s = ds ++ r ∧ Spaced (fun d => Decimal d n ∧ d.length ≤ w) ds := by
  obtain ⟨sp, e, hsp⟩ := trimStart_spec s
  obtain ⟨ds, e2, h1, h2⟩ := scanNumber_spec h
  exact ⟨sp ++ ds, by rw [e, e2, List.append_assoc], sp, ds, rfl, hsp, h1, h2⟩

theorem item_run {w : Nat} {ds r : Str} {n : Nat} (h : Spaced (fun d => Decimal d n ∧ d.length ≤ w) ds) (hr : ∀ c ∈ r.head?, ¬ ('0' ≤ c ∧ c ≤ '9')) :
    scanNumber w (trimStart (ds ++ r)) = some (n, r) := by
  obtain ⟨sp, d, rfl, hsp, h1, h2⟩ := h
  rw [List.append_assoc, trimStart_run hsp (decimal_head h1), scanNumber_run h1 h2 hr]

/-- C109, the times: a text is read as a time exactly when it is one, written as zuul does. -/
theorem C109_times (s : Str) (t : DateTime) : parseTime s = some t ↔ TimeText s t := by
  unfold parseTime
  constructor
  · intro h
    simp only [Option.bind_eq_bind, Option.bind_eq_some_iff, Prod.exists] at h
    obtain ⟨y, s1, h1, s2, h2, mo, s3, h3, s4, h4, d, s5, h5, s6, h6, hh, s7, h7, s8, h8, mi, s9, h9, s10, h10, sec, s11, h11, h12⟩ := h
    split at h12
    · rename_i hs
      subst hs
      obtain ⟨sp, e0, hsp⟩ := trimStart_spec s
      obtain ⟨ys, e1, hy⟩ := scanYear_spec h1
      rw [e1] at e0
      subst e0
      rw [scanChar_iff] at h2 h4 h6 h8 h10
      subst h2
      obtain ⟨a1, rfl, g1⟩ := item_spec h3
      subst h4
      obtain ⟨a2, rfl, g2⟩ := item_spec h5
      subst h6
      obtain ⟨a3, rfl, g3⟩ := item_spec h7
      subst h8
      obtain ⟨a4, rfl, g4⟩ := item_spec h9
      subst h10
      obtain ⟨a5, rfl, g5⟩ := item_spec h11
      obtain ⟨rfl, rfl, rfl, rfl, rfl, rfl, e⟩ := mkTime_iff.1 h12
      exact ⟨sp ++ ys, a1, a2, a3, a4, a5, by simp, ⟨sp, ys, rfl, hsp, hy⟩, g1, g2, g3, g4, g5, e⟩
    · cases h12
  · rintro ⟨_, a1, a2, a3, a4, a5, rfl, ⟨sp, ys, rfl, hsp, hy⟩, g1, g2, g3, g4, g5, e⟩
    have nd : ∀ (c : Char) (r : Str), ¬ ('0' ≤ c ∧ c ≤ '9') → ∀ x ∈ (c :: r).head?, ¬ ('0' ≤ x ∧ x ≤ '9') := by
      intro c r hc x hx
      simp only [List.head?_cons, Option.mem_def, Option.some.injEq] at hx
      exact hx ▸ hc
    simp only [List.append_assoc, List.cons_append, Option.bind_eq_bind]
    rw [trimStart_run hsp (year_head hy), scanYear_run hy (nd _ _ (by decide)), Option.bind_some]
    dsimp only
    rw [scanChar_iff.2 rfl, Option.bind_some, item_run g1 (nd _ _ (by decide)), Option.bind_some]
    dsimp only
    rw [scanChar_iff.2 rfl, Option.bind_some, item_run g2 (nd _ _ (by decide)), Option.bind_some]
    dsimp only
    rw [scanChar_iff.2 rfl, Option.bind_some, item_run g3 (nd _ _ (by decide)), Option.bind_some]
    dsimp only
    rw [scanChar_iff.2 rfl, Option.bind_some, item_run g4 (nd _ _ (by decide)), Option.bind_some]
    dsimp only
    rw [scanChar_iff.2 rfl, Option.bind_some]
    have := item_run (r := []) g5 (by simp)
    rw [List.append_nil] at this
    rw [this, Option.bind_some]
    dsimp only
    rw [if_pos rfl]
    exact mkTime_iff.2 ⟨rfl, rfl, rfl, rfl, rfl, rfl, e⟩

/-! ### Builds -/

theorem field_iff {name : String} {fs : List (String × Json)} {v : Json} : field name fs = some v ↔ Has fs name v := by
  unfold Has
  induction fs with
  | nil => simp [field]
  | cons x fs ih =>
    obtain ⟨k, w⟩ := x
    unfold field
    by_cases h : k = name
    · subst h
      rw [if_pos rfl, Option.some.injEq]
      constructor
      · rintro rfl; exact ⟨[], fs, rfl, by simp⟩
      · rintro ⟨pre, post, e, hp⟩
        cases pre with
        | nil => cases e; rfl
        | cons p pre => cases e; exact absurd rfl (hp (k, w) (by simp))
    · rw [if_neg h, ih]
      constructor
      · rintro ⟨pre, post, rfl, hp⟩
        exact ⟨(k, w) :: pre, post, rfl, by simpa [h] using hp⟩
      · rintro ⟨pre, post, e, hp⟩
        cases pre with
        | nil => cases e; exact absurd rfl h
        | cons p pre => cases e; exact ⟨pre, post, rfl, fun x hx => hp x (by simp [hx])⟩

theorem field_none {name : String} {fs : List (String × Json)} : field name fs = none ↔ ∀ x ∈ fs, x.1 ≠ name := by
  induction fs with
  | nil => simp [field]
  | cons x fs ih =>
    obtain ⟨k, w⟩ := x
    unfold field
    by_cases h : k = name
    · simp [h]
    · simp [h, ih]

theorem bind_field {α : Type} {name : String} {fs : List (String × Json)} {f : Json → Option α} {P : Json → α → Prop}
    (hf : ∀ v a, f v = some a ↔ P v a) (a : α) : (field name fs).bind f = some a ↔ ∃ v, Has fs name v ∧ P v a := by
  rw [Option.bind_eq_some_iff]
  simp only [field_iff, hf]

theorem opt_field {α : Type} {name : String} {fs : List (String × Json)} {f : Json → Option α} {P : Json → α → Prop}
    (hf : ∀ v a, f v = some a ↔ P v a) (hnull : f .null = none) (a : Option α) : opt f (field name fs) = some a ↔ Optional fs name P a := by
  cases h : field name fs with
  | none =>
    have h' := field_none.1 h
    cases a with
    | none => exact ⟨fun _ => .inr h', fun _ => rfl⟩
    | some a =>
      constructor
      · intro e; cases e
      · rintro ⟨v, hv, _⟩
        rw [← field_iff, h] at hv
        cases hv
  | some v =>
    by_cases hv : v = .null
    · subst hv
      cases a with
      | none => exact ⟨fun _ => .inl (field_iff.1 h), fun _ => rfl⟩
      | some a =>
        constructor
        · intro e; cases e
        · rintro ⟨v, hv, hp⟩
          rw [← field_iff, h] at hv
          cases hv
          rw [← hf, hnull] at hp
          cases hp
    · have e : opt f (some v) = (f v).map some := by cases v <;> first | rfl | exact absurd rfl hv
      rw [e]
      cases a with
      | none =>
        constructor
        · intro e; cases hx : f v <;> rw [hx] at e <;> cases e
        · rintro (h' | h')
          · rw [← field_iff, h] at h'; cases h'; exact absurd rfl hv
          · rw [← field_none, h] at h'; cases h'
      | some a =>
        constructor
        · intro e
          obtain ⟨x, hx, e⟩ := Option.map_eq_some_iff.1 e
          cases e
          exact ⟨v, field_iff.1 h, (hf _ _).1 hx⟩
        · rintro ⟨v', h', hp⟩
          rw [← field_iff, h] at h'
          cases h'
          rw [(hf _ _).2 hp]
          rfl

theorem asStr_iff (v : Json) (s : Str) : asStr v = some s ↔ v = .str s := by
  cases v <;> simp [asStr]

theorem asBool_iff (v : Json) (b : Bool) : asBool v = some b ↔ v = .bool b := by
  cases v <;> simp [asBool]

theorem asU64_iff (v : Json) (n : Nat) : asU64 v = some n ↔ v = .num (.pos n) := by
  cases v with
  | num x => cases x <;> simp [asU64]
  | _ => simp [asU64]

theorem asTime_iff (v : Json) (t : DateTime) : asTime v = some t ↔ ∃ s, v = .str s ∧ TimeText s t := by
  cases v <;> simp [asTime, C109_times]

variable {env : Env}

theorem asUrl_iff (v : Json) (u : Url env) : asUrl v = some u ↔ IsUrl v u := by
  have key : ∀ s, mkUrl env s = some u ↔ env.parseUrl s = some u.val := by
    intro s
    unfold mkUrl
    cases h : env.parseUrl s with
    | none => simp
    | some x =>
      simp only
      by_cases hx : env.parseUrl x = some x
      · rw [dif_pos hx]
        constructor
        · intro e; rw [← Option.some.inj e]
        · intro e; exact congrArg some (Subtype.ext (Option.some.inj e))
      · rw [dif_neg hx]
        constructor
        · intro e; cases e
        · intro e
          cases e
          exact absurd u.property hx
  unfold IsUrl
  cases v <;> simp [asUrl, key]

theorem asDuration_iff (v : Json) (n : Nat) : asDuration (env := env) v = some n ↔ IsDuration env v n := by
  unfold IsDuration
  cases v with
  | num x => cases x <;> simp [asDuration, asU32, eq_comm]
  | _ => simp [asDuration]

theorem structFields_iff {names : List String} {v : Json} {fs : List (String × Json)} : structFields names v = some fs ↔ Fields names v fs := by
  have key : ∀ fs : List (String × Json), ((fs.map Prod.fst).filter fun n => decide (n ∈ names)).Nodup ↔
      ∀ pre post k x y, fs = pre ++ (k, x) :: post → k ∈ names → (k, y) ∉ post := by
    intro fs
    induction fs with
    | nil => simp
    | cons p fs ih =>
      obtain ⟨k, v⟩ := p
      rw [List.map_cons, List.filter_cons]
      by_cases hk : k ∈ names
      · rw [if_pos (by simpa using hk), List.nodup_cons, ih]
        constructor
        · rintro ⟨h1, h2⟩ pre post k' x y e hk' hm
          cases pre with
          | nil =>
            cases e
            exact h1 (List.mem_filter.2 ⟨List.mem_map.2 ⟨_, hm, rfl⟩, by simpa using hk⟩)
          | cons q pre => cases e; exact h2 pre post k' x y rfl hk' hm
        · intro h
          refine ⟨fun hm => ?_, fun pre post k' x y e => h ((k, v) :: pre) post k' x y (by rw [e]; rfl)⟩
          obtain ⟨⟨k', y⟩, h1, rfl⟩ := List.mem_map.1 (List.mem_filter.1 hm).1
          exact h [] fs k' v y rfl hk h1
      · rw [if_neg (by simpa using hk), ih]
        constructor
        · rintro h2 pre post k' x y e hk' hm
          cases pre with
          | nil => cases e; exact hk hk'
          | cons q pre => cases e; exact h2 pre post k' x y rfl hk' hm
        · exact fun h pre post k' x y e => h ((k, v) :: pre) post k' x y (by rw [e]; rfl)
  unfold Fields structFields
  cases v with
  | obj gs =>
    simp only [Json.obj.injEq, reduceCtorEq, false_and, exists_false, or_false]
    constructor
    · intro h
      split at h
      · rename_i hg; cases h; exact ⟨rfl, (key _).1 hg⟩
      · cases h
    · rintro ⟨rfl, h⟩
      exact if_pos ((key _).2 h)
  | arr xs =>
    simp only [reduceCtorEq, false_and, false_or, Json.arr.injEq]
    constructor
    · intro h
      split at h
      · rename_i hg; cases h; exact ⟨xs, rfl, hg, rfl⟩
      · cases h
    · rintro ⟨_, rfl, h, rfl⟩
      exact if_pos h
  | _ => simp

theorem decodeArtifact_iff (v : Json) (a : Artifact env) : decodeArtifact v = some a ↔ IsArtifact v a := by
  unfold IsArtifact decodeArtifact
  simp only [Option.bind_eq_bind, Option.bind_eq_some_iff, structFields_iff, field_iff, asStr_iff, asUrl_iff, Option.pure_def, Option.some.injEq]
  constructor
  · rintro ⟨fs, h0, n, ⟨v, h1, rfl⟩, u, ⟨w, h2, h3⟩, rfl⟩
    exact ⟨fs, w, h0, h1, h2, h3⟩
  · rintro ⟨fs, w, h0, h1, h2, h3⟩
    exact ⟨fs, h0, a.name, ⟨_, h1, rfl⟩, a.url, ⟨w, h2, h3⟩, rfl⟩

theorem mapM_iff {α β : Type} {f : α → Option β} {P : α → β → Prop} (hf : ∀ v a, f v = some a ↔ P v a) (xs : List α) (ys : List β) :
    xs.mapM f = some ys ↔ List.Forall₂ P xs ys := by
  induction xs generalizing ys with
  | nil => simp [eq_comm]
  | cons x xs ih =>
    simp only [List.mapM_cons, Option.bind_eq_bind, Option.bind_eq_some_iff, Option.pure_def, Option.some.injEq, ih, hf]
    constructor
    · rintro ⟨y, h1, ys, h2, rfl⟩
      exact .cons h1 h2
    · rintro (_ | ⟨h1, h2⟩)
      exact ⟨_, h1, _, h2, rfl⟩

theorem asArtifacts_iff (v : Json) (l : List (Artifact env)) : asArtifacts v = some l ↔ ∃ xs, v = .arr xs ∧ List.Forall₂ IsArtifact xs l := by
  cases v <;> simp [asArtifacts, mapM_iff decodeArtifact_iff]

theorem decodeFields_iff (fs : List (String × Json)) (b : Build env) : decodeFields fs = some b ↔ IsBuild fs b := by
  unfold decodeFields
  constructor
  · intro h
    obtain ⟨a1, e1, h⟩ := Option.bind_eq_some_iff.1 h
    obtain ⟨a2, e2, h⟩ := Option.bind_eq_some_iff.1 h
    obtain ⟨a3, e3, h⟩ := Option.bind_eq_some_iff.1 h
    obtain ⟨a4, e4, h⟩ := Option.bind_eq_some_iff.1 h
    obtain ⟨a5, e5, h⟩ := Option.bind_eq_some_iff.1 h
    obtain ⟨a6, e6, h⟩ := Option.bind_eq_some_iff.1 h
    obtain ⟨a7, e7, h⟩ := Option.bind_eq_some_iff.1 h
    obtain ⟨a8, e8, h⟩ := Option.bind_eq_some_iff.1 h
    obtain ⟨a9, e9, h⟩ := Option.bind_eq_some_iff.1 h
    obtain ⟨a10, e10, h⟩ := Option.bind_eq_some_iff.1 h
    obtain ⟨a11, e11, h⟩ := Option.bind_eq_some_iff.1 h
    obtain ⟨a12, e12, h⟩ := Option.bind_eq_some_iff.1 h
    obtain ⟨a13, e13, h⟩ := Option.bind_eq_some_iff.1 h
    obtain ⟨a14, e14, h⟩ := Option.bind_eq_some_iff.1 h
    obtain ⟨a15, e15, h⟩ := Option.bind_eq_some_iff.1 h
    obtain ⟨a16, e16, h⟩ := Option.bind_eq_some_iff.1 h
    obtain ⟨a17, e17, h⟩ := Option.bind_eq_some_iff.1 h
    cases h
    obtain ⟨_, b1, rfl⟩ := (bind_field asStr_iff _).1 e1
    obtain ⟨_, b2, rfl⟩ := (bind_field asStr_iff _).1 e2
    obtain ⟨_, b3, rfl⟩ := (bind_field asStr_iff _).1 e3
    obtain ⟨_, b4, s4, rfl, c4⟩ := (bind_field asTime_iff _).1 e4
    obtain ⟨_, b5, s5, rfl, c5⟩ := (bind_field asTime_iff _).1 e5
    obtain ⟨v6, b6, c6⟩ := (bind_field asDuration_iff _).1 e6
    obtain ⟨_, b7, rfl⟩ := (bind_field asBool_iff _).1 e7
    obtain ⟨_, b10, xs, rfl, c10⟩ := (bind_field asArtifacts_iff _).1 e10
    obtain ⟨_, b11, rfl⟩ := (bind_field asStr_iff _).1 e11
    obtain ⟨_, b12, rfl⟩ := (bind_field asStr_iff _).1 e12
    obtain ⟨_, b13, rfl⟩ := (bind_field asStr_iff _).1 e13
    obtain ⟨_, b16, rfl⟩ := (bind_field asStr_iff _).1 e16
    obtain ⟨_, b17, rfl⟩ := (bind_field asStr_iff _).1 e17
    exact ⟨b1, b2, b3, ⟨_, b4, c4⟩, ⟨_, b5, c5⟩, ⟨_, b6, c6⟩, b7, (opt_field asUrl_iff rfl _).1 e8, (opt_field asUrl_iff rfl _).1 e9, ⟨_, b10, c10⟩, b11, b12, b13, (opt_field asU64_iff rfl _).1 e14, (opt_field asStr_iff rfl _).1 e15, b16, b17⟩
  · rintro ⟨b1, b2, b3, ⟨s4, b4, c4⟩, ⟨s5, b5, c5⟩, ⟨v6, b6, c6⟩, b7, b8, b9, ⟨xs, b10, c10⟩, b11, b12, b13, b14, b15, b16, b17⟩
    refine Option.bind_eq_some_iff.2 ⟨_, (bind_field asStr_iff _).2 ⟨_, b1, rfl⟩, ?_⟩
    refine Option.bind_eq_some_iff.2 ⟨_, (bind_field asStr_iff _).2 ⟨_, b2, rfl⟩, ?_⟩
    refine Option.bind_eq_some_iff.2 ⟨_, (bind_field asStr_iff _).2 ⟨_, b3, rfl⟩, ?_⟩
    refine Option.bind_eq_some_iff.2 ⟨_, (bind_field asTime_iff _).2 ⟨_, b4, s4, rfl, c4⟩, ?_⟩
    refine Option.bind_eq_some_iff.2 ⟨_, (bind_field asTime_iff _).2 ⟨_, b5, s5, rfl, c5⟩, ?_⟩
    refine Option.bind_eq_some_iff.2 ⟨_, (bind_field asDuration_iff _).2 ⟨_, b6, c6⟩, ?_⟩
    refine Option.bind_eq_some_iff.2 ⟨_, (bind_field asBool_iff _).2 ⟨_, b7, rfl⟩, ?_⟩
    refine Option.bind_eq_some_iff.2 ⟨_, (opt_field asUrl_iff rfl _).2 b8, ?_⟩
    refine Option.bind_eq_some_iff.2 ⟨_, (opt_field asUrl_iff rfl _).2 b9, ?_⟩
    refine Option.bind_eq_some_iff.2 ⟨_, (bind_field asArtifacts_iff _).2 ⟨_, b10, xs, rfl, c10⟩, ?_⟩
    refine Option.bind_eq_some_iff.2 ⟨_, (bind_field asStr_iff _).2 ⟨_, b11, rfl⟩, ?_⟩
    refine Option.bind_eq_some_iff.2 ⟨_, (bind_field asStr_iff _).2 ⟨_, b12, rfl⟩, ?_⟩
    refine Option.bind_eq_some_iff.2 ⟨_, (bind_field asStr_iff _).2 ⟨_, b13, rfl⟩, ?_⟩
    refine Option.bind_eq_some_iff.2 ⟨_, (opt_field asU64_iff rfl _).2 b14, ?_⟩
    refine Option.bind_eq_some_iff.2 ⟨_, (opt_field asStr_iff rfl _).2 b15, ?_⟩
    refine Option.bind_eq_some_iff.2 ⟨_, (bind_field asStr_iff _).2 ⟨_, b16, rfl⟩, ?_⟩
    refine Option.bind_eq_some_iff.2 ⟨_, (bind_field asStr_iff _).2 ⟨_, b17, rfl⟩, ?_⟩
    rfl

/-- C109: a JSON document is read as a build exactly when it has the fields of a build. -/
theorem C109_build (j : Json) (b : Build env) : decodeBuild j = some b ↔ ∃ fs, Fields Spec.names j fs ∧ IsBuild fs b := by
  unfold decodeBuild
  rw [Option.bind_eq_some_iff]
  simp only [structFields_iff, decodeFields_iff]
  rfl

/-- C109: the list of builds which a document is read as: it is an array, and these are the builds of its elements, in order. -/
theorem C109_builds (j : Json) (l : List (Build env)) : decodeBuilds j = some l ↔ ∃ xs, j = .arr xs ∧ Spec.Listed (xs.map toValue) l := by
  have key : ∀ ys : List Json, Spec.Kept ys l ↔ Spec.Listed ys l := by
    intro ys
    constructor
    · intro h
      induction h with
      | nil => exact .nil
      | keep hx _ ih => exact .keep ((C109_build _ _).1 hx) ih
      | skip hx _ ih => exact .skip (fun b hb => by rw [(C109_build _ _).2 hb] at hx; cases hx) ih
    · intro h
      induction h with
      | nil => exact .nil
      | keep hx _ ih => exact .keep ((C109_build _ _).2 hx) ih
      | skip hx _ ih =>
        refine .skip ?_ ih
        exact Option.eq_none_iff_forall_ne_some.2 fun b hd => hx b ((C109_build _ _).1 hd)
  cases j with
  | arr xs => simp only [C64, key, Json.arr.injEq, exists_eq_left']
  | _ => exact ⟨fun h => (nomatch h), fun ⟨_, h, _⟩ => nomatch h⟩

/-- C109, in a list of builds, where an object is read first as a map: the last of the fields with the same name counts, at every
depth. -/
theorem C109_last (fs : List (String × Json)) (k : String) (v : Json) :
    Has (toFields fs) k v ↔ ∃ pre post x, fs = pre ++ (k, x) :: post ∧ (∀ y, (k, y) ∉ post) ∧ v = toValue x := by
  rw [← field_iff]
  induction fs with
  | nil => simp [toFields, field]
  | cons q fs ih =>
    obtain ⟨k', w⟩ := q
    rw [toFields]
    split
    · rename_i hm
      refine ih.trans ?_
      constructor
      · rintro ⟨pre, post, x, rfl, h1, h2⟩
        exact ⟨(k', w) :: pre, post, x, rfl, h1, h2⟩
      · rintro ⟨pre, post, x, e, h1, h2⟩
        cases pre with
        | nil =>
          cases e
          obtain ⟨⟨_, y⟩, hy, rfl⟩ := List.mem_map.1 hm
          exact absurd hy (h1 y)
        | cons p pre => cases e; exact ⟨pre, post, x, rfl, h1, h2⟩
    · rename_i hm
      rw [field]
      split
      · rename_i hk
        subst hk
        rw [Option.some.injEq]
        constructor
        · rintro rfl
          exact ⟨[], fs, w, rfl, fun y hy => hm (List.mem_map.2 ⟨_, hy, rfl⟩), rfl⟩
        · rintro ⟨pre, post, x, e, h1, rfl⟩
          cases pre with
          | nil => cases e; rfl
          | cons p pre => cases e; exact absurd (List.mem_map.2 ⟨(k', x), by simp, rfl⟩) hm
      · rename_i hk
        refine ih.trans ?_
        constructor
        · rintro ⟨pre, post, x, rfl, h1, h2⟩
          exact ⟨(k', w) :: pre, post, x, rfl, h1, h2⟩
        · rintro ⟨pre, post, x, e, h1, h2⟩
          cases pre with
          | nil => cases e; exact absurd rfl hk
          | cons p pre => cases e; exact ⟨pre, post, x, rfl, h1, h2⟩

/-- A map has each name once: in a list of builds, an object is refused for its kind or its fields, never for a repeated one. -/
theorem toFields_nodup (fs : List (String × Json)) : ((toFields fs).map Prod.fst).Nodup := by
  have hsub : ∀ (fs : List (String × Json)) (k : String), k ∈ (toFields fs).map Prod.fst → k ∈ fs.map Prod.fst := by
    intro fs
    induction fs with
    | nil => intro k hk; cases hk
    | cons q fs ih =>
      obtain ⟨k', w⟩ := q
      intro k hk
      rw [toFields] at hk
      split at hk
      · exact .tail _ (ih k hk)
      · rcases List.mem_cons.1 hk with rfl | hk
        · exact .head _
        · exact .tail _ (ih k hk)
  induction fs with
  | nil => simp [toFields]
  | cons q fs ih =>
    obtain ⟨k', w⟩ := q
    rw [toFields]
    split
    · exact ih
    · rename_i hm
      rw [List.map_cons, List.nodup_cons]
      exact ⟨fun h => hm (hsub fs k' h), ih⟩

/-- C109, an element of a list of builds. -/
theorem C109_element (fs : List (String × Json)) (b : Build env) : decodeBuild (toValue (.obj fs)) = some b ↔ IsBuild (toFields fs) b := by
  rw [C109_build]
  constructor
  · rintro ⟨gs, ⟨h, _⟩ | ⟨xs, h, _⟩, hb⟩
    · rw [toValue] at h; cases h; exact hb
    · rw [toValue] at h; cases h
  · intro hb
    refine ⟨toFields fs, .inl ⟨by rw [toValue], ?_⟩, hb⟩
    intro pre post k x y e _ hm
    have := toFields_nodup fs
    rw [e, List.map_append, List.map_cons, List.nodup_middle, List.nodup_cons] at this
    exact this.1 (List.mem_append_right _ (List.mem_map.2 ⟨_, hm, rfl⟩))

/-- A build with a repeated field is refused alone, and read in a list, where the last one counts. -/
example (b : Build exEnv) (h : b.duration ≤ 2 ^ 24) : ∃ fs, encodeBuild b = .obj fs ∧
    decodeBuild (env := exEnv) (.obj (("uuid", .str "x".toList) :: fs)) = none ∧
    decodeBuilds (env := exEnv) (.arr [.obj (("uuid", .str "x".toList) :: fs)]) =
      some [{ b with startTime := Spec.toSecond b.startTime, endTime := Spec.toSecond b.endTime }] := by
  obtain ⟨fs, hfs⟩ : ∃ fs, encodeBuild b = .obj (("uuid", .str b.uuid) :: fs) := ⟨_, rfl⟩
  refine ⟨_, hfs, ?_, ?_⟩
  · cases hd : decodeBuild (env := exEnv) (.obj (("uuid", .str "x".toList) :: ("uuid", .str b.uuid) :: fs)) with
    | none => rfl
    | some b' =>
      obtain ⟨gs, ⟨e, hn⟩ | ⟨xs, e, _⟩, _⟩ := (C109_build _ _).1 hd
      · cases e
        exact absurd (.head _) (hn [] _ "uuid" _ (.str b.uuid) rfl (by decide))
      · cases e
  · have e : toValue (.obj (("uuid", .str "x".toList) :: ("uuid", .str b.uuid) :: fs)) = encodeBuild b := by
      rw [toValue, toFields, if_pos (by simp), ← toValue_encode b, hfs, toValue]
    show some (([Json.obj (("uuid", .str "x".toList) :: ("uuid", .str b.uuid) :: fs)].map toValue).filterMap decodeBuild) = _
    rw [List.map_cons, e, List.map_nil, List.filterMap_cons_some (C63_partial b h)]
    rfl

/-- An array with the values of the fields of an artifact is an artifact. -/
example : ∃ a : Artifact exEnv, IsArtifact (.arr [.str "log".toList, .str "https://sf.io".toList]) a := by
  have h : (decodeArtifact (env := exEnv) (.arr [.str "log".toList, .str "https://sf.io".toList])).isSome = true := by decide +kernel
  obtain ⟨a, ha⟩ := Option.isSome_iff_exists.1 h
  exact ⟨a, (decodeArtifact_iff _ _).1 ha⟩

/-- C61: the days between two dates of chrono fit in an `i32` (zuul.rs:39). -/
theorem C61_days_fit (t t' : DateTime) : |t.date - t'.date| < 2 ^ 31 := by
  have key : ∀ t : DateTime, -100000000 < t.date ∧ t.date < 100000000 := by
    rintro ⟨y, mo, d, h, mi, s, n, v⟩
    have hd : d ≤ 31 := by
      have : monthDays y mo ≤ 31 := by unfold monthDays; split <;> split <;> omega
      omega
    unfold DateTime.date dayNumber
    simp only
    split <;> omega
  have h1 := key t
  have h2 := key t'
  rw [abs_lt]
  omega

/-- Non-vacuity: a time and a build. -/
example : ∃ t : DateTime, TimeText "2021-10-13T12:57:20".toList t ∧ t.day = 13 ∧ t.second = 20 := by
  have h : parseTime "2021-10-13T12:57:20".toList = mkTime 2021 10 13 12 57 20 := by decide +kernel
  have h2 : mkTime 2021 10 13 12 57 20 = some ⟨2021, 10, 13, 12, 57, 20, 0, by decide⟩ := by decide +kernel
  exact ⟨_, (C109_times _ _).1 (h.trans h2), rfl, rfl⟩

example : ∃ fs b, Fields Spec.names (encodeBuild exBuild) fs ∧ IsBuild (env := exEnv) fs b ∧ b.uuid = exBuild.uuid := by
  obtain ⟨fs, h1, h2⟩ := (C109_build _ _).1 (C63_partial exBuild (by decide))
  exact ⟨fs, _, h1, h2, rfl⟩

/-- A time with a zone, and a time which is a number, are refused. -/
example : (∀ t, ¬ TimeText "2021-10-13T12:57:20Z".toList t) ∧ decodeBuild (env := exEnv) (.obj [("start_time", .num (.pos 3))]) = none := by
  refine ⟨fun t h => ?_, rfl⟩
  rw [← C109_times] at h
  have : parseTime "2021-10-13T12:57:20Z".toList = none := by decide +kernel
  rw [this] at h
  cases h

end LJ.Zuul

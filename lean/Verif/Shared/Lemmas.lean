/-
The invariant of the schedules of a shared cache.
-/
import Verif.Shared.Spec
namespace LJ.Shared
open LJ.Codec (Bytes Texts Url)
open LJ.Cache (Remote)

/-! ### Writes -/

theorem writeAt_get (pos : Nat) (b f : Bytes) (i : Nat) : (writeAt pos b f)[i]? =
    if b = [] then f[i]? else if i < max f.length (pos + b.length) then some (if pos ≤ i ∧ i < pos + b.length then b.getD (i - pos) 0 else f.getD i 0) else none := by
  unfold writeAt
  split
  · rfl
  · by_cases h : i < max f.length (pos + b.length)
    · rw [if_pos h, List.getElem?_map, List.getElem?_range h]; rfl
    · rw [if_neg h, List.getElem?_eq_none]; simpa using h

theorem writeAt_length (pos : Nat) (b f : Bytes) : (writeAt pos b f).length = if b = [] then f.length else max f.length (pos + b.length) := by
  unfold writeAt
  split <;> simp

/-- every byte of `f` is the one of `full` -/
def Pre (f full : Bytes) : Prop := f.length ≤ full.length ∧ ∀ (i : Nat) (x : UInt8), f[i]? = some x → full[i]? = some x

theorem pre_iff {f full : Bytes} : Pre f full ↔ f <+: full := by
  rw [List.prefix_iff_eq_take]
  constructor
  · rintro ⟨hl, h⟩
    apply List.ext_getElem?
    intro i
    by_cases hi : i < f.length
    · rw [List.getElem?_take_of_lt hi]
      exact (List.getElem?_eq_getElem hi).trans (h i _ (List.getElem?_eq_getElem hi)).symm
    · rw [List.getElem?_eq_none (by omega), List.getElem?_eq_none (by rw [List.length_take]; omega)]
  · intro h
    refine ⟨by have := congrArg List.length h; rw [List.length_take] at this; omega, fun i x hx => ?_⟩
    have hi : i < f.length := (List.getElem?_eq_some_iff.1 hx).1
    rw [h, List.getElem?_take_of_lt hi] at hx
    exact hx

/-- What a file may contain, `P`, and the positions at which it may be written, `Q`. -/
structure Rules (race : Bool) (P : Bytes → Bytes → Prop) (Q : Nat → Bytes → Prop) : Prop where
  nil : ∀ full, P [] full
  write : ∀ f full pos n, P f full → Q pos f → P (writeAt pos ((full.drop pos).take n) f) full
  pos : ∀ f full pos n, P f full → Q pos f → Q (pos + ((full.drop pos).take n).length) (writeAt pos ((full.drop pos).take n) f)
  keep : ∀ f pos b pos', Q pos' f → Q pos' (writeAt pos b f)
  read : ∀ raw f full n, P raw full → P f full → P (raw ++ (f.drop raw.length).take n) full
  start : Q 0 []
  trunc : race = true → ∀ pos, Q pos []

theorem mix_rules : Rules true Mix (fun _ _ => True) where
  nil full := ⟨by simp, by simp⟩
  write f full pos n := by
    rintro ⟨hl, h⟩ _
    refine ⟨?_, fun i x hx => ?_⟩
    · rw [writeAt_length]
      split
      · exact hl
      · rename_i hb
        have : pos < full.length := Nat.lt_of_not_le fun hc => hb (by rw [List.drop_eq_nil_of_le hc, List.take_nil])
        rw [List.length_take, List.length_drop]
        omega
    · rw [writeAt_get] at hx
      split at hx
      · exact h i x hx
      · split at hx
        · rw [Option.some.injEq] at hx
          split at hx
          · rename_i hb _ hr
            refine .inr ?_
            rw [List.length_take, List.length_drop] at hr
            rw [List.getD_eq_getElem?_getD, List.getElem?_take_of_lt (by omega), List.getElem?_drop, show pos + (i - pos) = i by omega,
              List.getElem?_eq_getElem (by omega), Option.getD_some] at hx
            rw [← hx, List.getElem?_eq_getElem (by omega)]
          · rw [List.getD_eq_getElem?_getD] at hx
            cases hf : f[i]? with
            | none => rw [hf] at hx; exact .inl hx.symm
            | some y => rw [hf] at hx; cases hx; exact h i _ hf
        · cases hx
  pos _ _ _ _ _ _ := trivial
  keep _ _ _ _ _ := trivial
  read raw f full n := by
    rintro ⟨hl, h⟩ ⟨hl', h'⟩
    refine ⟨by rw [List.length_append, List.length_take, List.length_drop]; omega, fun i x hx => ?_⟩
    by_cases hi : i < raw.length
    · rw [List.getElem?_append_left hi] at hx; exact h i x hx
    · rw [List.getElem?_append_right (by omega)] at hx
      have hn : i - raw.length < n := by
        have := (List.getElem?_eq_some_iff.1 hx).1
        rw [List.length_take] at this
        omega
      rw [List.getElem?_take_of_lt hn, List.getElem?_drop, show raw.length + (i - raw.length) = i by omega] at hx
      exact h' i x hx
  start := trivial
  trunc _ _ := trivial

theorem pre_rules : Rules false Pre (fun pos f => pos ≤ f.length) where
  nil full := ⟨by simp, by simp⟩
  write f full pos n := by
    rintro ⟨hl, h⟩ hq
    refine ⟨?_, fun i x hx => ?_⟩
    · rw [writeAt_length]
      split
      · exact hl
      · rw [List.length_take, List.length_drop]
        omega
    · rw [writeAt_get] at hx
      split at hx
      · exact h i x hx
      · split at hx
        · rename_i hm
          rw [Option.some.injEq] at hx
          split at hx
          · rename_i hr
            rw [List.length_take, List.length_drop] at hr
            rw [List.getD_eq_getElem?_getD, List.getElem?_take_of_lt (by omega), List.getElem?_drop, show pos + (i - pos) = i by omega,
              List.getElem?_eq_getElem (by omega), Option.getD_some] at hx
            rw [← hx, List.getElem?_eq_getElem (by omega)]
          · have hi : i < f.length := by omega
            rw [List.getD_eq_getElem?_getD, List.getElem?_eq_getElem hi, Option.getD_some] at hx
            exact h i x (by rw [List.getElem?_eq_getElem hi, hx])
        · cases hx
  pos f full pos n _ hq := by
    rw [writeAt_length]
    split
    · rename_i h; rw [h]; exact hq
    · omega
  keep f pos b pos' h := by
    rw [writeAt_length]
    split
    · exact h
    · omega
  read raw f full n := by
    rintro ⟨hl, h⟩ ⟨hl', h'⟩
    refine ⟨by rw [List.length_append, List.length_take, List.length_drop]; omega, fun i x hx => ?_⟩
    by_cases hi : i < raw.length
    · rw [List.getElem?_append_left hi] at hx; exact h i x hx
    · rw [List.getElem?_append_right (by omega)] at hx
      have hn : i - raw.length < n := by
        have := (List.getElem?_eq_some_iff.1 hx).1
        rw [List.length_take] at this
        omega
      rw [List.getElem?_take_of_lt hn, List.getElem?_drop, show raw.length + (i - raw.length) = i by omega] at hx
      exact h' i x hx
  start := Nat.le_refl _
  trunc h := by cases h

/-! ### The invariant -/

section
variable {t : Texts} (g : Gz) (strict : Bool) (site : Site t) (K : Job t → Prop) (P : Bytes → Bytes → Prop) (Q : Nat → Bytes → Prop)

/-- a file which is being written -/
def Open (files : List (File t)) (i pos : Nat) (k : Key t) : Prop := ∃ f, files[i]? = some f ∧ f.key = k ∧ Q pos f.bytes

/-- what is known of a job -/
def JobOk (files : List (File t)) (j : Job t) : Pc t → Prop
  | .answered ans | .checked ans => Tells site j ans ∧ (strict = true → ∀ r, ans = .body r → .fail ∉ r.grants)
  | .reading i raw => P raw (full g site j.key) ∧ ∃ f, files[i]? = some f ∧ f.key = j.key
  | .filling i pos given r => ∃ b u, j = .content b u ∧ given ++ r.rest = site.docs u ∧ (strict = true → .fail ∉ r.grants) ∧ Open Q files i pos j.key
  | .flushing i pos out r => (out = full g site j.key ∨ strict = false ∧ r = .error) ∧ (K j → Right site j r) ∧ Open Q files i pos j.key
  | .done r => K j → Right site j r
  | _ => True

/-- the invariant -/
structure Inv (s : State t) : Prop where
  names : ∀ k i, s.names k = some i → ∃ f, s.files[i]? = some f ∧ f.key = k
  bytes : ∀ (i : Nat) (f : File t), s.files[i]? = some f → P f.bytes (full g site f.key)
  yes : ∀ b u, (s.names (.headYes b u)).isSome = true → site.heads u = true
  no : ∀ b u, (s.names (.headNo b u)).isSome = true → site.heads u = false
  jobs : ∀ a j pc, s.jobs a = some (j, pc) → JobOk g strict site K P Q s.files j pc

variable {g strict site K P Q}

/-- the files after something was written -/
def Ext (Q : Nat → Bytes → Prop) (fs fs' : List (File t)) : Prop :=
  ∀ (i : Nat) (f : File t), fs[i]? = some f → ∃ f', fs'[i]? = some f' ∧ f'.key = f.key ∧ ∀ pos, Q pos f.bytes → Q pos f'.bytes

theorem Ext.refl (fs : List (File t)) : Ext Q fs fs := fun _ f h => ⟨f, h, rfl, fun _ h => h⟩

theorem Ext.open {fs fs' : List (File t)} (h : Ext Q fs fs') {i pos : Nat} {k : Key t} (ho : Open Q fs i pos k) : Open Q fs' i pos k := by
  obtain ⟨f, h1, h2, h3⟩ := ho
  obtain ⟨f', h4, h5, h6⟩ := h i f h1
  exact ⟨f', h4, h5.trans h2, h6 _ h3⟩

theorem JobOk.mono {fs fs' : List (File t)} (h : Ext Q fs fs') {j : Job t} {pc : Pc t} (hj : JobOk g strict site K P Q fs j pc) : JobOk g strict site K P Q fs' j pc := by
  cases pc with
  | reading i raw =>
    obtain ⟨h1, f, h2, h3⟩ := hj
    obtain ⟨f', h4, h5, _⟩ := h i f h2
    exact ⟨h1, f', h4, h5.trans h3⟩
  | filling i pos given r =>
    obtain ⟨b, u, h1, h2, h3, h4⟩ := hj
    exact ⟨b, u, h1, h2, h3, h.open h4⟩
  | flushing i pos out r => exact ⟨hj.1, hj.2.1, h.open hj.2.2⟩
  | _ => exact hj

/-- a job moves, without writing -/
theorem Inv.at {s : State t} (h : Inv g strict site K P Q s) {a : Nat} {j : Job t} {pc : Pc t} (hj : JobOk g strict site K P Q s.files j pc) : Inv g strict site K P Q (s.at a j pc) where
  names := h.names
  bytes := h.bytes
  yes := h.yes
  no := h.no
  jobs b j' pc' hb := by
    simp only [State.at] at hb
    split at hb
    · cases hb; exact hj
    · exact h.jobs b j' pc' hb

theorem write_file {s : State t} {i pos : Nat} {b : Bytes} {k : Nat} {f : File t} (h : s.files[k]? = some f) :
    (s.write i pos b).files[k]? = some (if i = k then { f with bytes := writeAt pos b f.bytes } else f) := by
  unfold State.write
  simp only
  rw [List.getElem?_modify]
  split
  · rw [h]; rfl
  · rw [h]; rfl

theorem write_file' {s : State t} {i pos : Nat} {b : Bytes} {k : Nat} {f' : File t} (h : (s.write i pos b).files[k]? = some f') :
    ∃ f, s.files[k]? = some f ∧ f' = (if i = k then { f with bytes := writeAt pos b f.bytes } else f) := by
  cases hf : s.files[k]? with
  | none =>
    unfold State.write at h
    simp only at h
    rw [List.getElem?_modify, hf] at h
    split at h <;> cases h
  | some f => exact ⟨f, rfl, Option.some.inj (h.symm.trans (write_file hf))⟩

variable {race : Bool} (H : Rules race P Q)
include H

theorem write_ext {s : State t} {i pos : Nat} {b : Bytes} : Ext Q s.files (s.write i pos b).files := by
  intro k f h
  refine ⟨_, write_file h, ?_, ?_⟩
  · split <;> rfl
  · intro pos' hq
    split
    · exact H.keep _ _ _ _ hq
    · exact hq

/-- a job writes a part of its file -/
theorem Inv.write {s : State t} (h : Inv g strict site K P Q s) {i pos n : Nat} {k : Key t} (ho : Open Q s.files i pos k) :
    Inv g strict site K P Q (s.write i pos (((full g site k).drop pos).take n)) ∧
      Open Q (s.write i pos (((full g site k).drop pos).take n)).files i (pos + (((full g site k).drop pos).take n).length) k := by
  obtain ⟨f, h1, rfl, h3⟩ := ho
  constructor
  · constructor
    · intro k i' hk
      obtain ⟨f', h4, h5⟩ := h.names k i' hk
      obtain ⟨f'', h6, h7, _⟩ := write_ext H (i := i) (pos := pos) (b := ((full g site f.key).drop pos).take n) i' f' h4
      exact ⟨f'', h6, h7.trans h5⟩
    · intro i' f' hf
      obtain ⟨f'', h4, rfl⟩ := write_file' hf
      split
      · rename_i e
        subst e
        rw [h1] at h4
        cases h4
        exact H.write _ _ _ _ (h.bytes _ _ h1) h3
      · exact h.bytes _ _ h4
    · exact h.yes
    · exact h.no
    · intro a j pc ha
      exact (h.jobs a j pc ha).mono (write_ext H)
  · refine ⟨_, write_file h1, ?_, ?_⟩
    · rw [if_pos rfl]
    · rw [if_pos rfl]
      exact H.pos _ _ _ _ (h.bytes _ _ h1) h3

omit H in
theorem openNew_none {s : State t} {k : Key t} (h : s.names k = none) :
    s.openNew k = (s.files.length, { s with names := fun k' => if k' = k then some s.files.length else s.names k', files := s.files ++ [⟨k, []⟩] }) := by
  unfold State.openNew; rw [h]

omit H in
theorem openNew_some {s : State t} {k : Key t} {i : Nat} (h : s.names k = some i) :
    s.openNew k = (i, { s with files := s.files.modify i fun f => { f with bytes := [] } }) := by
  unfold State.openNew; rw [h]

/-- a file is created or truncated -/
theorem Inv.openNew {s : State t} (h : Inv g strict site K P Q s) {k : Key t} (hr : race = false → s.names k = none)
    (hy : ∀ b u, k = .headYes b u → site.heads u = true) (hn : ∀ b u, k = .headNo b u → site.heads u = false) :
    Inv g strict site K P Q (s.openNew k).2 ∧ Open Q (s.openNew k).2.files (s.openNew k).1 0 k := by
  cases hk : s.names k with
  | none =>
    rw [openNew_none hk]
    have hext : Ext Q s.files (s.files ++ [⟨k, []⟩]) := by
      intro i f hf
      exact ⟨f, by rw [List.getElem?_append_left (List.getElem?_eq_some_iff.1 hf).1]; exact hf, rfl, fun _ h => h⟩
    have hnew : (s.files ++ [(⟨k, []⟩ : File t)])[s.files.length]? = some ⟨k, []⟩ := by simp
    refine ⟨⟨?_, ?_, ?_, ?_, ?_⟩, ⟨k, []⟩, hnew, rfl, H.start⟩
    · intro k' i hi
      simp only at hi ⊢
      split at hi
      · rename_i e; subst e; cases hi; exact ⟨_, hnew, rfl⟩
      · obtain ⟨f, h1, h2⟩ := h.names k' i hi
        obtain ⟨f', h3, h4, _⟩ := hext i f h1
        exact ⟨f', h3, h4.trans h2⟩
    · intro i f hf
      simp only at hf
      by_cases hi : i < s.files.length
      · rw [List.getElem?_append_left hi] at hf; exact h.bytes i f hf
      · rw [List.getElem?_append_right (by omega)] at hf
        have : f = ⟨k, []⟩ := by
          cases hd : i - s.files.length with
          | zero => rw [hd] at hf; cases hf; rfl
          | succ n => rw [hd] at hf; cases hf
        subst this
        exact H.nil _
    · intro b u hb
      simp only at hb
      split at hb
      · rename_i e; exact hy b u e.symm
      · exact h.yes b u hb
    · intro b u hb
      simp only at hb
      split at hb
      · rename_i e; exact hn b u e.symm
      · exact h.no b u hb
    · intro a j pc ha
      exact (h.jobs a j pc ha).mono hext
  | some i =>
    have hrace : race = true := by
      cases hc : race with
      | true => rfl
      | false => rw [hr hc] at hk; cases hk
    rw [openNew_some hk]
    obtain ⟨f, h1, h2⟩ := h.names k i hk
    have hget : ∀ (m : Nat) (f : File t), s.files[m]? = some f → (s.files.modify i fun f => { f with bytes := [] })[m]? = some (if i = m then { f with bytes := [] } else f) := by
      intro m f hm
      rw [List.getElem?_modify]
      split <;> rw [hm] <;> rfl
    have hext : Ext Q s.files (s.files.modify i fun f => { f with bytes := [] }) := by
      intro m f hm
      refine ⟨_, hget m f hm, ?_, ?_⟩
      · split <;> rfl
      · intro pos hq
        split
        · exact H.trunc hrace pos
        · exact hq
    refine ⟨⟨?_, ?_, h.yes, h.no, ?_⟩, _, hget i f h1, ?_, ?_⟩
    · intro k' m hm
      obtain ⟨f', h3, h4⟩ := h.names k' m hm
      obtain ⟨f'', h5, h6, _⟩ := hext m f' h3
      exact ⟨f'', h5, h6.trans h4⟩
    · intro m f' hf
      simp only at hf
      cases hm : s.files[m]? with
      | none => rw [List.getElem?_modify, hm] at hf; split at hf <;> cases hf
      | some f0 =>
        rw [hget m f0 hm] at hf
        cases hf
        split
        · exact H.nil _
        · exact h.bytes m f0 hm
    · intro a j pc ha
      exact (h.jobs a j pc ha).mono hext
    · rw [if_pos rfl]; exact h2
    · rw [if_pos rfl]; exact H.start

omit H in
theorem full_flow (hg : GoodGz g) {given rest : Bytes} {d : Bytes} (h : given ++ rest = d) (pos n : Nat) :
    ((g.flow given).drop pos).take n = ((g.enc d).drop pos).take (min n ((g.flow given).length - pos)) := by
  have hp : g.flow given <+: g.enc d := by
    rw [← h]
    exact (hg.flow given rest).trans (List.prefix_append _ _)
  obtain ⟨r, hr⟩ := hp
  rw [← hr]
  rw [← List.take_take]
  congr 1
  rw [List.drop_append]
  rw [List.take_append_of_le_length (by rw [List.length_drop]; omega), List.take_of_length_le (by rw [List.length_drop]; omega)]

omit H in
theorem read_some {n : Nat} {r r' : Remote} {b : Bytes} (h : r.read (n + 1) = (some b, r')) :
    b ++ r'.rest = r.rest ∧ (b = [] → r.rest = []) ∧ (.fail ∉ r.grants → .fail ∉ r'.grants) := by
  have key : ∀ m, r.rest.take (m + 1) = [] → r.rest = [] := by
    intro m e
    cases hr : r.rest with
    | nil => rfl
    | cons c cs => rw [hr] at e; cases e
  unfold Remote.read at h
  split at h
  · cases h; exact ⟨List.take_append_drop _ _, key _, id⟩
  · rename_i k gs hgr
    cases h
    refine ⟨List.take_append_drop _ _, fun e => ?_, fun h hc => h (by rw [hgr]; exact List.mem_cons_of_mem _ hc)⟩
    rw [show min (n + 1) (k + 1) = min n k + 1 by omega] at e
    exact key _ e
  · cases h

omit H in
theorem read_none {n : Nat} {r r' : Remote} (h : r.read (n + 1) = (none, r')) : .fail ∈ r.grants := by
  unfold Remote.read at h
  split at h
  · cases h
  · cases h
  · rename_i gs hgr
    rw [hgr]; exact List.mem_cons_self

/-- what is asked of every event -/
def Allowed (race strict : Bool) (site : Site t) (s : State t) (e : Event t) : Prop :=
  Honest site s e ∧ (strict = true → Patient s e) ∧ (strict = false → Careful s e) ∧ (race = false → NoRace s e)

variable (hg : GoodGz g) (hs : Savable site) (hdec : ∀ j raw, K j → P raw (full g site j.key) → Right site j (decoded g j raw))
include hg hs hdec

omit hg hdec in
theorem call_inv {s : State t} (h : Inv g strict site K P Q s) (a : Nat) (ha : Allowed race strict site s (.call a)) : Inv g strict site K P Q (call s a) := by
  unfold call
  cases hj : s.jobs a with
  | none => exact h
  | some p =>
    obtain ⟨j, pc⟩ := p
    have ho := h.jobs a j pc hj
    cases pc with
    | start =>
      simp only
      apply h.at
      split
      · rename_i hk
        cases j with
        | head b u =>
          intro _
          have e := h.yes b u hk
          have := Right.status (site := site) b u
          rwa [e] at this
        | _ => trivial
      · cases j <;> trivial
    | second =>
      cases j with
      | head b u =>
        simp only
        apply h.at
        split
        · rename_i hk
          intro _
          have e := h.no b u hk
          have := Right.status (site := site) b u
          rwa [e] at this
        · trivial
      | _ => exact h
    | found =>
      simp only
      apply h.at
      cases hn : s.names j.key with
      | none => exact fun _ => .error j
      | some i => exact ⟨H.nil _, h.names _ _ hn⟩
    | answered ans =>
      simp only
      apply h.at
      cases hm : j.makes ans with
      | none => exact fun _ => .error j
      | some k =>
        simp only
        split
        · exact fun _ => .error j
        · exact ho
    | checked ans =>
      simp only
      cases hm : j.makes ans with
      | none => exact h
      | some k =>
        simp only
        have hr : race = false → s.names k = none := fun hr => ha.2.2.2 hr j ans k hj hm
        have key : (∀ b u, k = .headYes b u → site.heads u = true) ∧ (∀ b u, k = .headNo b u → site.heads u = false) ∧
            ∀ (files : List (File t)) (i : Nat), Open Q files i 0 k → JobOk g strict site K P Q files j (begins i ans) := by
          obtain ⟨ht, hf⟩ := ho
          cases ht with
          | body b u r hrest =>
            cases hm
            refine ⟨fun _ _ e => (nomatch e), fun _ _ e => (nomatch e), fun files i hop => ?_⟩
            exact ⟨b, u, rfl, by rw [List.nil_append]; exact hrest, fun h => hf h r rfl, hop⟩
          | urls u =>
            cases hm
            refine ⟨fun _ _ e => (nomatch e), fun _ _ e => (nomatch e), fun files i hop => ?_⟩
            obtain ⟨out, hout⟩ := Option.isSome_iff_exists.1 (hs u)
            unfold begins
            simp only [hout]
            exact ⟨.inl (by simp [Job.key, full, hout]), fun _ => .urls u, hop⟩
          | status b u =>
            simp only [Job.makes, Option.some.injEq] at hm
            subst hm
            refine ⟨fun b' u' e => ?_, fun b' u' e => ?_, fun files i _ _ => .status b u⟩
            · split at e
              · rename_i hh; cases e; exact hh
              · cases e
            · split at e
              · cases e
              · rename_i hh; cases e; simpa using hh
        obtain ⟨k1, k2, k3⟩ := key
        obtain ⟨h1, h2⟩ := Inv.openNew H h hr k1 k2
        exact h1.at (k3 _ _ h2)
    | flushing i pos out r =>
      simp only
      split
      · exact h.at ho.2.1
      · exact h
    | _ => exact h

omit hs in
theorem step_inv {s : State t} (h : Inv g strict site K P Q s) (e : Event t) (ha : Allowed race strict site s e) (hs : Savable site) : Inv g strict site K P Q (step g s e) := by
  cases e with
  | begins a j =>
    simp only [step]
    split
    · exact h
    · exact h.at trivial
  | call a => exact call_inv H hs h a ha
  | reply a ans =>
    simp only [step, reply]
    split
    · rename_i j hj
      apply h.at
      cases ans with
      | none => exact fun _ => .error j
      | some ans =>
        refine ⟨ha.1 j hj, ?_⟩
        rintro hst r rfl
        exact ha.2.1 hst
    · exact h
  | read a n =>
    simp only [step, read]
    split
    · rename_i j i raw hj
      obtain ⟨h1, f, h2, h3⟩ := h.jobs a j _ hj
      have hp : ∀ m, P (raw ++ ((((s.files[i]?).map File.bytes).getD []).drop raw.length).take m) (full g site j.key) := by
        intro m
        rw [h2]
        refine H.read _ _ _ _ h1 ?_
        rw [← h3]
        exact h.bytes i f h2
      split
      · exact h.at (fun hk => hdec j raw hk h1)
      · rename_i b hb
        exact h.at ⟨hp (n + 1), f, h2, h3⟩
    · rename_i j i pos given r hj
      obtain ⟨b, u, rfl, h2, h3, h4⟩ := h.jobs a j _ hj
      split
      · rename_i r' hr
        have hst : strict = false := by
          cases hs : strict with
          | false => rfl
          | true => exact absurd (read_none hr) (h3 hs)
        exact h.at ⟨.inr ⟨hst, rfl⟩, fun _ => .error _, h4⟩
      · rename_i r' hr
        have : given = site.docs u := by rw [← h2, (read_some hr).2.1 rfl, List.append_nil]
        subst this
        exact h.at ⟨.inl rfl, fun _ => .data b u, h4⟩
      · rename_i c r' _ hr
        refine h.at ⟨b, u, rfl, ?_, fun hs => (read_some hr).2.2 (h3 hs), h4⟩
        rw [List.append_assoc, (read_some hr).1, h2]
    · exact h
  | emit a k =>
    simp only [step, emit]
    split
    · rename_i j i pos given r hj
      obtain ⟨b, u, rfl, h2, h3, h4⟩ := h.jobs a j _ hj
      rw [full_flow hg h2]
      obtain ⟨h5, h6⟩ := Inv.write H h (n := min (k + 1) ((g.flow given).length - pos)) h4
      exact h5.at ⟨b, u, rfl, h2, h3, h6⟩
    · rename_i j i pos out r hj
      obtain ⟨h1, h2, h3⟩ := h.jobs a j _ hj
      rcases h1 with rfl | ⟨hst, rfl⟩
      · obtain ⟨h5, h6⟩ := Inv.write H h (n := k + 1) h3
        exact h5.at ⟨.inl rfl, h2, h6⟩
      · exact absurd hj (ha.2.2.1 hst j i pos out)
    · exact h
  | close a =>
    simp only [step, close]
    split
    · exact h.at (fun _ => .error _)
    · rename_i j i pos given r hj
      cases hst : strict with
      | true => exact absurd hj (ha.2.1 hst j i pos given r)
      | false =>
        obtain ⟨b, u, rfl, h2, h3, h4⟩ := h.jobs a j _ hj
        subst hst
        exact h.at ⟨.inr ⟨rfl, rfl⟩, fun _ => .error _, h4⟩
    · exact h
  | fault a k =>
    simp only [step, fault]
    cases hj : s.jobs a with
    | none => exact h
    | some q =>
      obtain ⟨j, pc⟩ := q
      have ho := h.jobs a j pc hj
      cases pc with
      | start => apply h.at; cases j <;> trivial
      | second => exact h.at trivial
      | answered ans =>
        apply h.at
        cases hm : j.makes ans with
        | none => exact fun _ => .error j
        | some k => exact ho
      | found => exact h.at fun _ => .error j
      | checked ans => exact h.at fun _ => .error j
      | reading i raw => exact h.at fun _ => .error j
      | filling i pos given r =>
        cases hst : strict with
        | true => exact absurd hj (ha.2.1 hst j i pos given r)
        | false =>
          obtain ⟨b, u, rfl, h2, h3, h4⟩ := ho
          subst hst
          exact h.at ⟨.inr ⟨rfl, rfl⟩, fun _ => .error _, h4⟩
      | flushing i pos out r =>
        apply h.at
        cases j with
        | listing u => exact fun _ => .error _
        | _ => exact ho.2.1
      | _ => exact h
  | kill a =>
    simp only [step, kill]
    split
    · rename_i j r hj
      exact h.at (h.jobs a j _ hj)
    · exact h.at (fun _ => .error _)
    · exact h
  | unlink k =>
    simp only [step]
    constructor
    · intro k' i hi
      simp only at hi
      split at hi
      · cases hi
      · exact h.names k' i hi
    · exact h.bytes
    · intro b u hb
      simp only at hb
      split at hb
      · cases hb
      · exact h.yes b u hb
    · intro b u hb
      simp only at hb
      split at hb
      · cases hb
      · exact h.no b u hb
    · exact h.jobs

theorem run_inv {s : State t} (h : Inv g strict site K P Q s) (es : List (Event t)) (ha : Along g (Allowed race strict site) es s) : Inv g strict site K P Q (run g es s) := by
  induction es generalizing s with
  | nil => exact h
  | cons e es ih => exact ih (step_inv H hg hdec h e ha.1 hs) ha.2

omit H hg hs hdec in
theorem inv_empty : Inv g strict site K P Q State.empty where
  names _ _ h := by cases h
  bytes _ _ h := by cases h
  yes _ _ h := by cases h
  no _ _ h := by cases h
  jobs _ _ _ h := by cases h

end

end LJ.Shared

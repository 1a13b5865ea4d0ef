/-
The names are disjoint, and what the operations leave as it is.
-/
import Verif.Cache.Spec
namespace LJ.Cache
open LJ.Codec (Bytes Texts Url)

variable {t : Texts} {digest : String → List Char} {U : String → Prop}

/-! ### Names -/

theorem url_eq (hd : GoodDigest digest U) {a b : Url t} (ha : U a.val) (hb : U b.val) (h : digest a.val = digest b.val) : a = b :=
  Subtype.ext (hd.inj _ _ ha hb h)

theorem two_names (hd : GoodDigest digest U) {c c' : Char} {b u b' u' : Url t}
    (h : newName digest '1' b ++ '/' :: newName digest c u = newName digest '1' b' ++ '/' :: newName digest c' u') :
    digest b.val = digest b'.val ∧ c = c' ∧ digest u.val = digest u'.val := by
  have := List.append_inj h (by simp [newName, hd.length])
  simp only [newName, List.cons.injEq, true_and] at this
  exact this

theorem one_name {c : Char} {u b u' : Url t} : httpdirName digest u ≠ newName digest '1' b ++ '/' :: newName digest c u' := by
  simp [httpdirName, newName]

/-- Different keys have different names. -/
theorem name_inj (hd : GoodDigest digest U) {k k' : Key t} (hk : ∀ u ∈ k.urls, U u.val) (hk' : ∀ u ∈ k'.urls, U u.val)
    (h : k.name digest = k'.name digest) : k = k' := by
  have pairs : ∀ {c c' : Char} {b u b' u' : Url t}, U b.val → U u.val → U b'.val → U u'.val →
      newName digest '1' b ++ '/' :: newName digest c u = newName digest '1' b' ++ '/' :: newName digest c' u' → b = b' ∧ c = c' ∧ u = u' := by
    intro c c' b u b' u' h1 h2 h3 h4 e
    obtain ⟨e1, e2, e3⟩ := two_names hd e
    exact ⟨url_eq hd h1 h3 e1, e2, url_eq hd h2 h4 e3⟩
  cases k <;> cases k' <;>
    simp only [Key.name, httpName, headSuccessName, headFailureName, Key.urls, List.forall_mem_cons, List.not_mem_nil, false_implies, implies_true, and_true] at h hk hk' <;>
    first
    | exact absurd h one_name
    | exact absurd h.symm one_name
    | (obtain ⟨rfl, e, rfl⟩ := pairs hk.1 hk.2 hk'.1 hk'.2 h; first | rfl | exact absurd e (by decide))
    | (simp only [httpdirName, newName, List.cons.injEq, true_and] at h; rw [url_eq hd hk hk' h])

/-! ### Frames -/

/-- a reader which is open -/
def IsOpen (s : State) (id : Nat) (r : Reader) : Prop := s.readers[id]? = some (some r)

/-- All the numbers are those of files. -/
structure Bounded (s : State) : Prop where
  names : ∀ n i, s.names n = some i → i < s.files.length
  readers : ∀ id r, IsOpen s id r → r.file < s.files.length

/-- A name has a file that no reader writes. -/
structure Settled (n : Name) (i : Nat) (f : File) (s : State) : Prop where
  name : s.names n = some i
  file : s.files[i]? = some f
  free : ∀ id r, IsOpen s id r → r.file ≠ i

theorem Settled.get {n : Name} {i : Nat} {f : File} {s : State} (h : Settled n i f s) : get n s = some f := by
  rw [Cache.get, h.name]; exact h.file

theorem create_eq {n : Name} {f : File} {s s' : State} (h : create n f s = some s') :
    s.names n = none ∧ s' = { s with names := fun m => if m = n then some s.files.length else s.names m, files := s.files ++ [f] } := by
  unfold create at h
  split at h
  · cases h
  · rename_i hn; cases h; exact ⟨hn, rfl⟩

theorem create_bounded {n : Name} {f : File} {s s' : State} (hb : Bounded s) (h : create n f s = some s') : Bounded s' := by
  obtain ⟨_, rfl⟩ := create_eq h
  constructor
  · intro m i hm
    simp only [List.length_append, List.length_cons, List.length_nil] at hm ⊢
    split at hm
    · cases hm; omega
    · have := hb.names m i hm; omega
  · intro id r hr
    have := hb.readers id r hr
    simp only [List.length_append]; omega

theorem create_settled {n m : Name} {f g : File} {i : Nat} {s s' : State} (h : Settled n i g s) (hc : create m f s = some s') : Settled n i g s' := by
  obtain ⟨hm, rfl⟩ := create_eq hc
  have hlt : i < s.files.length := (List.getElem?_eq_some_iff.1 h.file).1
  refine ⟨?_, ?_, h.free⟩
  · simp only
    rw [if_neg]
    · exact h.name
    · intro e; have := h.name; rw [e, hm] at this; cases this
  · simp only
    rw [List.getElem?_append_left hlt]
    exact h.file

/-- A new file is settled. -/
theorem create_new {n : Name} {f : File} {s s' : State} (hb : Bounded s) (hc : create n f s = some s') : Settled n s.files.length f s' := by
  obtain ⟨hm, rfl⟩ := create_eq hc
  refine ⟨by simp, by simp, ?_⟩
  intro id r hr
  have := hb.readers id r hr
  omega

theorem create_names {n m : Name} {f : File} {s s' : State} (hc : create n f s = some s') (hne : m ≠ n) : s'.names m = s.names m := by
  obtain ⟨_, rfl⟩ := create_eq hc
  simp only [if_neg hne]

theorem remoteAdd_eq {base url : Url t} {remote : Remote} {s s' : State} (h : remoteAdd digest base url remote s = some s') :
    ∃ s1, create (httpName digest base url) (.gz [] false) s = some s1 ∧ s' = { s1 with readers := s1.readers ++ [some ⟨remote, s.files.length⟩] } := by
  unfold remoteAdd at h
  rw [Option.map_eq_some_iff] at h
  obtain ⟨s1, h1, h2⟩ := h
  exact ⟨s1, h1, h2.symm⟩

/-- What a read does -/
theorem read_eq (id n : Nat) (s : State) : (∀ r, ¬ IsOpen s id r) ∧ readerRead id n s = (none, s) ∨
    ∃ r, IsOpen s id r ∧ ((∃ c remote, r.remote.read n = (some c, remote) ∧ readerRead id n s =
        (some c, { s with readers := s.readers.set id (some { r with remote }), files := s.files.modify r.file (append c) })) ∨
      ∃ remote, r.remote.read n = (none, remote) ∧ readerRead id n s = (none, { s with readers := s.readers.set id (some { r with remote }) })) := by
  unfold readerRead IsOpen
  cases h : s.readers[id]? with
  | none => exact .inl ⟨by simp, rfl⟩
  | some o =>
    cases o with
    | none => exact .inl ⟨by simp, rfl⟩
    | some r =>
      refine .inr ⟨r, rfl, ?_⟩
      rcases hr : r.remote.read n with ⟨_ | c, remote⟩
      · exact .inr ⟨remote, rfl, by simp only [hr]⟩
      · exact .inl ⟨c, remote, rfl, by simp only [hr]⟩

theorem close_eq (id : Nat) (s : State) : (∀ r, ¬ IsOpen s id r) ∧ readerClose id s = s ∨
    ∃ r, IsOpen s id r ∧ readerClose id s = { s with readers := s.readers.set id none, files := s.files.modify r.file finish } := by
  unfold readerClose IsOpen
  cases h : s.readers[id]? with
  | none => exact .inl ⟨by simp, rfl⟩
  | some o =>
    cases o with
    | none => exact .inl ⟨by simp, rfl⟩
    | some r => exact .inr ⟨r, rfl, rfl⟩

/-- the open readers when one is replaced -/
theorem isOpen_set {s : State} {files : List File} {id : Nat} {o : Option Reader} {k : Nat} {r : Reader}
    (h : IsOpen { s with readers := s.readers.set id o, files := files } k r) : (k = id ∧ o = some r) ∨ (k ≠ id ∧ IsOpen s k r) := by
  unfold IsOpen at h
  simp only [List.getElem?_set] at h
  split at h
  · rename_i e
    split at h
    · cases h; exact .inl ⟨e.symm, rfl⟩
    · cases h
  · rename_i e; exact .inr ⟨fun e' => e e'.symm, h⟩

theorem isOpen_append {s : State} {r0 r : Reader} {k : Nat} (h : IsOpen { s with readers := s.readers ++ [some r0] } k r) :
    (k = s.readers.length ∧ r = r0) ∨ IsOpen s k r := by
  unfold IsOpen at h ⊢
  simp only at h
  by_cases hk : k < s.readers.length
  · rw [List.getElem?_append_left hk] at h; exact .inr h
  · rw [List.getElem?_append_right (by omega)] at h
    left
    cases hd : k - s.readers.length with
    | zero =>
      rw [hd] at h
      simp only [List.getElem?_cons_zero, Option.some.injEq] at h
      exact ⟨by omega, h.symm⟩
    | succ m => rw [hd] at h; simp at h

theorem modify_ne {fs : List File} {i j : Nat} {g : File → File} (h : j ≠ i) : (fs.modify j g)[i]? = fs[i]? := by
  rw [List.getElem?_modify]
  simp only [h, if_false, Option.map_id', Option.map_eq_map]

theorem modify_eq {fs : List File} {i : Nat} {g : File → File} {f : File} (h : fs[i]? = some f) : (fs.modify i g)[i]? = some (g f) := by
  rw [List.getElem?_modify, h]
  simp

theorem crash_open {kept : Nat → Nat} {s : State} {id : Nat} {r : Reader} : ¬ IsOpen (crash kept s) id r := by
  unfold IsOpen crash
  simp only [List.getElem?_map]
  cases s.readers[id]? <;> simp

theorem crash_file (kept : Nat → Nat) (s : State) (i : Nat) : (crash kept s).files[i]? =
    (s.files[i]?).map fun f => if s.readers.any (fun r => r.map Reader.file == some i) then cut (kept i) f else f := by
  unfold crash
  simp only [List.getElem?_mapIdx]

theorem any_open {s : State} {i : Nat} : s.readers.any (fun r => r.map Reader.file == some i) = true ↔ ∃ id r, IsOpen s id r ∧ r.file = i := by
  rw [List.any_eq_true]
  constructor
  · rintro ⟨o, ho, h⟩
    obtain ⟨id, hid⟩ := List.mem_iff_getElem?.1 ho
    cases o with
    | none => simp at h
    | some r => exact ⟨id, r, hid, by simpa using h⟩
  · rintro ⟨id, r, h1, h2⟩
    exact ⟨some r, List.mem_iff_getElem?.2 ⟨id, h1⟩, by simp [h2]⟩

theorem crash_bounded {kept : Nat → Nat} {s : State} (hb : Bounded s) : Bounded (crash kept s) := by
  constructor
  · intro n i h
    have := hb.names n i h
    simpa [crash] using this
  · intro id r h; exact absurd h crash_open

theorem crash_settled {kept : Nat → Nat} {n : Name} {i : Nat} {f : File} {s : State} (h : Settled n i f s) : Settled n i f (crash kept s) := by
  refine ⟨h.name, ?_, fun _ _ h => absurd h crash_open⟩
  rw [crash_file, h.file, Option.map_some, if_neg]
  rw [any_open]
  rintro ⟨id, r, h1, h2⟩
  exact h.free id r h1 h2

/-! ### One operation -/

/-- An operation which removes a key -/
def Op.removes : Op t → Option (Key t)
  | .remoteDrop b u => some (.content b u)
  | .httpdirDrop u => some (.listing u)
  | _ => none

theorem headUrl_cases (base url : Url t) (answer : Option Nat) (s : State) : (headUrl digest true base url answer s).2 = s ∨
    ∃ r s', headSet digest base url r s = some s' ∧ headUrl digest true base url answer s = (some r, s') ∧ head digest base url s = none := by
  unfold headUrl
  simp only [if_true]
  cases h : head digest base url s with
  | some r => exact .inl rfl
  | none =>
    cases remoteHead answer with
    | none => exact .inl rfl
    | some r =>
      cases h2 : headSet digest base url r s with
      | none => exact .inl (by simp only [h2])
      | some s' => exact .inr ⟨r, s', h2, by simp only [h2], rfl⟩

/-- What an operation does to the state, by cases. -/
inductive Effect (digest : String → List Char) (op : Op t) (s : State) : State → Prop where
  | same : Effect digest op s s
  | create (k : Key t) (f : File) (s' : State) : k.urls = op.urls → create (k.name digest) f s = some s' → Effect digest op s s'
  | open (b u : Url t) (r : Remote) (s' : State) : op = .remoteAdd b u r → remoteAdd digest b u r s = some s' → Effect digest op s s'
  | read (id n : Nat) : op = .read id n → Effect digest op s (readerRead id n s).2
  | close (id : Nat) : op = .close id → Effect digest op s (readerClose id s)
  | drop (k : Key t) : op.removes = some k → k.urls = op.urls → Effect digest op s (drop (k.name digest) s)
  | crash (kept : Nat → Nat) : (op = .crash kept ∨ ∃ u p k, op = .crashInAdd u p k kept) → Effect digest op s (crash kept s)
  | crashAdd (u : Url t) (p : List (Url t)) (k : Nat) (kept : Nat → Nat) (f : File) (s' : State) : op = .crashInAdd u p k kept →
      Cache.create (Key.name digest (.listing u)) f s = some s' → Effect digest op s (Cache.crash kept s')

theorem step_effect (op : Op t) (s : State) : Effect digest op s (step digest op s).2 := by
  have hset : ∀ (b u : Url t) r s', op.urls = [b, u] → headSet digest b u r s = some s' → Effect digest op s s' := by
    intro b u r s' hu h
    unfold headSet at h
    cases r
    · exact .create (.headNo b u) _ _ hu.symm h
    · exact .create (.headYes b u) _ _ hu.symm h
  cases op with
  | headSet b u r =>
    simp only [step]
    cases h : headSet digest b u r s with
    | none => exact .same
    | some s' => exact hset b u r s' rfl h
  | headUrl b u a =>
    have e : (step digest (.headUrl b u a) s).2 = (headUrl digest true b u a s).2 := by
      simp only [step]
      rcases headUrl digest true b u a s with ⟨_ | r, s'⟩ <;> rfl
    rw [e]
    rcases headUrl_cases (digest := digest) b u a s with h | ⟨r, s', h1, h2, _⟩
    · rw [h]; exact .same
    · rw [h2]; exact hset b u r s' rfl h1
  | remoteAdd b u r =>
    simp only [step]
    cases h : remoteAdd digest b u r s with
    | none => exact .same
    | some s' => exact .open b u r s' rfl h
  | read id n =>
    have e : (step (t := t) digest (.read id n) s).2 = (readerRead id n s).2 := by
      simp only [step]
      rcases readerRead id n s with ⟨_ | c, s'⟩ <;> rfl
    rw [e]
    exact .read id n rfl
  | close id => exact .close id rfl
  | remoteDrop b u => exact .drop (.content b u) rfl rfl
  | httpdirAdd u p =>
    simp only [step]
    cases h : httpdirAdd digest u p s with
    | none => exact .same
    | some s' =>
      unfold httpdirAdd at h
      rw [Option.bind_eq_some_iff] at h
      obtain ⟨b, _, h2⟩ := h
      exact .create (.listing u) _ _ rfl h2
  | httpdirDrop u => exact .drop (.listing u) rfl rfl
  | crash kept => exact .crash kept (.inl rfl)
  | crashInAdd u p k kept =>
    simp only [step, crashInAdd]
    split
    · rename_i b _
      cases hc : create (httpdirName digest u) (.raw (b.take (min k (b.length - 1)))) s with
      | none => exact .crash kept (.inr ⟨u, p, k, rfl⟩)
      | some s' => exact .crashAdd u p k kept _ s' rfl hc
    · exact .crash kept (.inr ⟨u, p, k, rfl⟩)

theorem drop_bounded {n : Name} {s : State} (hb : Bounded s) : Bounded (drop n s) := by
  refine ⟨?_, hb.readers⟩
  intro m i h
  unfold drop at h
  simp only at h
  split at h
  · cases h
  · exact hb.names m i h

theorem remoteAdd_bounded {b u : Url t} {r : Remote} {s s' : State} (hb : Bounded s) (h : remoteAdd digest b u r s = some s') : Bounded s' := by
  obtain ⟨s1, h1, rfl⟩ := remoteAdd_eq h
  have hb1 := create_bounded hb h1
  refine ⟨hb1.names, ?_⟩
  intro id r' hr
  rcases isOpen_append hr with ⟨_, rfl⟩ | h2
  · obtain ⟨_, rfl⟩ := create_eq h1; simp
  · exact hb1.readers id r' h2

theorem read_bounded {id n : Nat} {s : State} (hb : Bounded s) : Bounded (readerRead id n s).2 := by
  rcases read_eq id n s with ⟨_, e⟩ | ⟨r, hr, ⟨c, remote, _, e⟩ | ⟨remote, _, e⟩⟩ <;> rw [e]
  · exact hb
  · refine ⟨by simpa using hb.names, ?_⟩
    intro k r' h
    simp only [List.length_modify]
    rcases isOpen_set h with ⟨_, h⟩ | ⟨_, h⟩
    · cases h; exact hb.readers id r hr
    · exact hb.readers k r' h
  · refine ⟨hb.names, ?_⟩
    intro k r' h
    rcases isOpen_set (files := s.files) h with ⟨_, h⟩ | ⟨_, h⟩
    · cases h; exact hb.readers id r hr
    · exact hb.readers k r' h

theorem close_bounded {id : Nat} {s : State} (hb : Bounded s) : Bounded (readerClose id s) := by
  rcases close_eq id s with ⟨_, e⟩ | ⟨r, hr, e⟩ <;> rw [e]
  · exact hb
  · refine ⟨by simpa using hb.names, ?_⟩
    intro k r' h
    simp only [List.length_modify]
    rcases isOpen_set h with ⟨_, h⟩ | ⟨_, h⟩
    · cases h
    · exact hb.readers k r' h

theorem step_bounded (op : Op t) {s : State} (hb : Bounded s) : Bounded (step digest op s).2 := by
  have := step_effect (digest := digest) op s
  generalize (step digest op s).2 = s' at this
  cases this with
  | same => exact hb
  | create _ _ _ _ h => exact create_bounded hb h
  | «open» _ _ _ _ _ h => exact remoteAdd_bounded hb h
  | read id n _ => exact read_bounded hb
  | close id _ => exact close_bounded hb
  | drop _ _ _ => exact drop_bounded hb
  | crash kept _ => exact crash_bounded hb
  | crashAdd _ _ _ _ _ _ _ h => exact crash_bounded (create_bounded hb h)

theorem remoteAdd_settled {b u : Url t} {r : Remote} {n : Name} {i : Nat} {f : File} {s s' : State} (hs : Settled n i f s)
    (h : remoteAdd digest b u r s = some s') : Settled n i f s' := by
  obtain ⟨s1, h1, rfl⟩ := remoteAdd_eq h
  have hs1 := create_settled hs h1
  refine ⟨hs1.name, hs1.file, ?_⟩
  intro id r' hr
  rcases isOpen_append hr with ⟨_, rfl⟩ | h2
  · have := (List.getElem?_eq_some_iff.1 hs.file).1
    simp only; omega
  · exact hs1.free id r' h2

/-- A settled file stays as it is, unless it is removed. -/
theorem step_settled (hd : GoodDigest digest U) (op : Op t) {k : Key t} {i : Nat} {f : File} {s : State} (hs : Settled (k.name digest) i f s)
    (hk : ∀ u ∈ k.urls, U u.val) (ho : ∀ u ∈ op.urls, U u.val) (hr : op.removes ≠ some k) : Settled (k.name digest) i f (step digest op s).2 := by
  have := step_effect (digest := digest) op s
  generalize (step digest op s).2 = s' at this
  cases this with
  | same => exact hs
  | create _ _ _ _ h => exact create_settled hs h
  | «open» _ _ _ _ _ h => exact remoteAdd_settled hs h
  | read id n _ =>
    rcases read_eq id n s with ⟨_, e⟩ | ⟨r, hr, ⟨c, remote, _, e⟩ | ⟨remote, _, e⟩⟩ <;> rw [e]
    · exact hs
    · refine ⟨hs.name, ?_, ?_⟩
      · simp only; rw [modify_ne (hs.free id r hr)]; exact hs.file
      · intro j r' h
        rcases isOpen_set h with ⟨_, h⟩ | ⟨_, h⟩
        · cases h; exact hs.free id r hr
        · exact hs.free j r' h
    · refine ⟨hs.name, hs.file, ?_⟩
      intro j r' h
      rcases isOpen_set (files := s.files) h with ⟨_, h⟩ | ⟨_, h⟩
      · cases h; exact hs.free id r hr
      · exact hs.free j r' h
  | close id _ =>
    rcases close_eq id s with ⟨_, e⟩ | ⟨r, hr, e⟩ <;> rw [e]
    · exact hs
    · refine ⟨hs.name, ?_, ?_⟩
      · simp only; rw [modify_ne (hs.free id r hr)]; exact hs.file
      · intro j r' h
        rcases isOpen_set h with ⟨_, h⟩ | ⟨_, h⟩
        · cases h
        · exact hs.free j r' h
  | drop k' h1 h2 =>
    refine ⟨?_, hs.file, hs.free⟩
    unfold drop
    simp only
    rw [if_neg]
    · exact hs.name
    · intro e
      have := name_inj hd hk (by rw [h2]; exact ho) e
      exact hr (by rw [h1, this])
  | crash kept _ => exact crash_settled hs
  | crashAdd _ _ _ _ _ _ _ h => exact crash_settled (create_settled hs h)

/-! ### Histories -/

theorem run_cons (op : Op t) (ops : List (Op t)) (s : State) : run digest (op :: ops) s =
    ((op, (step digest op s).1) :: (run digest ops (step digest op s).2).1, (run digest ops (step digest op s).2).2) := rfl

theorem run_append (a b : List (Op t)) (s : State) : run digest (a ++ b) s =
    ((run digest a s).1 ++ (run digest b (run digest a s).2).1, (run digest b (run digest a s).2).2) := by
  induction a generalizing s with
  | nil => rfl
  | cons op a ih => rw [List.cons_append, run_cons, ih, run_cons]; rfl

theorem run_bounded (ops : List (Op t)) {s : State} (hb : Bounded s) : Bounded (run digest ops s).2 := by
  induction ops generalizing s with
  | nil => exact hb
  | cons op ops ih => rw [run_cons]; exact ih (step_bounded op hb)

theorem empty_bounded : Bounded State.empty := ⟨(fun _ _ h => by cases h), (fun id r h => by simp [IsOpen, State.empty] at h)⟩

theorem reachable_bounded {s : State} (h : Reachable (t := t) digest U s) : Bounded s := by
  obtain ⟨ops, _, rfl⟩ := h
  exact run_bounded ops empty_bounded

theorem run_settled (hd : GoodDigest digest U) (ops : List (Op t)) {k : Key t} {i : Nat} {f : File} {s : State} (hs : Settled (k.name digest) i f s)
    (hk : ∀ u ∈ k.urls, U u.val) (ho : Within U ops) (hr : ∀ op ∈ ops, op.removes ≠ some k) : Settled (k.name digest) i f (run digest ops s).2 := by
  induction ops generalizing s with
  | nil => exact hs
  | cons op ops ih =>
    rw [run_cons]
    exact ih (step_settled hd op hs hk (ho op (by simp)) (hr op (by simp))) (fun o h => ho o (by simp [h])) fun o h => hr o (by simp [h])

end LJ.Cache

/-
The properties of the cache: C52 to C57, and C79.
-/
import Verif.Cache.Lemmas
import Verif.Codec.Props
import Verif.Crawler.Props
namespace LJ.Cache
open LJ.Codec (Bytes Texts Url)

variable {t : Texts} {digest : String → List Char} {U : String → Prop}

/-! ### C55: the names -/

/-- C55: two entries share a file only if they are the same entry: same kind, same URLs. -/
theorem C55_names (hd : GoodDigest digest U) {k k' : Key t} (hk : ∀ u ∈ k.urls, U u.val) (hk' : ∀ u ∈ k'.urls, U u.val) :
    k.name digest = k'.name digest ↔ k = k' := ⟨name_inj hd hk hk', fun h => by rw [h]⟩

/-- C55: no file is the directory of another one, so each can be made. -/
theorem C55_directories (hd : GoodDigest digest U) (k k' : Key t) (rest : Name) : k.name digest ≠ k'.name digest ++ '/' :: rest := by
  have one : ∀ (c : Char), c ≠ '/' → ∀ u : Url t, '/' ∉ newName digest c u := by
    intro c hc u h
    rcases List.mem_cons.1 h with h | h
    · exact hc h.symm
    · exact hd.slash _ h
  have split : ∀ {a b c d : Name}, '/' ∉ a → '/' ∉ c → a ++ '/' :: b = c ++ '/' :: d → a = c ∧ b = d := by
    intro a
    induction a with
    | nil =>
      intro b c d _ hc h
      cases c with
      | nil => exact ⟨rfl, by simpa using h⟩
      | cons x c => simp only [List.nil_append, List.cons_append, List.cons.injEq] at h; exact absurd h.1 fun e => hc (by rw [← e]; simp)
    | cons x a ih =>
      intro b c d ha hc h
      cases c with
      | nil => simp only [List.nil_append, List.cons_append, List.cons.injEq] at h; exact absurd h.1 fun e => ha (by simp [e])
      | cons y c =>
        simp only [List.cons_append, List.cons.injEq] at h
        obtain ⟨e1, e2⟩ := ih (fun e => ha (by simp [e])) (fun e => hc (by simp [e])) h.2
        exact ⟨by rw [h.1, e1], e2⟩
  have two : ∀ (c c' : Char), c ≠ '/' → c' ≠ '/' → ∀ (b u b' u' : Url t) , newName digest '1' b ++ '/' :: newName digest c u ≠
      (newName digest '1' b' ++ '/' :: newName digest c' u') ++ '/' :: rest := by
    intro c c' hc hc' b u b' u' h
    rw [List.append_assoc, List.cons_append] at h
    obtain ⟨_, e⟩ := split (one '1' (by decide) b) (one '1' (by decide) b') h
    exact one c hc u (by rw [e]; simp)
  have zero : ∀ (c : Char) (b u u' : Url t), newName digest '1' b ++ '/' :: newName digest c u ≠ httpdirName digest u' ++ '/' :: rest := by
    intro c b u u' h
    simp [httpdirName, newName] at h
  have none : ∀ (u : Url t) (p : Name), httpdirName digest u ≠ p ++ '/' :: rest := by
    intro u p h
    exact one '0' (by decide) u (by rw [show newName digest '0' u = httpdirName digest u from rfl, h]; simp)
  cases k <;> cases k' <;> simp only [Key.name, httpName, headSuccessName, headFailureName] <;>
    first
    | exact none _ _
    | exact zero _ _ _ _
    | exact two _ _ (by decide) (by decide) _ _ _ _

/-- C55: adding an entry which exists is refused, and nothing changes. -/
theorem C55_refused (s : State) (b u : Url t) :
    (get (headSuccessName digest b u) s ≠ none → step digest (.headSet b u true) s = (.error, s)) ∧
    (get (headFailureName digest b u) s ≠ none → step digest (.headSet b u false) s = (.error, s)) ∧
    (∀ r, get (httpName digest b u) s ≠ none → step digest (.remoteAdd b u r) s = (.error, s)) ∧
    (∀ p, get (httpdirName digest u) s ≠ none → step digest (.httpdirAdd u p) s = (.error, s)) := by
  have key : ∀ n f, get n s ≠ none → create n f s = none := by
    intro n f h
    unfold create
    split
    · rfl
    · rename_i e; exact absurd (by rw [get, e]; rfl) h
  refine ⟨?_, ?_, ?_, ?_⟩
  · intro h; simp only [step, headSet, if_true, key _ _ h]
  · intro h; simp only [step, headSet, Bool.false_eq_true, if_false, key _ _ h]
  · intro r h; simp only [step, remoteAdd, key _ _ h, Option.map_none]
  · intro p h
    simp only [step, httpdirAdd]
    cases (LJ.Codec.listing t).enc p with
    | none => rfl
    | some b => simp only [Option.bind_some, key _ _ h]

/-- C55: whatever happens, an entry that no reader is writing keeps its content as long as it is not removed itself. -/
theorem C55_kept (hd : GoodDigest digest U) {s : State} {k : Key t} {f : File} (hk : ∀ u ∈ k.urls, U u.val)
    (hf : get (k.name digest) s = some f) (hw : ∀ id r, IsOpen s id r → s.names (k.name digest) ≠ some r.file)
    {ops : List (Op t)} (ho : Within U ops) (hr : ∀ op ∈ ops, op.removes ≠ some k) : get (k.name digest) (run digest ops s).2 = some f := by
  unfold get at hf
  rw [Option.bind_eq_some_iff] at hf
  obtain ⟨i, h1, h2⟩ := hf
  exact (run_settled hd ops ⟨h1, h2, fun id r h e => hw id r h (by rw [h1, e])⟩ hk ho hr).get

/-! ### C52: HEAD results -/

theorem get_none {s : State} (hb : Bounded s) {n : Name} : get n s = none ↔ s.names n = none := by
  unfold get
  cases h : s.names n with
  | none => simp
  | some i => simpa using hb.names n i h

/-- An operation which records a HEAD result of a pair, other than `head_url` -/
def Op.sets (b u : Url t) : Op t → Prop
  | .headSet b' u' _ => b' = b ∧ u' = u
  | _ => False

/-- The recorded result of a pair -/
def Recorded (digest : String → List Char) (b u : Url t) (r : Bool) (s : State) : Prop :=
  if r then ∃ i f, Settled (headSuccessName digest b u) i f s
  else s.names (headSuccessName digest b u) = none ∧ ∃ i f, Settled (headFailureName digest b u) i f s

theorem recorded_head {b u : Url t} {r : Bool} {s : State} (h : Recorded digest b u r s) : head digest b u s = some r := by
  unfold head
  cases r with
  | true =>
    obtain ⟨i, f, h⟩ := h
    rw [h.get]
  | false =>
    obtain ⟨h0, i, f, h⟩ := h
    rw [show get (headSuccessName digest b u) s = none by rw [get, h0]; rfl, h.get]
    rfl

theorem set_recorded {b u : Url t} {r : Bool} {s s' : State} (hb : Bounded s) (hn : head digest b u s = none) (h : headSet digest b u r s = some s') (hd : GoodDigest digest U) :
    Recorded digest b u r s' := by
  unfold headSet at h
  cases r with
  | true => exact ⟨_, _, create_new hb h⟩
  | false =>
    refine ⟨?_, _, _, create_new hb h⟩
    simp only [Bool.false_eq_true, if_false] at h
    rw [create_names h]
    · unfold head at hn
      rw [← get_none hb]
      split at hn
      · cases hn
      · assumption
    · intro e
      have := two_names hd e
      exact absurd this.2.1 (by decide)

theorem step_recorded (hd : GoodDigest digest U) {b u : Url t} (hb : U b.val) (hu : U u.val) {r : Bool} {s : State} (h : Recorded digest b u r s) (op : Op t)
    (ho : ∀ x ∈ op.urls, U x.val) (hs : ¬ op.sets b u) : Recorded digest b u r (step digest op s).2 := by
  have urls : ∀ x ∈ [b, u], U x.val := by simp [hb, hu]
  have yes : ∀ {i f}, Settled (headSuccessName digest b u) i f s → Settled (headSuccessName digest b u) i f (step digest op s).2 :=
    fun h => step_settled hd op (k := .headYes b u) h urls ho (by cases op <;> simp [Op.removes])
  have no : ∀ {i f}, Settled (headFailureName digest b u) i f s → Settled (headFailureName digest b u) i f (step digest op s).2 :=
    fun h => step_settled hd op (k := .headNo b u) h urls ho (by cases op <;> simp [Op.removes])
  cases r with
  | true =>
    obtain ⟨i, f, h⟩ := h
    exact ⟨i, f, yes h⟩
  | false =>
    obtain ⟨h0, i, f, h1⟩ := h
    refine ⟨?_, i, f, no h1⟩
    have hh : head digest b u s = some false := recorded_head (r := false) ⟨h0, i, f, h1⟩
    -- a creation of the success file is `head_set`, or `head_url` when there is no result
    have cr : ∀ {k : Key t} {f s'}, k ≠ .headYes b u → (∀ x ∈ k.urls, U x.val) → create (k.name digest) f s = some s' →
        s'.names (headSuccessName digest b u) = none := by
      intro k f s' hk hu h
      rw [create_names h]
      · exact h0
      · intro e
        exact hk (name_inj hd (k' := .headYes b u) hu urls e.symm)
    have he := step_effect (digest := digest) op s
    cases op with
    | headSet b' u' r' =>
      simp only [step]
      cases hc : headSet digest b' u' r' s with
      | none => exact h0
      | some s' =>
        simp only [Op.urls, List.forall_mem_cons, List.not_mem_nil, false_implies, implies_true, and_true] at ho
        unfold headSet at hc
        cases r' with
        | true =>
          refine cr (k := .headYes b' u') ?_ (by simp [Key.urls, ho]) hc
          intro e; cases e; exact hs ⟨rfl, rfl⟩
        | false => exact cr (k := .headNo b' u') (by simp) (by simp [Key.urls, ho]) hc
    | headUrl b' u' a =>
      have e : (step digest (.headUrl b' u' a) s).2 = (headUrl digest true b' u' a s).2 := by
        simp only [step]
        rcases headUrl digest true b' u' a s with ⟨_ | r, s'⟩ <;> rfl
      rw [e]
      rcases headUrl_cases (digest := digest) b' u' a s with h | ⟨r', s', hc, h2, h3⟩
      · rw [h]; exact h0
      · rw [h2]
        simp only [Op.urls, List.forall_mem_cons, List.not_mem_nil, false_implies, implies_true, and_true] at ho
        unfold headSet at hc
        cases r' with
        | true =>
          refine cr (k := .headYes b' u') ?_ (by simp [Key.urls, ho]) hc
          intro e; cases e; rw [hh] at h3; cases h3
        | false => exact cr (k := .headNo b' u') (by simp) (by simp [Key.urls, ho]) hc
    | remoteAdd b' u' r' =>
      simp only [step]
      cases hc : remoteAdd digest b' u' r' s with
      | none => exact h0
      | some s' =>
        obtain ⟨s1, h3, rfl⟩ := remoteAdd_eq hc
        have := cr (k := .content b' u') (by simp) ho h3
        exact this
    | read id n =>
      have e : (step (t := t) digest (.read id n) s).2 = (readerRead id n s).2 := by
        simp only [step]
        rcases readerRead id n s with ⟨_ | c, s'⟩ <;> rfl
      rw [e]
      rcases read_eq id n s with ⟨_, e⟩ | ⟨r, hr, ⟨c, remote, _, e⟩ | ⟨remote, _, e⟩⟩ <;> rw [e] <;> exact h0
    | close id =>
      simp only [step]
      rcases close_eq id s with ⟨_, e⟩ | ⟨r, hr, e⟩ <;> rw [e] <;> exact h0
    | remoteDrop b' u' => simp only [step, remoteDrop, drop]; split <;> [rfl; exact h0]
    | httpdirAdd u' p =>
      simp only [step]
      cases hc : httpdirAdd digest u' p s with
      | none => exact h0
      | some s' =>
        unfold httpdirAdd at hc
        rw [Option.bind_eq_some_iff] at hc
        obtain ⟨_, _, h3⟩ := hc
        exact cr (k := .listing u') (by simp) ho h3
    | httpdirDrop u' => simp only [step, httpdirDrop, drop]; split <;> [rfl; exact h0]
    | crash kept => exact h0
    | crashInAdd u' p k kept =>
      simp only [step, crashInAdd]
      split
      · rename_i x _
        cases hc : create (httpdirName digest u') (.raw (x.take (min k (x.length - 1)))) s with
        | none => exact h0
        | some s' =>
          have := cr (k := .listing u') (by simp) ho hc
          exact this
      · exact h0

theorem run_recorded (hd : GoodDigest digest U) {b u : Url t} (hb : U b.val) (hu : U u.val) {r : Bool} {s : State} (h : Recorded digest b u r s) (ops : List (Op t))
    (ho : Within U ops) (hs : ∀ op ∈ ops, ¬ op.sets b u) : Recorded digest b u r (run digest ops s).2 := by
  induction ops generalizing s with
  | nil => exact h
  | cons op ops ih =>
    rw [run_cons]
    exact ih (step_recorded hd hb hu h op (ho op (by simp)) (hs op (by simp))) (fun o h => ho o (by simp [h])) fun o h => hs o (by simp [h])

/-- C52, for `Cache::head_set`: a result which is recorded for a pair which had none is the one that `head` returns,
whatever happens next: other pairs, `head_url` on this one with any answers, contents, listings, crashes.
C52 does not hold if `head_set` is called again for the pair with another result: see `C52_false`. -/
theorem C52_partial (hd : GoodDigest digest U) {b u : Url t} (hb : U b.val) (hu : U u.val) {s : State} (hr : Reachable (t := t) digest U s)
    (hn : head digest b u s = none) (r : Bool) {ops : List (Op t)} (ho : Within U ops) (hs : ∀ op ∈ ops, ¬ op.sets b u) :
    (step digest (.headSet b u r) s).1 = .bool r ∧ head digest b u (run digest (.headSet b u r :: ops) s).2 = some r := by
  have hbd := reachable_bounded hr
  cases hc : headSet digest b u r s with
  | none =>
    exfalso
    unfold headSet create at hc
    unfold head at hn
    split at hn
    · cases hn
    · rename_i h0
      simp only [Option.map_eq_none_iff] at hn
      rw [get_none hbd] at h0 hn
      split at hc
      · rename_i i h
        cases r
        · simp only [Bool.false_eq_true, if_false, hn] at h; cases h
        · simp only [if_true, h0] at h; cases h
      · cases hc
  | some s' =>
    have e : step digest (.headSet b u r) s = (.bool r, s') := by simp only [step, hc]
    rw [run_cons, e]
    exact ⟨rfl, recorded_head (run_recorded hd hb hu (set_recorded hbd hn hc hd) ops ho hs)⟩

theorem remoteHead_some {answer : Option Nat} {r : Bool} (h : remoteHead answer = some r) :
    ∃ status, answer = some status ∧ (r = true ↔ 200 ≤ status ∧ status < 300) := by
  unfold remoteHead at h
  rw [Option.map_eq_some_iff] at h
  obtain ⟨status, rfl, rfl⟩ := h
  exact ⟨status, rfl, decide_eq_true_iff⟩

/-- C52, for `head_url`: the first result, which says whether the status is a success, is returned for ever, whatever the server answers later. -/
theorem C52_url (hd : GoodDigest digest U) {b u : Url t} (hb : U b.val) (hu : U u.val) {s s' : State} (hr : Reachable (t := t) digest U s)
    {answer : Option Nat} {r : Bool} (hn : head digest b u s = none) (h1 : headUrl digest true b u answer s = (some r, s')) {ops : List (Op t)} (ho : Within U ops)
    (hs : ∀ op ∈ ops, ¬ op.sets b u) (later : Option Nat) :
    (∃ status, answer = some status ∧ (r = true ↔ 200 ≤ status ∧ status < 300)) ∧ (headUrl digest true b u later (run digest ops s').2).1 = some r := by
  have hbd := reachable_bounded hr
  unfold headUrl at h1
  simp only [if_true, hn] at h1
  cases ha : remoteHead answer with
  | none => rw [ha] at h1; cases h1
  | some r' =>
    rw [ha] at h1
    simp only at h1
    cases hc : headSet digest b u r' s with
    | none => rw [hc] at h1; cases h1
    | some s1 =>
      rw [hc] at h1
      cases h1
      refine ⟨remoteHead_some ha, ?_⟩
      have := recorded_head (run_recorded hd hb hu (set_recorded hbd hn hc hd) ops ho hs)
      simp only [headUrl, if_true, this]

/-- C52: without an answer nothing is recorded, and without the cache the answer is the one of the server. -/
theorem C52_no_answer (b u : Url t) (s : State) : (headUrl digest true b u none s).2 = s ∧
    headUrl digest false b u none s = (none, s) ∧ ∀ status, ∃ r, headUrl digest false b u (some status) s = (some r, s) ∧ (r = true ↔ 200 ≤ status ∧ status < 300) := by
  refine ⟨?_, rfl, fun status => ⟨_, rfl, decide_eq_true_iff⟩⟩
  unfold headUrl
  simp only [if_true]
  split <;> rfl

/-- the digest of the examples: it pads the string -/
def demoDigest (s : String) : List Char := (s.toList.filter (· != '/') ++ List.replicate 64 '0').take 64

/-- the URLs of the examples -/
def demoTexts : Texts where
  parseUrl s := some s
  Date := Unit
  formatDate _ := ""
  parseDate _ := some ()
  date_law _ := rfl

/-- an URL of the examples -/
def demoUrl (s : String) : Url demoTexts := ⟨s, rfl⟩

/-- C52 does not hold of `Cache::head_set` called twice: the second result is accepted, and the first one is returned. -/
theorem C52_false : ∃ (ops : List (Op demoTexts)), (run demoDigest ops State.empty).1.map Prod.snd = [.bool true, .bool false] ∧
    ops = [.headSet (demoUrl "b") (demoUrl "u") true, .headSet (demoUrl "b") (demoUrl "u") false] ∧
    head demoDigest (demoUrl "b") (demoUrl "u") (run demoDigest ops State.empty).2 = some true :=
  ⟨_, by decide +kernel, rfl, by decide +kernel⟩

/-! ### C53: complete reads -/

/-- A reader is filling the file of a name. -/
structure Filling (n : Name) (id i : Nat) (got : Bytes) (remote : Remote) (s : State) : Prop where
  name : s.names n = some i
  file : s.files[i]? = some (.gz got false)
  reader : IsOpen s id ⟨remote, i⟩
  only : ∀ j r, IsOpen s j r → r.file = i → j = id

theorem remote_read {n : Nat} {r r' : Remote} {o : Option Bytes} (h : r.read n = (o, r')) : (o.getD []) ++ r'.rest = r.rest := by
  unfold Remote.read at h
  split at h <;> cases h <;> simp

/-- An operation which ends the work of a reader, or removes its entry. -/
def Op.ends (b u : Url t) (id : Nat) : Op t → Prop
  | .close j => j = id
  | .remoteDrop b' u' => b' = b ∧ u' = u
  | .crash _ | .crashInAdd _ _ _ _ => True
  | _ => False

theorem isOpen_same {s : State} {files : List File} {id : Nat} {o : Option Reader} {r : Reader} (h : IsOpen s id r) :
    IsOpen { s with readers := s.readers.set id o, files := files } id r ↔ o = some r := by
  unfold IsOpen at h ⊢
  have hl := (List.getElem?_eq_some_iff.1 h).1
  simp only [List.getElem?_set, if_true, hl, Option.some.injEq]

theorem isOpen_other {s : State} {files : List File} {id j : Nat} {o : Option Reader} {r : Reader} (h : j ≠ id) :
    IsOpen { s with readers := s.readers.set j o, files := files } id r ↔ IsOpen s id r := by
  unfold IsOpen
  simp only [List.getElem?_set, h, if_false]

theorem isOpen_set_same {s : State} {files : List File} {id : Nat} {r r' : Reader} (h : IsOpen s id r) :
    IsOpen { s with readers := s.readers.set id (some r'), files := files } id r' := by
  unfold IsOpen at h ⊢
  have hl := (List.getElem?_eq_some_iff.1 h).1
  simp only [List.getElem?_set, if_true, hl]

theorem isOpen_inj {s : State} {id : Nat} {r r' : Reader} (h : IsOpen s id r) (h' : IsOpen s id r') : r = r' := by
  unfold IsOpen at h h'
  rw [h] at h'
  cases h'
  rfl

/-- one operation during the work of a reader: it delivers what it writes, in order -/
theorem step_filling (hd : GoodDigest digest U) {b u : Url t} (hb : U b.val) (hu : U u.val) {id i : Nat} {got : Bytes} {remote : Remote} {s : State}
    (h : Filling (httpName digest b u) id i got remote s) (op : Op t) (ho : ∀ x ∈ op.urls, U x.val) (he : ¬ op.ends b u id) :
    ∃ remote', Filling (httpName digest b u) id i (got ++ delivered id [(op, (step digest op s).1)]) remote' (step digest op s).2 ∧
      delivered id [(op, (step digest op s).1)] ++ remote'.rest = remote.rest ∧
      (∀ n, op = .read id n → n ≠ 0 → (step digest op s).1 = .bytes [] → remote.rest = []) := by
  have urls : ∀ x ∈ Key.urls (.content b u), U x.val := by simp [Key.urls, hb, hu]
  have hlt : i < s.files.length := (List.getElem?_eq_some_iff.1 h.file).1
  by_cases hread : ∃ j n, op = .read j n
  · obtain ⟨j, n, rfl⟩ := hread
    rcases read_eq j n s with ⟨hno, e⟩ | ⟨r, hr, ⟨c, rem, hrr, e⟩ | ⟨rem, hrr, e⟩⟩
    · have e' : step (t := t) digest (.read j n) s = (.error, s) := by simp only [step, e]
      rw [e']
      refine ⟨remote, by simpa [delivered] using h, by simp [delivered], ?_⟩
      intro n' _ _ h; cases h
    · have e' : step (t := t) digest (.read j n) s = (.bytes c, { s with readers := s.readers.set j (some { r with remote := rem }), files := s.files.modify r.file (append c) }) := by
        simp only [step, e]
      rw [e']
      by_cases hj : j = id
      · subst hj
        have := isOpen_inj hr h.reader
        subst this
        have hrest := remote_read hrr
        simp only [Option.getD_some] at hrest
        refine ⟨rem, ⟨h.name, ?_, ?_, ?_⟩, by simpa [delivered] using hrest, ?_⟩
        · simp only
          rw [modify_eq h.file]
          simp [append, delivered]
        · exact isOpen_set_same hr
        · intro k r' hk hf
          rcases isOpen_set hk with ⟨e, _⟩ | ⟨_, hk⟩
          · exact e
          · exact h.only k r' hk hf
        · intro n' hn' hn0 hc
          cases hn'
          cases hc
          unfold Remote.read at hrr
          split at hrr
          · simp only [Prod.mk.injEq, Option.some.injEq, List.take_eq_nil_iff] at hrr
            exact hrr.1.resolve_left hn0
          · simp only [Prod.mk.injEq, Option.some.injEq, List.take_eq_nil_iff] at hrr
            exact hrr.1.resolve_left (by omega)
          · cases hrr
      · have hf : r.file ≠ i := fun e => hj (h.only j r hr e)
        refine ⟨remote, ⟨h.name, ?_, ?_, ?_⟩, by simp [delivered, hj], ?_⟩
        · simp only
          rw [modify_ne hf, h.file]
          simp [delivered, hj]
        · exact (isOpen_other hj).2 h.reader
        · intro k r' hk hf'
          rcases isOpen_set hk with ⟨rfl, e2⟩ | ⟨_, hk⟩
          · cases e2; exact absurd hf' hf
          · exact h.only k r' hk hf'
        · intro n' hn'; cases hn'; exact absurd rfl hj
    · have e' : step (t := t) digest (.read j n) s = (.error, { s with readers := s.readers.set j (some { r with remote := rem }) }) := by simp only [step, e]
      rw [e']
      by_cases hj : j = id
      · subst hj
        have := isOpen_inj hr h.reader
        subst this
        have hrest := remote_read hrr
        refine ⟨rem, ⟨h.name, by simpa [delivered] using h.file, isOpen_set_same (files := s.files) hr, ?_⟩, by simpa [delivered] using hrest, ?_⟩
        · intro k r' hk hf
          rcases isOpen_set (files := s.files) hk with ⟨e, _⟩ | ⟨_, hk⟩
          · exact e
          · exact h.only k r' hk hf
        · intro n' _ _ hc; cases hc
      · have hf : r.file ≠ i := fun e => hj (h.only j r hr e)
        refine ⟨remote, ⟨h.name, by simpa [delivered] using h.file, (isOpen_other (files := s.files) hj).2 h.reader, ?_⟩, by simp [delivered], ?_⟩
        · intro k r' hk hf'
          rcases isOpen_set (files := s.files) hk with ⟨rfl, e2⟩ | ⟨_, hk⟩
          · cases e2; exact absurd hf' hf
          · exact h.only k r' hk hf'
        · intro n' _ _ hc; cases hc
  · have hdel : delivered id [(op, (step digest op s).1)] = [] := by
      cases op <;> first | rfl | exact absurd ⟨_, _, rfl⟩ hread
    rw [hdel, List.append_nil]
    refine ⟨remote, ?_, by simp, fun n e => absurd ⟨_, _, e⟩ hread⟩
    have := step_effect (digest := digest) op s
    generalize (step digest op s).2 = s' at this
    have made : ∀ {n f s'}, create n f s = some s' → Filling (httpName digest b u) id i got remote s' := by
      intro n f s' hc
      obtain ⟨hm, rfl⟩ := create_eq hc
      refine ⟨?_, ?_, h.reader, h.only⟩
      · simp only
        rw [if_neg]
        · exact h.name
        · intro e; have := h.name; rw [e, hm] at this; cases this
      · simp only
        rw [List.getElem?_append_left hlt]
        exact h.file
    cases this with
    | same => exact h
    | create _ _ _ _ hc => exact made hc
    | «open» b' u' r' s' _ hc =>
      obtain ⟨s1, h1, rfl⟩ := remoteAdd_eq hc
      have hf := made h1
      refine ⟨hf.name, hf.file, ?_, ?_⟩
      · have hh := hf.reader
        unfold IsOpen at hh ⊢
        simp only
        rw [List.getElem?_append_left (List.getElem?_eq_some_iff.1 hh).1]
        exact hh
      · intro k r hk hfi
        rcases isOpen_append hk with ⟨_, rfl⟩ | hk
        · simp only at hfi; omega
        · exact hf.only k r hk hfi
    | read j n e => exact absurd ⟨j, n, e⟩ hread
    | close j e =>
      subst e
      have hj : j ≠ id := he
      rcases close_eq j s with ⟨_, e⟩ | ⟨r, hr, e⟩ <;> rw [e]
      · exact h
      · have hf : r.file ≠ i := fun e => hj (h.only j r hr e)
        refine ⟨h.name, ?_, (isOpen_other hj).2 h.reader, ?_⟩
        · simp only; rw [modify_ne hf]; exact h.file
        · intro k r' hk hf'
          rcases isOpen_set hk with ⟨rfl, e2⟩ | ⟨_, hk⟩
          · cases e2
          · exact h.only k r' hk hf'
    | drop k h1 h2 =>
      refine ⟨?_, h.file, h.reader, h.only⟩
      unfold drop
      simp only
      rw [if_neg]
      · exact h.name
      · intro e
        have hk := name_inj hd (k := .content b u) (k' := k) urls (by rw [h2]; exact ho) e
        subst hk
        cases op <;> simp only [Op.removes, reduceCtorEq, Option.some.injEq, Key.content.injEq] at h1
        exact he h1
    | crash kept e =>
      rcases e with rfl | ⟨_, _, _, rfl⟩ <;> exact absurd trivial he
    | crashAdd _ _ _ _ _ _ e _ => subst e; exact absurd trivial he

theorem delivered_cons (id : Nat) (x : Op t × Out) (tr : List (Op t × Out)) : delivered id (x :: tr) = delivered id [x] ++ delivered id tr := by
  obtain ⟨op, out⟩ := x
  cases op <;> try rfl
  cases out <;> try rfl
  simp only [delivered]
  split <;> simp

theorem run_filling (hd : GoodDigest digest U) {b u : Url t} (hb : U b.val) (hu : U u.val) {id i : Nat} {got : Bytes} {remote : Remote} {s : State}
    (h : Filling (httpName digest b u) id i got remote s) (ops : List (Op t)) (ho : Within U ops) (he : ∀ op ∈ ops, ¬ op.ends b u id) :
    ∃ remote', Filling (httpName digest b u) id i (got ++ delivered id (run digest ops s).1) remote' (run digest ops s).2 ∧
      delivered id (run digest ops s).1 ++ remote'.rest = remote.rest := by
  induction ops generalizing got remote s with
  | nil => exact ⟨remote, by simpa [run, delivered] using h, by simp [run, delivered]⟩
  | cons op ops ih =>
    obtain ⟨r1, h1, h2, _⟩ := step_filling hd hb hu h op (ho op (by simp)) (he op (by simp))
    obtain ⟨r2, h3, h4⟩ := ih h1 (fun o h => ho o (by simp [h])) (fun o h => he o (by simp [h]))
    rw [run_cons]
    simp only
    rw [delivered_cons, ← List.append_assoc]
    exact ⟨r2, h3, by rw [List.append_assoc, h4, h2]⟩

theorem add_filling {b u : Url t} {remote : Remote} {s s' : State} (hbd : Bounded s) (h : remoteAdd digest b u remote s = some s') :
    Filling (httpName digest b u) s.readers.length s.files.length [] remote s' := by
  obtain ⟨s1, h1, rfl⟩ := remoteAdd_eq h
  have hs := create_new hbd h1
  have e : s1.readers = s.readers := by obtain ⟨_, rfl⟩ := create_eq h1; rfl
  refine ⟨hs.name, hs.file, ?_, ?_⟩
  · unfold IsOpen; simp [e]
  · intro j r hj hf
    rcases isOpen_append hj with ⟨e', _⟩ | hj
    · rw [e', e]
    · exact absurd hf (hs.free j r hj)

theorem close_filling {n : Name} {id i : Nat} {got : Bytes} {remote : Remote} {s : State} (h : Filling n id i got remote s) :
    Settled n i (.gz got true) (readerClose id s) := by
  rcases close_eq id s with ⟨hno, _⟩ | ⟨r, hr, e⟩
  · exact absurd h.reader (hno _)
  · have := isOpen_inj hr h.reader
    subst this
    rw [e]
    refine ⟨h.name, ?_, ?_⟩
    · simp only; rw [modify_eq h.file]; rfl
    · intro j r hj hf
      rcases isOpen_set hj with ⟨_, e⟩ | ⟨hne, hj⟩
      · cases e
      · exact hne (h.only j r hj hf)

/-- C53: a reader which is added gives the bytes of the remote, in order: what its reads returned is a prefix of them,
whatever the sizes of the reads, the network and the other operations. -/
theorem C53_reader (hd : GoodDigest digest U) {b u : Url t} (hb : U b.val) (hu : U u.val) {s : State} (hr : Reachable (t := t) digest U s)
    {data : Bytes} {grants : List Grant} {id : Nat} (ha : (step digest (.remoteAdd b u ⟨data, grants⟩) s).1 = .reader id)
    {ops : List (Op t)} (ho : Within U ops) (he : ∀ op ∈ ops, ¬ op.ends b u id) :
    delivered id (run digest ops (step digest (.remoteAdd b u ⟨data, grants⟩) s).2).1 <+: data := by
  have hbd := reachable_bounded hr
  simp only [step] at ha ⊢
  cases hc : remoteAdd digest b u ⟨data, grants⟩ s with
  | none => rw [hc] at ha; cases ha
  | some s' =>
    rw [hc] at ha
    cases ha
    obtain ⟨r', _, h⟩ := run_filling hd hb hu (add_filling hbd hc) ops ho he
    exact ⟨r'.rest, h⟩

/-- C53: when the reader was read to the end, which a read of at least one byte tells by returning nothing, its reads
returned exactly the remote bytes, and once it is closed a cache hit gives these bytes, without an error: whatever
happened before, meanwhile and after, as long as the entry is not removed. -/
theorem C53_cached (hd : GoodDigest digest U) {b u : Url t} (hb : U b.val) (hu : U u.val) {s : State} (hr : Reachable (t := t) digest U s)
    {data : Bytes} {grants : List Grant} {id : Nat} (ha : (step digest (.remoteAdd b u ⟨data, grants⟩) s).1 = .reader id)
    {ops : List (Op t)} (ho : Within U ops) (he : ∀ op ∈ ops, ¬ op.ends b u id)
    {n : Nat} (hn : n ≠ 0) {s1 : State} (h1 : (run digest ops (step digest (.remoteAdd b u ⟨data, grants⟩) s).2).2 = s1)
    (hend : (step (t := t) digest (.read id n) s1).1 = .bytes [])
    {later : List (Op t)} (hl : Within U later) (hk : ∀ op ∈ later, op.removes ≠ some (.content b u)) :
    delivered id (run digest ops (step digest (.remoteAdd b u ⟨data, grants⟩) s).2).1 = data ∧
    remoteGet digest b u (run digest (.read id n :: .close id :: later) s1).2 = some (data, true) := by
  have hbd := reachable_bounded hr
  simp only [step] at ha h1 ⊢
  cases hc : remoteAdd digest b u ⟨data, grants⟩ s with
  | none => rw [hc] at ha; cases ha
  | some s' =>
    rw [hc] at ha h1
    cases ha
    obtain ⟨r1, h2, h3⟩ := run_filling hd hb hu (add_filling hbd hc) ops ho he
    simp only at h1
    rw [h1] at h2
    obtain ⟨r2, h4, h5, h6⟩ := step_filling hd hb hu h2 (.read s.readers.length n) (by simp [Op.urls]) (by simp [Op.ends])
    have hnil := h6 n rfl hn hend
    rw [hnil, List.append_nil] at h3
    simp only
    rw [hend] at h4
    simp only [delivered, if_true, List.append_nil, List.nil_append] at h4
    refine ⟨h3, ?_⟩
    rw [run_cons, run_cons]
    simp only
    have := run_settled hd later (k := .content b u) (close_filling h4) (by simp [Key.urls, hb, hu]) hl hk
    rw [h3] at this
    have e := this.get
    unfold remoteGet
    rw [show httpName digest b u = Key.name digest (.content b u) from rfl]
    exact (congrArg (Option.map decompress) e).trans rfl

/-! ### C54: partial reads -/

theorem crash_filling {n : Name} {id i : Nat} {got : Bytes} {remote : Remote} {s : State} (h : Filling n id i got remote s) (kept : Nat → Nat) :
    Settled n i (.gz (got.take (kept i)) false) (crash kept s) := by
  refine ⟨h.name, ?_, fun _ _ h => absurd h crash_open⟩
  rw [crash_file, h.file, Option.map_some, if_pos]
  · rfl
  · exact any_open.2 ⟨id, _, h.reader, rfl⟩

/-- C54, when the process dies: whatever was read before, and whatever happens after, the entry gives a prefix of the
remote bytes and then an error.  What is missing: a reader which is closed before the end, see `C54_false`. -/
theorem C54_partial (hd : GoodDigest digest U) {b u : Url t} (hb : U b.val) (hu : U u.val) {s : State} (hr : Reachable (t := t) digest U s)
    {data : Bytes} {grants : List Grant} {id : Nat} (ha : (step digest (.remoteAdd b u ⟨data, grants⟩) s).1 = .reader id)
    {ops : List (Op t)} (ho : Within U ops) (he : ∀ op ∈ ops, ¬ op.ends b u id) (kept : Nat → Nat)
    {later : List (Op t)} (hl : Within U later) (hk : ∀ op ∈ later, op.removes ≠ some (.content b u)) :
    ∃ p, p <+: data ∧ remoteGet digest b u (run digest (.crash kept :: later) (run digest ops (step digest (.remoteAdd b u ⟨data, grants⟩) s).2).2).2 = some (p, false) := by
  have hbd := reachable_bounded hr
  simp only [step] at ha ⊢
  cases hc : remoteAdd digest b u ⟨data, grants⟩ s with
  | none => rw [hc] at ha; cases ha
  | some s' =>
    rw [hc] at ha
    cases ha
    obtain ⟨r1, h2, h3⟩ := run_filling hd hb hu (add_filling hbd hc) ops ho he
    simp only [run_cons]
    have := run_settled hd later (k := .content b u) (crash_filling h2 kept) (by simp [Key.urls, hb, hu]) hl hk
    refine ⟨_, List.IsPrefix.trans (List.take_prefix (kept s.files.length) _) ⟨r1.rest, h3⟩, ?_⟩
    unfold remoteGet
    rw [show httpName digest b u = Key.name digest (.content b u) from rfl]
    exact (congrArg (Option.map decompress) this.get).trans rfl

/-- C54 does not hold of a reader which is closed before the end, because its consumer stopped or because a read failed:
what was read so far is then served as the whole file, without an error, as long as the entry is not removed. -/
theorem C54_false (hd : GoodDigest digest U) {b u : Url t} (hb : U b.val) (hu : U u.val) {s : State} (hr : Reachable (t := t) digest U s)
    {data : Bytes} {grants : List Grant} {id : Nat} (ha : (step digest (.remoteAdd b u ⟨data, grants⟩) s).1 = .reader id)
    {ops : List (Op t)} (ho : Within U ops) (he : ∀ op ∈ ops, ¬ op.ends b u id)
    {later : List (Op t)} (hl : Within U later) (hk : ∀ op ∈ later, op.removes ≠ some (.content b u)) :
    remoteGet digest b u (run digest (.close id :: later) (run digest ops (step digest (.remoteAdd b u ⟨data, grants⟩) s).2).2).2 =
      some (delivered id (run digest ops (step digest (.remoteAdd b u ⟨data, grants⟩) s).2).1, true) := by
  have hbd := reachable_bounded hr
  simp only [step] at ha ⊢
  cases hc : remoteAdd digest b u ⟨data, grants⟩ s with
  | none => rw [hc] at ha; cases ha
  | some s' =>
    rw [hc] at ha
    cases ha
    obtain ⟨r1, h2, h3⟩ := run_filling hd hb hu (add_filling hbd hc) ops ho he
    simp only [run_cons]
    have := run_settled hd later (k := .content b u) (close_filling h2) (by simp [Key.urls, hb, hu]) hl hk
    unfold remoteGet
    rw [show httpName digest b u = Key.name digest (.content b u) from rfl]
    exact (congrArg (Option.map decompress) this.get).trans rfl

/-- The consequence: the connection fails after two bytes of four, the reader is closed, and the next hit gives the two
bytes as the file. -/
theorem C54_witness : ∃ ops : List (Op demoTexts),
    ops = [.remoteAdd (demoUrl "b") (demoUrl "u") ⟨[1, 2, 3, 4], [.short 1, .fail]⟩, .read 0 10, .read 0 10, .close 0] ∧
    (run demoDigest ops State.empty).1.map Prod.snd = [.reader 0, .bytes [1, 2], .error, .done] ∧
    remoteGet demoDigest (demoUrl "b") (demoUrl "u") (run demoDigest ops State.empty).2 = some ([1, 2], true) :=
  ⟨_, rfl, by decide +kernel, by decide +kernel⟩

/-! ### C56: listings -/

/-- C56: a listing which was added is the one which is returned, until it is removed, whatever happens. -/
theorem C56_listing (hd : GoodDigest digest U) {u : Url t} (hu : U u.val) {s : State} (hr : Reachable (t := t) digest U s) {paths : List (Url t)}
    (ha : (step digest (.httpdirAdd u paths) s).1 = .done) {later : List (Op t)} (hl : Within U later) (hk : ∀ op ∈ later, op.removes ≠ some (.listing u)) :
    httpdirGet digest u (run digest (.httpdirAdd u paths :: later) s).2 = some (some paths) := by
  have hbd := reachable_bounded hr
  rw [run_cons]
  simp only [step] at ha ⊢
  cases hc : httpdirAdd digest u paths s with
  | none => rw [hc] at ha; cases ha
  | some s' =>
    unfold httpdirAdd at hc
    rw [Option.bind_eq_some_iff] at hc
    obtain ⟨b, h1, h2⟩ := hc
    have := run_settled hd later (k := .listing u) (create_new hbd h2) (by simp [Key.urls, hu]) hl hk
    have e := this.get
    unfold httpdirGet
    rw [show httpdirName digest u = Key.name digest (.listing u) from rfl, e]
    simp only [Option.map_some]
    have := LJ.Codec.C70_listing t h1 []
    rw [List.append_nil] at this
    rw [this.2]

/-- C56: a listing is added when there is none. -/
theorem C56_added {u : Url t} {s : State} {paths : List (Url t)} (hs : ((LJ.Codec.listing t).enc paths).isSome = true) (hn : s.names (httpdirName digest u) = none) :
    (step digest (.httpdirAdd u paths) s).1 = .done := by
  obtain ⟨b, hb⟩ := Option.isSome_iff_exists.1 hs
  simp only [step, httpdirAdd, hb, Option.bind_some, create, hn]

/-- C56 does not hold of crashes: after one while a listing is added, the listing of this URL fails, whatever the server
says, as long as the entry is not removed, which `httpdir_iter` never does. -/
theorem C56_false (hd : GoodDigest digest U) {u : Url t} (hu : U u.val) {s : State} (hr : Reachable (t := t) digest U s) {paths : List (Url t)}
    (hs : ((LJ.Codec.listing t).enc paths).isSome = true) (hn : s.names (httpdirName digest u) = none) (k : Nat) (kept : Nat → Nat)
    {later : List (Op t)} (hl : Within U later) (hk : ∀ op ∈ later, op.removes ≠ some (.listing u)) (listed : Option (List (Url t))) :
    (httpdirIter digest u listed (run digest (.crashInAdd u paths k kept :: later) s).2).1 = none := by
  have hbd := reachable_bounded hr
  obtain ⟨b, hb⟩ := Option.isSome_iff_exists.1 hs
  have hne : b ≠ [] := by
    rintro rfl
    have := LJ.Codec.C80_truncated t
    simp only [LJ.Codec.listing, LJ.Codec.seq] at hb
    split at hb
    · rw [Option.map_eq_some_iff] at hb
      obtain ⟨p, _, h⟩ := hb
      have := congrArg List.length h
      simp [LJ.Codec.leBytes_length] at this
    · cases hb
  obtain ⟨s', hc⟩ : ∃ s', create (httpdirName digest u) (.raw (b.take (min k (b.length - 1)))) s = some s' := by
    simp only [create, hn]; exact ⟨_, rfl⟩
  rw [run_cons]
  simp only [step, crashInAdd, hb, hc, Option.getD_some]
  have := run_settled hd later (k := .listing u) (crash_settled (kept := kept) (create_new hbd hc)) (by simp [Key.urls, hu]) hl hk
  have e := this.get
  have trunc : LJ.Codec.load (LJ.Codec.listing t) (b.take (min k (b.length - 1))) = none := by
    refine (LJ.Codec.C80_truncated t).2.2.2 paths b _ hb (List.take_prefix _ _) ?_
    intro h
    have := congrArg List.length h
    rw [List.length_take] at this
    have : b.length ≠ 0 := by simpa using hne
    omega
  unfold httpdirIter httpdirGet
  rw [show httpdirName digest u = Key.name digest (.listing u) from rfl, e]
  simp only [Option.map_some, trunc]

/-- C56, what is left: a crash at another time does not matter, and once the entry is removed the server is asked again. -/
theorem C56_partial {u : Url t} (s : State) (urls : List (Url t)) (hs : ((LJ.Codec.listing t).enc urls).isSome = true) :
    (httpdirIter digest u (some urls) (httpdirDrop digest u s)).1 = some urls := by
  obtain ⟨b, hb⟩ := Option.isSome_iff_exists.1 hs
  have hn : (httpdirDrop digest u s).names (httpdirName digest u) = none := by simp [httpdirDrop, drop]
  unfold httpdirIter httpdirGet get
  simp only [hn, Option.bind_none, Option.map_none, httpdirAdd, hb, Option.bind_some, create]

/-- C56, for `httpdir_iter`: what the server lists is returned and kept: later calls, whatever the server says and whatever
else happens, return the same listing.  Without a listing of the server there is an error, and nothing is kept. -/
theorem C56_iter (hd : GoodDigest digest U) {u : Url t} (hu : U u.val) {s : State} (hr : Reachable (t := t) digest U s) {urls : List (Url t)}
    (hs : ((LJ.Codec.listing t).enc urls).isSome = true) (hn : s.names (httpdirName digest u) = none) :
    (httpdirIter digest u none s = (none, s)) ∧ (httpdirIter digest u (some urls) s).1 = some urls ∧
      ∀ {later : List (Op t)}, Within U later → (∀ op ∈ later, op.removes ≠ some (.listing u)) → ∀ listed,
        (httpdirIter digest u listed (run digest later (httpdirIter digest u (some urls) s).2).2).1 = some urls := by
  obtain ⟨b, hb⟩ := Option.isSome_iff_exists.1 hs
  have hg : httpdirGet digest u s = none := by unfold httpdirGet get; simp only [hn, Option.bind_none, Option.map_none]
  obtain ⟨s', hc⟩ : ∃ s', httpdirAdd digest u urls s = some s' := by
    simp only [httpdirAdd, hb, Option.bind_some, create, hn]; exact ⟨_, rfl⟩
  have e : httpdirIter digest u (some urls) s = (some urls, s') := by unfold httpdirIter; simp only [hg, hc]
  refine ⟨by unfold httpdirIter; simp only [hg], by rw [e], fun {later} hl hk listed => ?_⟩
  have h1 := C56_listing hd hu hr (paths := urls) (C56_added hs hn) hl hk
  rw [run_cons] at h1
  simp only [step, hc] at h1
  rw [e]
  unfold httpdirIter
  simp only [h1]

/-! ### C57: what does not decode is not kept -/

theorem remote_all (data : Bytes) : Remote.all (data.length + 1) ⟨data, []⟩ = some data := by
  induction data with
  | nil => rfl
  | cons c cs ih =>
    have e : Remote.all ((c :: cs).length + 1) ⟨c :: cs, []⟩ = (Remote.all (cs.length + 1) ⟨cs, []⟩).map fun d => [c] ++ d := rfl
    rw [e, ih]
    rfl

/-- Without the cache, what is decoded is the body of the answer, and nothing is kept. -/
theorem C57_uncached {α : Type} (decode : Bytes → Option α) (b u : Url t) (s : State) (status : Nat) (data : Bytes) :
    getDecoded digest decode false b u (some ⟨status, ⟨data, []⟩⟩) s = (decode data, s) := by
  have e : getDecoded digest decode false b u (some ⟨status, ⟨data, []⟩⟩) s =
      match (Remote.all (data.length + 1) ⟨data, []⟩).bind decode with
      | some x => (some x, s)
      | none => (none, s) := rfl
  rw [e, remote_all, Option.bind_some]
  cases decode data <;> rfl

theorem readerAll_filling {n : Name} {id i : Nat} (fuel : Nat) {got : Bytes} {remote : Remote} {s : State} (h : Filling n id i got remote s) :
    ∃ got' remote', Filling n id i got' remote' (readerAll id fuel s).2 ∧ ∀ d, (readerAll id fuel s).1 = some d → got' = got ++ d := by
  induction fuel generalizing got remote s with
  | zero => exact ⟨got, remote, h, fun d hd => by cases hd⟩
  | succ fuel ih =>
    have key : ∀ {c rem}, remote.read 1 = (some c, rem) → Filling n id i (got ++ c) rem
        { s with readers := s.readers.set id (some ⟨rem, i⟩), files := s.files.modify i (append c) } := by
      intro c rem _
      refine ⟨h.name, ?_, isOpen_set_same h.reader, ?_⟩
      · simp only; rw [modify_eq h.file]; rfl
      · intro j r hj hf
        rcases isOpen_set hj with ⟨e, _⟩ | ⟨_, hj⟩
        · exact e
        · exact h.only j r hj hf
    rcases read_eq id 1 s with ⟨hno, _⟩ | ⟨r, hr, ⟨c, rem, hrr, e⟩ | ⟨rem, hrr, e⟩⟩
    · exact absurd h.reader (hno _)
    · have := isOpen_inj hr h.reader
      subst this
      have hf := key hrr
      cases c with
      | nil =>
        simp only [readerAll, e]
        exact ⟨_, _, hf, fun d hd => by cases hd; rfl⟩
      | cons x xs =>
        simp only [readerAll, e]
        obtain ⟨g, r2, h1, h2⟩ := ih hf
        refine ⟨g, r2, h1, ?_⟩
        intro d hd
        rw [Option.map_eq_some_iff] at hd
        obtain ⟨d', hd', rfl⟩ := hd
        rw [h2 d' hd', List.append_assoc]
    · have := isOpen_inj hr h.reader
      subst this
      simp only [readerAll, e]
      refine ⟨got, rem, ⟨h.name, h.file, isOpen_set_same (files := s.files) hr, ?_⟩, fun d hd => by cases hd⟩
      intro j r hj hf
      rcases isOpen_set (files := s.files) hj with ⟨e, _⟩ | ⟨_, hj⟩
      · exact e
      · exact h.only j r hj hf

/-- C57: when the answer can't be read or decoded, nothing is kept: the next attempt asks the server. -/
theorem C57_dropped {α : Type} {decode : Bytes → Option α} {b u : Url t} {s s' : State} {answer : Option Response}
    (h : getDecoded digest decode true b u answer s = (none, s')) : remoteGet digest b u s' = none := by
  have dropped : ∀ s : State, remoteGet digest b u (dropUrl digest true b u s) = none := by
    intro s
    simp only [dropUrl, if_true, remoteDrop, remoteGet, get, drop]
    rfl
  unfold getDecoded at h
  rcases hf : fromUrl digest true b u answer s with ⟨_ | o, s1⟩
  · rw [hf] at h
    cases h
    unfold fromUrl at hf
    simp only [if_true] at hf
    cases hg : remoteGet digest b u s with
    | some p => rw [hg] at hf; cases hf
    | none =>
      rw [hg] at hf
      simp only at hf
      cases answer with
      | none => cases hf; exact hg
      | some resp =>
        simp only at hf
        split at hf <;> cases hf
        exact hg
  · rw [hf] at h
    cases o with
    | gz data fin =>
      simp only at h
      generalize (if fin = true then decode data else none) = o at h
      cases o <;> cases h
      exact dropped _
    | remote r =>
      simp only at h
      generalize (r.all r.fuel).bind decode = o at h
      cases o <;> cases h
      exact dropped _
    | cached id =>
      simp only at h
      rcases hra : readerAll id ((answer.map fun r => r.body.fuel).getD 0) s1 with ⟨d, s2⟩
      rw [hra] at h
      simp only at h
      cases hd : d.bind decode with
      | some x => rw [hd] at h; cases h
      | none => rw [hd] at h; cases h; exact dropped _

/-- C57: and when it is decoded, the next attempt gives the same value without asking, whatever happens in between,
as long as the entry is not removed. -/
theorem C57_kept (hd : GoodDigest digest U) {α : Type} {decode : Bytes → Option α} {b u : Url t} (hb : U b.val) (hu : U u.val) {s s' : State}
    (hr : Reachable (t := t) digest U s) (hw : ∀ id r, IsOpen s id r → s.names (httpName digest b u) ≠ some r.file) {answer : Option Response} {x : α}
    (h : getDecoded digest decode true b u answer s = (some x, s')) {later : List (Op t)} (hl : Within U later)
    (hk : ∀ op ∈ later, op.removes ≠ some (.content b u)) (answer' : Option Response) :
    (getDecoded digest decode true b u answer' (run digest later s').2).1 = some x := by
  have hbd := reachable_bounded hr
  have fin : ∀ {i data} {s1 : State}, Settled (httpName digest b u) i (.gz data true) s1 → decode data = some x →
      (getDecoded digest decode true b u answer' (run digest later s1).2).1 = some x := by
    intro i data s1 hs hx
    have := (run_settled hd later (k := .content b u) hs (by simp [Key.urls, hb, hu]) hl hk).get
    rw [show Key.name digest (.content b u) = httpName digest b u from rfl] at this
    unfold getDecoded fromUrl remoteGet
    simp only [if_true, this, Option.map_some, decompress, hx]
  unfold getDecoded fromUrl at h
  simp only [if_true] at h
  cases hg : remoteGet digest b u s with
  | some p =>
    obtain ⟨data, f⟩ := p
    rw [hg] at h
    simp only at h
    cases f with
    | false => simp only [Bool.false_eq_true, if_false] at h; cases h
    | true =>
      simp only [if_true] at h
      cases hx : decode data with
      | none => rw [hx] at h; cases h
      | some y =>
        rw [hx] at h
        cases h
        unfold remoteGet get at hg
        rw [Option.map_eq_some_iff] at hg
        obtain ⟨f, h1, h2⟩ := hg
        rw [Option.bind_eq_some_iff] at h1
        obtain ⟨i, h3, h4⟩ := h1
        cases f with
        | raw _ => cases h2
        | gz d g =>
          cases h2
          exact fin ⟨h3, h4, fun id r ho e => hw id r ho (by rw [h3, e])⟩ hx
  | none =>
    rw [hg] at h
    simp only at h
    cases answer with
    | none => cases h
    | some resp =>
      simp only at h
      cases hc : remoteAdd digest b u resp.body s with
      | none => rw [hc] at h; cases h
      | some s1 =>
        rw [hc] at h
        simp only [Option.map_some, Option.getD_some] at h
        obtain ⟨g, r2, h1, h2⟩ := readerAll_filling resp.body.fuel (add_filling hbd hc)
        rcases hra : readerAll s.readers.length resp.body.fuel s1 with ⟨d, s2⟩
        rw [hra] at h h1 h2
        simp only at h h1 h2
        cases d with
        | none => cases h
        | some d =>
          simp only [Option.bind_some] at h
          cases hx : decode d with
          | none => rw [hx] at h; cases h
          | some y =>
            rw [hx] at h
            cases h
            have := h2 d rfl
            rw [List.nil_append] at this
            subst this
            exact fin (close_filling h1) hx

/-! ### C79: error answers -/

/-- C79 does not hold: the status is not looked at, neither when a log is opened, nor when a directory is listed; an
error page is read, and cached, as the log. -/
theorem C79_false (useCache : Bool) (b u : Url t) (body : Remote) (s : State) (status : Nat) :
    fromUrl digest useCache b u (some ⟨status, body⟩) s = fromUrl digest useCache b u (some ⟨200, body⟩) s ∧
    ∀ {O E : Type} (join : List Char → Option (LJ.Crawler.Url O)) (e e' : E) (text : List Char),
      httpList join e e' (some (status, text)) = httpList join e e' (some (200, text)) := by
  refine ⟨?_, fun _ _ _ _ => rfl⟩
  unfold fromUrl
  rfl

/-- The consequence: a 404 is a log with the text of the page, now and later. -/
theorem C79_witness : ∃ (s : State), fromUrl demoDigest true (demoUrl "b") (demoUrl "u") (some ⟨404, ⟨[78, 111], []⟩⟩) State.empty = (some (.cached 0), s) ∧
    (∀ s' : State, s' = (run (t := demoTexts) demoDigest [.read 0 10, .read 0 10, .close 0] s).2 →
      fromUrl demoDigest true (demoUrl "b") (demoUrl "u") none s' = (some (.gz [78, 111] true), s')) ∧
    httpList (O := Unit) (fun _ => none) () () (some (404, "Not found".toList)) = .links [] := by
  refine ⟨_, rfl, ?_, by decide +kernel⟩
  rintro s' rfl
  exact Prod.ext (by decide +kernel) rfl

/-- C79, what is left: without an answer there is an error, and nothing is kept. -/
theorem C79_partial (b u : Url t) (s : State) (hn : remoteGet digest b u s = none) : fromUrl digest true b u none s = (none, s) ∧
    fromUrl digest false b u none s = (none, s) := by
  constructor
  · unfold fromUrl; simp only [if_true, hn]
  · rfl

/-! ### The hypotheses are met -/

/-- the URLs of the examples -/
def DemoUrls (s : String) : Prop := s = "b" ∨ s = "u" ∨ s = "v"

theorem demoDigest_good : GoodDigest demoDigest DemoUrls where
  length s := by simp [demoDigest]
  slash s h := by
    unfold demoDigest at h
    have := List.mem_of_mem_take h
    rw [List.mem_append] at this
    rcases this with h | h
    · simp at h
    · exact absurd (List.eq_of_mem_replicate h) (by decide)
  inj := by
    rintro a b (rfl | rfl | rfl) (rfl | rfl | rfl) h
    · rfl
    · exact absurd h (by decide +kernel)
    · exact absurd h (by decide +kernel)
    · exact absurd h (by decide +kernel)
    · rfl
    · exact absurd h (by decide +kernel)
    · exact absurd h (by decide +kernel)
    · exact absurd h (by decide +kernel)
    · rfl

/-- a history with a HEAD result, a listing and another reader -/
def demoHistory : List (Op demoTexts) :=
  [.headSet (demoUrl "b") (demoUrl "v") false, .httpdirAdd (demoUrl "u") [demoUrl "x"], .remoteAdd (demoUrl "b") (demoUrl "v") ⟨[9, 9], []⟩, .read 0 1]

theorem demoHistory_within : Within DemoUrls demoHistory := by
  have hb : DemoUrls (demoUrl "b").val := .inl rfl
  have hu : DemoUrls (demoUrl "u").val := .inr (.inl rfl)
  have hv : DemoUrls (demoUrl "v").val := .inr (.inr rfl)
  unfold Within demoHistory
  simp only [List.forall_mem_cons, Op.urls, List.not_mem_nil, false_implies, implies_true, and_true, hb, hu, hv]

/-- `C53_reader`, `C53_cached`: a body of three bytes read in three reads, while another reader works, then a crash. -/
example : ∃ s, Reachable (t := demoTexts) demoDigest DemoUrls s ∧
    (step demoDigest (.remoteAdd (demoUrl "b") (demoUrl "u") ⟨[1, 2, 3], [.short 0]⟩) s).1 = .reader 1 ∧
    (step (t := demoTexts) demoDigest (.read 1 2) (run (t := demoTexts) demoDigest [.read 1 5, .read 0 1, .close 0, .read 1 7]
      (step demoDigest (.remoteAdd (demoUrl "b") (demoUrl "u") ⟨[1, 2, 3], [.short 0]⟩) s).2).2).1 = .bytes [] ∧
    remoteGet demoDigest (demoUrl "b") (demoUrl "u") (run (t := demoTexts) demoDigest [.read 1 5, .read 0 1, .close 0, .read 1 7, .read 1 2, .close 1, .crash fun _ => 0]
      (step demoDigest (.remoteAdd (demoUrl "b") (demoUrl "u") ⟨[1, 2, 3], [.short 0]⟩) s).2).2 = some ([1, 2, 3], true) :=
  ⟨_, ⟨demoHistory, demoHistory_within, rfl⟩, by decide +kernel, by decide +kernel, by decide +kernel⟩

/-- `C52_partial`, `C52_url`: a pair without a result. -/
example : ∃ s, Reachable (t := demoTexts) demoDigest DemoUrls s ∧ head demoDigest (demoUrl "b") (demoUrl "u") s = none ∧
    head demoDigest (demoUrl "b") (demoUrl "v") s = some false ∧
    (headUrl demoDigest true (demoUrl "b") (demoUrl "u") (some 204) s).1 = some true :=
  ⟨_, ⟨demoHistory, demoHistory_within, rfl⟩, by decide +kernel, by decide +kernel, by decide +kernel⟩

/-- `C56_listing`, `C56_false`: a listing which is added, and one which can be. -/
example : ∃ s, Reachable (t := demoTexts) demoDigest DemoUrls s ∧ httpdirGet demoDigest (demoUrl "u") s = some (some [demoUrl "x"]) ∧
    s.names (httpdirName demoDigest (demoUrl "b")) = none ∧ ((LJ.Codec.listing demoTexts).enc [demoUrl "x", demoUrl "y"]).isSome = true :=
  ⟨_, ⟨demoHistory, demoHistory_within, rfl⟩, by decide +kernel, by decide +kernel, by decide +kernel⟩

/-- `C57_dropped`, `C57_kept`: a body which does not decode, and one which does. -/
example : (getDecoded demoDigest (fun b => if b = [1] then some 7 else none) true (demoUrl "b") (demoUrl "u") (some ⟨200, ⟨[2, 3], []⟩⟩) State.empty).1 = none ∧
    (getDecoded demoDigest (fun b => if b = [1] then some 7 else none) true (demoUrl "b") (demoUrl "u") (some ⟨200, ⟨[1], []⟩⟩) State.empty).1 = some 7 := by
  decide +kernel

end LJ.Cache

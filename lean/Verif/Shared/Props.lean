/-
C117, what runs at the same time get from the cache, and C118, what is left in the cache.
-/
import Verif.Shared.Lemmas
import Verif.Codec.Props
import Verif.Cache.Props
namespace LJ.Shared
open LJ.Codec (Bytes Texts Url)
open LJ.Cache (Remote demoTexts demoUrl)

variable {t : Texts} {g : Gz} {site : Site t}

theorem Along.imp {P P' : State t → Event t → Prop} (h : ∀ s e, P s e → P' s e) {es : List (Event t)} {s : State t} (ha : Along g P es s) : Along g P' es s := by
  induction es generalizing s with
  | nil => trivial
  | cons e es ih => exact ⟨h _ _ ha.1, ih ha.2⟩

theorem load_full (hs : Savable site) (url : Url t) : LJ.Codec.load (LJ.Codec.listing t) (full g site (.listing url)) = some (site.dirs url) := by
  obtain ⟨b, hb⟩ := Option.isSome_iff_exists.1 (hs url)
  have := LJ.Codec.C70_listing t hb []
  rw [List.append_nil] at this
  simp only [full, hb, Option.getD_some]
  exact this.2

/-- a part of the file of a job gives what the servers have, or an error -/
theorem pre_right (hg : GoodGz g) (hs : Savable site) (j : Job t) (raw : Bytes) (h : raw <+: full g site j.key) : Right site j (decoded g j raw) := by
  cases j with
  | content b u =>
    simp only [decoded]
    by_cases e : raw = g.enc (site.docs u)
    · subst e; rw [hg.round]; exact .data b u
    · rw [hg.cut _ _ h e]; exact .error _
  | listing u =>
    simp only [decoded]
    by_cases e : raw = full g site (.listing u)
    · subst e; rw [load_full hs]; exact .urls u
    · obtain ⟨b, hb⟩ := Option.isSome_iff_exists.1 (hs u)
      have hf : full g site (.listing u) = b := by simp [full, hb]
      rw [(LJ.Codec.C80_truncated t).2.2.2 _ b raw hb (hf ▸ h) (hf ▸ e)]
      exact .error _
  | head b u => exact .error _

/-- C117: the servers do not change, the network gives what they have, the file of a download which does not come to its end (the
network or the disk fails, the reader is dropped) is left as it is, and no process creates a file which another one created since it
checked that there was none.  Then, whatever the schedule of the system calls of any number of processes, killed or not, whichever
entries are removed from the cache meanwhile, whichever accesses to the disk fail, what a run gets is what the servers have, or an
error. -/
theorem C117_partial (hg : GoodGz g) (hs : Savable site) (es : List (Event t))
    (ha : Along g (fun s e => Honest site s e ∧ Careful s e ∧ NoRace s e) es State.empty)
    {a : Nat} {j : Job t} {r : Result t} (h : (run g es State.empty).jobs a = some (j, .done r)) : Right site j r := by
  have hi := run_inv pre_rules (strict := false) (K := fun _ => True) hg hs (fun j raw _ hp => pre_right hg hs j raw (pre_iff.1 hp)) inv_empty es
    (ha.imp fun s e h => ⟨h.1, (fun h => by cases h), fun _ => h.2.1, fun _ => h.2.2⟩)
  exact hi.jobs a j _ h trivial

/-- C117, for files and HEAD requests, when processes may create the same file one after the other. -/
theorem C117_race (hg : GoodGz g) (hc : Checked g) (hs : Savable site) (es : List (Event t))
    (ha : Along g (fun s e => Honest site s e ∧ Careful s e) es State.empty)
    {a : Nat} {j : Job t} {r : Result t} (h : (run g es State.empty).jobs a = some (j, .done r)) (hj : ∀ url, j ≠ .listing url) : Right site j r := by
  have hi := run_inv mix_rules (strict := false) (K := fun j => ∀ url, j ≠ .listing url) (g := g) hg hs ?_ inv_empty es
    (ha.imp fun s e h => ⟨h.1, (fun h => by cases h), fun _ => h.2, fun h => by cases h⟩)
  · exact hi.jobs a j _ h hj
  · intro j raw hj hp
    cases j with
    | content b u =>
      simp only [decoded]
      cases hd : g.dec raw with
      | mk x ok =>
        cases ok with
        | true => have := hc _ _ _ hp hd; subst this; exact .data b u
        | false => exact .error _
    | listing u => exact absurd rfl (hj u)
    | head b u => exact .error _

theorem run_append (es es' : List (Event t)) (s : State t) : run g (es ++ es') s = run g es' (run g es s) := by
  induction es generalizing s with
  | nil => rfl
  | cons e es ih => exact ih _

/-- a job which asks the network itself -/
def Own (site : Site t) (j : Job t) : Pc t → Prop
  | .answered ans | .checked ans => Tells site j ans
  | .filling _ _ given r => ∃ b u, j = .content b u ∧ given ++ r.rest = site.docs u
  | .flushing _ _ _ r => Right site j r
  | .done r => Right site j r
  | _ => False

theorem openNew_jobs (s : State t) (k : Key t) : (s.openNew k).2.jobs = s.jobs := by
  unfold State.openNew; split <;> rfl

theorem at_jobs {s : State t} {a b : Nat} {j : Job t} {pc : Pc t} : (s.at a j pc).jobs b = if b = a then some (j, pc) else s.jobs b := rfl

theorem own_at {s s' : State t} (hs' : s'.jobs = s.jobs) {a b : Nat} {j j' : Job t} {pc' : Pc t} (h : ∃ pc, s.jobs a = some (j, pc) ∧ Own site j pc)
    (hb : b = a → j' = j ∧ Own site j pc') : ∃ pc, (s'.at b j' pc').jobs a = some (j, pc) ∧ Own site j pc := by
  by_cases e : a = b
  · obtain ⟨rfl, h2⟩ := hb e.symm
    exact ⟨pc', by rw [at_jobs, if_pos e], h2⟩
  · obtain ⟨pc, h1, h2⟩ := h
    exact ⟨pc, by rw [at_jobs, if_neg e, hs', h1], h2⟩

theorem step_own {s : State t} {a : Nat} {j : Job t} (h : ∃ pc, s.jobs a = some (j, pc) ∧ Own site j pc) (e : Event t) (ha : Honest site s e) :
    ∃ pc, (step g s e).jobs a = some (j, pc) ∧ Own site j pc := by
  have hsame : ∃ pc, s.jobs a = some (j, pc) ∧ Own site j pc := h
  obtain ⟨pc, h1, h2⟩ := h
  cases e with
  | begins b j' =>
    simp only [step]
    split
    · exact hsame
    · rename_i hn
      refine own_at rfl hsame fun e => ?_
      subst e
      rw [h1] at hn
      exact absurd rfl hn
  | call b =>
    simp only [step, call]
    cases hb : s.jobs b with
    | none => exact hsame
    | some q =>
      obtain ⟨j', pc'⟩ := q
      have same : b = a → j' = j ∧ Own site j pc' := by
        intro e; subst e; rw [h1] at hb; cases hb; exact ⟨rfl, h2⟩
      cases pc' with
      | start => exact own_at rfl hsame fun e => (same e).2.elim
      | second => cases j' <;> first | exact hsame | exact own_at rfl hsame fun e => (same e).2.elim
      | found => exact own_at rfl hsame fun e => (same e).2.elim
      | answered ans =>
        refine own_at rfl hsame fun e => ?_
        obtain ⟨rfl, h3⟩ := same e
        refine ⟨rfl, ?_⟩
        cases hm : j'.makes ans with
        | none => exact .error _
        | some k => simp only; split; exacts [.error _, h3]
      | checked ans =>
        simp only
        cases hm : j'.makes ans with
        | none => exact hsame
        | some k =>
          refine own_at (openNew_jobs s k) hsame fun e => ?_
          obtain ⟨rfl, h3⟩ := same e
          refine ⟨rfl, ?_⟩
          cases h3 with
          | body b u r hr => exact ⟨b, u, rfl, hr⟩
          | urls u =>
            simp only [begins]
            split
            · exact .urls u
            · exact .error _
          | status b u => exact .status b u
      | flushing i pos out r =>
        simp only
        split
        · exact own_at rfl hsame fun e => ⟨(same e).1, (same e).2⟩
        · exact hsame
      | _ => exact hsame
  | reply b ans =>
    simp only [step, reply]
    split
    · rename_i j' hb
      refine own_at rfl hsame fun e => ?_
      subst e
      rw [h1] at hb
      cases hb
      exact h2.elim
    · exact hsame
  | read b n =>
    simp only [step, read]
    split
    · rename_i j' i raw hb
      have : b = a → False := by intro e; subst e; rw [h1] at hb; cases hb; exact h2
      split <;> exact own_at rfl hsame fun e => (this e).elim
    · rename_i j' i pos given r hb
      have same : b = a → j' = j ∧ Own site j (.filling i pos given r) := by
        intro e; subst e; rw [h1] at hb; cases hb; exact ⟨rfl, h2⟩
      split
      · exact own_at rfl hsame fun e => ⟨(same e).1, .error _⟩
      · rename_i r' hr
        refine own_at rfl hsame fun e => ?_
        obtain ⟨rfl, b', u, rfl, h3⟩ := same e
        refine ⟨rfl, ?_⟩
        have : given = site.docs u := by rw [← h3, (read_some hr).2.1 rfl, List.append_nil]
        subst this
        exact .data b' u
      · rename_i c r' _ hr
        refine own_at rfl hsame fun e => ?_
        obtain ⟨rfl, b', u, rfl, h3⟩ := same e
        refine ⟨rfl, b', u, rfl, ?_⟩
        rw [List.append_assoc, (read_some hr).1, h3]
    · exact hsame
  | emit b k =>
    simp only [step, emit]
    split
    · rename_i j' i pos given r hb
      refine own_at rfl hsame fun e => ?_
      subst e; rw [h1] at hb; cases hb; exact ⟨rfl, h2⟩
    · rename_i j' i pos out r hb
      refine own_at rfl hsame fun e => ?_
      subst e; rw [h1] at hb; cases hb; exact ⟨rfl, h2⟩
    · exact hsame
  | close b =>
    simp only [step, close]
    split
    · rename_i j' i raw hb
      refine own_at rfl hsame fun e => ?_
      subst e; rw [h1] at hb; cases hb; exact ⟨rfl, .error _⟩
    · rename_i j' i pos given r hb
      refine own_at rfl hsame fun e => ?_
      subst e; rw [h1] at hb; cases hb; exact ⟨rfl, .error _⟩
    · exact hsame
  | kill b =>
    simp only [step, kill]
    split
    · rename_i j' r hb
      refine own_at rfl hsame fun e => ?_
      subst e; rw [h1] at hb; cases hb; exact ⟨rfl, h2⟩
    · rename_i j' pc' _ hb
      refine own_at rfl hsame fun e => ?_
      subst e; rw [h1] at hb; cases hb; exact ⟨rfl, .error _⟩
    · exact hsame
  | fault b k =>
    simp only [step, fault]
    cases hb : s.jobs b with
    | none => exact hsame
    | some q =>
      obtain ⟨j', pc'⟩ := q
      have same : b = a → j' = j ∧ Own site j pc' := by
        intro e; subst e; rw [h1] at hb; cases hb; exact ⟨rfl, h2⟩
      cases pc' with
      | answered ans =>
        refine own_at rfl hsame fun e => ?_
        obtain ⟨rfl, h3⟩ := same e
        refine ⟨rfl, ?_⟩
        cases hm : j'.makes ans with
        | none => exact .error _
        | some k => exact h3
      | flushing i pos out r =>
        refine own_at rfl hsame fun e => ?_
        obtain ⟨rfl, h3⟩ := same e
        refine ⟨rfl, ?_⟩
        cases j' with
        | listing u => exact .error _
        | _ => exact h3
      | start => exact own_at rfl hsame fun e => (same e).2.elim
      | second => exact own_at rfl hsame fun e => (same e).2.elim
      | found => exact own_at rfl hsame fun e => (same e).2.elim
      | reading i raw => exact own_at rfl hsame fun e => (same e).2.elim
      | checked ans => exact own_at rfl hsame fun e => ⟨(same e).1, .error _⟩
      | filling i pos given r => exact own_at rfl hsame fun e => ⟨(same e).1, .error _⟩
      | _ => exact hsame
  | unlink k => exact hsame

theorem run_own {s : State t} {a : Nat} {j : Job t} (h : ∃ pc, s.jobs a = some (j, pc) ∧ Own site j pc) (es : List (Event t)) (ha : Along g (Honest site) es s) :
    ∃ pc, (run g es s).jobs a = some (j, pc) ∧ Own site j pc := by
  induction es generalizing s with
  | nil => exact h
  | cons e es ih => exact ih (step_own h e ha.1) ha.2

/-- C117, for a run which asks the network itself: whatever the others do, whatever is in the cache, and even if the network fails
during the download or if the reader is dropped, what it gets is what the servers have, or an error. -/
theorem C117_own (es es' : List (Event t)) (s : State t) {a : Nat} {j : Job t} {ans : Answer t} (hj : (run g es s).jobs a = some (j, .missing))
    (ha : Along g (Honest site) (es ++ .reply a (some ans) :: es') s)
    {r : Result t} (h : (run g (es ++ .reply a (some ans) :: es') s).jobs a = some (j, .done r)) : Right site j r := by
  have hsplit : ∀ (es : List (Event t)) (s : State t), Along g (Honest site) (es ++ .reply a (some ans) :: es') s →
      Along g (Honest site) (.reply a (some ans) :: es') (run g es s) := by
    intro es
    induction es with
    | nil => intro s h; exact h
    | cons e es ih => intro s h; exact ih _ h.2
  obtain ⟨h1, h2⟩ := hsplit es s ha
  rw [run_append] at h
  have h0 : ∃ pc, (step g (run g es s) (.reply a (some ans))).jobs a = some (j, pc) ∧ Own site j pc :=
    ⟨.answered ans, by simp only [step, reply, hj, at_jobs, if_true], h1 j hj⟩
  obtain ⟨pc, h3, h4⟩ := run_own h0 es' h2
  have h : (run g es' (step g (run g es s) (.reply a (some ans)))).jobs a = some (j, .done r) := h
  rw [h] at h3
  cases h3
  exact h4

/-! ### What is left in the cache -/

/-- A job which writes the file `i`, from the position `pos` -/
inductive Writes (i pos : Nat) : Pc t → Prop
  | filling (given r) : Writes i pos (.filling i pos given r)
  | flushing (out r) : Writes i pos (.flushing i pos out r)

/-- Every byte of a file is the right one, or some job is going to write it. -/
def Cover (g : Gz) (site : Site t) (s : State t) : Prop :=
  ∀ (i : Nat) (f : File t), s.files[i]? = some f → ∀ p, p < (full g site f.key).length →
    f.bytes[p]? = (full g site f.key)[p]? ∨ ∃ a j pc pos, s.jobs a = some (j, pc) ∧ Writes i pos pc ∧ pos ≤ p

/-- No process is killed, and the disk does not fail. -/
def Alive (_ : State t) : Event t → Prop
  | .kill _ | .fault _ _ => False
  | _ => True

theorem Cover.at {s : State t} (h : Cover g site s) {a : Nat} {j : Job t} {pc pc' : Pc t} (hj : s.jobs a = some (j, pc))
    (hk : ∀ i pos, Writes i pos pc → Writes i pos pc' ∨ ∀ f, s.files[i]? = some f → (full g site f.key).length ≤ pos) : Cover g site (s.at a j pc') := by
  intro i f hf p hp
  rcases h i f hf p hp with h1 | ⟨b, j', pc1, pos, h1, h2, h3⟩
  · exact .inl h1
  · by_cases e : b = a
    · subst e
      rw [hj] at h1
      cases h1
      rcases hk i pos h2 with h4 | h4
      · exact .inr ⟨b, j, pc', pos, by simp [State.at], h4, h3⟩
      · have := h4 f hf; omega
    · exact .inr ⟨b, j', pc1, pos, by simp [State.at, e, h1], h2, h3⟩

/-- a job which does not write moves -/
theorem Cover.calm {s : State t} (h : Cover g site s) {a : Nat} {j : Job t} {pc pc' : Pc t} (hj : s.jobs a = some (j, pc))
    (hk : ∀ i pos, ¬ Writes i pos pc) : Cover g site (s.at a j pc') := h.at hj fun i pos hw => absurd hw (hk i pos)

theorem Cover.write {s : State t} (h : Cover g site s) {a i pos n : Nat} {j : Job t} {k : Key t} {pc pc' : Pc t} (hj : s.jobs a = some (j, pc))
    (hw : Writes i pos pc) (hf : ∃ f, s.files[i]? = some f ∧ f.key = k)
    (hw' : Writes i (pos + (((full g site k).drop pos).take n).length) pc') :
    Cover g site ((s.write i pos (((full g site k).drop pos).take n)).at a j pc') := by
  obtain ⟨f0, h0, rfl⟩ := hf
  intro i' f' hf' p hp
  obtain ⟨f, hf, rfl⟩ := write_file' hf'
  have hother : ∀ {b : Nat} {j' : Job t} {pc1 : Pc t}, s.jobs b = some (j', pc1) → b ≠ a →
      ((s.write i pos (((full g site f0.key).drop pos).take n)).at a j pc').jobs b = some (j', pc1) := by
    intro b j' pc1 hb hne
    simp [State.at, State.write, hne, hb]
  by_cases e : i = i'
  · subst e
    rw [h0] at hf
    cases hf
    rw [if_pos rfl] at hp ⊢
    simp only at hp ⊢
    rw [writeAt_get]
    split
    · rename_i hb
      rcases h i f0 h0 p hp with h1 | ⟨b, j', pc1, pos', h1, h2, h3⟩
      · exact .inl h1
      · right
        by_cases e : b = a
        · subst e
          rw [hj] at h1
          cases h1
          have : pos' = pos := by cases h2 <;> cases hw <;> rfl
          subst this
          refine ⟨b, j, pc', _, by simp [State.at], hw', ?_⟩
          rw [hb]
          simpa using h3
        · exact ⟨b, j', pc1, pos', hother h1 e, h2, h3⟩
    · rename_i hb
      by_cases hin : pos ≤ p ∧ p < pos + (((full g site f0.key).drop pos).take n).length
      · left
        rw [if_pos (by omega), if_pos hin]
        have h2 := hin.2
        rw [List.length_take, List.length_drop] at h2
        rw [List.getD_eq_getElem?_getD, List.getElem?_take_of_lt (by omega), List.getElem?_drop, show pos + (p - pos) = p by omega,
          List.getElem?_eq_getElem hp, Option.getD_some]
      · rcases h i f0 h0 p hp with h1 | ⟨b, j', pc1, pos', h1, h2, h3⟩
        · left
          have hl : p < f0.bytes.length := by
            rw [List.getElem?_eq_getElem hp] at h1
            exact (List.getElem?_eq_some_iff.1 h1).1
          rw [if_pos (by omega), if_neg hin, List.getD_eq_getElem?_getD, ← h1, List.getElem?_eq_getElem hl, Option.getD_some]
        · right
          by_cases e : b = a
          · subst e
            rw [hj] at h1
            cases h1
            have : pos' = pos := by cases h2 <;> cases hw <;> rfl
            subst this
            exact ⟨b, j, pc', _, by simp [State.at], hw', by omega⟩
          · exact ⟨b, j', pc1, pos', hother h1 e, h2, h3⟩
  · rw [if_neg e] at hp ⊢
    rcases h i' f hf p hp with h1 | ⟨b, j', pc1, pos', h1, h2, h3⟩
    · exact .inl h1
    · right
      by_cases e' : b = a
      · subst e'
        rw [hj] at h1
        cases h1
        cases hw <;> cases h2 <;> exact absurd rfl e
      · exact ⟨b, j', pc1, pos', hother h1 e', h2, h3⟩

theorem writes_done {i pos : Nat} {r : Result t} (h : Writes i pos (.done r)) : False := by cases h

theorem Cover.openNew {s : State t} (h : Cover g site s) {a : Nat} {j : Job t} {ans : Answer t} {k : Key t}
    (hj : s.jobs a = some (j, .checked ans)) (hn : ∀ i, s.names k = some i → ∃ f, s.files[i]? = some f ∧ f.key = k)
    (hw : ∀ i, Writes i 0 (begins i ans) ∨ full g site k = []) : Cover g site ((s.openNew k).2.at a j (begins (s.openNew k).1 ans)) := by
  have hother : ∀ {s' : State t} {b : Nat} {j' : Job t} {pc1 : Pc t} {i pos : Nat} {pc' : Pc t}, s'.jobs = s.jobs → s.jobs b = some (j', pc1) → Writes i pos pc1 →
      (s'.at a j pc').jobs b = some (j', pc1) := by
    intro s' b j' pc1 i pos pc' hs' hb hw
    by_cases e : b = a
    · subst e; rw [hj] at hb; cases hb; cases hw
    · simp [State.at, e, hs', hb]
  cases hk : s.names k with
  | none =>
    rw [openNew_none hk]
    intro i f hf p hp
    simp only [State.at] at hf
    by_cases hi : i < s.files.length
    · rw [List.getElem?_append_left hi] at hf
      rcases h i f hf p hp with h1 | ⟨b, j', pc1, pos, h1, h2, h3⟩
      · exact .inl h1
      · exact .inr ⟨b, j', pc1, pos, hother rfl h1 h2, h2, h3⟩
    · have hi2 := (List.getElem?_eq_some_iff.1 hf).1
      rw [List.length_append, List.length_singleton] at hi2
      have : i = s.files.length := by omega
      subst this
      simp at hf
      subst hf
      right
      rcases hw s.files.length with h1 | h1
      · exact ⟨a, j, _, 0, by simp [State.at], h1, by omega⟩
      · rw [h1] at hp; exact absurd hp (by simp)
  | some i0 =>
    rw [openNew_some hk]
    obtain ⟨f0, h0, rfl⟩ := hn i0 hk
    intro i f hf p hp
    simp only [State.at] at hf
    by_cases e : i0 = i
    · subst e
      rw [List.getElem?_modify, h0] at hf
      simp only [if_true, Option.map_eq_map, Option.map_some, Option.some.injEq] at hf
      subst hf
      right
      rcases hw i0 with h1 | h1
      · exact ⟨a, j, _, 0, by simp [State.at], h1, by omega⟩
      · simp only at hp; rw [h1] at hp; exact absurd hp (by simp)
    · rw [List.getElem?_modify] at hf
      have hf : s.files[i]? = some f := by cases hs : s.files[i]? <;> simp [hs, e] at hf ⊢; exact hf
      rcases h i f hf p hp with h1 | ⟨b, j', pc1, pos, h1, h2, h3⟩
      · exact .inl h1
      · exact .inr ⟨b, j', pc1, pos, hother rfl h1 h2, h2, h3⟩

theorem step_cover (hg : GoodGz g) (hs : Savable site) {K : Job t → Prop} {s : State t} (hi : Inv g true site K Mix (fun _ _ => True) s) (h : Cover g site s) (e : Event t)
    (ha : Allowed true true site s e) (hl : Alive s e) : Cover g site (step g s e) := by
  cases e with
  | begins a j =>
    simp only [step]
    split
    · exact h
    · rename_i hn
      intro i f hf p hp
      rcases h i f hf p hp with h1 | ⟨b, j', pc1, pos, h1, h2, h3⟩
      · exact .inl h1
      · refine .inr ⟨b, j', pc1, pos, ?_, h2, h3⟩
        have : b ≠ a := by rintro rfl; rw [h1] at hn; exact hn rfl
        simp [State.at, this, h1]
  | call a =>
    simp only [step, call]
    cases hj : s.jobs a with
    | none => exact h
    | some q =>
      obtain ⟨j, pc⟩ := q
      have ho := hi.jobs a j pc hj
      cases pc with
      | start => exact h.calm hj (by intro _ _ h; cases h)
      | second => cases j <;> first | exact h | exact h.calm hj (by intro _ _ h; cases h)
      | found => exact h.calm hj (by intro _ _ h; cases h)
      | answered ans => exact h.calm hj (by intro _ _ h; cases h)
      | checked ans =>
        simp only
        cases hm : j.makes ans with
        | none => exact h
        | some k =>
          simp only
          refine h.openNew hj (fun i hn => hi.names k i hn) fun i => ?_
          obtain ⟨ht, -⟩ := ho
          cases ht with
          | body b u r hr => exact .inl (.filling _ _)
          | urls u =>
            obtain ⟨out, hout⟩ := Option.isSome_iff_exists.1 (hs u)
            left
            simp only [begins, hout]
            exact .flushing _ _
          | status b u =>
            right
            simp only [Job.makes, Option.some.injEq] at hm
            subst hm
            split <;> rfl
      | flushing i pos out r =>
        simp only
        split
        · rename_i hp
          refine h.at hj fun i' pos' hw => ?_
          cases hw
          right
          intro f hf
          obtain ⟨rfl | ⟨he, -⟩, -, f', hf', hk, -⟩ := ho
          rotate_left
          · cases he
          rw [hf] at hf'
          cases hf'
          rw [hk]
          omega
        · exact h
      | _ => exact h
  | reply a ans =>
    simp only [step, reply]
    split
    · rename_i j hj
      exact h.calm hj (by intro _ _ h; cases h)
    · exact h
  | read a n =>
    simp only [step, read]
    split
    · rename_i j i raw hj
      split <;> exact h.calm hj (by intro _ _ h; cases h)
    · rename_i j i pos given r hj
      split
      · exact h.at hj fun i pos hw => by cases hw; exact .inl (.flushing _ _)
      · exact h.at hj fun i pos hw => by cases hw; exact .inl (.flushing _ _)
      · exact h.at hj fun i pos hw => by cases hw; exact .inl (.filling _ _)
    · exact h
  | emit a k =>
    simp only [step, emit]
    split
    · rename_i j i pos given r hj
      obtain ⟨b, u, rfl, h2, h3, f, h4, h5, -⟩ := hi.jobs a j _ hj
      rw [full_flow hg h2]
      exact h.write (k := .content b u) hj (.filling _ _) ⟨f, h4, h5⟩ (.filling _ _)
    · rename_i j i pos out r hj
      obtain ⟨rfl | ⟨he, -⟩, h2, f, h4, h5, -⟩ := hi.jobs a j _ hj
      rotate_left
      · cases he
      exact h.write (k := j.key) hj (.flushing _ _) ⟨f, h4, h5⟩ (.flushing _ _)
    · exact h
  | close a =>
    simp only [step, close]
    split
    · rename_i j i raw hj
      exact h.calm hj (by intro _ _ h; cases h)
    · rename_i j i pos given r hj
      exact absurd hj (ha.2.1 rfl j i pos given r)
    · exact h
  | kill a => exact absurd hl id
  | fault a k => exact absurd hl id
  | unlink k => exact h

theorem run_cover (hg : GoodGz g) (hs : Savable site) {s : State t} (hi : Inv g true site (fun _ => False) Mix (fun _ _ => True) s) (h : Cover g site s) (es : List (Event t))
    (ha : Along g (fun s e => Allowed true true site s e ∧ Alive s e) es s) :
    Inv g true site (fun _ => False) Mix (fun _ _ => True) (run g es s) ∧ Cover g site (run g es s) := by
  induction es generalizing s with
  | nil => exact ⟨hi, h⟩
  | cons e es ih => exact ih (step_inv mix_rules hg (fun _ _ h => h.elim) hi e ha.1.1 hs) (step_cover hg hs hi h e ha.1.1 ha.1.2) ha.2

theorem full_bytes (hg : GoodGz g) (hs : Savable site) (es : List (Event t))
    (ha : Along g (fun s e => Honest site s e ∧ Patient s e ∧ Alive s e) es State.empty)
    (hd : ∀ a j pc, (run g es State.empty).jobs a = some (j, pc) → ∃ r, pc = .done r)
    {k : Key t} {i : Nat} (hk : (run g es State.empty).names k = some i) :
    ∃ f, (run g es State.empty).files[i]? = some f ∧ f.bytes = full g site k := by
  obtain ⟨hi, hc⟩ := run_cover hg hs inv_empty (fun i f hf => by cases hf) es
    (ha.imp fun s e h => ⟨⟨h.1, fun _ => h.2.1, (fun h => by cases h), fun h => by cases h⟩, h.2.2⟩)
  obtain ⟨f, h1, rfl⟩ := hi.names k i hk
  refine ⟨f, h1, ?_⟩
  apply List.ext_getElem?
  intro p
  by_cases hp : p < (full g site f.key).length
  · rcases hc i f h1 p hp with h2 | ⟨a, j, pc, pos, h2, h3, -⟩
    · exact h2
    · obtain ⟨r, rfl⟩ := hd a j pc h2
      exact (writes_done h3).elim
  · have := (hi.bytes i f h1).1
    rw [List.getElem?_eq_none (by omega), List.getElem?_eq_none (by omega)]

/-- the reads of a job which reads a file, when nothing else happens -/
theorem reads_file (ns : List Nat) (s : State t) (b i : Nat) (j : Job t) (f : File t) (raw : Bytes) (hf : s.files[i]? = some f)
    (hj : s.jobs b = some (j, .reading i raw)) (hp : raw <+: f.bytes) (hn : f.bytes.length - raw.length < ns.length) :
    (run g (ns.map (.read b)) s).jobs b = some (j, .done (decoded g j f.bytes)) := by
  induction ns generalizing s raw with
  | nil => simp at hn
  | cons n ns ih =>
    simp only [List.map_cons, run, step, read, hj, hf, Option.map_some, Option.getD_some]
    obtain ⟨rest, hr⟩ := hp
    split
    · rename_i he
      have : raw = f.bytes := by
        rw [← hr, List.drop_left] at he
        cases rest with
        | nil => rw [List.append_nil] at hr; exact hr
        | cons c cs => cases he
      subst this
      have key : ∀ (ns : List Nat) (s : State t), s.jobs b = some (j, .done (decoded g j f.bytes)) →
          (run g (ns.map (.read b)) s).jobs b = some (j, .done (decoded g j f.bytes)) := by
        intro ns
        induction ns with
        | nil => intro s h; exact h
        | cons m ns ih => intro s h; simp only [List.map_cons, run, step, read, h]; exact ih s h
      exact key _ _ (by simp [State.at])
    · rename_i hne
      have hdrop : f.bytes.drop raw.length = rest := by rw [← hr, List.drop_left]
      rw [hdrop]
      have hpos : 0 < rest.length := by
        cases rest with
        | nil => rw [hdrop] at hne; exact absurd rfl hne
        | cons c cs => simp
      refine ih (s.at b j (.reading i (raw ++ rest.take (n + 1)))) (raw ++ rest.take (n + 1)) ?_ (by simp [State.at]) ?_ ?_
      · exact hf
      · rw [← hr]; exact (List.prefix_append_right_inj _).2 (List.take_prefix _ _)
      · have hl := congrArg List.length hr
        rw [List.length_append] at hl
        simp only [List.length_append, List.length_take, List.length_cons] at hn ⊢
        omega

/-- C118: when all the processes have ended, none of them killed, the cache is sound, whatever their schedule, and even if several of
them wrote the same entry: a new run which asks for an entry which is there gets all that the servers have, without the network, and
whatever the sizes of its reads. -/
theorem C118_partial (hg : GoodGz g) (hs : Savable site) (es : List (Event t))
    (ha : Along g (fun s e => Honest site s e ∧ Patient s e ∧ Alive s e) es State.empty)
    (hd : ∀ a j pc, (run g es State.empty).jobs a = some (j, pc) → ∃ r, pc = .done r)
    {b : Nat} (hb : (run g es State.empty).jobs b = none) :
    (∀ base url, ((run g es State.empty).names (.content base url)).isSome = true → ∃ m, ∀ ns : List Nat, m ≤ ns.length →
      (run g (es ++ [.begins b (.content base url), .call b, .call b] ++ ns.map (.read b)) State.empty).jobs b =
        some (.content base url, .done (.data (site.docs url)))) ∧
    (∀ url, ((run g es State.empty).names (.listing url)).isSome = true → ∃ m, ∀ ns : List Nat, m ≤ ns.length →
      (run g (es ++ [.begins b (.listing url), .call b, .call b] ++ ns.map (.read b)) State.empty).jobs b =
        some (.listing url, .done (.urls (site.dirs url)))) := by
  have key : ∀ j : Job t, (∀ b u, j ≠ .head b u) → ((run g es State.empty).names j.key).isSome = true → ∃ m, ∀ ns : List Nat, m ≤ ns.length →
      (run g (es ++ [.begins b j, .call b, .call b] ++ ns.map (.read b)) State.empty).jobs b = some (j, .done (decoded g j (full g site j.key))) := by
    intro j hj hk
    obtain ⟨i, hi⟩ := Option.isSome_iff_exists.1 hk
    obtain ⟨f, hf, hbytes⟩ := full_bytes hg hs es ha hd hi
    refine ⟨f.bytes.length + 1, fun ns hn => ?_⟩
    rw [run_append, run_append]
    generalize run g es State.empty = s at hb hi hf
    have h3 : run g [.begins b j, .call b, .call b] s = ((s.at b j .start).at b j .found).at b j (.reading i []) := by
      have h1 : (s.at b j .start).jobs b = some (j, .start) := by simp [State.at]
      have h2 : ((s.at b j .start).at b j .found).jobs b = some (j, .found) := by simp [State.at]
      have e1 : call (s.at b j .start) b = (s.at b j .start).at b j .found := by
        unfold call
        rw [h1]
        simp only
        rw [if_pos (show ((s.at b j .start).names j.key).isSome = true by simp [State.at, hi])]
      have e2 : call ((s.at b j .start).at b j .found) b = ((s.at b j .start).at b j .found).at b j (.reading i []) := by
        unfold call
        rw [h2]
        simp only [show ((s.at b j .start).at b j .found).names j.key = some i from hi]
      simp only [run, step, hb, Option.isSome_none, Bool.false_eq_true, if_false, e1, e2]
    rw [h3, ← hbytes]
    exact reads_file ns _ b i j f [] hf (by simp [State.at]) (List.nil_prefix) (by simp only [List.length_nil]; omega)
  constructor
  · intro base url hk
    obtain ⟨m, hm⟩ := key (.content base url) (fun _ _ h => by cases h) hk
    refine ⟨m, fun ns hn => ?_⟩
    rw [hm ns hn]
    simp only [decoded, Job.key, full, hg.round, if_true]
  · intro url hk
    obtain ⟨m, hm⟩ := key (.listing url) (fun _ _ h => by cases h) hk
    refine ⟨m, fun ns hn => ?_⟩
    rw [hm ns hn]
    simp only [decoded, Job.key, load_full hs]

/-! ### What was got is in the cache -/

/-- Nothing is removed from the cache. -/
def Stays (_ : State t) : Event t → Prop
  | .unlink _ => False
  | _ => True

/-- the entry of a job, from the point where it is known to be there -/
def Has (s : State t) (j : Job t) : Pc t → Prop
  | .found | .reading _ _ | .filling _ _ _ _ | .flushing _ _ _ _ => (s.names j.key).isSome = true
  | .done (.data _) | .done (.urls _) => (s.names j.key).isSome = true
  | _ => True

theorem Has.mono {s s' : State t} (h : ∀ k, (s.names k).isSome = true → (s'.names k).isSome = true) {j : Job t} {pc : Pc t} (hj : Has s j pc) : Has s' j pc := by
  cases pc with
  | done r => cases r <;> first | trivial | exact h _ hj
  | _ => first | trivial | exact h _ hj

/-- the entries of all the jobs -/
def Kept (s : State t) : Prop := ∀ a j pc, s.jobs a = some (j, pc) → Has s j pc

theorem Kept.at {s : State t} (h : Kept s) {a : Nat} {j : Job t} {pc : Pc t} (hj : Has s j pc) : Kept (s.at a j pc) := by
  intro b j' pc' hb
  simp only [State.at] at hb
  split at hb
  · cases hb; exact Has.mono (fun _ h => h) hj
  · exact Has.mono (fun _ h => h) (h b j' pc' hb)

theorem openNew_names (s : State t) (k k' : Key t) : ((s.openNew k).2.names k').isSome = true ↔ k' = k ∨ (s.names k').isSome = true := by
  cases hk : s.names k with
  | none =>
    rw [openNew_none hk]
    simp only
    by_cases e : k' = k <;> simp [e]
  | some i =>
    rw [openNew_some hk]
    simp only
    constructor
    · exact .inr
    · rintro (rfl | h)
      · rw [hk]; rfl
      · exact h

theorem step_kept {s : State t} (h : Kept s) (e : Event t) (hs : Stays s e) : Kept (step g s e) := by
  cases e with
  | begins a j =>
    simp only [step]
    split
    · exact h
    · exact h.at trivial
  | call a =>
    simp only [step, call]
    cases hj : s.jobs a with
    | none => exact h
    | some q =>
      obtain ⟨j, pc⟩ := q
      have ho := h a j pc hj
      cases pc with
      | start =>
        simp only
        apply h.at
        split
        · rename_i hk
          cases j with
          | head b u => trivial
          | _ => exact hk
        · cases j <;> trivial
      | second =>
        cases j with
        | head b u => simp only; apply h.at; split <;> trivial
        | _ => exact h
      | found =>
        simp only
        apply h.at
        cases hn : s.names j.key with
        | none => trivial
        | some i => exact ho
      | answered ans =>
        simp only
        apply h.at
        cases hm : j.makes ans with
        | none => trivial
        | some k => simp only; split <;> trivial
      | checked ans =>
        simp only
        cases hm : j.makes ans with
        | none => exact h
        | some k =>
          simp only
          have h' : Kept (s.openNew k).2 := by
            intro b j' pc' hb
            rw [openNew_jobs] at hb
            exact (h b j' pc' hb).mono fun k' hk => (openNew_names s k k').2 (.inr hk)
          apply h'.at
          have hk : ∀ k', k' = k → ((s.openNew k).2.names k').isSome = true := fun k' e => (openNew_names s k k').2 (.inl e)
          cases ans with
          | body r =>
            cases j <;> first | (cases hm; done) | skip
            cases hm
            exact hk _ rfl
          | urls l =>
            cases j <;> first | (cases hm; done) | skip
            cases hm
            simp only [begins]
            split <;> exact hk _ rfl
          | status ok => trivial
      | flushing i pos out r =>
        simp only
        split
        · apply h.at
          cases r <;> first | exact ho | trivial
        · exact h
      | _ => exact h
  | reply a ans =>
    simp only [step, reply]
    split
    · apply h.at; cases ans <;> trivial
    · exact h
  | read a n =>
    simp only [step, read]
    split
    · rename_i j i raw hj
      have ho := h a j _ hj
      split
      · apply h.at
        generalize decoded g j raw = r
        cases r <;> first | exact ho | trivial
      · exact h.at ho
    · rename_i j i pos given r hj
      have ho := h a j _ hj
      split <;> exact h.at ho
    · exact h
  | emit a k =>
    simp only [step, emit]
    split
    · rename_i j i pos given r hj
      exact Kept.at (s := s.write _ _ _) (fun b j' pc' hb => (h b j' pc' hb).mono fun _ h => h) (h a j _ hj)
    · rename_i j i pos out r hj
      exact Kept.at (s := s.write _ _ _) (fun b j' pc' hb => (h b j' pc' hb).mono fun _ h => h) (h a j _ hj)
    · exact h
  | close a =>
    simp only [step, close]
    split
    · exact h.at trivial
    · rename_i j i pos given r hj
      exact h.at (show (s.names j.key).isSome = true from h a j _ hj)
    · exact h
  | kill a =>
    simp only [step, kill]
    split
    · rename_i j r hj
      exact h.at (h a j _ hj)
    · exact h.at trivial
    · exact h
  | fault a k =>
    simp only [step, fault]
    cases hj : s.jobs a with
    | none => exact h
    | some q =>
      obtain ⟨j, pc⟩ := q
      have ho := h a j pc hj
      cases pc with
      | start => apply h.at; cases j <;> trivial
      | answered ans => apply h.at; cases j.makes ans <;> trivial
      | filling i pos given r => exact h.at (show (s.names j.key).isSome = true from ho)
      | flushing i pos out r =>
        apply h.at
        cases j with
        | listing u => trivial
        | _ => cases r <;> first | exact ho | trivial
      | second => exact h.at trivial
      | found => exact h.at trivial
      | checked ans => exact h.at trivial
      | reading i raw => exact h.at trivial
      | _ => exact h
  | unlink k => exact absurd hs id

/-- C118: what some run got is in the cache, when nothing is removed from it. -/
theorem C118_kept (es : List (Event t)) (ha : Along g Stays es State.empty) {a : Nat} {j : Job t} {r : Result t}
    (h : (run g es State.empty).jobs a = some (j, .done r)) :
    (∀ d, r = .data d → ((run g es State.empty).names j.key).isSome = true) ∧
    (∀ l, r = .urls l → ((run g es State.empty).names j.key).isSome = true) := by
  have key : ∀ (es : List (Event t)) (s : State t), Kept s → Along g Stays es s → Kept (run g es s) := by
    intro es
    induction es with
    | nil => intro s h _; exact h
    | cons e es ih => intro s h ha; exact ih _ (step_kept h e ha.1) ha.2
  have := key es State.empty (fun _ _ _ h => by cases h) ha a j _ h
  exact ⟨fun d e => by subst e; exact this, fun l e => by subst e; exact this⟩

/-! ### Cases -/

/-- A compression with a check of each byte, for the examples -/
def toyGz : Gz where
  flow d := d.flatMap fun x => [1, x, 255 - x]
  tail _ := [2]
  dec := go
where
  go : Bytes → Bytes × Bool
    | 1 :: x :: y :: r => if y = 255 - x then (x :: (go r).1, (go r).2) else ([], false)
    | 2 :: _ => ([], true)
    | _ => ([], false)

theorem toy_enc (x : UInt8) (d : Bytes) : toyGz.enc (x :: d) = 1 :: x :: (255 - x) :: toyGz.enc d := rfl

theorem toyGz_good : GoodGz toyGz where
  flow d e := by simp [toyGz]
  round d := by
    induction d with
    | nil => rfl
    | cons x d ih =>
      rw [toy_enc]
      change toyGz.go _ = _
      have ih : toyGz.go (toyGz.enc d) = (d, true) := ih
      simp [toyGz.go, ih]
  cut d := by
    induction d with
    | nil =>
      intro p hp hne
      change p <+: [2] at hp
      change p ≠ [2] at hne
      cases p with
      | nil => rfl
      | cons c cs =>
        obtain ⟨rfl, h⟩ := List.cons_prefix_cons.1 hp
        rw [List.prefix_nil.1 h] at hne
        exact absurd rfl hne
    | cons x d ih =>
      intro p hp hne
      rw [toy_enc] at hp hne
      change (toyGz.go p).2 = false
      match p, hp, hne with
      | [], _, _ => rfl
      | [c], hp, _ => rw [(List.cons_prefix_cons.1 hp).1]; rfl
      | [c, c'], hp, _ => rw [(List.cons_prefix_cons.1 hp).1]; rfl
      | c :: c' :: c'' :: r, hp, hne =>
        obtain ⟨rfl, hp1⟩ := List.cons_prefix_cons.1 hp
        obtain ⟨rfl, hp2⟩ := List.cons_prefix_cons.1 hp1
        obtain ⟨rfl, hp3⟩ := List.cons_prefix_cons.1 hp2
        simp only [toyGz.go, if_true]
        exact ih r hp3 fun e => hne (by rw [e])

theorem mix_cons {c x : UInt8} {r l : Bytes} (h : Mix (c :: r) (x :: l)) : (c = 0 ∨ c = x) ∧ Mix r l := by
  obtain ⟨h1, h2⟩ := h
  refine ⟨?_, by simpa using h1, fun i y hy => by simpa using h2 (i + 1) y (by simpa using hy)⟩
  rcases h2 0 c rfl with h | h
  · exact .inl h
  · exact .inr (Option.some.inj h).symm

theorem toyGz_checked : Checked toyGz := by
  intro d
  induction d with
  | nil =>
    intro raw x hm hd
    have hd : toyGz.go raw = (x, true) := hd
    have hm : Mix raw [2] := hm
    match raw, hm, hd with
    | [], _, hd => cases hd
    | [c], hm, hd =>
      rcases (mix_cons hm).1 with rfl | rfl
      · cases hd
      · cases hd; rfl
    | c :: c' :: r, hm, _ => exact absurd hm.1 (by simp)
  | cons x0 d ih =>
    intro raw x hm hd
    have hd : toyGz.go raw = (x, true) := hd
    rw [toy_enc] at hm
    match raw, hm, hd with
    | [], _, hd => cases hd
    | [c], hm, hd => rcases (mix_cons hm).1 with rfl | rfl <;> cases hd
    | [c, c'], hm, hd => rcases (mix_cons hm).1 with rfl | rfl <;> cases hd
    | c :: c1 :: c2 :: r, hm, hd =>
      obtain ⟨h0, hm1⟩ := mix_cons hm
      obtain ⟨h1, hm2⟩ := mix_cons hm1
      obtain ⟨h2, hm3⟩ := mix_cons hm2
      rcases h0 with rfl | rfl
      · cases hd
      · simp only [toyGz.go] at hd
        split at hd
        · rename_i e
          have hr : toyGz.go r = ((toyGz.go r).1, true) := by
            rw [Prod.mk.injEq] at hd
            rw [← hd.2]
          have := ih r _ hm3 hr
          rw [Prod.mk.injEq] at hd
          rw [← hd.1, this]
          have hc : c1 = x0 := by
            rcases h1 with rfl | h1
            · rcases h2 with rfl | h2
              · exact absurd e (by decide)
              · rw [h2] at e
                exact ((UInt8.sub_right_inj 255).1 e).symm
            · exact h1
          rw [hc]
        · cases hd

/-! The schedules of the examples are checked by computation. -/

/-- `Tells`, computed -/
def tellsB (site : Site t) : Job t → Answer t → Bool
  | .content _ url, .body r => r.rest == site.docs url
  | .listing url, .urls l => l == site.dirs url
  | .head _ url, .status ok => ok == site.heads url
  | _, _ => false

theorem tells_of (site : Site t) (j : Job t) (ans : Answer t) (h : tellsB site j ans = true) : Tells site j ans := by
  cases j <;> cases ans <;> simp [tellsB] at h
  · exact .body _ _ _ h
  · subst h; exact .urls _
  · subst h; exact .status _ _

/-- `Honest`, computed -/
def honestB (site : Site t) (s : State t) : Event t → Bool
  | .reply a (some ans) => match s.jobs a with | some (j, .missing) => tellsB site j ans | _ => true
  | _ => true

theorem honest_of (site : Site t) (s : State t) (e : Event t) (h : honestB site s e = true) : Honest site s e := by
  cases e with
  | reply a ans =>
    cases ans with
    | none => trivial
    | some ans =>
      intro j hj
      simp only [honestB, hj] at h
      exact tells_of site j ans h
  | _ => trivial

/-- `Patient`, computed -/
def patientB (s : State t) : Event t → Bool
  | .reply _ (some (.body r)) => !r.grants.contains .fail
  | .close a | .fault a _ => match s.jobs a with | some (_, .filling _ _ _ _) => false | _ => true
  | _ => true

theorem patient_of (s : State t) (e : Event t) (h : patientB s e = true) : Patient s e := by
  cases e with
  | reply a ans =>
    cases ans with
    | none => trivial
    | some ans =>
      cases ans with
      | body r => simpa [patientB, Patient] using h
      | _ => trivial
  | close a =>
    intro j i pos given r hj
    simp [patientB, hj] at h
  | fault a k =>
    intro j i pos given r hj
    simp [patientB, hj] at h
  | _ => trivial

/-- `Careful`, computed -/
def carefulB (s : State t) : Event t → Bool
  | .emit a _ => match s.jobs a with | some (_, .flushing _ _ _ .error) => false | _ => true
  | _ => true

theorem careful_of (s : State t) (e : Event t) (h : carefulB s e = true) : Careful s e := by
  cases e with
  | emit a k =>
    intro j i pos out hj
    simp [carefulB, hj] at h
  | _ => trivial

/-- `NoRace`, computed -/
def noRaceB (s : State t) : Event t → Bool
  | .call a => match s.jobs a with
    | some (j, .checked ans) => match j.makes ans with | some k => (s.names k).isNone | none => true
    | _ => true
  | _ => true

theorem noRace_of (s : State t) (e : Event t) (h : noRaceB s e = true) : NoRace s e := by
  cases e with
  | call a =>
    intro j ans k hj hm
    simp only [noRaceB, hj, hm] at h
    simpa using h
  | _ => trivial

/-- no event of these kinds -/
def calmB : Event t → Bool
  | .kill _ | .fault _ _ | .unlink _ => false
  | _ => true

theorem alive_of (s : State t) (e : Event t) (h : calmB e = true) : Alive s e ∧ Stays s e := by
  cases e <;> simp_all [calmB, Alive, Stays]

/-- `Along`, computed -/
def alongB (g : Gz) (p : State t → Event t → Bool) : List (Event t) → State t → Bool
  | [], _ => true
  | e :: es, s => p s e && alongB g p es (step g s e)

theorem along_of {p : State t → Event t → Bool} {P : State t → Event t → Prop} (hp : ∀ s e, p s e = true → P s e) (es : List (Event t)) (s : State t)
    (h : alongB g p es s = true) : Along g P es s := by
  induction es generalizing s with
  | nil => trivial
  | cons e es ih =>
    simp only [alongB, Bool.and_eq_true] at h
    exact ⟨hp _ _ h.1, ih _ h.2⟩

/-- the servers of the examples -/
def toySite : Site demoTexts where
  docs _ := [104, 105]
  dirs _ := [demoUrl "u/a"]
  heads _ := true

theorem toySite_savable : Savable toySite := fun _ => (by decide +kernel : ((LJ.Codec.listing demoTexts).enc [demoUrl "u/a"]).isSome = true)

/-- two runs make the same listing, and a third one reads it meanwhile -/
def listingRace : List (Event demoTexts) :=
  [.begins 0 (.listing (demoUrl "u")), .begins 1 (.listing (demoUrl "u")), .call 0, .call 1,
   .reply 0 (some (.urls [demoUrl "u/a"])), .reply 1 (some (.urls [demoUrl "u/a"])), .call 0, .call 1,
   .call 0, .emit 0 7, .call 1, .emit 0 100,
   .begins 2 (.listing (demoUrl "u")), .call 2, .call 2, .read 2 100, .read 2 100]

/-- C117 does not hold of listings: two runs see that a listing is not in the cache, the first one writes its beginning, the second one
truncates it, and the first one goes on, which leaves zeros before what it writes.  A third run reads that the listing has no entry. -/
theorem C117_false : ∃ (es : List (Event demoTexts)) (a : Nat) (j : Job demoTexts) (r : Result demoTexts), GoodGz toyGz ∧ Checked toyGz ∧ Savable toySite ∧
    Along toyGz (fun s e => Honest toySite s e ∧ Patient s e ∧ Careful s e ∧ Alive s e ∧ Stays s e) es State.empty ∧
    (run toyGz es State.empty).jobs a = some (j, .done r) ∧ r = .urls [] ∧ ¬ Right toySite j r := by
  refine ⟨listingRace, 2, .listing (demoUrl "u"), .urls [], toyGz_good, toyGz_checked, toySite_savable, ?_, by decide +kernel, rfl, ?_⟩
  · refine along_of (p := fun s e => honestB toySite s e && patientB s e && carefulB s e && calmB e) ?_ _ _ (by decide +kernel)
    intro s e h
    simp only [Bool.and_eq_true] at h
    exact ⟨honest_of _ _ _ h.1.1.1, patient_of _ _ h.1.1.2, careful_of _ _ h.1.2, alive_of s e h.2⟩
  · intro h
    generalize hl : ([] : List (Url demoTexts)) = l at h
    cases h
    exact absurd hl (by decide +kernel)

/-- a run reads what another one is downloading -/
def readEarly : List (Event demoTexts) :=
  [.begins 0 (.content (demoUrl "b") (demoUrl "u")), .call 0, .reply 0 (some (.body ⟨[104, 105], []⟩)), .call 0, .call 0, .read 0 0, .emit 0 100,
   .begins 1 (.content (demoUrl "b") (demoUrl "u")), .call 1, .call 1, .read 1 100, .read 1 100]

/-- a run finds that another one created the entry which it missed -/
def createLate : List (Event demoTexts) :=
  [.begins 0 (.content (demoUrl "b") (demoUrl "u")), .begins 1 (.content (demoUrl "b") (demoUrl "u")), .call 0, .call 1,
   .reply 0 (some (.body ⟨[104, 105], []⟩)), .reply 1 (some (.body ⟨[104, 105], []⟩)), .call 0, .call 0, .call 1]

/-- a run truncates the entry which another one has completed, and is killed -/
def truncateLate : List (Event demoTexts) :=
  [.begins 0 (.content (demoUrl "b") (demoUrl "u")), .begins 1 (.content (demoUrl "b") (demoUrl "u")), .call 0, .call 1,
   .reply 0 (some (.body ⟨[104, 105], []⟩)), .reply 1 (some (.body ⟨[104, 105], []⟩)), .call 0, .call 1,
   .call 0, .read 0 100, .read 0 100, .emit 0 100, .call 0, .call 1, .kill 1]

/-- C118 does not hold of runs at the same time, although the servers always answer: one of two runs fails, because the other one is
downloading the same file, or because it created the entry first.  With a process which is killed, even the entry which another one
completed is lost: a run which begins afterwards fails. -/
theorem C118_false :
    (∀ es ∈ [readEarly, createLate], Along toyGz (fun s e => Honest toySite s e ∧ Patient s e ∧ Alive s e ∧ Stays s e) es State.empty ∧
      ((run toyGz es State.empty).jobs 1).map Prod.snd = some (.done .error)) ∧
    (Along toyGz (fun s e => Honest toySite s e ∧ Patient s e ∧ Stays s e) truncateLate State.empty ∧
      ((run toyGz truncateLate State.empty).jobs 0).map Prod.snd = some (.done (.data [104, 105])) ∧
      ((run toyGz (truncateLate ++ [.begins 2 (.content (demoUrl "b") (demoUrl "u")), .call 2, .call 2, .read 2 100]) State.empty).jobs 2).map Prod.snd =
        some (.done .error)) := by
  refine ⟨?_, ?_, by decide +kernel, by decide +kernel⟩
  · intro es hes
    have hk : (∀ es ∈ [readEarly, createLate], alongB toyGz (fun s e => honestB toySite s e && patientB s e && calmB e) es State.empty = true ∧
        ((run toyGz es State.empty).jobs 1).map Prod.snd = some (.done .error)) := by decide +kernel
    refine ⟨along_of (fun s e h => ?_) _ _ (hk es hes).1, (hk es hes).2⟩
    simp only [Bool.and_eq_true] at h
    exact ⟨honest_of _ _ _ h.1.1, patient_of _ _ h.1.2, alive_of s e h.2⟩
  · refine along_of (p := fun s e => honestB toySite s e && patientB s e && (match e with | .unlink _ => false | _ => true)) ?_ _ _ (by decide +kernel)
    intro s e h
    simp only [Bool.and_eq_true] at h
    refine ⟨honest_of _ _ _ h.1.1, patient_of _ _ h.1.2, ?_⟩
    cases e <;> simp_all [Stays]

/-- two runs download two files in small pieces, the disk fails in the last write of the second one, a third run fails to download the
second file again, and the files are read -/
def together : List (Event demoTexts) :=
  [.begins 0 (.content (demoUrl "b") (demoUrl "u")), .begins 1 (.content (demoUrl "b") (demoUrl "v")), .call 0, .call 1,
   .reply 1 (some (.body ⟨[104, 105], [.short 0]⟩)), .reply 0 (some (.body ⟨[104, 105], []⟩)), .call 1, .call 0, .call 0, .call 1,
   .read 0 0, .read 1 100, .emit 1 1, .emit 0 1, .read 1 100, .read 1 100, .read 0 100, .read 0 100, .emit 0 100, .emit 1 1, .fault 1 0, .call 0,
   .begins 2 (.content (demoUrl "b") (demoUrl "u")), .begins 3 (.content (demoUrl "b") (demoUrl "v")), .call 2, .call 2, .call 3, .call 3,
   .begins 4 (.content (demoUrl "b") (demoUrl "v")), .unlink (.content (demoUrl "b") (demoUrl "v")), .call 4,
   .reply 4 (some (.body ⟨[104, 105], [.short 0, .fail]⟩)), .call 4, .call 4, .read 4 100, .emit 4 100, .read 4 100, .kill 4,
   .read 2 3, .read 3 3, .read 2 3, .read 3 3, .read 2 3, .read 3 3]

/-- A case of C117: what was downloaded is got, also by a run whose disk failed at the end, and what was cut gives an error. -/
example : Along toyGz (fun s e => Honest toySite s e ∧ Careful s e ∧ NoRace s e) together State.empty ∧
    ((run toyGz together State.empty).jobs 1).map Prod.snd = some (.done (.data [104, 105])) ∧
    ((run toyGz together State.empty).jobs 2).map Prod.snd = some (.done (.data [104, 105])) ∧
    ((run toyGz together State.empty).jobs 3).map Prod.snd = some (.done .error) ∧
    ((run toyGz together State.empty).jobs 4).map Prod.snd = some (.done .error) := by
  refine ⟨along_of (p := fun s e => honestB toySite s e && carefulB s e && noRaceB s e) (fun s e h => ?_) _ _ (by decide +kernel), by decide +kernel,
    by decide +kernel, by decide +kernel, by decide +kernel⟩
  simp only [Bool.and_eq_true] at h
  exact ⟨honest_of _ _ _ h.1.1, careful_of _ _ h.1.2, noRace_of s e h.2⟩

/-- a write of a download fails, the disk has room again when its reader is dropped, and another run reads the entry -/
def roomAgain : List (Event demoTexts) :=
  [.begins 0 (.content (demoUrl "b") (demoUrl "u")), .call 0, .reply 0 (some (.body ⟨[104, 105], []⟩)), .call 0, .call 0, .read 0 0, .fault 0 0,
   .emit 0 100, .call 0, .begins 1 (.content (demoUrl "b") (demoUrl "u")), .call 1, .call 1, .read 1 100, .read 1 100]

/-- Without `Careful`, C117 does not hold of contents either: when a write fails, and those of the drop of the encoder do not, the part
which was downloaded is kept as the whole file. -/
theorem C117_disk_false : ∃ (es : List (Event demoTexts)) (a : Nat) (j : Job demoTexts) (r : Result demoTexts),
    Along toyGz (fun s e => Honest toySite s e ∧ NoRace s e ∧ Stays s e) es State.empty ∧
    (run toyGz es State.empty).jobs a = some (j, .done r) ∧ r = .data [104] ∧ ¬ Right toySite j r := by
  refine ⟨roomAgain, 1, .content (demoUrl "b") (demoUrl "u"), .data [104], ?_, by decide +kernel, rfl, ?_⟩
  · refine along_of (p := fun s e => honestB toySite s e && noRaceB s e && (match e with | .unlink _ => false | _ => true)) ?_ _ _ (by decide +kernel)
    intro s e h
    simp only [Bool.and_eq_true] at h
    refine ⟨honest_of _ _ _ h.1.1, noRace_of _ _ h.1.2, ?_⟩
    cases e <;> simp_all [Stays]
  · intro h
    generalize hl : ([104] : Bytes) = l at h
    cases h
    exact absurd hl (by decide +kernel)

/-- two runs write the same file, and both end -/
def raced : List (Event demoTexts) :=
  [.begins 0 (.content (demoUrl "b") (demoUrl "u")), .begins 1 (.content (demoUrl "b") (demoUrl "u")), .call 0, .call 1,
   .reply 0 (some (.body ⟨[104, 105], []⟩)), .reply 1 (some (.body ⟨[104, 105], []⟩)), .call 0, .call 1,
   .call 0, .read 0 100, .emit 0 3, .call 1, .read 1 100, .emit 1 0, .read 0 100, .emit 0 1, .read 1 100, .emit 1 100, .emit 0 100, .call 0, .call 1]

/-- A case of C117_race, C118_partial and C118_kept -/
example : Along toyGz (fun s e => Honest toySite s e ∧ Patient s e ∧ Careful s e ∧ Alive s e ∧ Stays s e) raced State.empty ∧
    ((run toyGz raced State.empty).jobs 0).map Prod.snd = some (.done (.data [104, 105])) ∧
    ((run toyGz raced State.empty).jobs 1).map Prod.snd = some (.done (.data [104, 105])) ∧
    ((run toyGz (raced ++ [.begins 2 (.content (demoUrl "b") (demoUrl "u")), .call 2, .call 2] ++ [3, 100, 0].map (.read 2)) State.empty).jobs 2).map Prod.snd =
      some (.done (.data [104, 105])) := by
  refine ⟨along_of (p := fun s e => honestB toySite s e && patientB s e && carefulB s e && calmB e) (fun s e h => ?_) _ _ (by decide +kernel),
    by decide +kernel, by decide +kernel, by decide +kernel⟩
  simp only [Bool.and_eq_true] at h
  exact ⟨honest_of _ _ _ h.1.1.1, patient_of _ _ h.1.1.2, careful_of _ _ h.1.2, alive_of s e h.2⟩

/-- Cases of C117_own: one run downloads a file which another one downloads and removes, and the network fails for the other one. -/
example : let es := [.begins 0 (.content (demoUrl "b") (demoUrl "u")), .begins 1 (.content (demoUrl "b") (demoUrl "u")), .call 0, .call 1]
    let es' : List (Event demoTexts) := [.reply 1 (some (.body ⟨[104, 105], [.short 0, .fail]⟩)), .call 0, .call 1, .call 0, .call 1, .unlink (.content (demoUrl "b") (demoUrl "u")),
      .read 0 0, .read 1 100, .read 0 100, .read 1 100, .read 0 100, .emit 1 100, .emit 0 100, .call 0, .call 1]
    let all := es ++ .reply 0 (some (.body ⟨[104, 105], []⟩)) :: es'
    (run toyGz es State.empty).jobs 0 = some (.content (demoUrl "b") (demoUrl "u"), .missing) ∧
    Along toyGz (Honest toySite) all State.empty ∧
    ((run toyGz all State.empty).jobs 0).map Prod.snd = some (.done (.data [104, 105])) ∧
    ((run toyGz all State.empty).jobs 1).map Prod.snd = some (.done .error) :=
  ⟨by decide +kernel, along_of (p := honestB toySite) (fun s e h => honest_of _ _ _ h) _ _ (by decide +kernel), by decide +kernel, by decide +kernel⟩

end LJ.Shared

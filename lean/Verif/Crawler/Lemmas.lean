/-
What is left to do by the workers, and how it decreases at each transition.
-/
import Verif.Crawler.Spec
import Verif.Paths.Lemmas
import Mathlib.Data.List.Perm.Basic
namespace LJ.Crawler
open LJ.Crawler.Spec
open LJ.Paths (endsWith endsWith_iff)

variable {O E : Type} {site : Url O → Page O E}

theorem kind_eq (l : Url O) : kind l = if isEtc l = true then .ignored else match pathDir l with | some d => .directory d | none => .file := by
  unfold kind isEtc pathDir
  simp only [endsWith_iff]
  split
  · rfl
  · split
    · rfl
    · split <;> rfl

/-- What a worker and the jobs it submits will produce, and the number of their actions. -/
inductive Todo (site : Url O → Page O E) : Worker O → List (Event O E) → Nat → Prop where
  | fetched {u ls o n} : site u = .links ls → Todo site (.links u.path.length ls) o n → Todo site (.fetching u) o (n + 1)
  | failed {u e} : site u = .error e → Todo site (.fetching u) [.error e] 2
  | panicked {u} : site u = .panic → Todo site (.fetching u) [.panic] 1
  | ending : Todo site .ending [] 1
  | nil {m} : Todo site (.links m []) [] 2
  | ignored {m l ls o n} : kind l = .ignored → Todo site (.links m ls) o n → Todo site (.links m (l :: ls)) o (n + 1)
  | file {m l ls o n} : kind l = .file → Todo site (.links m ls) o n → Todo site (.links m (l :: ls)) (.file l :: o) (n + 1)
  | short {m l ls o n d} : kind l = .directory d → d.path.length ≤ m → Todo site (.links m ls) o n → Todo site (.links m (l :: ls)) o (n + 1)
  | dir {m l ls o n d o' n'} : kind l = .directory d → m < d.path.length → Todo site (.fetching d) o' n' → Todo site (.links m ls) o n →
      Todo site (.links m (l :: ls)) (o' ++ o) (n' + 1 + n + 1)

/-- The same for several workers, up to the order. -/
inductive Todos (site : Url O → Page O E) : List (Worker O) → List (Event O E) → Nat → Prop where
  | nil : Todos site [] [] 0
  | cons {w ws o n o' n' out k} : Todo site w o n → Todos site ws o' n' → out.Perm (o ++ o') → k = n + n' → Todos site (w :: ws) out k

theorem todos_perm {ws : List (Worker O)} {o o' : List (Event O E)} {n : Nat} (h : Todos site ws o n) (hp : o'.Perm o) : Todos site ws o' n := by
  cases h with
  | nil => rw [List.perm_nil.1 hp]; exact .nil
  | cons h1 h2 h3 h4 => exact .cons h1 h2 (hp.trans h3) h4

theorem todos_nil {o : List (Event O E)} {n : Nat} (h : Todos site [] o n) : o = [] ∧ n = 0 := by
  cases h; exact ⟨rfl, rfl⟩

theorem todos_cons {w : Worker O} {ws : List (Worker O)} {out : List (Event O E)} {k : Nat} :
    Todos site (w :: ws) out k ↔ ∃ o n o' n', Todo site w o n ∧ Todos site ws o' n' ∧ out.Perm (o ++ o') ∧ k = n + n' := by
  constructor
  · intro h
    cases h with
    | cons h1 h2 h3 h4 => exact ⟨_, _, _, _, h1, h2, h3, h4⟩
  · rintro ⟨o, n, o', n', h1, h2, h3, h4⟩
    exact .cons h1 h2 h3 h4

theorem todos_mid {a : List (Worker O)} {w : Worker O} {b : List (Worker O)} {out : List (Event O E)} {k : Nat} :
    Todos site (a ++ w :: b) out k ↔ ∃ o n o' n', Todo site w o n ∧ Todos site (a ++ b) o' n' ∧ out.Perm (o ++ o') ∧ k = n + n' := by
  induction a generalizing out k with
  | nil => exact todos_cons
  | cons x a ih =>
    rw [List.cons_append, todos_cons]
    constructor
    · rintro ⟨o, n, o', n', h1, h2, h3, h4⟩
      obtain ⟨p, i, p', i', g1, g2, g3, g4⟩ := ih.1 h2
      refine ⟨p, i, o ++ p', n + i', g1, todos_cons.2 ⟨o, n, p', i', h1, g2, .refl _, rfl⟩, ?_, by omega⟩
      refine h3.trans ((List.Perm.append_left o g3).trans ?_)
      rw [← List.append_assoc, ← List.append_assoc]
      exact List.Perm.append_right p' List.perm_append_comm
    · rintro ⟨p, i, q, j, g1, g2, g3, g4⟩
      obtain ⟨o, n, o', n', h1, h2, h3, h4⟩ := todos_cons.1 g2
      refine ⟨o, n, p ++ o', i + n', h1, ih.2 ⟨p, i, o', n', g1, h2, .refl _, rfl⟩, ?_, by omega⟩
      refine g3.trans ((List.Perm.append_left p h3).trans ?_)
      rw [← List.append_assoc, ← List.append_assoc]
      exact List.Perm.append_right o' List.perm_append_comm

theorem split_at {α : Type} {l : List α} {i : Nat} {w : α} (h : l[i]? = some w) :
    ∃ a b, l = a ++ w :: b ∧ (∀ w', l.set i w' = a ++ w' :: b) ∧ l.eraseIdx i = a ++ b := by
  induction l generalizing i with
  | nil => simp at h
  | cons x l ih =>
    cases i with
    | zero =>
      simp at h
      subst h
      exact ⟨[], l, rfl, fun _ => rfl, rfl⟩
    | succ i =>
      simp at h
      obtain ⟨a, b, h1, h2, h3⟩ := ih h
      refine ⟨x :: a, b, by rw [h1]; rfl, fun w' => ?_, ?_⟩
      · rw [List.set_cons_succ, h2]; rfl
      · rw [List.eraseIdx_cons_succ, h3]; rfl

/-- the events of the messages -/
def eventsOf : List (Msg O E) → List (Event O E)
  | [] => []
  | .file u :: ms => .file u :: eventsOf ms
  | .error e :: ms => .error e :: eventsOf ms
  | .done :: ms => eventsOf ms

theorem eventsOf_append (a b : List (Msg O E)) : eventsOf (a ++ b) = eventsOf a ++ eventsOf b := by
  induction a with
  | nil => rfl
  | cons m a ih => cases m <;> simp [eventsOf, ih]

/-- the events which happened -/
def happened (s : State O E) : List (Event O E) := eventsOf s.chan ++ List.replicate s.panics .panic

/-- A state and what it will produce in the end, in `n` transitions. -/
def Final (site : Url O → Page O E) (s : State O E) (out : List (Event O E)) (n : Nat) : Prop :=
  ∃ o k, Todos site (s.active ++ s.queued.map .fetching) o k ∧ out.Perm (happened s ++ o) ∧ n = k + s.queued.length

theorem process_some {m : Nat} {d : Url O} {s : State O E} (h : m < d.path.length) : process m d s = { s with queued := s.queued ++ [d] } := by
  simp [process, visit, h]

theorem process_none {m : Nat} {d : Url O} {s : State O E} (h : d.path.length ≤ m) : process m d s = s := by
  have : ¬ m < d.path.length := by omega
  simp [process, visit, this]

/-- The cases of a transition of the worker `w`, with the others in `a` and `b`. -/
inductive Cases (site : Url O → Page O E) (a b : List (Worker O)) : Worker O → State O E → State O E → Prop where
  | fetched {u ls s} : site u = .links ls → Cases site a b (.fetching u) s { s with active := a ++ .links u.path.length ls :: b }
  | failed {u e s} : site u = .error e → Cases site a b (.fetching u) s { s with chan := s.chan ++ [.error e], active := a ++ .ending :: b }
  | panicked {u s} : site u = .panic → Cases site a b (.fetching u) s { s with panics := s.panics + 1, active := a ++ b }
  | ending {s} : Cases site a b .ending s { s with active := a ++ b }
  | nil {m s} : Cases site a b (.links m []) s { s with chan := s.chan ++ [.done], active := a ++ .ending :: b }
  | ignored {m l ls s} : kind l = .ignored → Cases site a b (.links m (l :: ls)) s { s with active := a ++ .links m ls :: b }
  | file {m l ls s} : kind l = .file →
      Cases site a b (.links m (l :: ls)) s { s with chan := s.chan ++ [.file l], active := a ++ .links m ls :: b }
  | short {m l ls s d} : kind l = .directory d → d.path.length ≤ m →
      Cases site a b (.links m (l :: ls)) s { s with active := a ++ .links m ls :: b }
  | dir {m l ls s d} : kind l = .directory d → m < d.path.length →
      Cases site a b (.links m (l :: ls)) s { s with queued := s.queued ++ [d], active := a ++ .links m ls :: b }

theorem step_run {i : Nat} {s s' : State O E} (h : step site (.run i) s = some s') :
    ∃ a w b, s.active = a ++ w :: b ∧ Cases site a b w s s' := by
  unfold step at h
  simp only at h
  cases hw : s.active[i]? with
  | none => rw [hw] at h; cases h
  | some w =>
    rw [hw] at h
    simp only at h
    obtain ⟨a, b, h1, h2, h3⟩ := split_at hw
    refine ⟨a, w, b, h1, ?_⟩
    cases w with
    | fetching u =>
      cases hp : site u with
      | links ls =>
        simp only [act, hp, h2, Option.some.injEq] at h
        rw [← h]; exact .fetched hp
      | error e =>
        simp only [act, hp, h2, Option.some.injEq] at h
        rw [← h]; exact .failed hp
      | panic =>
        simp only [act, hp, h3, Option.some.injEq] at h
        rw [← h]; exact .panicked hp
    | ending =>
      simp only [act, h3, Option.some.injEq] at h
      rw [← h]; exact .ending
    | links m ls =>
      cases ls with
      | nil =>
        simp only [act, h2, Option.some.injEq] at h
        rw [← h]; exact .nil
      | cons l ls =>
        have hk := kind_eq l
        by_cases he : isEtc l = true
        · rw [if_pos he] at hk
          simp only [act, he, if_true, h2, Option.some.injEq] at h
          rw [← h]; exact .ignored hk
        · rw [if_neg he] at hk
          cases hd : pathDir l with
          | none =>
            rw [hd] at hk
            simp only [act, he, Bool.false_eq_true, if_false, hd, h2, Option.some.injEq] at h
            rw [← h]; exact .file hk
          | some d =>
            rw [hd] at hk
            by_cases hm : m < d.path.length
            · simp only [act, he, Bool.false_eq_true, if_false, hd, process_some hm, h2, Option.some.injEq] at h
              rw [← h]; exact .dir hk hm
            · simp only [act, he, Bool.false_eq_true, if_false, hd, process_none (Nat.le_of_not_lt hm), h2, Option.some.injEq] at h
              rw [← h]; exact .short hk (Nat.le_of_not_lt hm)

theorem step_take {s s' : State O E} (h : step site .take s = some s') :
    ∃ u q, s.queued = u :: q ∧ s.active.length < WORKERS ∧ s' = { s with queued := q, active := s.active ++ [.fetching u] } := by
  unfold step at h
  simp only at h
  cases hq : s.queued with
  | nil => rw [hq] at h; cases h
  | cons u q =>
    rw [hq] at h
    simp only at h
    split at h
    · cases h; exact ⟨u, q, rfl, by assumption, rfl⟩
    · cases h

theorem final_take {s : State O E} {u : Url O} {q : List (Url O)} (hq : s.queued = u :: q) (out : List (Event O E)) (k : Nat) :
    Final site s out k ↔ ∃ n, k = n + 1 ∧ Final site { s with queued := q, active := s.active ++ [.fetching u] } out n := by
  have e : s.active ++ s.queued.map Worker.fetching = (s.active ++ [.fetching u]) ++ q.map .fetching := by rw [hq]; simp
  unfold Final
  rw [e]
  constructor
  · rintro ⟨o, i, h1, h2, h3⟩
    rw [hq, List.length_cons] at h3
    exact ⟨i + q.length, by omega, o, i, h1, h2, rfl⟩
  · rintro ⟨n, rfl, o, i, h1, h2, h3⟩
    refine ⟨o, i, h1, h2, ?_⟩
    rw [hq, List.length_cons]
    simp only at h3
    omega

theorem perm_mid {α : Type} {a b c d : List α} (h : a.Perm (b ++ (c ++ d))) : a.Perm ((b ++ c) ++ d) := by
  rw [List.append_assoc]; exact h

theorem final_run {a b : List (Worker O)} {w : Worker O} {s s' : State O E} (ha : s.active = a ++ w :: b) (hc : Cases site a b w s s')
    (out : List (Event O E)) (k : Nat) : Final site s out k ↔ ∃ n, k = n + 1 ∧ Final site s' out n := by
  have e : s.active ++ s.queued.map Worker.fetching = a ++ w :: (b ++ s.queued.map .fetching) := by rw [ha]; simp
  have key : Final site s out k ↔ ∃ o n o' n', Todo site w o n ∧ Todos site (a ++ (b ++ s.queued.map .fetching)) o' n' ∧
      out.Perm (happened s ++ (o ++ o')) ∧ k = n + n' + s.queued.length := by
    unfold Final
    rw [e]
    constructor
    · rintro ⟨o, i, h1, h2, h3⟩
      obtain ⟨o1, n1, o2, n2, g1, g2, g3, g4⟩ := todos_mid.1 h1
      exact ⟨o1, n1, o2, n2, g1, g2, h2.trans (List.Perm.append_left _ g3), by omega⟩
    · rintro ⟨o1, n1, o2, n2, g1, g2, g3, g4⟩
      exact ⟨o1 ++ o2, n1 + n2, todos_mid.2 ⟨o1, n1, o2, n2, g1, g2, .refl _, rfl⟩, g3, g4⟩
  rw [key]
  clear key e
  -- what replaces the worker
  have mid : ∀ (w' : Worker O) (c : List (Msg O E)) (p : Nat) (out : List (Event O E)) (n : Nat),
      Final site { s with active := a ++ w' :: b, chan := c, panics := p } out n ↔
      ∃ o n' o' n'', Todo site w' o n' ∧ Todos site (a ++ (b ++ s.queued.map .fetching)) o' n'' ∧
        out.Perm ((eventsOf c ++ List.replicate p .panic) ++ (o ++ o')) ∧ n = n' + n'' + s.queued.length := by
    intro w' c p out n
    unfold Final
    simp only [List.append_assoc, List.cons_append]
    constructor
    · rintro ⟨o, i, h1, h2, h3⟩
      obtain ⟨o1, n1, o2, n2, g1, g2, g3, g4⟩ := todos_mid.1 h1
      refine ⟨o1, n1, o2, n2, g1, g2, ?_, by omega⟩
      have := h2.trans (List.Perm.append_left _ g3)
      simpa only [happened, List.append_assoc] using this
    · rintro ⟨o1, n1, o2, n2, g1, g2, g3, g4⟩
      refine ⟨o1 ++ o2, n1 + n2, todos_mid.2 ⟨o1, n1, o2, n2, g1, g2, .refl _, rfl⟩, ?_, by omega⟩
      simpa only [happened, List.append_assoc] using g3
  have nomid : ∀ (c : List (Msg O E)) (p : Nat) (out : List (Event O E)) (n : Nat),
      Final site { s with active := a ++ b, chan := c, panics := p } out n ↔
      ∃ o' n'', Todos site (a ++ (b ++ s.queued.map .fetching)) o' n'' ∧
        out.Perm ((eventsOf c ++ List.replicate p .panic) ++ o') ∧ n = n'' + s.queued.length := by
    intro c p out n
    unfold Final
    simp only [happened, List.append_assoc]
  -- moving events
  have mv : ∀ (c p x o : List (Event O E)), ((c ++ p) ++ (x ++ o)).Perm (((c ++ x) ++ p) ++ o) := by
    intro c p x o
    simp only [List.append_assoc]
    apply List.Perm.append_left
    rw [← List.append_assoc, ← List.append_assoc]
    exact List.Perm.append_right _ List.perm_append_comm
  cases hc with
  | @fetched u ls _ hu =>
    have m1 := fun n => mid (.links u.path.length ls) s.chan s.panics out n
    simp only [m1]
    constructor
    · rintro ⟨o, n, o', n', g1, g2, g3, g4⟩
      cases g1 with
      | fetched hu' ht =>
        rw [hu] at hu'; cases hu'
        exact ⟨_, by omega, _, _, _, _, ht, g2, g3, rfl⟩
      | failed h' => rw [hu] at h'; cases h'
      | panicked h' => rw [hu] at h'; cases h'
    · rintro ⟨n, rfl, o, n', o', n'', g1, g2, g3, g4⟩
      exact ⟨_, _, _, _, .fetched hu g1, g2, g3, by omega⟩
  | @failed u e _ hu =>
    have m1 := fun n => mid .ending (s.chan ++ [.error e]) s.panics out n
    simp only [m1, eventsOf_append]
    constructor
    · rintro ⟨o, n, o', n', g1, g2, g3, g4⟩
      cases g1 with
      | fetched hu' _ => rw [hu] at hu'; cases hu'
      | panicked h' => rw [hu] at h'; cases h'
      | failed h' =>
        rw [hu] at h'; cases h'
        exact ⟨_, by omega, _, _, _, _, .ending, g2, g3.trans (mv _ _ [.error e] o'), rfl⟩
    · rintro ⟨n, rfl, o, n', o', n'', g1, g2, g3, g4⟩
      cases g1
      exact ⟨_, _, _, _, .failed hu, g2, g3.trans (mv _ _ [.error e] o').symm, by omega⟩
  | @panicked u _ hu =>
    have m1 := fun n => nomid s.chan (s.panics + 1) out n
    simp only [m1]
    have pm : ∀ o' : List (Event O E), List.Perm (happened s ++ ([Event.panic] ++ o')) ((eventsOf s.chan ++ List.replicate (s.panics + 1) Event.panic) ++ o') := by
      intro o'
      simp only [happened, List.append_assoc, List.replicate_succ']
      exact .refl _
    constructor
    · rintro ⟨o, n, o', n', g1, g2, g3, g4⟩
      cases g1 with
      | fetched hu' _ => rw [hu] at hu'; cases hu'
      | failed h' => rw [hu] at h'; cases h'
      | panicked h' => exact ⟨_, by omega, _, _, g2, g3.trans (pm o'), rfl⟩
    · rintro ⟨n, rfl, o', n'', g2, g3, g4⟩
      exact ⟨_, _, _, _, .panicked hu, g2, g3.trans (pm o').symm, by omega⟩
  | ending =>
    have m1 := fun n => nomid s.chan s.panics out n
    simp only [m1]
    constructor
    · rintro ⟨o, n, o', n', g1, g2, g3, g4⟩
      cases g1
      exact ⟨_, by omega, _, _, g2, g3, rfl⟩
    · rintro ⟨n, rfl, o', n'', g2, g3, g4⟩
      exact ⟨_, _, _, _, .ending, g2, g3, by omega⟩
  | nil =>
    have m1 := fun n => mid .ending (s.chan ++ [.done]) s.panics out n
    simp only [m1, eventsOf_append]
    constructor
    · rintro ⟨o, n, o', n', g1, g2, g3, g4⟩
      cases g1
      exact ⟨_, by omega, _, _, _, _, .ending, g2, by simpa [eventsOf, happened] using g3, rfl⟩
    · rintro ⟨n, rfl, o, n', o', n'', g1, g2, g3, g4⟩
      cases g1
      exact ⟨_, _, _, _, .nil, g2, by simpa [eventsOf, happened] using g3, by omega⟩
  | @ignored m l ls _ hk =>
    have m1 := fun n => mid (.links m ls) s.chan s.panics out n
    simp only [m1]
    constructor
    · rintro ⟨o, n, o', n', g1, g2, g3, g4⟩
      cases g1 with
      | ignored _ ht => exact ⟨_, by omega, _, _, _, _, ht, g2, g3, rfl⟩
      | file h _ => rw [hk] at h; cases h
      | short h _ _ => rw [hk] at h; cases h
      | dir h _ _ _ => rw [hk] at h; cases h
    · rintro ⟨n, rfl, o, n', o', n'', g1, g2, g3, g4⟩
      exact ⟨_, _, _, _, .ignored hk g1, g2, g3, by omega⟩
  | @file m l ls _ hk =>
    have m1 := fun n => mid (.links m ls) (s.chan ++ [.file l]) s.panics out n
    simp only [m1, eventsOf_append]
    constructor
    · rintro ⟨o, n, o', n', g1, g2, g3, g4⟩
      cases g1 with
      | ignored h _ => rw [hk] at h; cases h
      | file _ ht => exact ⟨_, by omega, _, _, _, _, ht, g2, g3.trans (mv _ _ [.file l] _), rfl⟩
      | short h _ _ => rw [hk] at h; cases h
      | dir h _ _ _ => rw [hk] at h; cases h
    · rintro ⟨n, rfl, o, n', o', n'', g1, g2, g3, g4⟩
      exact ⟨_, _, _, _, .file hk g1, g2, g3.trans (mv _ _ [.file l] _).symm, by omega⟩
  | @short m l ls _ d hk hm =>
    have m1 := fun n => mid (.links m ls) s.chan s.panics out n
    simp only [m1]
    constructor
    · rintro ⟨o, n, o', n', g1, g2, g3, g4⟩
      cases g1 with
      | ignored h _ => rw [hk] at h; cases h
      | file h _ => rw [hk] at h; cases h
      | short _ _ ht => exact ⟨_, by omega, _, _, _, _, ht, g2, g3, rfl⟩
      | dir h hlt _ _ => rw [hk] at h; cases h; omega
    · rintro ⟨n, rfl, o, n', o', n'', g1, g2, g3, g4⟩
      exact ⟨_, _, _, _, .short hk hm g1, g2, g3, by omega⟩
  | @dir m l ls _ d hk hm =>
    have hf : ∀ n, Final site { s with queued := s.queued ++ [d], active := a ++ .links m ls :: b } out n ↔
        ∃ od nd o n1 o' n2, Todo site (.fetching d) od nd ∧ Todo site (.links m ls) o n1 ∧
          Todos site (a ++ (b ++ s.queued.map .fetching)) o' n2 ∧ out.Perm (happened s ++ (od ++ o ++ o')) ∧
          n = nd + n1 + n2 + s.queued.length + 1 := by
      intro n
      have e2 : (a ++ Worker.links m ls :: b) ++ (s.queued ++ [d]).map Worker.fetching =
          (a ++ Worker.links m ls :: (b ++ s.queued.map .fetching)) ++ .fetching d :: [] := by simp
      have hh : ∀ q ac, happened { s with queued := q, active := ac } = happened s := fun _ _ => rfl
      unfold Final
      simp only [e2, hh, List.length_append, List.length_singleton]
      constructor
      · rintro ⟨o, i, h1, h2, h3⟩
        obtain ⟨od, nd, o2, n2, g1, g2, g3, g4⟩ := todos_mid.1 h1
        rw [List.append_nil] at g2
        obtain ⟨o1, n1, o3, n3, f1, f2, f3, f4⟩ := todos_mid.1 g2
        refine ⟨od, nd, o1, n1, o3, n3, g1, f1, f2, ?_, by omega⟩
        rw [List.append_assoc]
        exact h2.trans (List.Perm.append_left _ (g3.trans (List.Perm.append_left _ f3)))
      · rintro ⟨od, nd, o, n1, o', n2, g1, g2, g3, g4, g5⟩
        refine ⟨od ++ o ++ o', nd + n1 + n2, todos_mid.2 ⟨od, nd, o ++ o', n1 + n2, g1, ?_, by rw [List.append_assoc], by omega⟩, g4, by omega⟩
        rw [List.append_nil]
        exact todos_mid.2 ⟨o, n1, o', n2, g2, g3, .refl _, rfl⟩
    simp only [hf]
    constructor
    · rintro ⟨o, n, o', n', g1, g2, g3, g4⟩
      cases g1 with
      | ignored h _ => rw [hk] at h; cases h
      | file h _ => rw [hk] at h; cases h
      | short h hle _ => rw [hk] at h; cases h; omega
      | dir h _ hd ht =>
        rw [hk] at h; cases h
        exact ⟨_, by omega, _, _, _, _, _, _, hd, ht, g2, g3, rfl⟩
    · rintro ⟨n, rfl, od, nd, o, n1, o', n2, g1, g2, g3, g4, g5⟩
      exact ⟨_, _, _, _, .dir hk hm g1 g2, g3, g4, by omega⟩

/-- Each transition does one of the actions which were left, and changes nothing to the final outcome. -/
theorem final_step {c : Choice} {s s' : State O E} (h : step site c s = some s') (out : List (Event O E)) (k : Nat) :
    Final site s out k ↔ ∃ n, k = n + 1 ∧ Final site s' out n := by
  cases c with
  | take =>
    obtain ⟨u, q, h1, _, rfl⟩ := step_take h
    exact final_take h1 out k
  | run i =>
    obtain ⟨a, w, b, h1, h2⟩ := step_run h
    exact final_run h1 h2 out k

theorem final_exec {cs : List Choice} {s s' : State O E} (h : exec site cs s = some s') (out : List (Event O E)) (k : Nat) :
    Final site s out k ↔ ∃ n, k = n + cs.length ∧ Final site s' out n := by
  induction cs generalizing s k with
  | nil => cases h; simp
  | cons c cs ih =>
    rw [exec, Option.bind_eq_some_iff] at h
    obtain ⟨s1, h1, h2⟩ := h
    rw [final_step h1]
    constructor
    · rintro ⟨n, rfl, hn⟩
      obtain ⟨j, rfl, hj⟩ := (ih h2 n).1 hn
      exact ⟨j, by simp; omega, hj⟩
    · rintro ⟨n, rfl, hn⟩
      exact ⟨n + cs.length, by simp; omega, (ih h2 _).2 ⟨n, rfl, hn⟩⟩

theorem final_idle {s : State O E} (hi : Idle s) (out : List (Event O E)) (k : Nat) : Final site s out k ↔ k = 0 ∧ out.Perm (happened s) := by
  unfold Final
  rw [hi.1, hi.2]
  constructor
  · rintro ⟨o, n, h1, h2, h3⟩
    obtain ⟨rfl, rfl⟩ := todos_nil h1
    exact ⟨h3, by simpa using h2⟩
  · rintro ⟨rfl, h⟩
    exact ⟨[], 0, .nil, by simpa using h, rfl⟩

/-- A state which is not idle can go on. -/
theorem progress (s : State O E) (h : ¬ Idle s) : ∃ c s', step site c s = some s' := by
  cases ha : s.active with
  | cons w ws =>
    refine ⟨.run 0, ?_⟩
    unfold step
    simp only [ha, List.getElem?_cons_zero]
    rcases hx : act site w s with ⟨x, s1⟩
    cases x with
    | none => exact ⟨_, rfl⟩
    | some w' => exact ⟨_, rfl⟩
  | nil =>
    cases hq : s.queued with
    | nil => exact absurd ⟨hq, ha⟩ h
    | cons u q =>
      refine ⟨.take, ?_⟩
      unfold step
      simp only [hq, ha]
      exact ⟨_, rfl⟩

/-! ### The sequential crawl -/

theorem todo_crawl {w : Worker O} {o : List (Event O E)} {n : Nat} (h : Todo site w o n) :
    (∀ m ls, w = .links m ls → Crawl site m ls o) ∧
    (∀ u, w = .fetching u → (∃ ls, site u = .links ls ∧ Crawl site u.path.length ls o) ∨ (∃ e, site u = .error e ∧ o = [.error e]) ∨
      (site u = .panic ∧ o = [.panic])) := by
  induction h with
  | fetched hu _ ih =>
    refine ⟨by rintro _ _ ⟨⟩, ?_⟩
    rintro u ⟨⟩
    exact .inl ⟨_, hu, ih.1 _ _ rfl⟩
  | failed hu => exact ⟨by rintro _ _ ⟨⟩, by rintro u ⟨⟩; exact .inr (.inl ⟨_, hu, rfl⟩)⟩
  | panicked hu => exact ⟨by rintro _ _ ⟨⟩, by rintro u ⟨⟩; exact .inr (.inr ⟨hu, rfl⟩)⟩
  | ending => exact ⟨by rintro _ _ ⟨⟩, by rintro u ⟨⟩⟩
  | nil => exact ⟨by rintro _ _ ⟨⟩; exact .nil, by rintro u ⟨⟩⟩
  | ignored hk _ ih => exact ⟨by rintro _ _ ⟨⟩; exact .ignored hk (ih.1 _ _ rfl), by rintro u ⟨⟩⟩
  | file hk _ ih => exact ⟨by rintro _ _ ⟨⟩; exact .file hk (ih.1 _ _ rfl), by rintro u ⟨⟩⟩
  | short hk hm _ ih => exact ⟨by rintro _ _ ⟨⟩; exact .short hk hm (ih.1 _ _ rfl), by rintro u ⟨⟩⟩
  | dir hk hm _ _ ih1 ih2 =>
    refine ⟨?_, by rintro u ⟨⟩⟩
    rintro _ _ ⟨⟩
    rcases ih1.2 _ rfl with ⟨ls, hu, hc⟩ | ⟨e, hu, rfl⟩ | ⟨hu, rfl⟩
    · exact .page hk hm hu hc (ih2.1 _ _ rfl)
    · exact .error hk hm hu (ih2.1 _ _ rfl)
    · exact .panic hk hm hu (ih2.1 _ _ rfl)

theorem crawl_todo {m : Nat} {ls : List (Url O)} {o : List (Event O E)} (h : Crawl site m ls o) : ∃ n, Todo site (.links m ls) o n := by
  induction h with
  | nil => exact ⟨_, .nil⟩
  | ignored hk _ ih => obtain ⟨n, h⟩ := ih; exact ⟨_, .ignored hk h⟩
  | file hk _ ih => obtain ⟨n, h⟩ := ih; exact ⟨_, .file hk h⟩
  | short hk hm _ ih => obtain ⟨n, h⟩ := ih; exact ⟨_, .short hk hm h⟩
  | page hk hm hu _ _ ih1 ih2 =>
    obtain ⟨n1, h1⟩ := ih1
    obtain ⟨n2, h2⟩ := ih2
    exact ⟨_, .dir hk hm (.fetched hu h1) h2⟩
  | error hk hm hu _ ih => obtain ⟨n, h⟩ := ih; exact ⟨_, .dir hk hm (.failed hu) h⟩
  | panic hk hm hu _ ih => obtain ⟨n, h⟩ := ih; exact ⟨_, .dir hk hm (.panicked hu) h⟩

theorem final_start (root : Url O) (out : List (Event O E)) :
    (∃ k, Final site (start root) out k) ↔ ∃ o, CrawlRoot site root o ∧ out.Perm o := by
  have he : root.path = [] → (start root : State O E) = ⟨[], [], [], 0⟩ := by
    intro h; exact process_none (by simp [h])
  have hn : root.path ≠ [] → (start root : State O E) = ⟨[root], [], [], 0⟩ := by
    intro h; exact process_some (List.length_pos_iff.2 h)
  by_cases hr : root.path = []
  · rw [he hr]
    simp only [final_idle (site := site) (s := ⟨[], [], [], 0⟩) ⟨rfl, rfl⟩]
    constructor
    · rintro ⟨_, _, h⟩
      exact ⟨[], .empty hr, h⟩
    · rintro ⟨o, ho, hp⟩
      cases ho with
      | empty _ => exact ⟨0, rfl, hp⟩
      | page h => exact absurd hr h
      | error h => exact absurd hr h
      | panic h => exact absurd hr h
  · rw [hn hr]
    unfold Final
    simp only [List.nil_append, List.map_cons, List.map_nil]
    constructor
    · rintro ⟨k, o, n, h1, h2, _⟩
      obtain ⟨o1, n1, o2, n2, g1, g2, g3, _⟩ := todos_cons.1 h1
      obtain ⟨rfl, rfl⟩ := todos_nil g2
      rw [List.append_nil] at g3
      have h2' : out.Perm o1 := by
        have := h2.trans (List.Perm.append_left _ g3)
        simpa [happened, eventsOf] using this
      refine ⟨o1, ?_, h2'⟩
      rcases (todo_crawl g1).2 _ rfl with ⟨ls, hu, hc⟩ | ⟨e, hu, rfl⟩ | ⟨hu, rfl⟩
      · exact .page hr hu hc
      · exact .error hr hu
      · exact .panic hr hu
    · rintro ⟨o, ho, hp⟩
      have : ∃ n, Todo site (.fetching root) o n := by
        cases ho with
        | empty h => exact absurd h hr
        | page _ hu hc => obtain ⟨n, h⟩ := crawl_todo hc; exact ⟨_, .fetched hu h⟩
        | error _ hu => exact ⟨_, .failed hu⟩
        | panic _ hu => exact ⟨_, .panicked hu⟩
      obtain ⟨n, hn⟩ := this
      exact ⟨_, o, n, todos_cons.2 ⟨o, n, [], 0, hn, .nil, by simp, rfl⟩, by simpa [happened, eventsOf] using hp, rfl⟩

/-- The sequential crawl has one outcome. -/
theorem crawl_unique {m : Nat} {ls : List (Url O)} {o o' : List (Event O E)} (h : Crawl site m ls o) (h' : Crawl site m ls o') : o = o' := by
  induction h generalizing o' with
  | nil => cases h'; rfl
  | ignored hk _ ih =>
    cases h' with
    | ignored _ h => exact ih h
    | file h => rw [hk] at h; cases h
    | short h => rw [hk] at h; cases h
    | page h => rw [hk] at h; cases h
    | error h => rw [hk] at h; cases h
    | panic h => rw [hk] at h; cases h
  | file hk _ ih =>
    cases h' with
    | file _ h => rw [ih h]
    | ignored h => rw [hk] at h; cases h
    | short h => rw [hk] at h; cases h
    | page h => rw [hk] at h; cases h
    | error h => rw [hk] at h; cases h
    | panic h => rw [hk] at h; cases h
  | short hk hm _ ih =>
    cases h' with
    | short _ _ h => exact ih h
    | ignored h => rw [hk] at h; cases h
    | file h => rw [hk] at h; cases h
    | page h hlt => rw [hk] at h; cases h; omega
    | error h hlt => rw [hk] at h; cases h; omega
    | panic h hlt => rw [hk] at h; cases h; omega
  | page hk hm hu _ _ ih1 ih2 =>
    cases h' with
    | ignored h => rw [hk] at h; cases h
    | file h => rw [hk] at h; cases h
    | short h hlt => rw [hk] at h; cases h; omega
    | page h _ hs h1 h2 =>
      rw [hk] at h; cases h
      rw [hu] at hs; cases hs
      rw [ih1 h1, ih2 h2]
    | error h _ hs => rw [hk] at h; cases h; rw [hu] at hs; cases hs
    | panic h _ hs => rw [hk] at h; cases h; rw [hu] at hs; cases hs
  | error hk hm hu _ ih =>
    cases h' with
    | ignored h => rw [hk] at h; cases h
    | file h => rw [hk] at h; cases h
    | short h hlt => rw [hk] at h; cases h; omega
    | page h _ hs => rw [hk] at h; cases h; rw [hu] at hs; cases hs
    | error h _ hs h2 =>
      rw [hk] at h; cases h
      rw [hu] at hs; cases hs
      rw [ih h2]
    | panic h _ hs => rw [hk] at h; cases h; rw [hu] at hs; cases hs
  | panic hk hm hu _ ih =>
    cases h' with
    | ignored h => rw [hk] at h; cases h
    | file h => rw [hk] at h; cases h
    | short h hlt => rw [hk] at h; cases h; omega
    | page h _ hs => rw [hk] at h; cases h; rw [hu] at hs; cases hs
    | error h _ hs => rw [hk] at h; cases h; rw [hu] at hs; cases hs
    | panic h _ hs h2 => rw [ih h2]

theorem crawlRoot_unique {root : Url O} {o o' : List (Event O E)} (h : CrawlRoot site root o) (h' : CrawlRoot site root o') : o = o' := by
  cases h with
  | empty he => cases h' with
    | empty _ => rfl
    | _ h => exact absurd he h
  | page hn hu hc => cases h' with
    | empty he => exact absurd he hn
    | page _ hu' hc' => rw [hu] at hu'; cases hu'; exact crawl_unique hc hc'
    | _ _ hu' => rw [hu] at hu'; cases hu'
  | error hn hu => cases h' with
    | empty he => exact absurd he hn
    | error _ hu' => rw [hu] at hu'; cases hu'; rfl
    | page _ hu' => rw [hu] at hu'; cases hu'
    | panic _ hu' => rw [hu] at hu'; cases hu'
  | panic hn hu => cases h' with
    | empty he => exact absurd he hn
    | panic _ hu' => rfl
    | page _ hu' => rw [hu] at hu'; cases hu'
    | error _ hu' => rw [hu] at hu'; cases hu'

/-! ### Files and visited pages -/

theorem collect_ok {ms : List (Msg O E)} {us : List (Url O)} (h : collect ms = .ok us) : eventsOf ms = us.map .file := by
  induction ms generalizing us with
  | nil => cases h; rfl
  | cons m ms ih =>
    cases m with
    | done => exact ih h
    | error e => cases h
    | file u =>
      unfold collect at h
      split at h
      · rename_i hc
        cases h
        simp [eventsOf, ih hc]
      · cases h

theorem collect_error {ms : List (Msg O E)} {e : E} (h : collect ms = .error e) : .error e ∈ eventsOf ms := by
  induction ms with
  | nil => cases h
  | cons m ms ih =>
    cases m with
    | done => exact ih h
    | error e' => cases h; simp [eventsOf]
    | file u =>
      unfold collect at h
      split at h
      · cases h
      · rename_i hc
        cases h
        simp [eventsOf, ih hc]

theorem listResult_ok {s : State O E} {us : List (Url O)} (h : listResult s = .ok us) : happened s = us.map .file := by
  unfold listResult at h
  split at h
  · cases h
  · rename_i hp
    split at h
    · rename_i hc
      cases h
      have : s.panics = 0 := by omega
      simp [happened, collect_ok hc, this]
    · cases h

end LJ.Crawler

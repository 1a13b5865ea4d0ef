/-
C47-C51 and C78: listings, the iterator, and the links of a page.
-/
import Verif.Crawler.Lemmas
import Mathlib.Data.List.Induction
namespace LJ.Crawler
open LJ.Crawler.Spec
open LJ.Paths (Str startsWith startsWith_iff)

variable {O E : Type} {site : Url O → Page O E}

/-- what a page produces by itself -/
def Produces (site : Url O → Page O E) (page : Url O) : Event O E → Prop
  | .file f => ∃ links, site page = .links links ∧ f ∈ links ∧ kind f = .file
  | .error e => site page = .error e
  | .panic => site page = .panic

theorem crawl_sound {root : Url O} {m : Nat} {ls : List (Url O)} {out : List (Event O E)} (h : Crawl site m ls out) :
    ∀ (p : Url O) (all : List (Url O)), Visited site root p → p.path.length = m → site p = .links all → (∀ l ∈ ls, l ∈ all) →
      ∀ ev ∈ out, ∃ q, Visited site root q ∧ Produces site q ev := by
  induction h with
  | nil => intro p all _ _ _ _ ev hev; cases hev
  | ignored _ _ ih => exact fun p all h1 h2 h3 h4 => ih p all h1 h2 h3 fun l hl => h4 l (by simp [hl])
  | short _ _ _ ih => exact fun p all h1 h2 h3 h4 => ih p all h1 h2 h3 fun l hl => h4 l (by simp [hl])
  | file hk _ ih =>
    intro p all h1 h2 h3 h4 ev hev
    rcases List.mem_cons.1 hev with rfl | hev
    · exact ⟨p, h1, all, h3, h4 _ (by simp), hk⟩
    · exact ih p all h1 h2 h3 (fun l hl => h4 l (by simp [hl])) ev hev
  | page hk hm hu _ _ ih1 ih2 =>
    intro p all h1 h2 h3 h4 ev hev
    rcases List.mem_append.1 hev with hev | hev
    · exact ih1 _ _ (.link h1 h3 (h4 _ (by simp)) hk (by omega)) rfl hu (fun l hl => hl) ev hev
    · exact ih2 p all h1 h2 h3 (fun l hl => h4 l (by simp [hl])) ev hev
  | error hk hm hu _ ih =>
    intro p all h1 h2 h3 h4 ev hev
    rcases List.mem_cons.1 hev with rfl | hev
    · exact ⟨_, .link h1 h3 (h4 _ (by simp)) hk (by omega), hu⟩
    · exact ih p all h1 h2 h3 (fun l hl => h4 l (by simp [hl])) ev hev
  | panic hk hm hu _ ih =>
    intro p all h1 h2 h3 h4 ev hev
    rcases List.mem_cons.1 hev with rfl | hev
    · exact ⟨_, .link h1 h3 (h4 _ (by simp)) hk (by omega), hu⟩
    · exact ih p all h1 h2 h3 (fun l hl => h4 l (by simp [hl])) ev hev

theorem crawl_file {m : Nat} {ls : List (Url O)} {out : List (Event O E)} (h : Crawl site m ls out) {l : Url O} (hl : l ∈ ls)
    (hk : kind l = .file) : .file l ∈ out := by
  induction h with
  | nil => cases hl
  | ignored h _ ih =>
    rcases List.mem_cons.1 hl with rfl | hl
    · rw [hk] at h; cases h
    · exact ih hl
  | short h _ _ ih =>
    rcases List.mem_cons.1 hl with rfl | hl
    · rw [hk] at h; cases h
    · exact ih hl
  | file h _ ih =>
    rcases List.mem_cons.1 hl with rfl | hl
    · simp
    · simp [ih hl]
  | page h _ _ _ _ _ ih =>
    rcases List.mem_cons.1 hl with rfl | hl
    · rw [hk] at h; cases h
    · simp [ih hl]
  | error h _ _ _ ih =>
    rcases List.mem_cons.1 hl with rfl | hl
    · rw [hk] at h; cases h
    · simp [ih hl]
  | panic h _ _ _ ih =>
    rcases List.mem_cons.1 hl with rfl | hl
    · rw [hk] at h; cases h
    · simp [ih hl]

/-- the outcome of a page is part of an outcome -/
def Inside (site : Url O → Page O E) (d : Url O) (out : List (Event O E)) : Prop :=
  (∃ sub o, site d = .links sub ∧ Crawl site d.path.length sub o ∧ ∀ e ∈ o, e ∈ out) ∨
  (∃ e, site d = .error e ∧ .error e ∈ out) ∨ (site d = .panic ∧ .panic ∈ out)

theorem Inside.mono {d : Url O} {o o' : List (Event O E)} (h : Inside site d o) (hs : ∀ e ∈ o, e ∈ o') : Inside site d o' := by
  rcases h with ⟨sub, x, h1, h2, h3⟩ | ⟨e, h1, h2⟩ | ⟨h1, h2⟩
  · exact .inl ⟨sub, x, h1, h2, fun e he => hs e (h3 e he)⟩
  · exact .inr (.inl ⟨e, h1, hs _ h2⟩)
  · exact .inr (.inr ⟨h1, hs _ h2⟩)

theorem crawl_dir {m : Nat} {ls : List (Url O)} {out : List (Event O E)} (h : Crawl site m ls out) {l d : Url O} (hl : l ∈ ls)
    (hk : kind l = .directory d) (hm : m < d.path.length) : Inside site d out := by
  induction h with
  | nil => cases hl
  | ignored h _ ih =>
    rcases List.mem_cons.1 hl with rfl | hl
    · rw [hk] at h; cases h
    · exact ih hl hm
  | short h hle _ ih =>
    rcases List.mem_cons.1 hl with rfl | hl
    · rw [hk] at h; cases h; omega
    · exact ih hl hm
  | file h _ ih =>
    rcases List.mem_cons.1 hl with rfl | hl
    · rw [hk] at h; cases h
    · exact (ih hl hm).mono fun e he => by simp [he]
  | page h _ hu hc _ _ ih =>
    rcases List.mem_cons.1 hl with rfl | hl
    · rw [hk] at h; cases h
      exact .inl ⟨_, _, hu, hc, fun e he => by simp [he]⟩
    · exact (ih hl hm).mono fun e he => by simp [he]
  | error h _ hu _ ih =>
    rcases List.mem_cons.1 hl with rfl | hl
    · rw [hk] at h; cases h
      exact .inr (.inl ⟨_, hu, by simp⟩)
    · exact (ih hl hm).mono fun e he => by simp [he]
  | panic h _ hu _ ih =>
    rcases List.mem_cons.1 hl with rfl | hl
    · rw [hk] at h; cases h
      exact .inr (.inr ⟨hu, by simp⟩)
    · exact (ih hl hm).mono fun e he => by simp [he]

theorem visited_inside {root : Url O} {out : List (Event O E)} (h : CrawlRoot site root out) {q : Url O} (hq : Visited site root q) :
    Inside site q out := by
  induction hq with
  | root hp =>
    cases h with
    | empty he => rw [he] at hp; cases hp
    | page _ hu hc => exact .inl ⟨_, _, hu, hc, fun e he => he⟩
    | error _ hu => exact .inr (.inl ⟨_, hu, by simp⟩)
    | panic _ hu => exact .inr (.inr ⟨hu, by simp⟩)
  | link _ hs hl hk hm ih =>
    rcases ih with ⟨sub, o, h1, h2, h3⟩ | ⟨e, h1, _⟩ | ⟨h1, _⟩
    · rw [hs] at h1; cases h1
      exact (crawl_dir h2 hl hk hm).mono h3
    · rw [hs] at h1; cases h1
    · rw [hs] at h1; cases h1

/-- The sequential crawl produces exactly what the visited pages produce. -/
theorem crawl_events {root : Url O} {out : List (Event O E)} (h : CrawlRoot site root out) (ev : Event O E) :
    ev ∈ out ↔ ∃ q, Visited site root q ∧ Produces site q ev := by
  constructor
  · intro hev
    cases h with
    | empty he => cases hev
    | page hn hu hc => exact crawl_sound hc root _ (.root (List.length_pos_iff.2 hn)) rfl hu (fun l hl => hl) ev hev
    | error hn hu =>
      rw [List.mem_singleton] at hev
      subst hev
      exact ⟨root, .root (List.length_pos_iff.2 hn), hu⟩
    | panic hn hu =>
      rw [List.mem_singleton] at hev
      subst hev
      exact ⟨root, .root (List.length_pos_iff.2 hn), hu⟩
  · rintro ⟨q, hq, hp⟩
    rcases visited_inside h hq with ⟨sub, o, h1, h2, h3⟩ | ⟨e, h1, h2⟩ | ⟨h1, h2⟩
    · cases ev with
      | file f =>
        obtain ⟨links, hl, hf, hk⟩ := hp
        rw [h1] at hl; cases hl
        exact h3 _ (crawl_file h2 hf hk)
      | error e => rw [Produces, h1] at hp; cases hp
      | panic => rw [Produces, h1] at hp; cases hp
    · cases ev with
      | file f => obtain ⟨links, hl, _⟩ := hp; rw [h1] at hl; cases hl
      | error e => rw [Produces, h1] at hp; cases hp; exact h2
      | panic => rw [Produces, h1] at hp; cases hp
    · cases ev with
      | file f => obtain ⟨links, hl, _⟩ := hp; rw [h1] at hl; cases hl
      | error e => rw [Produces, h1] at hp; cases hp
      | panic => exact h2

/-- When the workers are done, what happened is the outcome of the sequential crawl. -/
theorem exec_crawl {root : Url O} {cs : List Choice} {s : State O E} (h : exec site cs (start root) = some s) (hi : Idle s) :
    ∃ out, CrawlRoot site root out ∧ (happened s).Perm out := by
  have h0 : Final site s (happened s) 0 := (final_idle hi _ _).2 ⟨rfl, .refl _⟩
  exact (final_start root _).1 ⟨_, (final_exec h _ _).2 ⟨0, rfl, h0⟩⟩

theorem happened_events {root : Url O} {cs : List Choice} {s : State O E} (h : exec site cs (start root) = some s) (hi : Idle s)
    (ev : Event O E) : ev ∈ happened s ↔ ∃ q, Visited site root q ∧ Produces site q ev := by
  obtain ⟨out, h1, h2⟩ := exec_crawl h hi
  rw [h2.mem_iff]
  exact crawl_events h1 ev

/-! ### C47: listings are complete and do not depend on the schedule -/

/-- The listing has exactly the files of the visited pages, as many times as the sequential crawl meets
them, whatever the schedule. -/
theorem C47_complete {root : Url O} {cs : List Choice} {s : State O E} {files : List (Url O)} (h : exec site cs (start root) = some s)
    (hi : Idle s) (hl : listResult s = .ok files) :
    (∀ f, f ∈ files ↔ Listed site root f) ∧ ∃ out, CrawlRoot site root out ∧ (files.map Event.file).Perm out := by
  have hh := listResult_ok hl
  refine ⟨?_, ?_⟩
  · intro f
    have h1 := happened_events h hi (.file f)
    rw [hh, List.mem_map] at h1
    constructor
    · intro hf
      obtain ⟨q, hq, links, h2, h3, h4⟩ := h1.1 ⟨f, hf, rfl⟩
      exact ⟨q, links, hq, h2, h3, h4⟩
    · rintro ⟨q, links, hq, h2, h3, h4⟩
      obtain ⟨f', hf', e⟩ := h1.2 ⟨q, hq, links, h2, h3, h4⟩
      cases e
      exact hf'
  · obtain ⟨out, h1, h2⟩ := exec_crawl h hi
    rw [hh] at h2
    exact ⟨out, h1, h2⟩

/-- Two schedules give the same listing, up to the order. -/
theorem C47_schedules {root : Url O} {cs cs' : List Choice} {s s' : State O E} {files files' : List (Url O)}
    (h : exec site cs (start root) = some s) (hi : Idle s) (hl : listResult s = .ok files)
    (h' : exec site cs' (start root) = some s') (hi' : Idle s') (hl' : listResult s' = .ok files') : files.Perm files' := by
  obtain ⟨_, o, h1, h2⟩ := C47_complete h hi hl
  obtain ⟨_, o', h1', h2'⟩ := C47_complete h' hi' hl'
  rw [crawlRoot_unique h1 h1'] at h2
  have := h2.trans h2'.symm
  refine (List.map_perm_map_iff ?_).1 this
  intro a b e
  cases e
  rfl

/-! ### C48: a failing page makes the listing fail -/

/-- The listing is an error exactly when a visited page fails or panics; the error is one of a visited page. -/
theorem C48_errors {root : Url O} {cs : List Choice} {s : State O E} (h : exec site cs (start root) = some s) (hi : Idle s) :
    ((∃ files, listResult s = .ok files) ↔ ∀ q, Visited site root q → ∃ links, site q = .links links) ∧
    (∀ e, listResult s = .error (.page e) → ∃ q, Visited site root q ∧ site q = .error e) ∧
    (listResult s = .error .panicked ↔ ∃ q, Visited site root q ∧ site q = .panic) := by
  have hpan : s.panics > 0 ↔ ∃ q, Visited site root q ∧ site q = .panic := by
    rw [show (∃ q, Visited site root q ∧ site q = .panic) ↔ ∃ q, Visited site root q ∧ Produces site q .panic from Iff.rfl,
      ← happened_events h hi .panic]
    unfold happened
    have hno : Event.panic ∉ eventsOf s.chan := by
      generalize s.chan = ms
      induction ms with
      | nil => simp [eventsOf]
      | cons m ms ih => cases m <;> simp [eventsOf, ih]
    rw [List.mem_append, List.mem_replicate]
    constructor
    · intro hp; exact .inr ⟨by omega, rfl⟩
    · rintro (h | ⟨h, _⟩)
      · exact absurd h hno
      · omega
  have herr : ∀ e, .error e ∈ eventsOf s.chan → ∃ q, Visited site root q ∧ site q = .error e := by
    intro e he
    exact (happened_events h hi (.error e)).1 (List.mem_append_left _ he)
  refine ⟨⟨?_, ?_⟩, ?_, ?_⟩
  · rintro ⟨files, hl⟩ q hq
    have hh := listResult_ok hl
    cases hs : site q with
    | links ls => exact ⟨ls, rfl⟩
    | error e =>
      have := (happened_events h hi (.error e)).2 ⟨q, hq, hs⟩
      rw [hh] at this
      simp at this
    | panic =>
      have := (happened_events h hi .panic).2 ⟨q, hq, hs⟩
      rw [hh] at this
      simp at this
  · intro hall
    unfold listResult
    have hp : ¬ s.panics > 0 := by
      rw [hpan]
      rintro ⟨q, hq, hs⟩
      obtain ⟨ls, hl⟩ := hall q hq
      rw [hl] at hs; cases hs
    rw [if_neg hp]
    cases hc : collect s.chan with
    | ok us => exact ⟨us, rfl⟩
    | error e =>
      obtain ⟨q, hq, hs⟩ := herr e (collect_error hc)
      obtain ⟨ls, hl⟩ := hall q hq
      rw [hl] at hs; cases hs
  · intro e hl
    unfold listResult at hl
    split at hl
    · cases hl
    · split at hl
      · cases hl
      · rename_i hc
        cases hl
        exact herr _ (collect_error hc)
  · rw [← hpan]
    unfold listResult
    constructor
    · intro hl
      split at hl
      · assumption
      · split at hl <;> cases hl
    · intro hp
      rw [if_pos hp]

/-! ### C49: the crawler stops -/

theorem crawl_exists {root : Url O} {N : Nat} (hb : ∀ q, Visited site root q → q.path.length ≤ N) :
    ∀ (k : Nat) (p : Url O) (all : List (Url O)), Visited site root p → N - p.path.length ≤ k → site p = .links all →
      ∃ out, Crawl site p.path.length all out := by
  intro k
  induction k with
  | zero =>
    intro p all hp hk hs
    suffices ∀ ls : List (Url O), (∀ l ∈ ls, l ∈ all) → ∃ out, Crawl site p.path.length ls out from this all fun _ h => h
    intro ls
    induction ls with
    | nil => exact fun _ => ⟨_, .nil⟩
    | cons l ls ih =>
      intro hall
      obtain ⟨out, ho⟩ := ih fun x hx => hall x (by simp [hx])
      cases hkd : kind l with
      | ignored => exact ⟨_, .ignored hkd ho⟩
      | file => exact ⟨_, .file hkd ho⟩
      | directory d =>
        by_cases hm : p.path.length < d.path.length
        · have := hb d (.link hp hs (hall l (by simp)) hkd hm)
          omega
        · exact ⟨_, .short hkd (by omega) ho⟩
  | succ k ih0 =>
    intro p all hp hk hs
    suffices ∀ ls : List (Url O), (∀ l ∈ ls, l ∈ all) → ∃ out, Crawl site p.path.length ls out from this all fun _ h => h
    intro ls
    induction ls with
    | nil => exact fun _ => ⟨_, .nil⟩
    | cons l ls ih =>
      intro hall
      obtain ⟨out, ho⟩ := ih fun x hx => hall x (by simp [hx])
      cases hkd : kind l with
      | ignored => exact ⟨_, .ignored hkd ho⟩
      | file => exact ⟨_, .file hkd ho⟩
      | directory d =>
        by_cases hm : p.path.length < d.path.length
        · have hv := Visited.link hp hs (hall l (by simp)) hkd hm
          have := hb d hv
          cases hd : site d with
          | links sub =>
            obtain ⟨o, hsub⟩ := ih0 d sub hv (by omega) hd
            exact ⟨_, .page hkd hm hd hsub ho⟩
          | error e => exact ⟨_, .error hkd hm hd ho⟩
          | panic => exact ⟨_, .panic hkd hm hd ho⟩
        · exact ⟨_, .short hkd (by omega) ho⟩

/-- On a site whose visited pages have paths of bounded length, there is a number of transitions `n` such
that every schedule which can be followed has at most `n` transitions, and `n` exactly when the workers are
done.  A state where the workers are not done can always go on. -/
theorem C49_terminates {root : Url O} {N : Nat} (hb : ∀ q, Visited site root q → q.path.length ≤ N) :
    ∃ n, ∀ cs s, exec site cs (start root) = some s →
      cs.length ≤ n ∧ (Idle s ↔ cs.length = n) ∧ (¬ Idle s → ∃ c s', step site c s = some s') := by
  have hc : ∃ o, CrawlRoot site root o := by
    by_cases hr : root.path = []
    · exact ⟨_, .empty hr⟩
    · cases hs : site root with
      | links ls =>
        obtain ⟨o, ho⟩ := crawl_exists hb (N - root.path.length) root ls (.root (List.length_pos_iff.2 hr)) (Nat.le_refl _) hs
        exact ⟨_, .page hr hs ho⟩
      | error e => exact ⟨_, .error hr hs⟩
      | panic => exact ⟨_, .panic hr hs⟩
  obtain ⟨o, ho⟩ := hc
  obtain ⟨n, hn⟩ := (final_start (site := site) root o).2 ⟨o, ho, .refl _⟩
  refine ⟨n, ?_⟩
  intro cs s h
  obtain ⟨j, e, hj⟩ := (final_exec h o n).1 hn
  refine ⟨by omega, ?_, progress s⟩
  constructor
  · intro hi
    have := ((final_idle hi _ _).1 hj).1
    omega
  · intro hl
    have hj0 : j = 0 := by omega
    by_cases hi : Idle s
    · exact hi
    · obtain ⟨c, s', hs⟩ := progress (site := site) s hi
      obtain ⟨n, h0, _⟩ := (final_step hs o j).1 hj
      omega

/-- the URLs which are being fetched or are about to be -/
def jobs (s : State O E) : List (Url O) := s.queued ++ s.active.filterMap fun | .fetching u => some u | _ => none

/-- the links which are being followed are those of a visited page -/
def Sound (site : Url O → Page O E) (root : Url O) (s : State O E) : Prop :=
  (∀ u ∈ s.queued, Visited site root u) ∧
  (∀ w ∈ s.active, (∀ u, w = .fetching u → Visited site root u) ∧
    (∀ m ls, w = .links m ls → ∃ p all, Visited site root p ∧ p.path.length = m ∧ site p = .links all ∧ ∀ l ∈ ls, l ∈ all)) ∧
  (∀ f, .file f ∈ s.chan → Listed site root f)

theorem sound_replace {root : Url O} {s s' : State O E} {a b : List (Worker O)} {w : Worker O} (hs : Sound site root s)
    (ha : s.active = a ++ w :: b) (ws : List (Worker O)) (ha' : s'.active = a ++ ws ++ b)
    (hws : ∀ w' ∈ ws, (∀ u, w' = .fetching u → Visited site root u) ∧
      (∀ m ls, w' = .links m ls → ∃ p all, Visited site root p ∧ p.path.length = m ∧ site p = .links all ∧ ∀ l ∈ ls, l ∈ all))
    (hq : ∀ u ∈ s'.queued, u ∈ s.queued ∨ Visited site root u) (hc : ∀ f, .file f ∈ s'.chan → .file f ∈ s.chan ∨ Listed site root f) :
    Sound site root s' := by
  refine ⟨?_, ?_, ?_⟩
  · intro u hu
    rcases hq u hu with h | h
    · exact hs.1 u h
    · exact h
  · intro x hx
    rw [ha'] at hx
    simp only [List.mem_append] at hx
    rcases hx with (hx | hx) | hx
    · exact hs.2.1 x (by rw [ha]; simp [hx])
    · exact hws x hx
    · exact hs.2.1 x (by rw [ha]; simp [hx])
  · intro f hf
    rcases hc f hf with h | h
    · exact hs.2.2 f h
    · exact h

theorem sound_step {root : Url O} {c : Choice} {s s' : State O E} (hs : Sound site root s) (h : step site c s = some s') : Sound site root s' := by
  cases c with
  | take =>
    obtain ⟨u, q, h1, _, rfl⟩ := step_take h
    refine ⟨fun x hx => hs.1 x (by rw [h1]; simp [hx]), ?_, hs.2.2⟩
    intro w hw
    simp only [List.mem_append, List.mem_singleton] at hw
    rcases hw with hw | rfl
    · exact hs.2.1 w hw
    · exact ⟨by rintro _ ⟨⟩; exact hs.1 u (by rw [h1]; simp), by rintro _ _ ⟨⟩⟩
  | run i =>
    obtain ⟨a, w, b, ha, hc⟩ := step_run h
    have hw := hs.2.1 w (by rw [ha]; simp)
    cases hc with
    | @fetched u ls _ hu =>
      refine sound_replace hs ha [.links u.path.length ls] (by simp) ?_ (fun u hu => .inl hu) (fun f hf => .inl hf)
      simp only [List.mem_singleton]
      rintro _ rfl
      exact ⟨by rintro _ ⟨⟩, by rintro _ _ ⟨⟩; exact ⟨u, ls, hw.1 u rfl, rfl, hu, fun _ h => h⟩⟩
    | @failed u e _ hu =>
      refine sound_replace hs ha [.ending] (by simp) ?_ (fun u hu => .inl hu) (fun f hf => .inl (by simpa using hf))
      simp only [List.mem_singleton]
      rintro _ rfl
      exact ⟨by rintro _ ⟨⟩, by rintro _ _ ⟨⟩⟩
    | @panicked u _ hu => exact sound_replace hs ha [] (by simp) (by simp) (fun u hu => .inl hu) (fun f hf => .inl hf)
    | ending => exact sound_replace hs ha [] (by simp) (by simp) (fun u hu => .inl hu) (fun f hf => .inl hf)
    | nil =>
      refine sound_replace hs ha [.ending] (by simp) ?_ (fun u hu => .inl hu) (fun f hf => .inl (by simpa using hf))
      simp only [List.mem_singleton]
      rintro _ rfl
      exact ⟨by rintro _ ⟨⟩, by rintro _ _ ⟨⟩⟩
    | @ignored m l ls _ hk =>
      obtain ⟨p, all, h1, h2, h3, h4⟩ := hw.2 _ _ rfl
      refine sound_replace hs ha [.links m ls] (by simp) ?_ (fun u hu => .inl hu) (fun f hf => .inl hf)
      simp only [List.mem_singleton]
      rintro _ rfl
      exact ⟨by rintro _ ⟨⟩, by rintro _ _ ⟨⟩; exact ⟨p, all, h1, h2, h3, fun x hx => h4 x (by simp [hx])⟩⟩
    | @short m l ls _ d hk hm =>
      obtain ⟨p, all, h1, h2, h3, h4⟩ := hw.2 _ _ rfl
      refine sound_replace hs ha [.links m ls] (by simp) ?_ (fun u hu => .inl hu) (fun f hf => .inl hf)
      simp only [List.mem_singleton]
      rintro _ rfl
      exact ⟨by rintro _ ⟨⟩, by rintro _ _ ⟨⟩; exact ⟨p, all, h1, h2, h3, fun x hx => h4 x (by simp [hx])⟩⟩
    | @file m l ls _ hk =>
      obtain ⟨p, all, h1, h2, h3, h4⟩ := hw.2 _ _ rfl
      refine sound_replace hs ha [.links m ls] (by simp) ?_ (fun u hu => .inl hu) (fun f hf => ?_)
      · simp only [List.mem_singleton]
        rintro _ rfl
        exact ⟨by rintro _ ⟨⟩, by rintro _ _ ⟨⟩; exact ⟨p, all, h1, h2, h3, fun x hx => h4 x (by simp [hx])⟩⟩
      · simp only [List.mem_append, List.mem_singleton] at hf
        rcases hf with hf | hf
        · exact .inl hf
        · cases hf
          exact .inr ⟨p, all, h1, h3, h4 _ (by simp), hk⟩
    | @dir m l ls _ d hk hm =>
      obtain ⟨p, all, h1, h2, h3, h4⟩ := hw.2 _ _ rfl
      refine sound_replace hs ha [.links m ls] (by simp) ?_ (fun u hu => ?_) (fun f hf => .inl hf)
      · simp only [List.mem_singleton]
        rintro _ rfl
        exact ⟨by rintro _ ⟨⟩, by rintro _ _ ⟨⟩; exact ⟨p, all, h1, h2, h3, fun x hx => h4 x (by simp [hx])⟩⟩
      · simp only [List.mem_append, List.mem_singleton] at hu
        rcases hu with hu | rfl
        · exact .inl hu
        · exact .inr (.link h1 h3 (h4 _ (by simp)) hk (by omega))

theorem sound_start (root : Url O) : Sound site root (start root : State O E) := by
  unfold start process visit
  split
  · rename_i h
    split at h
    · refine ⟨?_, by simp, by simp⟩
      simp only [List.nil_append, List.mem_singleton]
      rintro u rfl
      exact .root (by assumption)
    · cases h
  · exact ⟨by simp, by simp, by simp⟩

theorem sound_exec {root : Url O} {cs : List Choice} {s s' : State O E} (hs : Sound site root s) (h : exec site cs s = some s') :
    Sound site root s' := by
  induction cs generalizing s with
  | nil => cases h; exact hs
  | cons c cs ih =>
    rw [exec, Option.bind_eq_some_iff] at h
    obtain ⟨s1, h1, h2⟩ := h
    exact ih (sound_step hs h1) h2

/-- At any time, what is fetched or about to be is a page to visit, and what was sent is a file to list; a page
to visit other than the root was linked by a visited page with a shorter path, so no chain of links comes back
to a page. -/
theorem C49_visits {root : Url O} {cs : List Choice} {s : State O E} (h : exec site cs (start root) = some s) :
    (∀ u ∈ jobs s, Visited site root u) ∧ (∀ f, .file f ∈ s.chan → Listed site root f) ∧
    (∀ u, Visited site root u → u = root ∨ ∃ p, Visited site root p ∧ p.path.length < u.path.length) := by
  have hs := sound_exec (sound_start (site := site) root) h
  refine ⟨?_, hs.2.2, ?_⟩
  · intro u hu
    rcases List.mem_append.1 hu with hu | hu
    · exact hs.1 u hu
    · obtain ⟨w, hw, e⟩ := List.mem_filterMap.1 hu
      cases w with
      | fetching v => cases e; exact (hs.2.1 _ hw).1 u rfl
      | links m ls => cases e
      | ending => cases e
  · intro u hu
    cases hu with
    | root _ => exact .inl rfl
    | link hp _ _ _ hlt => exact .inr ⟨_, hp, hlt⟩

/-! ### C51: the crawler and the starting directory -/

/-- A URL below another one: on the same host, and its path starts with the path of the other. -/
def Below (root url : Url O) : Prop := url.origin = root.origin ∧ root.path <+: url.path

/-- When every page of the site only links files below it, and directories which are below it or whose path is
not longer (as its parents), everything which is visited or listed is below the root.  What is missing:
`C51_false`. -/
theorem C51_partial {root : Url O}
    (hsite : ∀ p links l, site p = .links links → l ∈ links → (kind l = .file → Below p l) ∧
      ∀ d, kind l = .directory d → Below p d ∨ d.path.length ≤ p.path.length) :
    (∀ u, Visited site root u → Below root u) ∧ ∀ f, Listed site root f → Below root f := by
  have hv : ∀ u, Visited site root u → Below root u := by
    intro u hu
    induction hu with
    | root _ => exact ⟨rfl, List.prefix_refl _⟩
    | link _ hs hl hk hm ih =>
      rcases (hsite _ _ _ hs hl).2 _ hk with h | h
      · exact ⟨h.1.trans ih.1, ih.2.trans h.2⟩
      · omega
  refine ⟨hv, ?_⟩
  rintro f ⟨p, links, hp, hs, hl, hk⟩
  have h := (hsite _ _ _ hs hl).1 hk
  exact ⟨h.1.trans (hv p hp).1, (hv p hp).2.trans h.2⟩

/-! ### C50: the iterator -/

/-- the choices of the pool -/
def poolChoices : List WalkChoice → List Choice
  | [] => []
  | .pool c :: cs => c :: poolChoices cs
  | _ :: cs => poolChoices cs

/-- the items of the messages -/
def itemsOf : List (Msg O E) → List (Item O E)
  | [] => []
  | .file u :: ms => .file u :: itemsOf ms
  | .error e :: ms => .error e :: itemsOf ms
  | .done :: ms => itemsOf ms

/-- the items other than a panic -/
def plain (is : List (Item O E)) : List (Item O E) := is.filter fun | .panicked => false | _ => true

/-- the pool of the iterator is the pool without the messages which were received -/
def Follows (s : State O E) (w : Walk O E) : Prop :=
  ∃ received, s = { w.pool with chan := received ++ w.pool.chan } ∧ plain w.yielded = itemsOf received

theorem itemsOf_append (a b : List (Msg O E)) : itemsOf (a ++ b) = itemsOf a ++ itemsOf b := by
  induction a with
  | nil => rfl
  | cons m a ih => cases m <;> simp [itemsOf, ih]

theorem plain_append (a b : List (Item O E)) : plain (a ++ b) = plain a ++ plain b := by simp [plain]

theorem act_prefix (w : Worker O) (s : State O E) (r : List (Msg O E)) :
    act site w { s with chan := r ++ s.chan } = ((act site w s).1, { (act site w s).2 with chan := r ++ (act site w s).2.chan }) := by
  cases w with
  | fetching u => unfold act; simp only; split <;> simp
  | ending => rfl
  | links m ls =>
    cases ls with
    | nil => simp [act]
    | cons l ls =>
      unfold act
      simp only
      split
      · rfl
      · split
        · unfold process
          split <;> rfl
        · simp

theorem step_prefix {c : Choice} {s s' : State O E} (r : List (Msg O E)) (h : step site c s = some s') :
    step site c { s with chan := r ++ s.chan } = some { s' with chan := r ++ s'.chan } := by
  cases c with
  | take =>
    unfold step at h ⊢
    simp only at h ⊢
    split at h
    · cases h
    · rename_i hq
      split at h
      · rename_i hlt
        cases h
        simp only [hlt, if_true]
      · cases h
  | run i =>
    unfold step at h ⊢
    simp only at h ⊢
    split at h
    · cases h
    · rename_i w hw
      simp only [act_prefix]
      rcases hx : act site w s with ⟨x, s1⟩
      rw [hx] at h
      cases x with
      | none => simp only [Option.some.injEq] at h; subst h; rfl
      | some w' => simp only [Option.some.injEq] at h; subst h; rfl

theorem receive_follows {s : State O E} {w : Walk O E} {m : Msg O E} {ms : List (Msg O E)} (hf : Follows s w) (hc : w.pool.chan = m :: ms) :
    Follows s (receive m ms w) := by
  obtain ⟨r, hr, hy⟩ := hf
  refine ⟨r ++ [m], ?_, ?_⟩
  · rw [hr, hc]
    cases m <;> simp [receive]
  · rw [itemsOf_append, ← hy]
    cases m <;> simp [receive, plain, itemsOf]

theorem consume_follows {s : State O E} {w w' : Walk O E} (hf : Follows s w) (h : consume w = some w') : Follows s w' := by
  unfold consume at h
  split at h
  · split at h
    · rename_i hc
      cases h
      exact receive_follows hf hc
    · cases h; exact hf
  · split at h <;> cases h <;> exact hf
  · split at h
    · cases h; exact hf
    · cases h
      unfold notDone
      split
      · obtain ⟨r, hr, hy⟩ := hf
        exact ⟨r, hr, by rw [plain_append, hy]; simp [plain]⟩
      · exact hf
  · split at h
    · rename_i hc
      cases h
      exact receive_follows hf hc
    · cases h
  · cases h

theorem walk_follows {cs : List WalkChoice} {s : State O E} {w w' : Walk O E} (hf : Follows s w) (h : walkExec site cs w = some w') :
    ∃ s', exec site (poolChoices cs) s = some s' ∧ Follows s' w' := by
  induction cs generalizing s w with
  | nil => cases h; exact ⟨s, rfl, hf⟩
  | cons c cs ih =>
    rw [walkExec, Option.bind_eq_some_iff] at h
    obtain ⟨w1, h1, h2⟩ := h
    cases c with
    | pool c =>
      unfold walkStep at h1
      rw [Option.map_eq_some_iff] at h1
      obtain ⟨p, hp, rfl⟩ := h1
      obtain ⟨r, hr, hy⟩ := hf
      obtain ⟨s', hs', hf'⟩ := ih (s := { p with chan := r ++ p.chan }) (w := { w with pool := p }) ⟨r, rfl, hy⟩ h2
      refine ⟨s', ?_, hf'⟩
      rw [poolChoices, exec, hr, step_prefix r hp]
      exact hs'
    | consumer => exact ih (consume_follows hf h1) h2
    | timeout =>
      unfold walkStep at h1
      simp only at h1
      split at h1
      · cases h1
        exact ih (w := { w with pc := .poll }) hf h2
      · cases h1

/-- What the iterator yielded is, in the order, the beginning of what the workers sent: nothing is added,
swapped or skipped. -/
theorem C50_order {root : Url O} {cs : List WalkChoice} {w : Walk O E} (h : walkExec site cs (startWalk root) = some w) :
    ∃ s, exec site (poolChoices cs) (start root) = some s ∧
      s.queued = w.pool.queued ∧ s.active = w.pool.active ∧ itemsOf s.chan = plain w.yielded ++ itemsOf w.pool.chan := by
  obtain ⟨s, h1, r, hr, hy⟩ := walk_follows (s := start root) (w := startWalk root) ⟨[], rfl, rfl⟩ h
  refine ⟨s, h1, by rw [hr], by rw [hr], ?_⟩
  rw [hr]
  simp only [itemsOf_append, hy]

/-- the workers are done, and the consumer will see it -/
def Settled (w : Walk O E) : Prop := Idle w.pool ∧ (w.pc = .poll ∨ w.pool.chan = [])

theorem idle_step {s : State O E} (hi : Idle s) (c : Choice) : step site c s = none := by
  cases c with
  | take => simp [step, hi.1]
  | run i => simp [step, hi.2]

theorem settled_step {c : WalkChoice} {w w' : Walk O E} (hs : Settled w) (h : walkStep site c w = some w') : Settled w' := by
  obtain ⟨hi, hc⟩ := hs
  cases c with
  | pool c =>
    unfold walkStep at h
    rw [Option.map_eq_some_iff] at h
    obtain ⟨p, hp, _⟩ := h
    rw [idle_step hi] at hp
    cases hp
  | timeout =>
    unfold walkStep at h
    simp only at h
    split at h
    · cases h; exact ⟨hi, .inl rfl⟩
    · cases h
  | consumer =>
    unfold walkStep consume at h
    simp only at h
    split at h
    · split at h
      · cases h
        rename_i m ms _
        cases m <;> exact ⟨hi, .inl rfl⟩
      · rename_i he
        cases h
        exact ⟨hi, .inr he⟩
    · rename_i hpc
      have hc' : w.pool.chan = [] := by rcases hc with h | h; · rw [hpc] at h; cases h
                                        · exact h
      split at h <;> cases h <;> exact ⟨hi, .inr hc'⟩
    · rename_i hpc
      have hc' : w.pool.chan = [] := by rcases hc with h | h; · rw [hpc] at h; cases h
                                        · exact h
      split at h
      · cases h; exact ⟨hi, .inr hc'⟩
      · cases h
        unfold notDone
        split
        · exact ⟨hi, .inr hc'⟩
        · exact ⟨hi, .inr hc'⟩
    · split at h
      · cases h
        rename_i m ms _
        cases m <;> exact ⟨hi, .inl rfl⟩
      · cases h
    · cases h

theorem settled_exec {cs : List WalkChoice} {w w' : Walk O E} (hs : Settled w) (h : walkExec site cs w = some w') : Settled w' := by
  induction cs generalizing w with
  | nil => cases h; exact hs
  | cons c cs ih =>
    rw [walkExec, Option.bind_eq_some_iff] at h
    obtain ⟨w1, h1, h2⟩ := h
    exact ih (settled_step hs h1) h2

theorem walkExec_append (a b : List WalkChoice) (w : Walk O E) : walkExec site (a ++ b) w = (walkExec site a w).bind (walkExec site b) := by
  induction a generalizing w with
  | nil => rfl
  | cons c a ih =>
    rw [List.cons_append, walkExec, walkExec]
    cases walkStep site c w with
    | none => rfl
    | some w1 => exact ih w1

theorem poolChoices_append (a b : List WalkChoice) : poolChoices (a ++ b) = poolChoices a ++ poolChoices b := by
  induction a with
  | nil => rfl
  | cons c a ih => cases c <;> simp [poolChoices, ih]

/-- When the workers are done before the consumer polls the channel for the last time, it yields all that was
sent: the files of the listing are exactly the files of the visited pages.  What is missing: `C50_false`. -/
theorem C50_partial {root : Url O} {before after : List WalkChoice} {w1 w : Walk O E}
    (h1 : walkExec site before (startWalk root) = some w1) (hi : Idle w1.pool) (hpc : w1.pc = .poll)
    (h2 : walkExec site after w1 = some w) (hfin : w.pc = .finished) :
    (∃ s, exec site (poolChoices (before ++ after)) (start root) = some s ∧ Idle s ∧ plain w.yielded = itemsOf s.chan) ∧
    (∀ f, .file f ∈ w.yielded ↔ Listed site root f) ∧
    (∀ e, .error e ∈ w.yielded ↔ ∃ q, Visited site root q ∧ site q = .error e) := by
  have hst := settled_exec (site := site) ⟨hi, .inl hpc⟩ h2
  have hc : w.pool.chan = [] := by
    rcases hst.2 with h | h
    · rw [hfin] at h; cases h
    · exact h
  have h : walkExec site (before ++ after) (startWalk root) = some w := by
    rw [walkExec_append, h1]; exact h2
  obtain ⟨s, hs, hq, ha, hy⟩ := C50_order h
  have hidle : Idle s := ⟨hq.trans hst.1.1, ha.trans hst.1.2⟩
  rw [hc, show itemsOf ([] : List (Msg O E)) = [] from rfl, List.append_nil] at hy
  have hmem : ∀ (ms : List (Msg O E)), (∀ f, .file f ∈ itemsOf ms ↔ .file f ∈ eventsOf ms) ∧ ∀ e, .error e ∈ itemsOf ms ↔ .error e ∈ eventsOf ms := by
    intro ms
    induction ms with
    | nil => simp [itemsOf, eventsOf]
    | cons m ms ih => cases m <;> simp [itemsOf, eventsOf, ih.1, ih.2]
  have hhap : (∀ f, .file f ∈ happened s ↔ .file f ∈ eventsOf s.chan) ∧ ∀ e, .error e ∈ happened s ↔ .error e ∈ eventsOf s.chan := by
    unfold happened
    constructor <;> · intro x; simp [List.mem_append, List.mem_replicate]
  have hpl : ∀ it : Item O E, it ≠ .panicked → (it ∈ w.yielded ↔ it ∈ plain w.yielded) := by
    intro it hne
    unfold plain
    rw [List.mem_filter]
    cases it <;> simp at hne ⊢
  refine ⟨⟨s, hs, hidle, hy.symm⟩, ?_, ?_⟩
  · intro f
    rw [hpl _ (by simp), ← hy, (hmem _).1, ← hhap.1, happened_events hs hidle]
    constructor
    · rintro ⟨q, hq, ls, a, b, c⟩; exact ⟨q, ls, hq, a, b, c⟩
    · rintro ⟨q, ls, hq, a, b, c⟩; exact ⟨q, hq, ls, a, b, c⟩
  · intro e
    rw [hpl _ (by simp), ← hy, (hmem _).2, ← hhap.2, happened_events hs hidle]
    rfl

/-- Once the workers are done the iterator always ends. -/
theorem C50_ends {w : Walk O E} (hi : Idle w.pool) (hpc : w.pc = .poll) (hp : w.pool.panics = 0) (ha : w.abort = false) :
    ∃ w', walkExec site (List.replicate (w.pool.chan.length + 3) .consumer) w = some w' ∧ w'.pc = .finished := by
  generalize hn : w.pool.chan = ms
  induction ms generalizing w with
  | nil =>
    refine ⟨{ w with pc := .finished }, ?_, rfl⟩
    simp [walkExec, List.replicate, walkStep, consume, hpc, hn, hp, ha, hi.1, hi.2]
  | cons m ms ih =>
    obtain ⟨w', h1, h2⟩ := ih (w := receive m ms w) (by cases m <;> exact hi) (by cases m <;> rfl) (by cases m <;> exact hp)
      (by cases m <;> exact ha) (by cases m <;> rfl)
    refine ⟨w', ?_, h2⟩
    have e : List.replicate ((m :: ms).length + 3) WalkChoice.consumer = .consumer :: List.replicate (ms.length + 3) .consumer := by
      rw [List.length_cons, show ms.length + 1 + 3 = (ms.length + 3) + 1 from by omega, List.replicate_succ]
    rw [e, walkExec]
    have : walkStep site .consumer w = some (receive m ms w) := by
      simp [walkStep, consume, hpc, hn]
    rw [this]
    exact h1

/-- the number of panics among some items -/
def panicked : List (Item O E) → Nat
  | [] => 0
  | .panicked :: is => panicked is + 1
  | _ :: is => panicked is

theorem panicked_append (a b : List (Item O E)) : panicked (a ++ b) = panicked a + panicked b := by
  induction a with
  | nil => simp [panicked]
  | cons i a ih => cases i <;> simp only [List.cons_append, panicked, ih] <;> omega

/-- the panic was yielded if the iterator is to stop, and it is not waiting then -/
def Once (w : Walk O E) : Prop :=
  panicked w.yielded = (if w.abort then 1 else 0) ∧ ((∃ n, w.pc = .loaded n) ∨ w.pc = .waiting → w.abort = false)

theorem receive_once {w : Walk O E} (m : Msg O E) (ms : List (Msg O E)) (h : panicked w.yielded = (if w.abort then 1 else 0)) : Once (receive m ms w) := by
  refine ⟨?_, ?_⟩
  · cases m <;> simp only [receive, panicked_append, panicked] <;> exact h
  · cases m <;> simp [receive]

theorem walkStep_once {c : WalkChoice} {w w' : Walk O E} (h : Once w) (hs : walkStep site c w = some w') : Once w' := by
  cases c with
  | pool c =>
    unfold walkStep at hs
    rw [Option.map_eq_some_iff] at hs
    obtain ⟨p, _, rfl⟩ := hs
    exact h
  | timeout =>
    unfold walkStep at hs
    simp only at hs
    split at hs
    · cases hs; exact ⟨h.1, by simp⟩
    · cases hs
  | consumer =>
    unfold walkStep consume at hs
    simp only at hs
    split at hs
    · split at hs
      · cases hs; exact receive_once _ _ h.1
      · cases hs; exact ⟨h.1, by simp⟩
    · split at hs
      · cases hs; exact ⟨h.1, by simp⟩
      · rename_i ha
        cases hs
        exact ⟨h.1, fun _ => by simpa using ha⟩
    · rename_i n hpc
      have ha := h.2 (.inl ⟨n, hpc⟩)
      split at hs
      · cases hs; exact ⟨h.1, by simp⟩
      · cases hs
        unfold notDone
        split
        · refine ⟨?_, by simp⟩
          have := h.1
          rw [ha] at this
          simp only [panicked_append, this, panicked]
          rfl
        · exact ⟨h.1, fun _ => ha⟩
    · split at hs
      · cases hs; exact receive_once _ _ h.1
      · cases hs
    · cases hs

/-- C48, for the iterator: the panics of the workers are yielded at most once (`C50_sound`: only if there is one): the iterator
does not repeat them for ever. -/
theorem C48_panic_once {root : Url O} {cs : List WalkChoice} {w : Walk O E} (h : walkExec site cs (startWalk root) = some w) :
    panicked w.yielded ≤ 1 := by
  have key : ∀ (cs : List WalkChoice) (v : Walk O E), Once v → walkExec site cs v = some w → Once w := by
    intro cs
    induction cs with
    | nil => intro v hv h; cases h; exact hv
    | cons c cs ih =>
      intro v hv h
      rw [walkExec, Option.bind_eq_some_iff] at h
      obtain ⟨v1, h1, h2⟩ := h
      exact ih v1 (walkStep_once hv h1) h2
  have := (key cs (startWalk root) ⟨rfl, by simp [startWalk]⟩ h).1
  rw [this]
  split <;> omega

/-- C50, when the iterator ends: unless a panic was yielded, there was a time, after the channel was found empty, when no worker was
running, and a later time when no job was queued.  These are two times, and this is why some items may be missed: `C50_false`. -/
theorem C50_quiet {root : Url O} {cs : List WalkChoice} {w : Walk O E} (h : walkExec site cs (startWalk root) = some w)
    (hfin : w.pc = .finished) (ha : w.abort = false) :
    ∃ a b c w1 w2, cs = a ++ b ++ c ∧ walkExec site a (startWalk root) = some w1 ∧ w1.pool.active = [] ∧ w1.pc = .empty ∧
      walkExec site b w1 = some w2 ∧ w2.pool.queued = [] ∧ w2.pool.panics = 0 := by
  -- the last load of the number of running workers, and the end
  have key : ∀ (cs : List WalkChoice) (w : Walk O E), walkExec site cs (startWalk root) = some w →
      (∀ n, w.pc = .loaded n → ∃ a b w1, cs = a ++ b ∧ walkExec site a (startWalk root) = some w1 ∧ w1.pool.active.length = n ∧ w1.pc = .empty ∧
        walkExec site b w1 = some w) ∧
      (w.pc = .finished → w.abort = false → ∃ a b c w1 w2, cs = a ++ b ++ c ∧ walkExec site a (startWalk root) = some w1 ∧ w1.pool.active = [] ∧ w1.pc = .empty ∧
        walkExec site b w1 = some w2 ∧ w2.pool.queued = [] ∧ w2.pool.panics = 0) := by
    intro cs
    induction cs using List.reverseRecOn with
    | nil =>
      intro w h
      cases h
      exact ⟨fun n h => by simp [startWalk] at h, fun h => by simp [startWalk] at h⟩
    | append_singleton cs x ih =>
      intro w h
      rw [walkExec_append, Option.bind_eq_some_iff] at h
      obtain ⟨v, hv, h⟩ := h
      rw [walkExec, Option.bind_eq_some_iff] at h
      obtain ⟨w', hw, h⟩ := h
      obtain rfl : w' = w := Option.some.inj h
      obtain ⟨ih1, ih2⟩ := ih v hv
      -- the position is unchanged: the same times
      have keep : v.pc = w'.pc → (v.abort = w'.abort) → (∀ n, w'.pc = .loaded n → ∃ a b w1, cs ++ [x] = a ++ b ∧ walkExec site a (startWalk root) = some w1 ∧
          w1.pool.active.length = n ∧ w1.pc = .empty ∧ walkExec site b w1 = some w') ∧
        (w'.pc = .finished → w'.abort = false → ∃ a b c w1 w2, cs ++ [x] = a ++ b ++ c ∧ walkExec site a (startWalk root) = some w1 ∧ w1.pool.active = [] ∧ w1.pc = .empty ∧
          walkExec site b w1 = some w2 ∧ w2.pool.queued = [] ∧ w2.pool.panics = 0) := by
        intro hpc hab
        constructor
        · intro n hn
          obtain ⟨a, b, w1, e, h1, h2, h3, h4⟩ := ih1 n (hpc.trans hn)
          refine ⟨a, b ++ [x], w1, by rw [e, List.append_assoc], h1, h2, h3, ?_⟩
          rw [walkExec_append, h4, Option.bind_some, walkExec, hw]; rfl
        · intro hf hb
          obtain ⟨a, b, c, w1, w2, e, rest⟩ := ih2 (hpc.trans hf) (hab.trans hb)
          exact ⟨a, b, c ++ [x], w1, w2, by rw [e, List.append_assoc _ c], rest⟩
      have away : (∀ n, w'.pc ≠ .loaded n) → w'.pc ≠ .finished → (∀ n, w'.pc = .loaded n → ∃ a b w1, cs ++ [x] = a ++ b ∧ walkExec site a (startWalk root) = some w1 ∧
          w1.pool.active.length = n ∧ w1.pc = .empty ∧ walkExec site b w1 = some w') ∧
        (w'.pc = .finished → w'.abort = false → ∃ a b c w1 w2, cs ++ [x] = a ++ b ++ c ∧ walkExec site a (startWalk root) = some w1 ∧ w1.pool.active = [] ∧ w1.pc = .empty ∧
          walkExec site b w1 = some w2 ∧ w2.pool.queued = [] ∧ w2.pool.panics = 0) :=
        fun h1 h2 => ⟨fun n h => absurd h (h1 n), fun h => absurd h h2⟩
      have hw0 := hw
      cases x with
      | pool c =>
        unfold walkStep at hw
        rw [Option.map_eq_some_iff] at hw
        obtain ⟨p, _, rfl⟩ := hw
        exact keep rfl rfl
      | timeout =>
        unfold walkStep at hw
        simp only at hw
        split at hw
        · cases hw; exact away (by simp) (by simp)
        · cases hw
      | consumer =>
        unfold walkStep consume at hw
        simp only at hw
        split at hw
        · split at hw
          · rename_i m ms _
            cases hw
            exact away (by cases m <;> simp [receive]) (by cases m <;> simp [receive])
          · cases hw; exact away (by simp) (by simp)
        · rename_i hpc
          split at hw
          · rename_i hab
            cases hw
            refine ⟨by simp, ?_⟩
            intro _ h
            simp only at h
            rw [hab] at h
            cases h
          · cases hw
            refine ⟨?_, by simp⟩
            intro n hn
            simp only [Pc.loaded.injEq] at hn
            refine ⟨cs, [.consumer], v, rfl, hv, hn, hpc, ?_⟩
            rw [walkExec, hw0]; rfl
        · rename_i n hpc
          split at hw
          · rename_i hz
            cases hw
            refine ⟨by simp, ?_⟩
            intro _ _
            obtain ⟨a, b, w1, e, h1, h2, h3, h4⟩ := ih1 n hpc
            have hn0 : n = 0 := by omega
            have hq : v.pool.queued.length = 0 := by omega
            exact ⟨a, b, [.consumer], w1, v, by rw [e], h1, List.length_eq_zero_iff.1 (h2.trans hn0), h3, h4, List.length_eq_zero_iff.1 hq, hz.2⟩
          · cases hw
            refine away ?_ ?_ <;> · unfold notDone; split <;> simp
        · split at hw
          · rename_i m ms _
            cases hw
            exact away (by cases m <;> simp [receive]) (by cases m <;> simp [receive])
          · cases hw
        · cases hw
  exact (key cs w h).2 hfin ha

/-! ### Witnesses -/

/-- A site with a directory and a file in each: `/a/` links itself, `/a/f`, `/a/b/` and `/a/etc/`; `/a/b/` links
its parent and `/a/b/g`. -/
def demo (u : Url Unit) : Page Unit Unit :=
  if u.path = "/a/".toList then .links (["/a/", "/a/f", "/a/b/index.html", "/a/etc/"].map fun s => ⟨(), s.toList⟩)
  else if u.path = "/a/b/".toList then .links (["/a/", "/a/b/g"].map fun s => ⟨(), s.toList⟩)
  else .error ()

def demoRoot : Url Unit := ⟨(), "/a/".toList⟩

/-- a schedule of two workers -/
def demoSchedule : List Choice := [.take, .run 0, .run 0, .run 0, .run 0, .take, .run 1, .run 1, .run 0, .run 1, .run 0, .run 1, .run 0, .run 0]

/-- `C47_complete`, `C48_errors` and `C49_visits` apply to a crawl with two workers. -/
example : (exec demo demoSchedule (start demoRoot)).map (fun s => (decide (Idle s), listResult s)) =
    some (true, .ok [⟨(), "/a/f".toList⟩, ⟨(), "/a/b/g".toList⟩]) := by decide +kernel

/-- What C47 needs of `ThreadPool::join`.  Were it to load the two counters one after the other, and to return when it read that no job was queued and then that no worker
was active, it could return while a job is queued: here the page `/a/b/` is queued between the loads, and its file is not listed. -/
theorem C47_needs_join : ∃ a b s1 s2, exec demo a (start demoRoot) = some s1 ∧ s1.queued = [] ∧ exec demo b s1 = some s2 ∧ s2.active = [] ∧
    listResult s2 = .ok [⟨(), "/a/f".toList⟩] ∧ Listed demo demoRoot ⟨(), "/a/b/g".toList⟩ := by
  refine ⟨[.take, .run 0], [.run 0, .run 0, .run 0, .run 0, .run 0, .run 0], ⟨[], [.links 3 (["/a/", "/a/f", "/a/b/index.html", "/a/etc/"].map fun s => ⟨(), s.toList⟩)], [], 0⟩,
    ⟨[⟨(), "/a/b/".toList⟩], [], [.file ⟨(), "/a/f".toList⟩, .done], 0⟩, by decide +kernel, rfl, by decide +kernel, rfl, by decide +kernel, ?_⟩
  have h : (exec demo demoSchedule (start demoRoot)).map (fun s => (decide (Idle s), listResult s)) =
    some (true, .ok [⟨(), "/a/f".toList⟩, ⟨(), "/a/b/g".toList⟩]) := by decide +kernel
  obtain ⟨s, h1, h2⟩ := Option.map_eq_some_iff.1 h
  rw [Prod.mk.injEq, decide_eq_true_eq] at h2
  exact ((C47_complete h1 h2.1 h2.2).1 _).1 (by simp)

/-- The hypothesis of `C49_terminates` holds of the site above, and so do those of `C50_partial` of a schedule where
the workers come first. -/
example : (∀ q, Visited demo demoRoot q → q.path.length ≤ 5) ∧
    ∃ w1 w, walkExec demo (demoSchedule.map .pool) (startWalk demoRoot) = some w1 ∧ Idle w1.pool ∧ w1.pc = .poll ∧
      walkExec demo (List.replicate 7 .consumer) w1 = some w ∧ w.pc = .finished ∧
      w.yielded = [.file ⟨(), "/a/f".toList⟩, .file ⟨(), "/a/b/g".toList⟩] := by
  constructor
  · intro q hq
    have key : ∀ q, Visited demo demoRoot q → q.path = "/a/".toList ∨ q.path = "/a/b/".toList := by
      intro q hq
      induction hq with
      | root _ => exact .inl rfl
      | @link p d ls l _ hs hl hk hm ih =>
        rcases ih with ih | ih
        · unfold demo at hs
          rw [if_pos ih] at hs
          cases hs
          have : ∀ l ∈ (["/a/", "/a/f", "/a/b/index.html", "/a/etc/"].map fun s => (⟨(), s.toList⟩ : Url Unit)),
              ∀ d ∈ (match kind l with | .directory d => [d] | _ => []), d.path = "/a/".toList ∨ d.path = "/a/b/".toList := by decide +kernel
          exact this l hl d (by rw [hk]; simp)
        · unfold demo at hs
          rw [if_neg (by rw [ih]; decide), if_pos ih] at hs
          cases hs
          have : ∀ l ∈ (["/a/", "/a/b/g"].map fun s => (⟨(), s.toList⟩ : Url Unit)),
              ∀ d ∈ (match kind l with | .directory d => [d] | _ => []), d.path = "/a/".toList ∨ d.path = "/a/b/".toList := by decide +kernel
          exact this l hl d (by rw [hk]; simp)
    rcases key q hq with h | h <;> rw [h] <;> decide
  · refine ⟨_, _, show walkExec demo (demoSchedule.map .pool) (startWalk demoRoot) =
      some ⟨⟨[], [], [.file ⟨(), "/a/f".toList⟩, .file ⟨(), "/a/b/g".toList⟩, .done, .done], 0⟩, .poll, false, []⟩ by decide +kernel, by decide, rfl,
      show walkExec demo (List.replicate 7 .consumer) _ = some ⟨⟨[], [], [], 0⟩, .finished, false, [.file ⟨(), "/a/f".toList⟩, .file ⟨(), "/a/b/g".toList⟩]⟩ by decide +kernel, rfl, rfl⟩

/-- C50 does not hold in full: the consumer finds the channel empty, then the worker sends its last messages and
leaves, and the iterator ends without these messages.  It also ends when the worker takes the job between the
loads of the two counters. -/
theorem C50_false :
    (∃ cs w, walkExec demo cs (startWalk demoRoot) = some w ∧ w.pc = .finished ∧ w.yielded = [] ∧ Idle w.pool ∧
      w.pool.chan = [.file ⟨(), "/a/f".toList⟩, .done, .file ⟨(), "/a/b/g".toList⟩, .done]) ∧
    (∃ cs w, walkExec demo cs (startWalk demoRoot) = some w ∧ w.pc = .finished ∧ w.yielded = [] ∧ w.pool.active = [.fetching demoRoot]) := by
  constructor
  · let cs : List WalkChoice := [.pool .take, .consumer] ++
      ([.run 0, .run 0, .run 0, .run 0, .run 0, .run 0, .run 0, .take, .run 0, .run 0, .run 0, .run 0, .run 0].map .pool) ++ [.consumer, .consumer]
    refine ⟨cs, _, show walkExec demo cs (startWalk demoRoot) = some ⟨⟨[], [], [.file ⟨(), "/a/f".toList⟩, .done, .file ⟨(), "/a/b/g".toList⟩, .done], 0⟩, .finished, false, []⟩ from ?_, ?_⟩
    · decide +kernel
    · decide +kernel
  · let cs : List WalkChoice := [.consumer, .consumer, .pool .take, .consumer]
    refine ⟨cs, _, show walkExec demo cs (startWalk demoRoot) = some ⟨⟨[], [.fetching demoRoot], [], 0⟩, .finished, false, []⟩ from ?_, ?_⟩
    · decide +kernel
    · decide +kernel

/-- A site which links another directory with a longer path. -/
def escape (u : Url Unit) : Page Unit Unit :=
  if u.path = "/a/".toList then .links [⟨(), "/private/".toList⟩]
  else if u.path = "/private/".toList then .links [⟨(), "/private/key".toList⟩]
  else .error ()

/-- C51 does not hold in full: the crawler follows the links out of the starting directory. -/
theorem C51_false : Visited escape demoRoot ⟨(), "/private/".toList⟩ ∧ Listed escape demoRoot ⟨(), "/private/key".toList⟩ ∧
    ¬ Below demoRoot ⟨(), "/private/key".toList⟩ := by
  have h1 : Visited escape demoRoot ⟨(), "/private/".toList⟩ :=
    .link (page := demoRoot) (links := [⟨(), "/private/".toList⟩]) (link := ⟨(), "/private/".toList⟩) (.root (by decide)) (by decide +kernel) (by simp) (by decide +kernel) (by decide)
  refine ⟨h1, ⟨_, _, h1, show escape _ = .links [⟨(), "/private/key".toList⟩] by decide +kernel, by simp, by decide +kernel⟩, ?_⟩
  rintro ⟨_, h⟩
  revert h
  decide

/-- The hypothesis of `C51_partial` holds of the site above. -/
example : ∀ p links l, demo p = .links links → l ∈ links → (kind l = .file → Below p l) ∧
    ∀ d, kind l = .directory d → Below p d ∨ d.path.length ≤ p.path.length := by
  have key : ∀ path ∈ ["/a/".toList, "/a/b/".toList], ∀ links, demo ⟨(), path⟩ = .links links → ∀ l ∈ links,
      (kind l = .file → Below ⟨(), path⟩ l) ∧
      ∀ d ∈ (match kind l with | .directory d => [d] | _ => []), Below ⟨(), path⟩ d ∨ d.path.length ≤ path.length := by
    intro path hp links h
    simp only [List.mem_cons, List.not_mem_nil, or_false] at hp
    rcases hp with rfl | rfl
    · have e : demo ⟨(), "/a/".toList⟩ = .links (["/a/", "/a/f", "/a/b/index.html", "/a/etc/"].map fun s => ⟨(), s.toList⟩) := by decide +kernel
      rw [e] at h; cases h
      unfold Below
      decide +kernel
    · have e : demo ⟨(), "/a/b/".toList⟩ = .links (["/a/", "/a/b/g"].map fun s => ⟨(), s.toList⟩) := by decide +kernel
      rw [e] at h; cases h
      unfold Below
      decide +kernel
  intro p links l h hl
  have hp : p.path ∈ ["/a/".toList, "/a/b/".toList] := by
    unfold demo at h
    split at h
    · rename_i hp; rw [hp]; simp
    · split at h
      · rename_i hp; rw [hp]; simp
      · cases h
  obtain ⟨h1, h2⟩ := key p.path hp links h l hl
  refine ⟨h1, ?_⟩
  intro d hd
  rw [hd] at h2
  exact h2 d (by simp)

/-! ### C78: the links of a page -/

/-- the start of a link in a page -/
def openTag : Str := "<a href=\"".toList

/-- the text of a link in a page -/
def tag (link : Str) : Str := openTag ++ link ++ "\">".toList

/-- The links which are followed have at least two characters, and the first is a letter, a digit, a slash or a
backslash. -/
def Followed (link : Str) : Prop := 2 ≤ link.length ∧ ∀ c ∈ link.head?, c ∈ ['\\', '/'] ∨ c.isAlphanum = true

instance (link : Str) : Decidable (Followed link) := inferInstanceAs (Decidable (_ ∧ _))

theorem anchor_tag {link rest : Str} (hq : '"' ∉ link) : anchor (tag link ++ rest) = if Followed link then some (link, rest) else none := by
  have e : tag link ++ rest = openTag ++ (link ++ '"' :: '>' :: rest) := by simp [tag]
  unfold anchor
  have hst : startsWith (openTag ++ (link ++ '"' :: '>' :: rest)) "<a href=\"".toList = true := startsWith_iff.2 (List.prefix_append openTag _)
  rw [e, if_pos hst]
  have hd : (openTag ++ (link ++ '"' :: '>' :: rest)).drop 9 = link ++ '"' :: '>' :: rest := List.drop_left' (by decide)
  have ht : (link ++ '"' :: '>' :: rest).takeWhile (· != '"') = link := by
    rw [List.takeWhile_append_of_pos]
    · simp
    · intro c hc
      have : c ≠ '"' := fun h => hq (h ▸ hc)
      simpa using this
  have hw : (link ++ '"' :: '>' :: rest).dropWhile (· != '"') = '"' :: '>' :: rest := by
    rw [List.dropWhile_append_of_pos]
    · simp
    · intro c hc
      have : c ≠ '"' := fun h => hq (h ▸ hc)
      simpa using this
  simp only [hd, ht, hw]
  match link with
  | [] => rw [if_neg]; unfold Followed; simp
  | [c] => rw [if_neg]; unfold Followed; simp
  | c :: d :: l =>
    have hs : startsWith ('"' :: '>' :: rest) "\">".toList = true := startsWith_iff.2 ⟨rest, rfl⟩
    simp only [hs, Bool.and_true]
    have : linkStart c = true ↔ Followed (c :: d :: l) := by
      unfold linkStart Followed
      simp only [List.length_cons, List.head?_cons, Option.mem_some_iff, forall_eq', List.mem_cons, List.not_mem_nil, or_false,
        Bool.or_eq_true, beq_iff_eq]
      constructor
      · intro h; exact ⟨by omega, h⟩
      · intro h; exact h.2
    by_cases h : linkStart c = true
    · rw [if_pos h, if_pos (this.1 h)]; rfl
    · rw [if_neg h, if_neg fun h' => h (this.2 h')]

/-- no link starts inside a text, even when something starting with `<` follows -/
theorem no_tag {t rest : Str} (ht : ¬ openTag <:+: t) (hr : rest = [] ∨ rest.head? = some '<') (ht0 : t ≠ []) : anchor (t ++ rest) = none := by
  unfold anchor
  rw [if_neg]
  rw [startsWith_iff]
  intro h
  apply ht
  -- the tag would end inside the text
  have key : ∀ (p t : Str), t ≠ [] → '<' ∉ p.tail → p <+: t ++ rest → p <+: t := by
    intro p
    induction p with
    | nil => intro t _ _ _; exact List.nil_prefix
    | cons c p ih =>
      intro t hne hp h
      cases t with
      | nil => exact absurd rfl hne
      | cons d t =>
        rw [List.cons_append, List.cons_prefix_cons] at h
        rw [List.cons_prefix_cons]
        refine ⟨h.1, ?_⟩
        cases p with
        | nil => exact List.nil_prefix
        | cons x p =>
          cases t with
          | nil =>
            rcases hr with hr | hr
            · rw [hr] at h
              have := h.2
              simp at this
            · cases rest with
              | nil => cases hr
              | cons y rest =>
                simp only [List.head?_cons, Option.some.injEq] at hr
                have h2 := h.2
                rw [List.nil_append, List.cons_prefix_cons] at h2
                exact absurd (by rw [h2.1, hr]; simp) hp
          | cons y t => exact ih (y :: t) (by simp) (fun hm => hp (by simp at hm ⊢; exact .inr hm)) h.2
  exact (key openTag t ht0 (by decide) h).isInfix

theorem anchors_text {t rest : Str} (ht : ¬ openTag <:+: t) (hr : rest = [] ∨ rest.head? = some '<') : anchors 0 (t ++ rest) = anchors 0 rest := by
  induction t with
  | nil => rfl
  | cons c t ih =>
    have h := no_tag (rest := rest) ht hr (by simp)
    rw [List.cons_append] at h ⊢
    rw [anchors, h]
    exact ih fun h' => ht (List.infix_cons h')

theorem anchors_skip (a b : Str) : anchors a.length (a ++ b) = anchors 0 b := by
  induction a with
  | nil => rfl
  | cons c a ih => exact ih

theorem anchors_tag {link rest : Str} (hq : '"' ∉ link) (hlt : '<' ∉ link) :
    anchors 0 (tag link ++ rest) = if Followed link then link :: anchors 0 rest else anchors 0 rest := by
  have h := anchor_tag (rest := rest) hq
  have e : tag link ++ rest = '<' :: (("a href=\"".toList ++ link ++ "\">".toList) ++ rest) := by
    rw [tag, show openTag = '<' :: "a href=\"".toList from by decide]
    simp only [List.cons_append]
  by_cases hf : Followed link
  · rw [if_pos hf] at h ⊢
    rw [e] at h ⊢
    rw [anchors, h]
    simp only
    have hl : (("a href=\"".toList ++ link ++ "\">".toList) ++ rest).length - rest.length = ("a href=\"".toList ++ link ++ "\">".toList).length := by
      rw [List.length_append]; omega
    rw [hl, anchors_skip]
  · rw [if_neg hf] at h ⊢
    rw [e] at h ⊢
    rw [anchors, h]
    simp only
    -- no other link starts in the rest of the tag
    have e2 : ("a href=\"".toList ++ link ++ "\">".toList) ++ rest = "a href=\"".toList ++ (link ++ ("\">".toList ++ rest)) := by simp
    have nolt : ∀ (x y : Str), '<' ∉ x → anchors 0 (x ++ y) = anchors 0 y := by
      intro x y hx
      induction x with
      | nil => rfl
      | cons c x ih =>
        rw [List.cons_append, anchors]
        have : anchor (c :: (x ++ y)) = none := by
          unfold anchor
          rw [if_neg]
          rw [startsWith_iff]
          rintro ⟨z, hz⟩
          have hz' := congrArg List.head? hz
          rw [List.head?_append, show List.head? "<a href=\"".toList = some '<' from by decide, Option.some_or, List.head?_cons, Option.some.injEq] at hz'
          exact hx (by rw [← hz']; simp)
        rw [this]
        exact ih fun hm => hx (by simp [hm])
    rw [e2, nolt _ _ (by decide), nolt _ _ hlt, nolt _ _ (by decide)]

/-- A page: texts without the start of a link, each followed by a link, then a text. -/
def pageText (segments : List (Str × Str)) (last : Str) : Str := (segments.flatMap fun (text, link) => text ++ tag link) ++ last

/-- The links of a page are found exactly, in the order: those with at least two characters, which start with a
letter, a digit, a slash or a backslash. -/
theorem C78_links (segments : List (Str × Str)) (last : Str) (hs : ∀ s ∈ segments, ¬ openTag <:+: s.1 ∧ '"' ∉ s.2 ∧ '<' ∉ s.2)
    (hl : ¬ openTag <:+: last) : anchors 0 (pageText segments last) = (segments.map Prod.snd).filter (fun l => decide (Followed l)) := by
  induction segments with
  | nil =>
    have := anchors_text (t := last) (rest := []) hl (.inl rfl)
    rw [List.append_nil] at this
    simp only [pageText, List.flatMap_nil, List.nil_append, this]
    rfl
  | cons s segments ih =>
    obtain ⟨h1, h2, h3⟩ := hs s (by simp)
    have e : pageText (s :: segments) last = s.1 ++ (tag s.2 ++ pageText segments last) := by simp [pageText]
    rw [e, anchors_text h1 (.inr rfl), anchors_tag h2 h3, ih fun x hx => hs x (by simp [hx])]
    simp only [List.map_cons, List.filter_cons, decide_eq_true_eq]

example : anchors 0 "<h1>Index</h1><a href=\"../\">Parent</a> <a href=\"a.log\">a.log</a> <a href=\"b\">b</a><a href=\"sub/\">sub</a>".toList =
    ["a.log".toList, "sub/".toList] := by decide +kernel

/-- C78: a page whose links are all URLs gives them in order, and a page with a link which is not an URL is an error: no link
is dropped. -/
theorem C78_join (join : Str → Option (Url O)) (page : Str) :
    (∀ urls, parseIndexOf join page = some urls ↔ (anchors 0 page).map join = urls.map some) ∧
    (parseIndexOf join page = none ↔ ∃ l ∈ anchors 0 page, join l = none) := by
  unfold parseIndexOf
  generalize anchors 0 page = ls
  have e : ∀ l : Str, ∀ ls, List.mapM join (l :: ls) = (join l).bind fun u => (List.mapM join ls).map (u :: ·) := by
    intro l ls
    rw [List.mapM_cons]
    cases join l with
    | none => rfl
    | some u => cases List.mapM join ls <;> rfl
  induction ls with
  | nil =>
    refine ⟨fun urls => ?_, by simp⟩
    cases urls <;> simp
  | cons l ls ih =>
    rw [e]
    cases hl : join l with
    | none =>
      refine ⟨fun urls => ?_, by simp [hl]⟩
      cases urls <;> simp [hl]
    | some u =>
      constructor
      · intro urls
        cases urls with
        | nil => cases hm : List.mapM join ls <;> simp
        | cons v vs =>
          have := ih.1 vs
          cases hm : List.mapM join ls with
          | none => rw [hm] at this; simp [hl] at this ⊢; exact fun _ => this
          | some us => rw [hm] at this; simp [hl] at this ⊢; rw [this]; exact fun _ => Iff.rfl
      · have := ih.2
        cases hm : List.mapM join ls with
        | none => rw [hm] at this; simpa [hl] using this
        | some us => rw [hm] at this; simpa [hl] using this

/-- A page with a link which is not an URL -/
example : parseIndexOf (O := Unit) (fun l => if l = "a.log".toList then some ⟨(), l⟩ else none) "<a href=\"a.log\"><a href=\"http://[\">".toList = none := by decide +kernel

end LJ.Crawler

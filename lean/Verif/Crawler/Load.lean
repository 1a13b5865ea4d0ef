import Verif.Crawler.Walk

/-! # The requests of a listing

What a site serves when it is listed (httpdir.rs:86-170): how many requests at a time, and which ones.  A request begins when a
worker takes a job, and lasts until the worker goes through the links of the page. -/
namespace LJ.Crawler

open Spec

variable {O E : Type} {site : Url O → Page O E}

/-! ### Specification -/

namespace Spec

/-- the directory a link leads to, when it is longer than the path of the page, of length `n` -/
def deeper (n : Nat) (link : Url O) : Option (Url O) :=
  match kind link with
  | .directory d => if n < d.path.length then some d else none
  | _ => none

/-- the directories a page leads to, as many times as the page links them -/
def linked (site : Url O → Page O E) (page : Url O) : List (Url O) :=
  match site page with
  | .links links => links.filterMap (deeper page.path.length)
  | _ => []

/-- a page, and the pages it leads to in less than `n` links: one for each way to get there -/
def pages (site : Url O → Page O E) : Nat → Url O → List (Url O)
  | 0, _ => []
  | n + 1, page => page :: (linked site page).flatMap (pages site n)

end Spec

/-- The requests made by a schedule: a worker which takes a job requests its page. -/
def requests (site : Url O → Page O E) : List Choice → State O E → List (Url O)
  | [], _ => []
  | c :: cs, s =>
    (match c, s.queued with
      | .take, url :: _ => [url]
      | _, _ => []) ++
    (match step site c s with
      | some s' => requests site cs s'
      | none => [])

/-- the requests which were made and are not answered -/
def inFlight (s : State O E) : List (Url O) := s.active.filterMap fun w => match w with | .fetching u => some u | _ => none

/-! ### The jobs to come -/

/-- the directories a worker will submit -/
def coming (site : Url O → Page O E) : Worker O → List (Url O)
  | .fetching u => linked site u
  | .links n ls => ls.filterMap (deeper n)
  | .ending => []

/-- the jobs which are queued or will be submitted by the running workers -/
def pend (site : Url O → Page O E) (s : State O E) : List (Url O) := s.queued ++ s.active.flatMap (coming site)

theorem pend_run {i : Nat} {s s' : State O E} (h : step site (.run i) s = some s') : (pend site s).Perm (pend site s') := by
  obtain ⟨a, w, b, ha, hc⟩ := step_run h
  unfold pend
  rw [ha]
  cases hc with
  | fetched hu => simp [coming, linked, hu]
  | failed hu => simp [coming, linked, hu]
  | panicked hu => simp [coming, linked, hu]
  | ending => simp [coming]
  | nil => simp [coming]
  | ignored hk => simp [coming, deeper, hk]
  | file hk => simp [coming, deeper, hk]
  | short hk hm => simp [coming, deeper, hk, Nat.not_lt.2 hm]
  | @dir m l ls _ d hk hm =>
    simp only [coming, deeper, hk, hm, if_true, List.flatMap_append, List.flatMap_cons, List.filterMap_cons, List.append_assoc]
    refine List.Perm.append_left _ ?_
    simp only [List.cons_append, List.nil_append]
    exact List.perm_middle

theorem requests_take {cs : List Choice} {s s' : State O E} {u : Url O} {q : List (Url O)} (hq : s.queued = u :: q)
    (h : step site .take s = some s') : requests site (.take :: cs) s = u :: requests site cs s' := by
  simp [requests, hq, h]

theorem requests_run {i : Nat} {cs : List Choice} {s s' : State O E} (h : step site (.run i) s = some s') :
    requests site (.run i :: cs) s = requests site cs s' := by
  simp [requests, h]

theorem pages_count {cs : List Choice} {s s' : State O E} (h : exec site cs s = some s') (hi : Idle s') :
    ∃ n, (∀ u ∈ pend site s, ∀ m, n ≤ m → pages site m u = pages site n u) ∧
      (requests site cs s).Perm ((pend site s).flatMap (pages site n)) := by
  induction cs generalizing s with
  | nil =>
    cases h
    exact ⟨0, by simp [pend, hi.1, hi.2], by simp [pend, hi.1, hi.2, requests]⟩
  | cons c cs ih =>
    rw [exec, Option.bind_eq_some_iff] at h
    obtain ⟨s1, h1, h2⟩ := h
    obtain ⟨n, ih1, ih2⟩ := ih h2
    cases c with
    | run i =>
      have hp := pend_run h1
      refine ⟨n, fun u hu => ih1 u (hp.mem_iff.1 hu), ?_⟩
      rw [requests_run h1]
      exact ih2.trans (hp.symm.flatMap_right _)
    | take =>
      obtain ⟨u, q, hq, _, e⟩ := step_take h1
      have hp1 : pend site s1 = q ++ (s.active.flatMap (coming site) ++ linked site u) := by
        rw [e]; simp [pend, coming]
      have hp : pend site s = u :: (q ++ s.active.flatMap (coming site)) := by simp [pend, hq]
      have hl : ∀ m, n ≤ m → (linked site u).flatMap (pages site m) = (linked site u).flatMap (pages site n) := by
        intro m hm
        rw [List.flatMap_def, List.flatMap_def]
        congr 1
        refine List.map_congr_left fun v hv => ih1 v ?_ m hm
        rw [hp1]; simp [hv]
      have ho : ∀ v ∈ q ++ s.active.flatMap (coming site), ∀ m, n ≤ m → pages site m v = pages site n v := by
        intro v hv
        refine ih1 v ?_
        rw [hp1, ← List.append_assoc]
        exact List.mem_append_left _ hv
      refine ⟨n + 1, ?_, ?_⟩
      · rw [hp]
        intro v hv m hm
        obtain ⟨k, rfl⟩ : ∃ k, m = k + 1 := ⟨m - 1, by omega⟩
        rcases List.mem_cons.1 hv with rfl | hv
        · rw [pages, pages, hl k (by omega)]
        · rw [ho v hv _ (by omega), ho v hv (n + 1) (by omega)]
      · rw [requests_take hq h1, hp, List.flatMap_cons, pages]
        have e2 : (q ++ s.active.flatMap (coming site)).flatMap (pages site (n + 1)) =
            (q ++ s.active.flatMap (coming site)).flatMap (pages site n) := by
          rw [List.flatMap_def, List.flatMap_def]
          congr 1
          exact List.map_congr_left fun v hv => ho v hv _ (by omega)
        rw [e2, List.cons_append]
        refine List.Perm.cons u (ih2.trans ?_)
        rw [hp1, ← List.append_assoc, List.flatMap_append]
        exact List.perm_append_comm

theorem pend_start (root : Url O) : pend site (start root : State O E) = if root.path = [] then [] else [root] := by
  cases h : root.path with
  | nil => simp [pend, start, process, visit, h]
  | cons c p => simp [pend, start, process, visit, h]

/-! ### C147 -/

theorem active_le {cs : List Choice} {s s' : State O E} (h0 : s.active.length ≤ 4) (h : exec site cs s = some s') : s'.active.length ≤ 4 := by
  induction cs generalizing s with
  | nil => cases h; exact h0
  | cons c cs ih =>
    rw [exec, Option.bind_eq_some_iff] at h
    obtain ⟨s1, h1, h2⟩ := h
    refine ih ?_ h2
    cases c with
    | take =>
      obtain ⟨u, q, _, hw, rfl⟩ := step_take h1
      simp only [WORKERS] at hw
      simp only [List.length_append, List.length_singleton]
      omega
    | run i =>
      obtain ⟨a, w, b, ha, hc⟩ := step_run h1
      rw [ha] at h0
      simp only [List.length_append, List.length_cons] at h0
      cases hc <;> simp only [List.length_append, List.length_cons] <;> omega

/-- Whatever the schedule, at any time, at most four requests are not answered. -/
theorem C147_width {root : Url O} {cs : List Choice} {s : State O E} (h : exec site cs (start root) = some s) : (inFlight s).length ≤ 4 := by
  refine Nat.le_trans (List.length_filterMap_le _ _) (active_le ?_ h)
  unfold start process
  split <;> simp

/-- So it is for the iterator. -/
theorem C147_walk {root : Url O} {cs : List WalkChoice} {w : Walk O E} (h : walkExec site cs (startWalk root) = some w) :
    (inFlight w.pool).length ≤ 4 := by
  obtain ⟨s, hs, _, ha, _⟩ := C50_order h
  have := C147_width hs
  unfold inFlight at this ⊢
  rwa [← ha]

theorem mem_pages_mono {m n : Nat} (hmn : m ≤ n) {page u : Url O} (h : u ∈ pages site m page) : u ∈ pages site n page := by
  induction m generalizing n page with
  | zero => simp [pages] at h
  | succ m ih =>
    obtain ⟨k, rfl⟩ : ∃ k, n = k + 1 := ⟨n - 1, by omega⟩
    rw [pages, List.mem_cons, List.mem_flatMap] at h ⊢
    rcases h with h | ⟨v, hv, h⟩
    · exact .inl h
    · exact .inr ⟨v, hv, ih (by omega) h⟩

theorem mem_linked {page d : Url O} : d ∈ linked site page ↔ ∃ links link, site page = .links links ∧ link ∈ links ∧ kind link = .directory d ∧
    page.path.length < d.path.length := by
  unfold linked
  cases hp : site page with
  | links links =>
    simp only [List.mem_filterMap]
    constructor
    · rintro ⟨l, hl, h⟩
      unfold deeper at h
      split at h
      · rename_i e hk
        split at h
        · cases h; exact ⟨links, l, rfl, hl, hk, by assumption⟩
        · cases h
      · cases h
    · rintro ⟨_, l, e, hl, hk, hm⟩
      cases e
      exact ⟨l, hl, by simp [deeper, hk, hm]⟩
  | error e => simp
  | panic => simp

theorem mem_pages_linked {n : Nat} {root page d : Url O} (h : page ∈ pages site n root) (hd : d ∈ linked site page) : d ∈ pages site (n + 1) root := by
  induction n generalizing root with
  | zero => simp [pages] at h
  | succ n ih =>
    rw [pages, List.mem_cons, List.mem_flatMap] at h
    rw [pages, List.mem_cons, List.mem_flatMap]
    rcases h with rfl | ⟨v, hv, h⟩
    · exact .inr ⟨d, hd, by simp [pages]⟩
    · exact .inr ⟨v, hv, ih h⟩

theorem pages_visited {root page : Url O} {n : Nat} {u : Url O} (hp : Visited site root page) (h : u ∈ pages site n page) : Visited site root u := by
  induction n generalizing page with
  | zero => simp [pages] at h
  | succ n ih =>
    rw [pages, List.mem_cons, List.mem_flatMap] at h
    rcases h with rfl | ⟨v, hv, h⟩
    · exact hp
    · obtain ⟨links, link, h1, h2, h3, h4⟩ := mem_linked.1 hv
      exact ih (.link hp h1 h2 h3 h4) h

/-- When a listing is done, whatever the schedule was, it requested exactly the visited pages, and each of them once for every way
of links from the root: the requests do not depend on the schedule but for their order. -/
theorem C147_partial {root : Url O} {cs : List Choice} {s : State O E} (h : exec site cs (start root) = some s) (hi : Idle s) :
    (∃ n, ∀ m, n ≤ m → (requests site cs (start root)).Perm (if root.path = [] then [] else pages site m root)) ∧
    ∀ u, u ∈ requests site cs (start root) ↔ Visited site root u := by
  obtain ⟨n, h1, h2⟩ := pages_count h hi
  rw [pend_start] at h1 h2
  have hperm : ∀ m, n ≤ m → (requests site cs (start root)).Perm (if root.path = [] then [] else pages site m root) := by
    intro m hm
    by_cases hr : root.path = []
    · rw [if_pos hr] at h2 ⊢; exact h2
    · rw [if_neg hr] at h1 h2 ⊢
      rw [h1 root (by simp) m hm]
      simpa using h2
  refine ⟨⟨n, hperm⟩, fun u => ?_⟩
  by_cases hr : root.path = []
  · have h3 := hperm n (Nat.le_refl n)
    rw [if_pos hr] at h3
    rw [h3.mem_iff]
    refine ⟨by simp, fun hv => ?_⟩
    exfalso
    have : ∀ v, Visited site root v → False := by
      intro v hv
      induction hv with
      | root h => rw [hr] at h; simp at h
      | link _ _ _ _ _ ih => exact ih
    exact this u hv
  · have hv0 : Visited site root root := .root (List.length_pos_iff.2 hr)
    constructor
    · intro hu
      have h3 := hperm n (Nat.le_refl n)
      rw [if_neg hr] at h3
      exact pages_visited hv0 (h3.mem_iff.1 hu)
    · intro hv
      have : ∃ k, u ∈ pages site k root := by
        induction hv with
        | root _ => exact ⟨1, by simp [pages]⟩
        | link _ h1 h2 h3 h4 ih =>
          obtain ⟨k, hk⟩ := ih
          exact ⟨k + 1, mem_pages_linked hk (mem_linked.2 ⟨_, _, h1, h2, h3, h4⟩)⟩
      obtain ⟨k, hk⟩ := this
      have h3 := hperm (max n k) (Nat.le_max_left _ _)
      rw [if_neg hr] at h3
      exact h3.mem_iff.2 (mem_pages_mono (Nat.le_max_right _ _) hk)

/-- The requests of two listings of a site are the same, but for their order. -/
theorem C147_schedules {root : Url O} {cs cs' : List Choice} {s s' : State O E} (h : exec site cs (start root) = some s) (hi : Idle s)
    (h' : exec site cs' (start root) = some s') (hi' : Idle s') : (requests site cs (start root)).Perm (requests site cs' (start root)) := by
  obtain ⟨⟨n, h1⟩, _⟩ := C147_partial h hi
  obtain ⟨⟨n', h1'⟩, _⟩ := C147_partial h' hi'
  exact (h1 (max n n') (Nat.le_max_left _ _)).trans (h1' (max n n') (Nat.le_max_right _ _)).symm

/-! ### Pages are requested again -/

/-- the directory number `i` of a site: `/`, `//`, … -/
def nth (i : Nat) : Url Unit := ⟨(), List.replicate (i + 1) '/'⟩

/-- A site of `n + 1` directories, where each page links the next directory twice, as the pages with icons do. -/
def doubled (n : Nat) (u : Url Unit) : Page Unit Unit :=
  if u.path.length ≤ n then .links [nth u.path.length, nth u.path.length] else .links []

theorem kind_nth (i : Nat) : kind (nth i) = .directory (nth i) := by
  have h1 : ¬ "/etc/".toList <:+ (nth i).path := by
    intro h
    have := h.subset (show 'e' ∈ "/etc/".toList by decide)
    simp [nth] at this
  have h2 : ['/'] <:+ (nth i).path := by
    refine ⟨List.replicate i '/', ?_⟩
    simp [nth, List.replicate_succ']
  rw [kind, if_neg h1, if_pos h2]

theorem linked_doubled (n i : Nat) : linked (doubled n) (nth i) = if i + 1 ≤ n then [nth (i + 1), nth (i + 1)] else [] := by
  have e : (nth i).path.length = i + 1 := by simp [nth]
  unfold linked doubled
  rw [e]
  split
  · rename_i links h
    split at h
    · cases h
      rename_i hi
      have : deeper (i + 1) (nth (i + 1)) = some (nth (i + 1)) := by
        rw [deeper, kind_nth]
        simp only
        rw [if_pos (by simp [nth])]
      simp [this, hi]
    · cases h
      rename_i hi
      simp [hi]
  · rename_i h
    split at h <;> exact absurd rfl (h _)

theorem pages_doubled (n : Nat) : ∀ k m i, i + k = n → k < m → (pages (doubled n) m (nth i)).length = 2 ^ (k + 1) - 1 := by
  intro k
  induction k with
  | zero =>
    intro m i hi hm
    obtain ⟨m, rfl⟩ : ∃ j, m = j + 1 := ⟨m - 1, by omega⟩
    rw [pages, linked_doubled, if_neg (by omega)]
    rfl
  | succ k ih =>
    intro m i hi hm
    obtain ⟨m, rfl⟩ : ∃ j, m = j + 1 := ⟨m - 1, by omega⟩
    rw [pages, linked_doubled, if_pos (by omega)]
    have := ih m (i + 1) (by omega) (by omega)
    simp only [List.flatMap_cons, List.flatMap_nil, List.append_nil, List.length_cons, List.length_append, this]
    have h2 : 2 ^ (k + 1) > 0 := Nat.two_pow_pos _
    rw [Nat.pow_succ 2 (k + 1)]
    omega

theorem visited_doubled {n : Nat} {u : Url Unit} (h : Visited (doubled n) (nth 0) u) : ∃ i, i ≤ n ∧ u = nth i := by
  induction h with
  | root _ => exact ⟨0, Nat.zero_le n, rfl⟩
  | @link page dir links link _ h1 h2 h3 h4 ih =>
    obtain ⟨i, _, rfl⟩ := ih
    have h5 := mem_linked.2 ⟨links, link, h1, h2, h3, h4⟩
    rw [linked_doubled] at h5
    split at h5
    · simp only [List.mem_cons, List.not_mem_nil, or_false, or_self] at h5
      exact ⟨i + 1, by assumption, h5⟩
    · simp at h5

/-- A page is not requested once: for every `n` there is a site of `n + 1` pages whose listing is done, under some schedule, and which under
every schedule where it is done made `2 ^ (n + 1) - 1` requests. -/
theorem C147_false (n : Nat) :
    (∀ u, Visited (doubled n) (nth 0) u → ∃ i, i ≤ n ∧ u = nth i) ∧
    (∃ cs s, exec (doubled n) cs (start (nth 0)) = some s ∧ Idle s) ∧
    ∀ cs s, exec (doubled n) cs (start (nth 0)) = some s → Idle s → (requests (doubled n) cs (start (nth 0))).length = 2 ^ (n + 1) - 1 := by
  refine ⟨fun u => visited_doubled, ?_, ?_⟩
  · obtain ⟨k, hk⟩ := C49_terminates (site := doubled n) (root := nth 0) (N := n + 1) (fun q hq => by
      obtain ⟨i, hi, rfl⟩ := visited_doubled hq
      simp [nth]; omega)
    have : ∀ j, (∃ cs s, exec (doubled n) cs (start (nth 0)) = some s ∧ Idle s) ∨
        ∃ cs s, exec (doubled n) cs (start (nth 0)) = some s ∧ cs.length = j := by
      intro j
      induction j with
      | zero => exact .inr ⟨[], _, rfl, rfl⟩
      | succ j ih =>
        rcases ih with h | ⟨cs, s, h, hl⟩
        · exact .inl h
        · by_cases hi : Idle s
          · exact .inl ⟨cs, s, h, hi⟩
          · obtain ⟨c, s', hc⟩ := (hk cs s h).2.2 hi
            refine .inr ⟨cs ++ [c], s', ?_, by simp [hl]⟩
            have key : ∀ (cs : List Choice) (a : State Unit Unit), exec (doubled n) cs a = some s → exec (doubled n) (cs ++ [c]) a = some s' := by
              intro cs
              induction cs with
              | nil => intro a ha; cases ha; simp [exec, hc]
              | cons x cs ih =>
                intro a ha
                rw [exec, Option.bind_eq_some_iff] at ha
                obtain ⟨b, hb, hb2⟩ := ha
                rw [List.cons_append, exec, hb]
                exact ih b hb2
            exact key cs _ h
    rcases this (k + 1) with h | ⟨cs, s, h, hl⟩
    · exact h
    · have := (hk cs s h).1
      omega
  · intro cs s h hi
    obtain ⟨⟨m, hm⟩, _⟩ := C147_partial h hi
    have := hm (max m (n + 1)) (Nat.le_max_left _ _)
    rw [if_neg (by simp [nth])] at this
    rw [this.length_eq]
    exact pages_doubled n n _ 0 (by omega) (by omega)

/-- `C147_partial` and `C147_width` apply to the crawl with two workers: it makes two requests, and a page is asked while the other
worker goes through its links. -/
example : (exec demo demoSchedule (start demoRoot)).map (fun s => decide (Idle s)) = some true ∧
    requests demo demoSchedule (start demoRoot) = [demoRoot, ⟨(), "/a/b/".toList⟩] := by decide +kernel

/-- Four requests at a time do happen. -/
example : ∃ (site : Url Unit → Page Unit Unit) (cs : List Choice) (s : State Unit Unit), exec site cs (start (nth 0)) = some s ∧
    (inFlight s).length = 4 := by
  refine ⟨fun _ => .links [nth 1, nth 1, nth 1, nth 1],
    [.take, .run 0, .run 0, .run 0, .run 0, .run 0, .run 0, .run 0, .take, .take, .take, .take],
    ⟨[], [.fetching (nth 1), .fetching (nth 1), .fetching (nth 1), .fetching (nth 1)], [.done], 0⟩, by decide +kernel, rfl⟩

end LJ.Crawler

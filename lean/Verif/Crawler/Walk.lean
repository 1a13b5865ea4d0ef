import Verif.Crawler.Props

/-! # What the crawling iterator tells of failures

`walk` (httpdir.rs:117-126 and 189-226) at any time, under every schedule: what it yields comes from the site; a panic of a
worker is yielded when the workers are done; and the iterator ends. -/
namespace LJ.Crawler

open Spec

variable {O E : Type} {site : Url O → Page O E}

/-- the failures which were sent or counted are those of visited pages -/
def SoundFailures (site : Url O → Page O E) (root : Url O) (s : State O E) : Prop :=
  (∀ e, .error e ∈ s.chan → ∃ q, Visited site root q ∧ site q = .error e) ∧ (s.panics > 0 → ∃ q, Visited site root q ∧ site q = .panic)

theorem soundFailures_step {root : Url O} {c : Choice} {s s' : State O E} (hs : Sound site root s) (hf : SoundFailures site root s)
    (h : step site c s = some s') : SoundFailures site root s' := by
  cases c with
  | take =>
    obtain ⟨u, q, _, _, rfl⟩ := step_take h
    exact hf
  | run i =>
    obtain ⟨a, w, b, ha, hc⟩ := step_run h
    have hw := hs.2.1 w (by rw [ha]; simp)
    cases hc with
    | @failed u e _ hu =>
      refine ⟨?_, hf.2⟩
      intro e' he
      simp only [List.mem_append, List.mem_singleton] at he
      rcases he with he | he
      · exact hf.1 e' he
      · cases he; exact ⟨u, hw.1 u rfl, hu⟩
    | @panicked u _ hu => exact ⟨hf.1, fun _ => ⟨u, hw.1 u rfl, hu⟩⟩
    | nil => exact ⟨fun e he => hf.1 e (by simpa using he), hf.2⟩
    | file => exact ⟨fun e he => hf.1 e (by simpa using he), hf.2⟩
    | fetched | ending | ignored | short | dir => exact hf

theorem soundFailures_exec {root : Url O} {cs : List Choice} {s s' : State O E} (hs : Sound site root s) (hf : SoundFailures site root s)
    (h : exec site cs s = some s') : SoundFailures site root s' := by
  induction cs generalizing s with
  | nil => cases h; exact hf
  | cons c cs ih =>
    rw [exec, Option.bind_eq_some_iff] at h
    obtain ⟨s1, h1, h2⟩ := h
    exact ih (sound_step hs h1) (soundFailures_step hs hf h1) h2

theorem soundFailures_start (root : Url O) : SoundFailures site root (start root : State O E) := by
  unfold start process
  split <;> exact ⟨by simp, by simp⟩

theorem mem_plain {it : Item O E} (h : it ≠ .panicked) (is : List (Item O E)) : it ∈ plain is ↔ it ∈ is := by
  unfold plain
  rw [List.mem_filter]
  cases it <;> simp at h ⊢

theorem mem_itemsOf (ms : List (Msg O E)) :
    (∀ f, .file f ∈ itemsOf ms ↔ .file f ∈ ms) ∧ ∀ e, .error e ∈ itemsOf ms ↔ .error e ∈ ms := by
  induction ms with
  | nil => simp [itemsOf]
  | cons m ms ih => cases m <;> simp [itemsOf, ih.1, ih.2]

/-- a panic which was yielded was counted, and the iterator stops only with a yielded panic -/
structure Told (w : Walk O E) : Prop where
  counted : .panicked ∈ w.yielded → w.pool.panics > 0
  aborted : w.abort = true ↔ .panicked ∈ w.yielded

theorem told_receive {w : Walk O E} (m : Msg O E) (ms : List (Msg O E)) (h : Told w) : Told (receive m ms w) := by
  cases m <;> exact ⟨by simpa [receive] using h.counted, by simpa [receive] using h.aborted⟩

theorem panics_step {c : Choice} {s s' : State O E} (h : step site c s = some s') : s.panics ≤ s'.panics := by
  cases c with
  | take => obtain ⟨_, _, _, _, rfl⟩ := step_take h; exact Nat.le_refl _
  | run i =>
    obtain ⟨_, _, _, _, hc⟩ := step_run h
    cases hc <;> simp

theorem told_step {c : WalkChoice} {w w' : Walk O E} (ht : Told w) (h : walkStep site c w = some w') : Told w' := by
  cases c with
  | pool c =>
    unfold walkStep at h
    rw [Option.map_eq_some_iff] at h
    obtain ⟨p, hp, rfl⟩ := h
    have := panics_step hp
    exact ⟨fun hy => by have := ht.counted hy; simp only; omega, ht.aborted⟩
  | timeout =>
    unfold walkStep at h
    simp only at h
    split at h
    · cases h; exact ⟨ht.counted, ht.aborted⟩
    · cases h
  | consumer =>
    unfold walkStep consume at h
    simp only at h
    split at h
    · split at h
      · cases h; exact told_receive _ _ ht
      · cases h; exact ⟨ht.counted, ht.aborted⟩
    · split at h <;> cases h <;> exact ⟨ht.counted, ht.aborted⟩
    · split at h
      · cases h; exact ⟨ht.counted, ht.aborted⟩
      · cases h
        unfold notDone
        split
        · rename_i hp
          exact ⟨fun _ => hp, by simp⟩
        · exact ⟨ht.counted, ht.aborted⟩
    · split at h
      · cases h; exact told_receive _ _ ht
      · cases h
    · cases h

theorem told_exec {cs : List WalkChoice} {w w' : Walk O E} (ht : Told w) (h : walkExec site cs w = some w') : Told w' := by
  induction cs generalizing w with
  | nil => cases h; exact ht
  | cons c cs ih =>
    rw [walkExec, Option.bind_eq_some_iff] at h
    obtain ⟨w1, h1, h2⟩ := h
    exact ih (told_step ht h1) h2

theorem told_start (root : Url O) : Told (startWalk root : Walk O E) := ⟨by simp [startWalk], by simp [startWalk]⟩

theorem follows_panics {root : Url O} {cs : List WalkChoice} {w : Walk O E} (h : walkExec site cs (startWalk root) = some w) :
    ∃ s, exec site (poolChoices cs) (start root) = some s ∧ s.panics = w.pool.panics ∧ s.queued = w.pool.queued ∧ s.active = w.pool.active := by
  obtain ⟨s, h1, r, hr, _⟩ := walk_follows (s := start root) (w := startWalk root) ⟨[], rfl, rfl⟩ h
  exact ⟨s, h1, by rw [hr], by rw [hr], by rw [hr]⟩

/-- Whatever the schedule, and however early the consumer looks: each file which the iterator yields is a file of a visited page,
each error is the one of a visited page, and a panic is yielded only if fetching a visited page panics. -/
theorem C50_sound {root : Url O} {cs : List WalkChoice} {w : Walk O E} (h : walkExec site cs (startWalk root) = some w) :
    (∀ f, .file f ∈ w.yielded → Listed site root f) ∧
    (∀ e, .error e ∈ w.yielded → ∃ q, Visited site root q ∧ site q = .error e) ∧
    (.panicked ∈ w.yielded → ∃ q, Visited site root q ∧ site q = .panic) := by
  obtain ⟨s, hs, _, _, hy⟩ := C50_order h
  have h1 := sound_exec (sound_start (site := site) root) hs
  have h2 := soundFailures_exec (sound_start (site := site) root) (soundFailures_start root) hs
  refine ⟨?_, ?_, ?_⟩
  · intro f hf
    refine h1.2.2 f ((mem_itemsOf _).1 f |>.1 ?_)
    rw [hy]
    exact List.mem_append_left _ ((mem_plain (by simp) _).2 hf)
  · intro e he
    refine h2.1 e ((mem_itemsOf _).2 e |>.1 ?_)
    rw [hy]
    exact List.mem_append_left _ ((mem_plain (by simp) _).2 he)
  · intro hp
    obtain ⟨s', hs', e, _⟩ := follows_panics h
    rw [hs] at hs'
    cases hs'
    exact h2.2 (by rw [e]; exact (told_exec (told_start root) h).counted hp)

/-- after the workers are done: the iterator ended because a panic was yielded, or because there was none -/
def Ended (w : Walk O E) : Prop := Idle w.pool ∧ (w.pc = .finished → w.abort = true ∨ w.pool.panics = 0)

theorem ended_step {c : WalkChoice} {w w' : Walk O E} (he : Ended w) (h : walkStep site c w = some w') : Ended w' := by
  obtain ⟨hi, hf⟩ := he
  cases c with
  | pool c =>
    unfold walkStep at h
    rw [Option.map_eq_some_iff] at h
    obtain ⟨p, hp, _⟩ := h
    rw [idle_step hi] at hp
    cases hp
  | timeout =>
    unfold walkStep at h
    simp only at h
    split at h
    · cases h; exact ⟨hi, by simp⟩
    · cases h
  | consumer =>
    unfold walkStep consume at h
    simp only at h
    split at h
    · split at h
      · cases h
        rename_i m ms _
        cases m <;> exact ⟨hi, by simp [receive]⟩
      · cases h; exact ⟨hi, by simp⟩
    · split at h
      · rename_i ha
        cases h; exact ⟨hi, fun _ => .inl ha⟩
      · cases h; exact ⟨hi, by simp⟩
    · split at h
      · rename_i hz
        cases h; exact ⟨hi, fun _ => .inr hz.2⟩
      · cases h
        unfold notDone
        split <;> exact ⟨hi, by simp⟩
    · split at h
      · cases h
        rename_i m ms _
        cases m <;> exact ⟨hi, by simp [receive]⟩
      · cases h
    · cases h

theorem ended_exec {cs : List WalkChoice} {w w' : Walk O E} (he : Ended w) (h : walkExec site cs w = some w') : Ended w' := by
  induction cs generalizing w with
  | nil => cases h; exact he
  | cons c cs ih =>
    rw [walkExec, Option.bind_eq_some_iff] at h
    obtain ⟨w1, h1, h2⟩ := h
    exact ih (ended_step he h1) h2

/-- When the workers are done before the consumer polls the channel for the last time, the iterator yields that it panicked exactly
when fetching some visited page panics. -/
theorem C50_panics_partial {root : Url O} {before after : List WalkChoice} {w1 w : Walk O E}
    (h1 : walkExec site before (startWalk root) = some w1) (hi : Idle w1.pool) (hpc : w1.pc ≠ .finished)
    (h2 : walkExec site after w1 = some w) (hfin : w.pc = .finished) :
    .panicked ∈ w.yielded ↔ ∃ q, Visited site root q ∧ site q = .panic := by
  have h : walkExec site (before ++ after) (startWalk root) = some w := by
    rw [walkExec_append, h1]; exact h2
  refine ⟨(C50_sound h).2.2, ?_⟩
  intro hq
  have he := ended_exec (site := site) ⟨hi, fun e => absurd e hpc⟩ h2
  rcases he.2 hfin with ha | hz
  · exact (told_exec (told_start root) h).aborted.1 ha
  · obtain ⟨s, hs, hp, hqd, hac⟩ := follows_panics h
    have := (C48_errors hs ⟨hqd.trans he.1.1, hac.trans he.1.2⟩).2.2.2 hq
    unfold listResult at this
    rw [hp, hz] at this
    simp only [Nat.lt_irrefl, gt_iff_lt, if_false] at this
    split at this <;> cases this

/-- how many steps the consumer has to do, at most -/
def remaining (w : Walk O E) : Nat :=
  w.pool.chan.length +
    match w.pc with
    | .finished => 0
    | .poll => if w.abort then 2 else if w.pool.panics = 0 then 3 else 5
    | .empty => if w.abort then 1 else if w.pool.panics = 0 then 2 else 4
    | .loaded n => if w.abort then 4 else if w.pool.panics = 0 then (if n = 0 then 1 else 5) else 3
    | .waiting => if w.abort then 3 else if w.pool.panics = 0 then 4 else 6

theorem remaining_step {c : WalkChoice} {w w' : Walk O E} (hi : Idle w.pool) (h : walkStep site c w = some w') :
    Idle w'.pool ∧ remaining w' < remaining w := by
  cases c with
  | pool c =>
    unfold walkStep at h
    rw [Option.map_eq_some_iff] at h
    obtain ⟨p, hp, _⟩ := h
    rw [idle_step hi] at hp
    cases hp
  | timeout =>
    unfold walkStep at h
    simp only at h
    split at h
    · rename_i hw
      cases h
      refine ⟨hi, ?_⟩
      simp only [remaining, hw.1]
      split <;> (try split) <;> omega
    · cases h
  | consumer =>
    unfold walkStep consume at h
    simp only at h
    split at h
    · rename_i hpc
      split at h
      · rename_i m ms hm
        cases h
        refine ⟨by cases m <;> exact hi, ?_⟩
        by_cases ha : w.abort = true <;> by_cases hp : w.pool.panics = 0 <;> cases m <;> simp [receive, remaining, hpc, hm, ha, hp]
      · cases h
        refine ⟨hi, ?_⟩
        simp only [remaining, hpc]
        split <;> (try split) <;> omega
    · rename_i hpc
      split at h
      · rename_i ha
        cases h
        refine ⟨hi, ?_⟩
        simp only [remaining, hpc, ha, if_true]
        omega
      · rename_i ha
        cases h
        refine ⟨hi, ?_⟩
        simp only [remaining, hpc, ha, hi.2, List.length_nil, if_true, Bool.false_eq_true, if_false]
        split <;> omega
    · rename_i n hpc
      split at h
      · cases h
        refine ⟨hi, ?_⟩
        simp only [remaining, hpc]
        split <;> (try split) <;> (try split) <;> omega
      · rename_i hz
        rw [hi.1, List.length_nil, Nat.add_zero] at hz
        cases h
        unfold notDone
        split
        · rename_i hp
          refine ⟨hi, ?_⟩
          have hp' : w.pool.panics ≠ 0 := by omega
          simp only [remaining, hpc, if_true, hp', if_false]
          split <;> omega
        · rename_i hp
          have hp' : w.pool.panics = 0 := by omega
          have hn : n ≠ 0 := fun e => hz ⟨e, hp'⟩
          refine ⟨hi, ?_⟩
          simp only [remaining, hpc, hp', hn, if_true, if_false]
          split <;> omega
    · rename_i hpc
      split at h
      · rename_i m ms hm
        cases h
        refine ⟨by cases m <;> exact hi, ?_⟩
        by_cases ha : w.abort = true <;> by_cases hp : w.pool.panics = 0 <;> cases m <;> simp [receive, remaining, hpc, hm, ha, hp]
      · cases h
    · cases h

/-- Once the workers are done the iterator ends, whatever happened, panics included, and wherever the consumer is: every schedule
has at most six steps more than there are messages in the channel, and the consumer can go on until it ended. -/
theorem C50_always_ends {w w' : Walk O E} {cs : List WalkChoice} (hi : Idle w.pool) (h : walkExec site cs w = some w') :
    cs.length ≤ w.pool.chan.length + 6 ∧ (w'.pc ≠ .finished → ∃ c w'', walkStep site c w' = some w'') := by
  have key : ∀ (cs : List WalkChoice) (w : Walk O E), Idle w.pool → walkExec site cs w = some w' → cs.length + remaining w' ≤ remaining w ∧ Idle w'.pool := by
    intro cs
    induction cs with
    | nil => intro w hi h; cases h; exact ⟨by simp, hi⟩
    | cons c cs ih =>
      intro w hi h
      rw [walkExec, Option.bind_eq_some_iff] at h
      obtain ⟨w1, h1, h2⟩ := h
      obtain ⟨hi1, hr⟩ := remaining_step hi h1
      obtain ⟨h3, h4⟩ := ih w1 hi1 h2
      exact ⟨by rw [List.length_cons]; omega, h4⟩
  constructor
  · have := (key cs w hi h).1
    have hb : remaining w ≤ w.pool.chan.length + 6 := by
      unfold remaining
      split <;> (try split) <;> (try split) <;> (try split) <;> omega
    omega
  · intro hne
    cases hpc : w'.pc with
    | finished => exact absurd hpc hne
    | poll =>
      cases hc : w'.pool.chan with
      | nil => exact ⟨.consumer, { w' with pc := .empty }, by simp only [walkStep, consume, hpc, hc]⟩
      | cons m ms => exact ⟨.consumer, receive m ms w', by simp only [walkStep, consume, hpc, hc]⟩
    | empty =>
      cases ha : w'.abort with
      | true => exact ⟨.consumer, { w' with pc := .finished }, by simp [walkStep, consume, hpc, ha]⟩
      | false => exact ⟨.consumer, { w' with pc := .loaded w'.pool.active.length }, by simp [walkStep, consume, hpc, ha]⟩
    | loaded n =>
      by_cases hz : n + w'.pool.queued.length = 0 ∧ w'.pool.panics = 0
      · exact ⟨.consumer, { w' with pc := .finished }, by simp only [walkStep, consume, hpc, hz, and_self, if_true]⟩
      · exact ⟨.consumer, notDone w', by simp only [walkStep, consume, hpc, hz, if_false]⟩
    | waiting =>
      cases hc : w'.pool.chan with
      | nil => exact ⟨.timeout, { w' with pc := .poll }, by simp [walkStep, hpc, hc]⟩
      | cons m ms => exact ⟨.consumer, receive m ms w', by simp only [walkStep, consume, hpc, hc]⟩

/-- A site whose second page panics: the iterator yields the file of the first one, tells the panic once and ends, though the
consumer had loaded the number of running workers before the panic. -/
def broken (u : Url Unit) : Page Unit Unit :=
  if u.path = "/a/".toList then .links (["/a/f", "/a/b/"].map fun s => ⟨(), s.toList⟩) else .panic

example : ∃ w1 w, walkExec broken ([.pool .take, .consumer, .consumer] ++ [.run 0, .run 0, .run 0, .run 0, .run 0, .take, .run 0].map .pool) (startWalk demoRoot) = some w1 ∧
    Idle w1.pool ∧ w1.pc = .loaded 1 ∧ walkExec broken (List.replicate 5 .consumer) w1 = some w ∧ w.pc = .finished ∧
    w.yielded = [.panicked, .file ⟨(), "/a/f".toList⟩] := by
  refine ⟨⟨⟨[], [], [.file ⟨(), "/a/f".toList⟩, .done], 1⟩, .loaded 1, false, []⟩, ⟨⟨[], [], [], 1⟩, .finished, true, [.panicked, .file ⟨(), "/a/f".toList⟩]⟩,
    by decide +kernel, by decide +kernel, rfl, by decide +kernel, rfl, rfl⟩

end LJ.Crawler

/-
Lemmas on the grouping of the sources and on the report.
-/
import Verif.Report.Spec
import Mathlib.Data.List.Nodup
import Mathlib.Data.List.Perm.Basic
import Mathlib.Tactic.ByContra
namespace LJ.Report
open LJ.Process (Str Bytes Ev Env Err AnomalyContext Trainer Stop)
set_option linter.unusedSectionVars false
variable {C S N D E ε : Type} [DecidableEq N] {w : World C S N D E ε}

/-! ### Grouping -/

theorem collectOk_spec (valid : S → Bool) (xs : List (Except E S)) :
    (∃ e, .error e ∈ xs ∧ collectOk (xs.filter (keepSource valid)) = .error e) ∨
    ((∀ e, .error e ∉ xs) ∧ collectOk (xs.filter (keepSource valid)) =
      .ok (Spec.validSources valid xs)) := by
  induction xs with
  | nil => exact .inr ⟨by simp, rfl⟩
  | cons x xs ih =>
    cases x with
    | error e => exact .inl ⟨e, List.mem_cons_self .., rfl⟩
    | ok s =>
      cases hv : valid s with
      | false =>
        rcases ih with ⟨e, h1, h2⟩ | ⟨h1, h2⟩
        · exact .inl ⟨e, by simp [h1], by simp [hv, keepSource, h2]⟩
        · exact .inr ⟨by simpa using h1, by simp [hv, keepSource, h2, Spec.validSources]⟩
      | true =>
        rcases ih with ⟨e, h1, h2⟩ | ⟨h1, h2⟩
        · exact .inl ⟨e, by simp [h1], by simp [hv, keepSource, collectOk, h2]⟩
        · exact .inr ⟨by simpa using h1, by simp [hv, keepSource, collectOk, h2, Spec.validSources]⟩

theorem getSources_ok {c : C} (h : Spec.Usable w.valid (w.list c)) : getSources w c = .ok (Spec.validSources w.valid (w.list c)) := by
  unfold getSources
  rcases collectOk_spec w.valid (w.list c) with ⟨e, h1, _⟩ | ⟨_, h2⟩
  · exact absurd h1 (h.1 e)
  · rw [h2]
    cases hs : Spec.validSources w.valid (w.list c) with
    | nil => exact absurd hs h.2
    | cons => rfl

theorem getSources_err {c : C} (h : ¬ Spec.Usable w.valid (w.list c)) :
    (∃ e, .error e ∈ w.list c ∧ getSources w c = .error (.failed e)) ∨
    ((∀ e, .error e ∉ w.list c) ∧ Spec.validSources w.valid (w.list c) = [] ∧ getSources w c = .error (.empty c)) := by
  unfold getSources
  rcases collectOk_spec w.valid (w.list c) with ⟨e, h1, h2⟩ | ⟨h1, h2⟩
  · exact .inl ⟨e, h1, by rw [h2]⟩
  · right
    have : Spec.validSources w.valid (w.list c) = [] := by
      by_contra hne
      exact h ⟨h1, hne⟩
    exact ⟨h1, this, by rw [h2, this]⟩

theorem push_keys (n : N) (s : S) (g : List (N × List S)) :
    (push n s g).map Prod.fst = if n ∈ g.map Prod.fst then g.map Prod.fst else g.map Prod.fst ++ [n] := by
  induction g with
  | nil => rfl
  | cons x g ih =>
    obtain ⟨m, ss⟩ := x
    unfold push
    by_cases h : m = n
    · subst h; simp
    · rw [if_neg h, List.map_cons, ih]
      have : n ≠ m := fun e => h e.symm
      by_cases hm : n ∈ g.map Prod.fst
      · rw [if_pos hm, if_pos (by simp [hm])]; rfl
      · rw [if_neg hm, if_neg (by rw [List.map_cons, List.mem_cons]; exact fun h => h.elim this hm)]; rfl

theorem push_partition {name : S → N} {xs : List S} {g : List (N × List S)} (h : Spec.IsPartition name xs g) (s : S) :
    Spec.IsPartition name (xs ++ [s]) (push (name s) s g) := by
  obtain ⟨hn, hg⟩ := h
  constructor
  · rw [push_keys]
    split
    · exact hn
    · rename_i hm
      rw [List.nodup_append]
      exact ⟨hn, by simp, by rintro a ha b hb rfl; rw [List.mem_singleton] at hb; subst hb; exact hm ha⟩
  · -- membership in the pushed map
    have key : ∀ (g : List (N × List S)) (n : N) (ss : List S), (g.map Prod.fst).Nodup →
        ((n, ss) ∈ push (name s) s g ↔ (n ≠ name s ∧ (n, ss) ∈ g) ∨
          (n = name s ∧ ((∃ ts, (n, ts) ∈ g ∧ ss = ts ++ [s]) ∨ (n ∉ g.map Prod.fst ∧ ss = [s])))) := by
      intro g
      induction g with
      | nil =>
        intro n ss _
        simp only [push, List.mem_singleton, Prod.mk.injEq, List.not_mem_nil, and_false, false_and, exists_false, List.map_nil,
          not_false_eq_true, true_and, false_or]
      | cons x g ih =>
        intro n ss hnd
        obtain ⟨m, ts⟩ := x
        rw [List.map_cons, List.nodup_cons] at hnd
        unfold push
        by_cases hm : m = name s
        · rw [if_pos hm]
          subst hm
          constructor
          · intro h
            rcases List.mem_cons.1 h with h | h
            · cases h
              exact .inr ⟨rfl, .inl ⟨ts, by simp, rfl⟩⟩
            · refine .inl ⟨?_, by simp [h]⟩
              intro hns
              exact hnd.1 (List.mem_map.2 ⟨_, h, hns⟩)
          · rintro (⟨h1, h2⟩ | ⟨rfl, ⟨us, h1, rfl⟩ | ⟨h1, _⟩⟩)
            · rcases List.mem_cons.1 h2 with h2 | h2
              · cases h2; exact absurd rfl h1
              · simp [h2]
            · rcases List.mem_cons.1 h1 with h1 | h1
              · cases h1; simp
              · exact absurd (List.mem_map_of_mem (f := Prod.fst) h1) hnd.1
            · simp at h1
        · rw [if_neg hm, List.mem_cons, ih n ss hnd.2]
          constructor
          · rintro (h | ⟨h1, h2⟩ | ⟨rfl, ⟨us, h1, rfl⟩ | ⟨h1, rfl⟩⟩)
            · cases h; exact .inl ⟨hm, by simp⟩
            · exact .inl ⟨h1, by simp [h2]⟩
            · exact .inr ⟨rfl, .inl ⟨us, by simp [h1], rfl⟩⟩
            · refine .inr ⟨rfl, .inr ⟨?_, rfl⟩⟩
              rw [List.map_cons, List.mem_cons]
              exact fun h => h.elim (fun h => hm h.symm) h1
          · rintro (⟨h1, h2⟩ | ⟨rfl, ⟨us, h1, rfl⟩ | ⟨h1, rfl⟩⟩)
            · rcases List.mem_cons.1 h2 with h2 | h2
              · exact .inl h2
              · exact .inr (.inl ⟨h1, h2⟩)
            · rcases List.mem_cons.1 h1 with h1 | h1
              · cases h1; exact absurd rfl hm
              · exact .inr (.inr ⟨rfl, .inl ⟨us, h1, rfl⟩⟩)
            · rw [List.map_cons, List.mem_cons, not_or] at h1
              exact .inr (.inr ⟨rfl, .inr ⟨h1.2, rfl⟩⟩)
    intro n ss
    rw [key g n ss hn, List.filter_append]
    by_cases hns : n = name s
    · subst hns
      have e : ([s].filter fun x => decide (name x = name s)) = [s] := by simp
      rw [e]
      constructor
      · rintro (⟨h, _⟩ | ⟨_, ⟨ts, h1, rfl⟩ | ⟨h1, rfl⟩⟩)
        · exact absurd rfl h
        · obtain ⟨_, h2⟩ := (hg _ _).1 h1
          exact ⟨by simp, by rw [h2]⟩
        · have : xs.filter (fun x => decide (name x = name s)) = [] := by
            by_contra hne
            exact h1 (List.mem_map_of_mem (f := Prod.fst) ((hg (name s) _).2 ⟨hne, rfl⟩))
          rw [this]; simp
      · rintro ⟨_, rfl⟩
        refine .inr ⟨rfl, ?_⟩
        by_cases hf : xs.filter (fun x => decide (name x = name s)) = []
        · refine .inr ⟨?_, by rw [hf]; rfl⟩
          intro hm
          obtain ⟨⟨n, ts⟩, hx, rfl⟩ := List.mem_map.1 hm
          obtain ⟨h1, h2⟩ := (hg _ _).1 hx
          exact h1 (h2.trans hf)
        · exact .inl ⟨_, (hg _ _).2 ⟨hf, rfl⟩, rfl⟩
    · have e : ([s].filter fun x => decide (name x = n)) = [] := by
        simp only [List.filter_cons, List.filter_nil]
        rw [if_neg]
        simpa using fun h => hns h.symm
      rw [e, List.append_nil, ← hg]
      constructor
      · rintro (⟨_, h⟩ | ⟨h, _⟩)
        · exact h
        · exact absurd h hns
      · exact fun h => .inl ⟨hns, h⟩

theorem pushAll_partition {name : S → N} {xs ys : List S} {g : List (N × List S)} (h : Spec.IsPartition name xs g) :
    Spec.IsPartition name (xs ++ ys) (ys.foldl (fun g s => push (name s) s g) g) := by
  induction ys generalizing xs g with
  | nil => simpa using h
  | cons y ys ih =>
    have := ih (push_partition h y)
    rw [List.append_assoc] at this
    exact this

theorem groupInto_ok {cs : List C} {xs : List S} {g : List (N × List S)} (hc : ∀ c ∈ cs, Spec.Usable w.valid (w.list c))
    (h : Spec.IsPartition w.nameOf xs g) :
    ∃ g', groupInto w cs g = .ok g' ∧ Spec.IsPartition w.nameOf (xs ++ cs.flatMap fun c => Spec.validSources w.valid (w.list c)) g' := by
  induction cs generalizing xs g with
  | nil => exact ⟨g, rfl, by simpa using h⟩
  | cons c cs ih =>
    unfold groupInto
    rw [getSources_ok (hc c (by simp))]
    obtain ⟨g', h1, h2⟩ := ih (fun c hc' => hc c (by simp [hc'])) (pushAll_partition (ys := Spec.validSources w.valid (w.list c)) h)
    exact ⟨g', h1, by rw [List.append_assoc] at h2; exact h2⟩

theorem groupInto_err {cs : List C} {c : C} {ds : List C} (hc : ∀ c ∈ cs, Spec.Usable w.valid (w.list c))
    (h : ¬ Spec.Usable w.valid (w.list c)) (g : List (N × List S)) :
    ∃ e, groupInto w (cs ++ c :: ds) g = .error e ∧ getSources w c = .error e := by
  induction cs generalizing g with
  | nil =>
    rcases getSources_err h with ⟨e, _, h2⟩ | ⟨_, _, h2⟩
    · exact ⟨_, by unfold groupInto; simp [h2], h2⟩
    · exact ⟨_, by unfold groupInto; simp [h2], h2⟩
  | cons b cs ih =>
    rw [List.cons_append]
    unfold groupInto
    rw [getSources_ok (hc b (by simp))]
    exact ih (fun c hc' => hc c (by simp [hc'])) _

/-! ### Lookup -/

theorem lookup_mem {V : Type} {hm : List (N × V)} {k : N} {v : V} (h : hm.lookup k = some v) : (k, v) ∈ hm := by
  induction hm with
  | nil => simp at h
  | cons x hm ih =>
    obtain ⟨n, u⟩ := x
    rw [List.lookup_cons] at h
    split at h
    · rename_i he
      cases h
      rw [beq_iff_eq] at he
      simp [he]
    · simp [ih h]

theorem lookup_of_mem {V : Type} {hm : List (N × V)} (hn : (hm.map Prod.fst).Nodup) {k : N} {v : V} (h : (k, v) ∈ hm) :
    hm.lookup k = some v := by
  induction hm with
  | nil => cases h
  | cons x hm ih =>
    obtain ⟨n, u⟩ := x
    rw [List.map_cons, List.nodup_cons] at hn
    rw [List.lookup_cons]
    rcases List.mem_cons.1 h with h | h
    · cases h; simp
    · have : k ≠ n := by
        intro hkn
        exact hn.1 (List.mem_map.2 ⟨_, h, hkn⟩)
      have : (k == n) = false := by simpa using this
      rw [this]
      exact ih hn.2 h

theorem lookup_none {V : Type} {hm : List (N × V)} {k : N} : hm.lookup k = none ↔ k ∉ hm.map Prod.fst := by
  induction hm with
  | nil => simp
  | cons x hm ih =>
    obtain ⟨n, u⟩ := x
    rw [List.lookup_cons, List.map_cons, List.mem_cons]
    split
    · rename_i he
      rw [beq_iff_eq] at he
      simp [he]
    · rename_i he
      have : k ≠ n := by simpa using he
      rw [ih]; simp [this]

theorem lookupOrSingle_perm {V : Type} {hm hm' : List (N × V)} (hn : (hm.map Prod.fst).Nodup) (hp : hm.Perm hm') (k : N) :
    lookupOrSingle hm k = lookupOrSingle hm' k := by
  have hn' : (hm'.map Prod.fst).Nodup := (hp.map Prod.fst).nodup_iff.1 hn
  unfold lookupOrSingle
  have e : hm.lookup k = hm'.lookup k := by
    cases h : hm.lookup k with
    | some v => exact (lookup_of_mem hn' (hp.mem_iff.1 (lookup_mem h))).symm
    | none =>
      symm
      rw [lookup_none] at h ⊢
      exact fun hm => h ((hp.map Prod.fst).mem_iff.2 hm)
  rw [e, hp.length_eq]
  cases hm'.lookup k with
  | some v => rfl
  | none =>
    simp only
    split
    · rename_i h1
      obtain ⟨x, rfl⟩ := List.length_eq_one_iff.1 h1
      obtain ⟨y, rfl⟩ := List.length_eq_one_iff.1 (hp.length_eq ▸ h1)
      rw [List.singleton_perm_singleton.1 hp]
    · rfl

end LJ.Report

/-
Lemmas on the choice of a baseline, on the texts of dates and on the URLs.
-/
import Verif.Zuul.Spec
import Verif.Paths.Lemmas
import Mathlib.Data.List.Nodup
import Mathlib.Tactic.ByContra
namespace LJ.Zuul
open LJ.Paths (Str contains split)

variable {env : Env}

/-! ### The first of the best -/

section Sorting
variable {α : Type} {le : α → α → Bool}

theorem head_sorted (trans : ∀ a b c : α, le a b → le b c → le a c) (total : ∀ a b : α, le a b || le b a)
    (p q : α → Bool) (l : List α) (b : α) :
    (((l.filter q).mergeSort le).filter p).head? = some b ↔
      ∃ i : Nat, l[i]? = some b ∧ q b = true ∧ p b = true ∧
        ∀ (j : Nat) c, l[j]? = some c → q c = true → p c = true → le b c = true ∧ (j < i → le c b = false) := by
  induction l generalizing b with
  | nil => simp
  | cons a l ih =>
    by_cases hq : q a = true
    swap
    · rw [List.filter_cons_of_neg hq, ih]
      constructor
      · rintro ⟨i, h1, h2, h3, h4⟩
        refine ⟨i + 1, h1, h2, h3, fun j c hj hc hp => ?_⟩
        cases j with
        | zero => simp only [List.getElem?_cons_zero, Option.some.injEq] at hj; subst hj; exact absurd hc hq
        | succ j => exact ⟨(h4 j c hj hc hp).1, fun h => (h4 j c hj hc hp).2 (by omega)⟩
      · rintro ⟨i, h1, h2, h3, h4⟩
        cases i with
        | zero => simp only [List.getElem?_cons_zero, Option.some.injEq] at h1; subst h1; exact absurd h2 hq
        | succ i =>
          exact ⟨i, h1, h2, h3, fun j c hj hc hp => ⟨(h4 (j + 1) c hj hc hp).1, fun h => (h4 (j + 1) c hj hc hp).2 (by omega)⟩⟩
    rw [List.filter_cons_of_pos hq]
    obtain ⟨l₁, l₂, e1, e2, h3⟩ := List.mergeSort_cons trans total a (l.filter q)
    have hs := List.pairwise_mergeSort trans total (a :: l.filter q)
    rw [e1] at hs ⊢
    rw [e2] at ih
    rw [List.filter_append, List.head?_append] at ih ⊢
    have ref : ∀ x, le x x = true := fun x => by simpa using total x x
    by_cases hp : p a = true
    swap
    · rw [List.filter_cons_of_neg hp, ih]
      constructor
      · rintro ⟨i, h1, h2, h3, h4⟩
        refine ⟨i + 1, h1, h2, h3, fun j c hj hc hpc => ?_⟩
        cases j with
        | zero => simp only [List.getElem?_cons_zero, Option.some.injEq] at hj; subst hj; exact absurd hpc hp
        | succ j => exact ⟨(h4 j c hj hc hpc).1, fun h => (h4 j c hj hc hpc).2 (by omega)⟩
      · rintro ⟨i, h1, h2, h3, h4⟩
        cases i with
        | zero => simp only [List.getElem?_cons_zero, Option.some.injEq] at h1; subst h1; exact absurd h3 hp
        | succ i =>
          exact ⟨i, h1, h2, h3, fun j c hj hc hp => ⟨(h4 (j + 1) c hj hc hp).1, fun h => (h4 (j + 1) c hj hc hp).2 (by omega)⟩⟩
    rw [List.filter_cons_of_pos hp]
    have mem : ∀ c, (c ∈ l₁ ∨ c ∈ l₂) ↔ (c ∈ l ∧ q c = true) := fun c => by
      rw [← List.mem_append, ← e2, List.mem_mergeSort, List.mem_filter]
    cases hl : (l₁.filter p).head? with
    | some x =>
      rw [hl] at ih
      simp only [Option.some_or, Option.some.injEq] at ih ⊢
      have hx := List.mem_filter.1 (List.mem_of_mem_head? hl)
      have hxa : le a x = false := by simpa using h3 x hx.1
      have hax : le x a = true := by have := total x a; rw [hxa] at this; simpa using this
      rw [ih]
      constructor
      · rintro ⟨i, h1, h2, h3', h4⟩
        have hbx : x = b := (ih b).2 ⟨i, h1, h2, h3', h4⟩
        subst hbx
        refine ⟨i + 1, h1, h2, h3', fun j c hj hc hpc => ?_⟩
        cases j with
        | zero => simp only [List.getElem?_cons_zero, Option.some.injEq] at hj; subst hj; exact ⟨hax, fun _ => hxa⟩
        | succ j => exact ⟨(h4 j c hj hc hpc).1, fun h => (h4 j c hj hc hpc).2 (by omega)⟩
      · rintro ⟨i, h1, h2, h3', h4⟩
        cases i with
        | zero =>
          simp only [List.getElem?_cons_zero, Option.some.injEq] at h1; subst h1
          obtain ⟨hxl, hxq⟩ := (mem x).1 (Or.inl hx.1)
          obtain ⟨j, hj⟩ := List.mem_iff_getElem?.1 hxl
          have := (h4 (j + 1) x hj hxq hx.2).1
          rw [hxa] at this; exact absurd this (by simp)
        | succ i =>
          exact ⟨i, h1, h2, h3', fun j c hj hc hp => ⟨(h4 (j + 1) c hj hc hp).1, fun h => (h4 (j + 1) c hj hc hp).2 (by omega)⟩⟩
    | none =>
      have hl1 : ∀ c ∈ l₁, ¬ p c = true := by
        rw [List.head?_eq_none_iff, List.filter_eq_nil_iff] at hl; exact hl
      simp only [Option.none_or, List.head?_cons, Option.some.injEq]
      have hle : ∀ c ∈ l, q c = true → p c = true → le a c = true := fun c hc hqc hpc => by
        rcases (mem c).2 ⟨hc, hqc⟩ with h | h
        · exact absurd hpc (hl1 c h)
        · exact (List.pairwise_cons.1 (List.pairwise_append.1 hs).2.1).1 c h
      constructor
      · rintro rfl
        refine ⟨0, rfl, hq, hp, fun j c hj hc hpc => ⟨?_, fun h => absurd h (by omega)⟩⟩
        cases j with
        | zero => simp only [List.getElem?_cons_zero, Option.some.injEq] at hj; subst hj; exact ref _
        | succ j => exact hle c (List.mem_of_getElem? hj) hc hpc
      · rintro ⟨i, h1, h2, h3', h4⟩
        cases i with
        | zero => simpa using h1
        | succ i =>
          have ha := (h4 0 a rfl hq hp).2 (by omega)
          have hb := hle b (List.mem_of_getElem? h1) h2 h3'
          rw [ha] at hb; exact absurd hb (by simp)

theorem sorted_none (p q : α → Bool) (l : List α) :
    (((l.filter q).mergeSort le).filter p) = [] ↔ ∀ c ∈ l, q c = true → ¬ p c = true := by
  rw [List.filter_eq_nil_iff]
  simp only [List.mem_mergeSort, List.mem_filter, and_imp]

end Sorting

theorem scoreGe_trans (a b c : Option Int) : scoreGe a b = true → scoreGe b c = true → scoreGe a c = true := by
  cases a <;> cases b <;> cases c <;> simp [scoreGe]
  omega

theorem scoreGe_total (a b : Option Int) : (scoreGe a b || scoreGe b a) = true := by
  cases a <;> cases b <;> simp [scoreGe]
  omega

/-! ### The score -/

theorem points_eq (p : Prop) [h : Decidable p] (n : Int) : Spec.points p n = if p then n else 0 := by
  unfold Spec.points
  by_cases hp : p
  · rw [if_pos hp, if_pos hp]
  · rw [if_neg hp, if_neg hp]

theorem score_eq (self : Target env) (now : Int) (b : Build env) {s : Int} (h : baselineScore self now b = some s) :
    s = Spec.score self now b := by
  unfold baselineScore at h
  cases hp : projectPoints self b with
  | none => rw [hp] at h; exact absurd h (by simp)
  | some p =>
    rw [hp] at h
    dsimp only at h
    split at h
    swap
    · exact absurd h (by simp)
    have hs := Option.some.inj h
    have hage : elapsedDays now b.endTime.date = Spec.age now b := by
      unfold elapsedDays Spec.age; omega
    have hpp : p = Spec.points (Spec.SameChange self b) (-500) + Spec.points (b.project = self.project ∧ b.change ≠ some self.change) 50 := by
      unfold projectPoints at hp
      split at hp
      · rename_i hproj
        cases hc : b.change with
        | none => rw [hc] at hp; exact absurd hp (by simp)
        | some c =>
          rw [hc] at hp
          dsimp only at hp
          split at hp
          · rename_i hcc
            have hp := Option.some.inj hp
            have e1 : Spec.SameChange self b := ⟨hproj.symm, by rw [hc, hcc]⟩
            rw [Spec.points, Spec.points, if_pos e1, if_neg (by simp [hcc])]; omega
          · rename_i hcc
            have hp := Option.some.inj hp
            have e1 : ¬ Spec.SameChange self b := fun e => hcc (by have := e.2; rw [hc] at this; exact (Option.some.inj this).symm)
            rw [Spec.points, Spec.points, if_neg e1, if_pos ⟨hproj.symm, fun e => hcc (Option.some.inj e).symm⟩]; omega
      · rename_i hproj
        have hp := Option.some.inj hp
        have e1 : ¬ Spec.SameChange self b := fun e => hproj e.1.symm
        rw [Spec.points, Spec.points, if_neg e1, if_neg (fun e => hproj e.1.symm)]; omega
    have hpipe : (contains "gate".toList b.pipeline || contains "periodic".toList b.pipeline) = true ↔
        ("gate".toList <:+: b.pipeline ∨ "periodic".toList <:+: b.pipeline) := by
      rw [Bool.or_eq_true, LJ.Paths.contains_iff, LJ.Paths.contains_iff]
    rw [hage] at hs
    rw [← hs]
    unfold Spec.score
    rw [← hpp]
    have e1 : Spec.points (b.branch = self.branch) 50 = if self.branch = b.branch then 50 else 0 := by
      rw [points_eq]; simp only [eq_comm]
    have e2 : Spec.points ("gate".toList <:+: b.pipeline ∨ "periodic".toList <:+: b.pipeline) 50 =
        if (contains "gate".toList b.pipeline || contains "periodic".toList b.pipeline) = true then 50 else 0 := by
      rw [← points_eq]
      exact congrArg (Spec.points · 50) (propext hpipe.symm)
    have e3 : Spec.points (b.voting = true) 10 = if b.voting = true then 10 else 0 := points_eq _ _
    rw [e1, e2, e3]
    split <;> split <;> split <;> omega

theorem score_some (self : Target env) (now : Int) (b : Build env) :
    (baselineScore self now b).isSome = true ↔
      (∃ u, b.logUrl = some u) ∧ (∃ u, b.refUrl = some u) ∧ (b.project = self.project → ∃ c, b.change = some c) := by
  have hp : (projectPoints self b = none) ↔ ¬ (b.project = self.project → ∃ c, b.change = some c) := by
    unfold projectPoints
    split
    · rename_i h
      cases hc : b.change with
      | none => simp [h]
      | some c => dsimp only; split <;> simp
    · rename_i h
      simp only [reduceCtorEq, false_iff, not_not]
      exact fun e => absurd e.symm h
  unfold baselineScore
  cases h : projectPoints self b with
  | none =>
    have := hp.1 h
    constructor
    · intro e; exact absurd e (by simp)
    · intro e; exact absurd e.2.2 this
  | some p =>
    have h3 : b.project = self.project → ∃ c, b.change = some c := by
      by_contra hn
      rw [hp.2 hn] at h
      exact absurd h (by simp)
    dsimp only
    rw [iff_of_eq (congrArg (fun p => _ ↔ (_ ∧ _ ∧ p)) (eq_true h3))]
    generalize (_ - elapsedDays _ _ : Int) = sc
    cases hl : b.logUrl <;> cases hr : b.refUrl <;> simp

theorem available_iff (head : Url env → Option Bool) (b : Build env) :
    logsAvailable head b = true ↔ ∃ u, b.logUrl = some u ∧ head u = some true := by
  unfold logsAvailable
  cases hl : b.logUrl with
  | none => simp
  | some u =>
    dsimp only
    cases hh : head u with
    | none => simp [hh]
    | some n => simp [hh]

/-- The eligible builds are those which are kept. -/
theorem eligible_iff (self : Target env) (now : Int) (head : Url env → Option Bool) (b : Build env) :
    Spec.Eligible self head b ↔
      ((baselineScore self now b).isSome && decide (self.uuid ≠ b.uuid)) = true ∧ logsAvailable head b = true := by
  rw [Bool.and_eq_true, score_some, available_iff, decide_eq_true_eq]
  constructor
  · rintro ⟨⟨u, h1, h2⟩, h3, h4, h5⟩
    exact ⟨⟨⟨⟨u, h1⟩, h3, h5⟩, fun e => h4 e.symm⟩, u, h1, h2⟩
  · rintro ⟨⟨⟨_, h3, h5⟩, h4⟩, u, h1, h2⟩
    exact ⟨⟨u, h1, h2⟩, h3, fun e => h4 e.symm, h5⟩

theorem select_best (self : Target env) (now : Int) (head : Url env → Option Bool) (samples : List (Build env)) (b : Build env) :
    selectBuilds self now head samples = [b] ↔ Spec.Best self now head samples b := by
  have e : selectBuilds self now head samples = [b] ↔
      ((((samples.map fun b => (baselineScore self now b, b)).filter fun (score, b) => score.isSome && decide (self.uuid ≠ b.uuid)).mergeSort
        fun x y => scoreGe x.1 y.1).filter fun (_, b) => logsAvailable head b).head?.map Prod.snd = some b := by
    unfold selectBuilds
    generalize List.filter _ (List.mergeSort _ _) = l
    cases l <;> simp
  rw [e, Option.map_eq_some_iff]
  simp only [head_sorted (le := fun x y : Option Int × Build env => scoreGe x.1 y.1) (fun a b c => scoreGe_trans _ _ _) (fun a b => scoreGe_total _ _)]
  unfold Spec.Best
  simp only [List.getElem?_map, Option.map_eq_some_iff]
  constructor
  · rintro ⟨⟨s, x⟩, ⟨i, ⟨y, hy, e2⟩, h2, h3, h4⟩, rfl⟩
    obtain ⟨rfl, rfl⟩ := Prod.mk.inj e2
    dsimp only at h2 h3 h4
    refine ⟨i, hy, (eligible_iff self now head y).2 ⟨h2, h3⟩, fun j c hj hc => ?_⟩
    obtain ⟨k1, k2⟩ := (eligible_iff self now head c).1 hc
    obtain ⟨g1, g2⟩ := h4 j (baselineScore self now c, c) ⟨c, hj, rfl⟩ k1 k2
    obtain ⟨s1, hs1⟩ := Option.isSome_iff_exists.1 (Bool.and_eq_true _ _ ▸ h2).1
    obtain ⟨s2, hs2⟩ := Option.isSome_iff_exists.1 (Bool.and_eq_true _ _ ▸ k1).1
    rw [← score_eq self now y hs1, ← score_eq self now c hs2]
    rw [hs1, hs2] at g1 g2
    simp only [scoreGe, decide_eq_true_eq, decide_eq_false_iff_not] at g1 g2
    exact ⟨g1, fun h => by have := g2 h; omega⟩
  · rintro ⟨i, hy, hb, h4⟩
    obtain ⟨h2, h3⟩ := (eligible_iff self now head b).1 hb
    refine ⟨(baselineScore self now b, b), ⟨i, ⟨b, hy, rfl⟩, h2, h3, ?_⟩, rfl⟩
    rintro j ⟨s, c⟩ ⟨d, hj, e2⟩ k1 k2
    obtain ⟨rfl, rfl⟩ := Prod.mk.inj e2
    dsimp only at k1 k2
    obtain ⟨g1, g2⟩ := h4 j d hj ((eligible_iff self now head d).2 ⟨k1, k2⟩)
    obtain ⟨s1, hs1⟩ := Option.isSome_iff_exists.1 (Bool.and_eq_true _ _ ▸ h2).1
    obtain ⟨s2, hs2⟩ := Option.isSome_iff_exists.1 (Bool.and_eq_true _ _ ▸ k1).1
    rw [← score_eq self now b hs1, ← score_eq self now d hs2] at g1 g2
    dsimp only
    rw [hs1, hs2]
    simp only [scoreGe, decide_eq_true_eq, decide_eq_false_iff_not]
    exact ⟨g1, fun h => by have := g2 h; omega⟩

theorem select_none (self : Target env) (now : Int) (head : Url env → Option Bool) (samples : List (Build env)) :
    selectBuilds self now head samples = [] ↔ ∀ b ∈ samples, ¬ Spec.Eligible self head b := by
  unfold selectBuilds
  rw [List.map_eq_nil_iff, List.take_eq_nil_iff]
  simp only [Nat.one_ne_zero, false_or]
  rw [sorted_none]
  simp only [List.mem_map, forall_exists_index, and_imp, forall_apply_eq_imp_iff₂, eligible_iff self now head, not_and]

theorem select_length (self : Target env) (now : Int) (head : Url env → Option Bool) (samples : List (Build env)) :
    selectBuilds self now head samples = [] ∨ ∃ b, selectBuilds self now head samples = [b] := by
  unfold selectBuilds
  generalize List.filter _ (List.mergeSort _ _) = l
  cases l <;> simp

theorem content_iff (api : Url env) (b : Build env) (t : Target env) : newContent api b = some t ↔ Spec.ContentOf api b t := by
  unfold newContent
  cases hl : b.logUrl with
  | none => simp only [reduceCtorEq, false_iff]; intro h; have := h.logUrl; rw [hl] at this; exact absurd this (by simp)
  | some l =>
    cases hr : b.refUrl with
    | none => simp only [reduceCtorEq, false_iff]; intro h; have := h.refUrl; rw [hr] at this; exact absurd this (by simp)
    | some r =>
      cases hc : b.change with
      | none => simp only [reduceCtorEq, false_iff]; intro h; have := h.change; rw [hc] at this; exact absurd this (by simp)
      | some c =>
        simp only [Option.some.injEq]
        constructor
        · rintro rfl; exact ⟨rfl, rfl, rfl, rfl, rfl, rfl, rfl, rfl, hl, hr, hc⟩
        · rintro ⟨h1, h2, h3, h4, h5, h6, h7, h8, h9, h10, h11⟩
          rw [hl] at h9; rw [hr] at h10; rw [hc] at h11
          cases t
          simp_all

theorem content_none (api : Url env) (b : Build env) : newContent api b = none ↔ b.logUrl = none ∨ b.refUrl = none ∨ b.change = none := by
  unfold newContent
  cases b.logUrl <;> cases b.refUrl <;> cases b.change <;> simp

end LJ.Zuul

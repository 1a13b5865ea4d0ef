/-
C139: what the normalisation removes from the baselines is not in the model, but for the count of the bytes.
-/
import Verif.Report.Learned
namespace LJ.Report
open LJ.Process (Str Bytes Ev Env Trainer)
variable {C S N D E ε : Type}

namespace Spec

/-- Two results of the reader from which the same is learned: lines with the same normalised text, lines which are both no text, or errors. -/
def SameLine (tok : Str → Str) (decode : Bytes → Option Str) : Ev ε → Ev ε → Prop
  | .ok l, .ok l' =>
    match decode l.1, decode l'.1 with
    | some t, some t' => tok t = tok t'
    | none, none => True
    | _, _ => False
  | .error _, .error _ => True
  | _, _ => False

/-- Two results of the reader with the same number of bytes. -/
def SameSize : Ev ε → Ev ε → Prop
  | .ok l, .ok l' => l.1.length = l'.1.length
  | .error _, .error _ => True
  | _, _ => False

/-- Two results of opening a source: the same failure, or readers whose results are related one by one. -/
def SameOpen (R : Ev ε → Ev ε → Prop) : Except E (Bool → List (Ev ε)) → Except E (Bool → List (Ev ε)) → Prop
  | .ok r, .ok r' => ∀ json, List.Forall₂ R (r json) (r' json)
  | .error e, .error e' => e = e'
  | _, _ => False

/-- The same model, but for the numbers of bytes of its indexes. -/
def SameButBytes (m m' : Model C S N) : Prop :=
  m.baselines = m'.baselines ∧
    List.Forall₂ (fun x x' => x.1 = x'.1 ∧ x.2.sources = x'.2.sources ∧ x.2.chunks = x'.2.chunks ∧ x.2.lineCount = x'.2.lineCount) m.indexes m'.indexes

/-- Two results of a training: the same error, or two related models. -/
def SameResult {F M : Type} (R : M → M → Prop) : Except F M → Except F M → Prop
  | .ok m, .ok m' => R m m'
  | .error e, .error e' => e = e'
  | _, _ => False

end Spec
open Spec (SameLine SameSize SameOpen SameButBytes SameResult)

/-- two trainers which differ in the number of bytes -/
def SameTrainer (t t' : Trainer) : Prop :=
  t.chunks = t'.chunks ∧ t.skipLines = t'.skipLines ∧ t.baselines = t'.baselines ∧ t.lineCount = t'.lineCount

theorem same_addTokens {t t' : Trainer} (h : SameTrainer t t') (tokens : Str) : SameTrainer (t.addTokens tokens) (t'.addTokens tokens) := by
  obtain ⟨c, s, b, l, y⟩ := t
  obtain ⟨c', s', b', l', y'⟩ := t'
  obtain ⟨h1, h2, h3, h4⟩ := h
  cases h1
  cases h2
  cases h3
  cases h4
  unfold Trainer.addTokens
  by_cases h : tokens ∈ s
  · rw [if_pos h, if_pos h]
    exact ⟨rfl, rfl, rfl, rfl⟩
  · rw [if_neg h, if_neg h]
    by_cases h2 : (b ++ [tokens]).length = LJ.Process.CHUNK_SIZE
    · simp only [h2, if_true]
      exact ⟨rfl, rfl, rfl, rfl⟩
    · simp only [h2, if_false]
      exact ⟨rfl, rfl, rfl, rfl⟩

theorem same_add {env : Env D} : ∀ {r r' : List (Ev ε)}, List.Forall₂ (SameLine env.tokenize env.decode) r r' → ∀ {t t' : Trainer}, SameTrainer t t' →
    SameTrainer (t.add env r).2 (t'.add env r').2
  | _, _, .nil, _, _, ht => ht
  | .error _ :: _, .error _ :: _, .cons _ _, _, _, ht => ht
  | .error _ :: _, .ok _ :: _, .cons h _, _, _, _ => h.elim
  | .ok _ :: _, .error _ :: _, .cons h _, _, _, _ => h.elim
  | .ok l :: r, .ok l' :: r', .cons h hs, t, t', ht => by
    unfold Trainer.add
    simp only [SameLine] at h
    cases hd : env.decode l.1 with
    | none =>
      cases hd' : env.decode l'.1 with
      | none => exact ht
      | some _ => rw [hd, hd'] at h; exact h.elim
    | some x =>
      cases hd' : env.decode l'.1 with
      | none => rw [hd, hd'] at h; exact h.elim
      | some x' =>
        rw [hd, hd'] at h
        simp only at h ⊢
        rw [h]
        obtain ⟨h1, h2, h3, h4⟩ := ht
        refine same_add hs (same_addTokens ?_ _)
        exact ⟨h1, h2, h3, congrArg (· + 1) h4⟩

theorem equal_add {env : Env D} : ∀ {r r' : List (Ev ε)}, List.Forall₂ (fun e e' => SameLine env.tokenize env.decode e e' ∧ SameSize e e') r r' → ∀ (t : Trainer),
    (t.add env r).2 = (t.add env r').2
  | _, _, .nil, _ => rfl
  | .error _ :: _, .error _ :: _, .cons _ _, _ => rfl
  | .error _ :: _, .ok _ :: _, .cons h _, _ => h.1.elim
  | .ok _ :: _, .error _ :: _, .cons h _, _ => h.1.elim
  | .ok l :: r, .ok l' :: r', .cons ⟨h, hz⟩ hs, t => by
    unfold Trainer.add
    simp only [SameLine] at h
    have hz : l.1.length = l'.1.length := hz
    cases hd : env.decode l.1 with
    | none =>
      cases hd' : env.decode l'.1 with
      | none => rfl
      | some _ => rw [hd, hd'] at h; exact h.elim
    | some x =>
      cases hd' : env.decode l'.1 with
      | none => rw [hd, hd'] at h; exact h.elim
      | some x' =>
        rw [hd, hd'] at h
        simp only at h ⊢
        rw [h, hz]
        exact equal_add hs _

theorem same_complete {t t' : Trainer} (h : SameTrainer t t') : SameTrainer t.complete t'.complete := by
  obtain ⟨h1, h2, h3, h4⟩ := h
  unfold Trainer.complete
  by_cases hb : t.baselines = []
  · rw [if_pos hb, if_pos (h3 ▸ hb)]
    exact ⟨h1, h2, h3, h4⟩
  · rw [if_neg hb, if_neg (h3 ▸ hb)]
    exact ⟨by simp only [h1, h3], h2, h3, h4⟩

variable [DecidableEq N] {w : World C S N D E ε} {o : S → Except E (Bool → List (Ev ε))}

omit [DecidableEq N] in
theorem same_sources (json : Bool) : ∀ (ss : List S), (∀ s ∈ ss, SameOpen (SameLine w.tokenize w.decode) (w.openSource s) (o s)) → ∀ {t t' : Trainer}, SameTrainer t t' →
    SameResult SameTrainer (trainSources w json ss t) (trainSources { w with openSource := o } json ss t')
  | [], _, _, _, ht => ht
  | s :: ss, h, t, t', ht => by
    have h1 := h s (.head _)
    unfold trainSources
    simp only
    cases e : w.openSource s with
    | error a =>
      cases e' : o s with
      | error a' => rw [e, e'] at h1; exact h1
      | ok _ => rw [e, e'] at h1; exact h1.elim
    | ok r =>
      cases e' : o s with
      | error a' => rw [e, e'] at h1; exact h1.elim
      | ok r' =>
        rw [e, e'] at h1
        exact same_sources json ss (fun x hx => h x (.tail _ hx)) (same_add (env := envOf w []) (h1 json) ht)

omit [DecidableEq N] in
theorem equal_sources (json : Bool) : ∀ (ss : List S), (∀ s ∈ ss, SameOpen (fun e e' => SameLine w.tokenize w.decode e e' ∧ SameSize e e') (w.openSource s) (o s)) →
    ∀ (t : Trainer), trainSources w json ss t = trainSources { w with openSource := o } json ss t
  | [], _, _ => rfl
  | s :: ss, h, t => by
    have h1 := h s (.head _)
    unfold trainSources
    simp only
    cases e : w.openSource s with
    | error a =>
      cases e' : o s with
      | error a' => rw [e, e'] at h1; rw [show a = a' from h1]
      | ok _ => rw [e, e'] at h1; exact h1.elim
    | ok r =>
      cases e' : o s with
      | error a' => rw [e, e'] at h1; exact h1.elim
      | ok r' =>
        rw [e, e'] at h1
        simp only
        rw [equal_add (env := envOf w []) (h1 json)]
        exact equal_sources json ss (fun x hx => h x (.tail _ hx)) _

/-- the same index, but for its number of bytes -/
def IndexButBytes (i i' : Index S) : Prop := i.sources = i'.sources ∧ i.chunks = i'.chunks ∧ i.lineCount = i'.lineCount

omit [DecidableEq N] in
theorem same_index {ss : List S} (h : ∀ s ∈ ss, SameOpen (SameLine w.tokenize w.decode) (w.openSource s) (o s)) :
    SameResult IndexButBytes (trainIndex w ss) (trainIndex { w with openSource := o } ss) := by
  have key : ∀ json, SameResult IndexButBytes
      (match trainSources w json ss .new with
        | .error e => .error e
        | .ok t => .ok ⟨ss, t.complete.chunks, t.complete.lineCount, t.complete.byteCount⟩)
      (match trainSources { w with openSource := o } json ss .new with
        | .error e => .error e
        | .ok t => .ok ⟨ss, t.complete.chunks, t.complete.lineCount, t.complete.byteCount⟩) := by
    intro json
    have := same_sources (w := w) (o := o) json ss h (t := .new) (t' := .new) ⟨rfl, rfl, rfl, rfl⟩
    cases e : trainSources w json ss .new with
    | error a =>
      cases e' : trainSources { w with openSource := o } json ss .new with
      | error a' => rw [e, e'] at this; exact this
      | ok _ => rw [e, e'] at this; exact this.elim
    | ok t =>
      cases e' : trainSources { w with openSource := o } json ss .new with
      | error a' => rw [e, e'] at this; exact this.elim
      | ok t' =>
        rw [e, e'] at this
        obtain ⟨h1, h2, h3, h4⟩ := same_complete this
        exact ⟨rfl, h1, h4⟩
  exact key _

omit [DecidableEq N] in
theorem same_groups : ∀ (g : List (N × List S)), (∀ x ∈ g, ∀ s ∈ x.2, SameOpen (SameLine w.tokenize w.decode) (w.openSource s) (o s)) →
    SameResult (List.Forall₂ fun x x' => x.1 = x'.1 ∧ IndexButBytes x.2 x'.2) (trainGroups w g) (trainGroups { w with openSource := o } g)
  | [], _ => .nil
  | (n, ss) :: g, h => by
    have h1 := same_index (h _ (.head _))
    have h2 := same_groups g fun x hx => h x (.tail _ hx)
    unfold trainGroups
    cases e : trainIndex w ss with
    | error a =>
      cases e' : trainIndex { w with openSource := o } ss with
      | error a' => rw [e, e'] at h1; exact h1
      | ok _ => rw [e, e'] at h1; exact h1.elim
    | ok i =>
      cases e' : trainIndex { w with openSource := o } ss with
      | error a' => rw [e, e'] at h1; exact h1.elim
      | ok i' =>
        rw [e, e'] at h1
        cases f : trainGroups w g with
        | error a =>
          cases f' : trainGroups { w with openSource := o } g with
          | error a' => rw [f, f'] at h2; exact h2
          | ok _ => rw [f, f'] at h2; exact h2.elim
        | ok is =>
          cases f' : trainGroups { w with openSource := o } g with
          | error a' => rw [f, f'] at h2; exact h2.elim
          | ok is' =>
            rw [f, f'] at h2
            exact .cons ⟨rfl, h1⟩ h2

omit [DecidableEq N] in
theorem equal_groups : ∀ (g : List (N × List S)),
    (∀ x ∈ g, ∀ s ∈ x.2, SameOpen (fun e e' => SameLine w.tokenize w.decode e e' ∧ SameSize e e') (w.openSource s) (o s)) →
    trainGroups w g = trainGroups { w with openSource := o } g
  | [], _ => rfl
  | (n, ss) :: g, h => by
    have h1 : trainIndex w ss = trainIndex { w with openSource := o } ss := by
      unfold trainIndex
      simp only
      rw [equal_sources (w := w) (o := o) _ ss (h _ (.head _))]
    unfold trainGroups
    rw [h1, equal_groups g fun x hx => h x (.tail _ hx)]

theorem group_open : ∀ (cs : List C) (g : List (N × List S)), groupInto { w with openSource := o } cs g = groupInto w cs g
  | [], _ => rfl
  | c :: cs, g => by
    unfold groupInto
    have e : getSources { w with openSource := o } c = getSources w c := rfl
    rw [e]
    cases getSources w c with
    | error _ => rfl
    | ok ss => exact group_open cs _

theorem group_mem {cs : List C} {g : List (N × List S)} (h : groupSources w cs = .ok g) {order : List (N × List S) → List (N × List S)} (ho : ∀ g, (order g).Perm g)
    {P : S → Prop} (hp : ∀ s ∈ cs.flatMap (fun c => Spec.validSources w.valid (w.list c)), P s) : ∀ x ∈ order g, ∀ s ∈ x.2, P s := by
  intro x hx s hs
  obtain ⟨_, hg⟩ := groupSources_ok_iff h
  refine hp s ?_
  have hx := (ho g).mem_iff.1 hx
  rw [((hg.2 _ _).1 hx).2] at hs
  exact (List.mem_filter.1 hs).1

/-- C139, for every listing, content and result of the readers: two trainings on the same sources, whose lines have one by one the same normalised text, fail in the same way or give the
same model, but for the numbers of bytes. -/
theorem C139_train {order : List (N × List S) → List (N × List S)} (ho : ∀ g, (order g).Perm g) (cs : List C)
    (h : ∀ s ∈ cs.flatMap (fun c => Spec.validSources w.valid (w.list c)), SameOpen (SameLine w.tokenize w.decode) (w.openSource s) (o s)) :
    SameResult SameButBytes (train w order cs) (train { w with openSource := o } order cs) := by
  unfold train
  have e : groupSources { w with openSource := o } cs = groupSources w cs := group_open cs []
  rw [e]
  cases hg : groupSources w cs with
  | error a => exact rfl
  | ok g =>
    have := same_groups (order g) (group_mem hg ho h)
    simp only
    cases f : trainGroups w (order g) with
    | error a =>
      cases f' : trainGroups { w with openSource := o } (order g) with
      | error a' => rw [f, f'] at this; exact congrArg _ this
      | ok _ => rw [f, f'] at this; exact this.elim
    | ok is =>
      cases f' : trainGroups { w with openSource := o } (order g) with
      | error a' => rw [f, f'] at this; exact this.elim
      | ok is' =>
        rw [f, f'] at this
        exact ⟨rfl, this⟩

/-- C139: when the lines have also one by one the same number of bytes, the result of the training is the same. -/
theorem C139_equal {order : List (N × List S) → List (N × List S)} (ho : ∀ g, (order g).Perm g) (cs : List C)
    (h : ∀ s ∈ cs.flatMap (fun c => Spec.validSources w.valid (w.list c)),
      SameOpen (fun e e' => SameLine w.tokenize w.decode e e' ∧ SameSize e e') (w.openSource s) (o s)) :
    train w order cs = train { w with openSource := o } order cs := by
  unfold train
  have e : groupSources { w with openSource := o } cs = groupSources w cs := group_open cs []
  rw [e]
  cases hg : groupSources w cs with
  | error a => exact rfl
  | ok g =>
    simp only
    rw [equal_groups (order g) (group_mem hg ho h)]

end LJ.Report

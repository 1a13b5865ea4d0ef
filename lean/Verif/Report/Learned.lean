/-
Which sources of the baselines are used for a name, and what is learned from them.
-/
import Verif.Report.Exact
import Verif.Report.Props
namespace LJ.Report
open LJ.Process (Str Ev)

variable {C S N D E ε : Type} [DecidableEq N]

namespace Spec

/-- The sources of the baselines used for a name: those with this name; when there is none, all of them if they have one other name. -/
def baselineFor (nameOf : S → N) (all : List S) (n : N) : Option (List S) :=
  if n ∈ all.map nameOf then some (all.filter fun s => nameOf s = n)
  else
    match all with
    | [] => none
    | s :: rest => if ∀ t ∈ rest, nameOf t = nameOf s then some all else none

/-- The tokens learned from sources: those of the lines of each of them before the first one which is not a text.  They are all read as JSON when the
first one is. -/
def learned (tok : Str → Str) (decode : LJ.Process.Bytes → Option Str) (isJson : S → Bool) (lines : S → Bool → List (Ev ε)) (ss : List S) : List Str :=
  ss.flatMap fun s => (LJ.Process.Spec.readable decode (lines s (ss.head?.any isJson))).map fun y => tok y.2

end Spec

/-- the lines of a source -/
def readLines (w : World C S N D E ε) (s : S) (json : Bool) : List (Ev ε) :=
  match w.openSource s with
  | .error _ => []
  | .ok reader => reader json

variable {w : World C S N D E ε}

omit [DecidableEq N] in
theorem learned_index [DecidableEq N] {ss : List S} {i : Index S} (h : trainIndex w ss = .ok i) (x : Str) :
    x ∈ i.chunks.flatten ↔ x ∈ Spec.learned w.tokenize w.decode w.isJson (readLines w) ss := by
  rw [(C75_tokens ss h).2.2 x]
  unfold Spec.learned
  have hj : groupJson w ss = ss.head?.any w.isJson := by cases ss <;> rfl
  rw [hj]
  simp only [List.mem_flatMap, List.mem_map]
  constructor
  · rintro ⟨s, hs, reader, ho, y, hy, e⟩
    refine ⟨s, hs, y, ?_, e⟩
    unfold readLines
    rw [ho]
    exact hy
  · rintro ⟨s, hs, y, hy, e⟩
    unfold readLines at hy
    cases ho : w.openSource s with
    | error e' => rw [ho] at hy; simp only at hy; cases hy
    | ok reader => rw [ho] at hy; exact ⟨s, hs, reader, ho, y, hy, e⟩

/-- the index used for a name, when the model is trained on these contents -/
theorem lookup_baseline {order : List (N × List S) → List (N × List S)} (ho : ∀ g, (order g).Perm g) {cs : List C} {m : Model C S N}
    (hm : train w order cs = .ok m) (n : N) :
    match Spec.baselineFor w.nameOf (cs.flatMap fun c => Spec.validSources w.valid (w.list c)) n with
    | none => lookupOrSingle m.indexes n = none
    | some ss => ∃ i, lookupOrSingle m.indexes n = some i ∧ trainIndex w ss = .ok i := by
  obtain ⟨a1, a2⟩ := C75_train (w := w) ho cs
  obtain ⟨_, hopen⟩ := a1.1 ⟨m, hm⟩
  obtain ⟨_, hnd, hidx⟩ := a2 m hm
  have hopen' : ∀ s ∈ cs.flatMap fun c => Spec.validSources w.valid (w.list c), ∃ reader, w.openSource s = .ok reader := by
    intro s hs
    obtain ⟨c, hc, hs⟩ := List.mem_flatMap.1 hs
    exact hopen c hc s hs
  generalize (cs.flatMap fun c => Spec.validSources w.valid (w.list c)) = all at hidx hopen'
  have hent : ∀ k, k ∈ all.map w.nameOf → ∃ i, (k, i) ∈ m.indexes ∧ trainIndex w (all.filter fun s => w.nameOf s = k) = .ok i := by
    intro k hk
    obtain ⟨s, hs, rfl⟩ := List.mem_map.1 hk
    have hne : (all.filter fun t => w.nameOf t = w.nameOf s) ≠ [] :=
      List.ne_nil_of_mem (List.mem_filter.2 ⟨hs, by simp⟩)
    have hi := trainIndex_ok (w := w) (all.filter fun t => w.nameOf t = w.nameOf s) (fun t ht => hopen' t (List.mem_filter.1 ht).1)
    generalize hg : (⟨_, _, _, _⟩ : Index S) = i at hi
    have hsrc := (C75_tokens _ hi).1
    exact ⟨i, (hidx _ _).2 ⟨by rw [hsrc]; exact hne, hsrc, by rw [hsrc]; exact hi⟩, hi⟩
  have hname : ∀ k i, (k, i) ∈ m.indexes → k ∈ all.map w.nameOf := by
    intro k i h
    obtain ⟨h1, h2, _⟩ := (hidx k i).1 h
    obtain ⟨s, hs⟩ := List.exists_mem_of_ne_nil _ h1
    rw [h2, List.mem_filter, decide_eq_true_eq] at hs
    exact List.mem_map.2 ⟨s, hs.1, hs.2⟩
  have hnone : n ∉ all.map w.nameOf → n ∉ m.indexes.map Prod.fst := by
    intro h h'
    obtain ⟨⟨k, i⟩, hk, rfl⟩ := List.mem_map.1 h'
    exact h (hname k i hk)
  unfold Spec.baselineFor
  by_cases hn : n ∈ all.map w.nameOf
  · rw [if_pos hn]
    obtain ⟨i, h1, h2⟩ := hent n hn
    exact ⟨i, (C36_lookup _ hnd n i).2 (.inl h1), h2⟩
  · rw [if_neg hn]
    cases hall : all with
    | nil =>
      have : m.indexes = [] := by
        rw [List.eq_nil_iff_forall_not_mem]
        rintro ⟨k, i⟩ h
        have := hname k i h
        rw [hall] at this
        cases this
      rw [this]
      rfl
    | cons s rest =>
      by_cases hs : ∀ t ∈ rest, w.nameOf t = w.nameOf s
      · simp only
        rw [if_pos hs]
        have hf : (all.filter fun t => w.nameOf t = w.nameOf s) = all := by
          rw [List.filter_eq_self]
          intro t ht
          rw [hall] at ht
          rcases List.mem_cons.1 ht with rfl | ht
          · simp
          · simpa using hs t ht
        obtain ⟨i, h1, h2⟩ := hent (w.nameOf s) (by rw [hall]; simp)
        rw [hf, hall] at h2
        refine ⟨i, ?_, h2⟩
        rw [C36_lookup _ hnd]
        refine .inr ⟨hnone hn, w.nameOf s, ?_⟩
        have hk : ∀ x ∈ m.indexes, x.1 = w.nameOf s := by
          rintro ⟨k, j⟩ h
          obtain ⟨t, ht, e⟩ := List.mem_map.1 (hname k j h)
          rw [hall] at ht
          rcases List.mem_cons.1 ht with rfl | ht
          · exact e.symm
          · rw [← e]; exact hs t ht
        cases hmi : m.indexes with
        | nil => rw [hmi] at h1; cases h1
        | cons x xs =>
          cases xs with
          | nil =>
            rw [hmi] at h1
            rw [List.mem_singleton] at h1
            rw [h1]
          | cons y ys =>
            rw [hmi] at hnd hk
            have e1 := hk x (by simp)
            have e2 := hk y (by simp)
            simp [e1, e2] at hnd
      · simp only
        rw [if_neg hs]
        cases hl : lookupOrSingle m.indexes n with
        | none => rfl
        | some i =>
          exfalso
          rcases (C36_lookup _ hnd n i).1 hl with h | ⟨_, k, hk⟩
          · exact hn (hname _ _ h)
          · have hone : ∀ t ∈ all, w.nameOf t = k := by
              intro t ht
              obtain ⟨j, hj, _⟩ := hent (w.nameOf t) (List.mem_map_of_mem ht)
              rw [hk, List.mem_singleton] at hj
              exact congrArg Prod.fst hj
            apply hs
            intro t ht
            rw [hone t (by rw [hall]; exact .tail _ ht), hone s (by rw [hall]; exact .head _)]

end LJ.Report

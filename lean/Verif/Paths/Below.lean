/-
What the program uses of the location of a file below a directory does not depend on the directory.
-/
import Verif.Paths.Props
namespace LJ.Paths
open Spec (Normal)

namespace Spec

/-- The path of a directory, without a last slash, which does not make the program ignore the files below: it has no
directory named `etc` below another, and does not end with the first part of an ignored suffix. -/
def NeutralBase (b : Str) : Prop :=
  ¬ "/etc/".toList <:+: b ++ ['/'] ∧ ∀ n ∈ ["local", "pacemaker", "mysql", "corosync"], ¬ n.toList <:+ b

/-- The same, with or without a last slash. -/
def Neutral (dir : Str) : Prop := ∃ b, NeutralBase b ∧ (dir = b ∧ b ≠ [] ∧ ¬ ['/'] <:+ b ∨ dir = b ++ ['/'])

end Spec
open Spec (Neutral NeutralBase)

/-- the names below a directory, with slashes in between -/
def rel (names : List Str) : Str := (['/'].intercalate names)

theorem rel_cons (n : Str) (names : List Str) : rel (n :: names) = n ++ names.flatMap ('/' :: ·) := by
  unfold rel
  induction names generalizing n with
  | nil => simp [List.intercalate]
  | cons m names ih => rw [List.intercalate_cons_cons, ih]; simp

theorem ext_slash : ∀ e ∈ allExts, ∀ i < e.length, e[i]? = some '/' → e.take i ∈ ["local", "pacemaker", "mysql", "corosync"].map String.toList := by
  decide +kernel

theorem suffix_below {b r e : Str} (hb : NeutralBase b) (he : e ∈ allExts) : e <:+ b ++ '/' :: r ↔ e <:+ '/' :: r := by
  constructor
  · intro h
    rcases List.suffix_or_suffix_of_suffix h (List.suffix_append b ('/' :: r)) with h1 | ⟨p, hp⟩
    · exact h1
    · exfalso
      have hs : p <:+ b := by
        obtain ⟨q, hq⟩ := h
        rw [← hp, ← List.append_assoc] at hq
        exact ⟨q, List.append_cancel_right hq⟩
      have hm := ext_slash e he p.length (by rw [← hp]; simp) (by rw [← hp]; simp)
      rw [← hp, List.take_left] at hm
      obtain ⟨n, hn, e2⟩ := List.mem_map.1 hm
      exact hb.2 n hn (e2 ▸ hs)
  · exact fun h => h.trans (List.suffix_append _ _)

theorem etc_below {b r : Str} (hb : NeutralBase b) : "/etc/".toList <:+: b ++ '/' :: r ↔ "/etc/".toList <:+: '/' :: r := by
  constructor
  · rintro ⟨u, v, h⟩
    rcases Nat.lt_or_ge u.length b.length with h1 | h1
    · exfalso
      rcases Nat.lt_or_ge b.length (u.length + 4) with h2 | h2
      · have e : (u ++ "/etc/".toList ++ v)[b.length]? = some '/' := by rw [h]; simp
        rw [List.append_assoc, List.getElem?_append_right (by omega), List.getElem?_append_left (by show _ < 5; omega)] at e
        have : ∀ i < 4, 0 < i → "/etc/".toList[i]? ≠ some '/' := by decide
        exact this (b.length - u.length) (by omega) (by omega) e
      · apply hb.1
        have e : (b ++ ['/']) ++ r = (u ++ "/etc/".toList) ++ v := by simpa using h.symm
        rcases List.append_eq_append_iff.1 e with ⟨x, e1, e2⟩ | ⟨x, e1, e2⟩
        · have hl : (u ++ "/etc/".toList).length = u.length + 5 := by simp
          have : x = [] := by
            have := congrArg List.length e1
            rw [hl] at this
            simp at this
            exact List.eq_nil_of_length_eq_zero (by omega)
          subst this
          exact ⟨u, [], by rw [e1]; simp⟩
        · exact ⟨u, x, e1.symm⟩
    · rw [List.append_assoc] at h
      rcases List.append_eq_append_iff.1 h with ⟨x, e1, e2⟩ | ⟨x, e1, e2⟩
      · have : x = [] := by
          have := congrArg List.length e1
          simp at this
          exact List.eq_nil_of_length_eq_zero (by omega)
        subst this
        exact ⟨[], v, by simpa using e2⟩
      · exact ⟨x, v, by rw [List.append_assoc]; exact e2.symm⟩
  · rintro ⟨u, v, h⟩
    exact ⟨b ++ u, v, by rw [← h]; simp⟩

theorem bool_eq_of_iff {a b : Bool} (h : a = true ↔ b = true) : a = b := by
  cases a <;> cases b <;> simp_all

/-- Whether a file is ignored depends on its path below the directory. -/
theorem isValid_below {b r : Str} (hb : NeutralBase b) : isValid (b ++ '/' :: r) = isValid ('/' :: r) := by
  unfold isValid
  congr 1
  · apply bool_eq_of_iff
    rw [List.all_eq_true, List.all_eq_true]
    refine forall₂_congr fun e he => ?_
    rw [Bool.not_eq_true', Bool.not_eq_true', ← Bool.not_eq_true, ← Bool.not_eq_true, endsWith_iff, endsWith_iff, suffix_below hb he]
  · congr 1
    apply bool_eq_of_iff
    rw [contains_iff, contains_iff, etc_below hb]

theorem split_rel {names : List Str} (hne : names ≠ []) (hn : ∀ n ∈ names, Normal n) : split '/' (rel names) = names := by
  obtain ⟨n, names, rfl⟩ : ∃ n ns, names = n :: ns := by
    cases names with
    | nil => exact absurd rfl hne
    | cons n ns => exact ⟨n, ns, rfl⟩
  clear hne
  induction names generalizing n with
  | nil => rw [rel_cons]; simpa using split_no '/' (hn n (by simp)).1
  | cons m names ih =>
    have e : rel (n :: m :: names) = n ++ '/' :: rel (m :: names) := by rw [rel_cons, rel_cons]; simp
    rw [e, split_sep, split_no '/' (hn n (by simp)).1, ih m (fun x hx => hn x (List.mem_cons_of_mem _ hx))]
    rfl

theorem filterMap_normal {names : List Str} (hn : ∀ n ∈ names, Normal n) : names.filterMap compOf = names.map .normal := by
  induction names with
  | nil => rfl
  | cons n names ih => rw [List.filterMap_cons_some (compOf_normal (hn n (by simp))), ih fun x hx => hn x (by simp [hx])]; rfl

theorem components_rel {names : List Str} (hne : names ≠ []) (hn : ∀ n ∈ names, Normal n) : components (rel names) = names.map .normal := by
  unfold components
  rw [split_rel hne hn]
  cases names with
  | nil => exact absurd rfl hne
  | cons n names =>
    have h := hn n (by simp)
    simp only
    rw [if_neg h.2.1, if_neg h.2.2.1, compOf_normal h, filterMap_normal fun x hx => hn x (by simp [hx])]
    rfl

theorem components_slash {names : List Str} (hne : names ≠ []) (hn : ∀ n ∈ names, Normal n) :
    components ('/' :: rel names) = .root :: names.map .normal := by
  unfold components
  have e : split '/' ('/' :: rel names) = [] :: names := by rw [split_cons, if_pos rfl, split_rel hne hn]
  rw [e]
  simp only [if_pos, if_neg hne]
  rw [filterMap_normal hn]
  rfl

theorem shortPrefix_root (ns : List Str) : shortPrefix (.root :: ns.map .normal) = shortPrefix (ns.map .normal) := by
  rcases List.eq_nil_or_concat ns with rfl | ⟨l, n, rfl⟩
  · rfl
  · unfold shortPrefix
    rw [List.concat_eq_append, List.map_append, List.map_singleton, ← List.cons_append, fileName_snoc, fileName_snoc]
    have e : (parentStr (.root :: l.map .normal ++ [.normal n])).map Prod.snd = (parentStr (l.map .normal ++ [.normal n])).map Prod.snd := by
      unfold parentStr
      rw [parent_snoc, parent_snoc]
      rcases List.eq_nil_or_concat l with rfl | ⟨l, m, rfl⟩
      · rfl
      · rw [List.concat_eq_append, List.map_append, List.map_singleton, ← List.cons_append, Option.bind_some, Option.bind_some, fileName_snoc, fileName_snoc]
        rfl
    simp only [e]

/-- The model name of a file depends on the names, not on a first slash. -/
theorem indexName_slash {names : List Str} (hne : names ≠ []) (hn : ∀ n ∈ names, Normal n) :
    indexName ('/' :: rel names) = indexName (rel names) := by
  unfold indexName
  rw [components_slash hne hn, components_rel hne hn]
  rcases List.eq_nil_or_concat names with rfl | ⟨l, n, rfl⟩
  · exact absurd rfl hne
  · simp only
    rw [List.concat_eq_append, List.map_append, List.map_singleton, ← List.cons_append, shortFileName_snoc, shortFileName_snoc, shortPrefix_root]
    unfold fileNameOr
    rw [fileName_snoc, fileName_snoc]

theorem json_slash (r : Str) : endsWith ('/' :: r) ".json".toList = endsWith r ".json".toList := by
  apply bool_eq_of_iff
  rw [endsWith_iff, endsWith_iff, List.suffix_cons_iff]
  constructor
  · rintro (h | h)
    · exact absurd (congrArg List.head? h) (by simp)
    · exact h
  · exact .inr

/-- the path and the relative path of a file below a directory -/
theorem dirSource_below {dir : Str} (hd : Neutral dir) {names : List Str} (hne : names ≠ []) (hn : ∀ n ∈ names, Normal n) :
    ∃ b, NeutralBase b ∧ entryPath dir (names.map some) = some (b ++ '/' :: rel names) ∧
      ((dirSource dir (names.map some)).getRelative = some ('/' :: rel names) ∨ (dirSource dir (names.map some)).getRelative = some (rel names)) := by
  obtain ⟨b, hb, h⟩ := hd
  refine ⟨b, hb, ?_⟩
  obtain ⟨n, names, rfl⟩ : ∃ n ns, names = n :: ns := by
    cases names with
    | nil => exact absurd rfl hne
    | cons n ns => exact ⟨n, ns, rfl⟩
  have hrel := C45_local (dir := dir) (n := n) (names := names) fun x hx => ⟨(hn x hx).2.1, (hn x hx).1⟩
  rw [entryPath_names fun x hx => ⟨(hn x hx).2.1, (hn x hx).1⟩, hrel, rel_cons]
  rcases h with ⟨rfl, h1, h2⟩ | rfl
  · rw [if_neg (not_or.2 ⟨h1, h2⟩)]
    exact ⟨rfl, .inl rfl⟩
  · rw [if_pos (.inr ⟨b, rfl⟩)]
    exact ⟨by simp, .inr rfl⟩

/-- What the program uses of a file below a directory is the same below another one. -/
theorem same_below {dir dir' : Str} (hd : Neutral dir) (hd' : Neutral dir') {names : List Str} (hne : names ≠ []) (hn : ∀ n ∈ names, Normal n) :
    isValid (dirSource dir (names.map some)).asStr = isValid (dirSource dir' (names.map some)).asStr ∧
      (dirSource dir (names.map some)).indexName = (dirSource dir' (names.map some)).indexName ∧
      (dirSource dir (names.map some)).isJson = (dirSource dir' (names.map some)).isJson := by
  obtain ⟨b, hb, h1, h2⟩ := dirSource_below hd hne hn
  obtain ⟨b', hb', h1', h2'⟩ := dirSource_below hd' hne hn
  refine ⟨?_, ?_, ?_⟩
  · unfold dirSource Source.asStr
    rw [h1, h1']
    exact (isValid_below hb).trans (isValid_below hb').symm
  · unfold Source.indexName
    rcases h2 with h2 | h2 <;> rcases h2' with h2' | h2' <;> rw [h2, h2'] <;> simp only [Option.map_some, indexName_slash hne hn]
  · unfold Source.isJson
    rcases h2 with h2 | h2 <;> rcases h2' with h2' | h2' <;> rw [h2, h2'] <;> simp only [Option.map_some, json_slash]

end LJ.Paths

/-
The names of the raw report and of the page, as paths.
-/
import Verif.Render.Path
import Mathlib.Data.List.Basic
namespace LJ.Render
open LJ.Paths (Str Comp split components compOf fileName)

namespace Spec
/-- An extension: it is not empty, and has no slash and no dot. -/
def Extension (ext : Str) : Prop := ext ≠ [] ∧ '/' ∉ ext ∧ '.' ∉ ext

/-- A path whose end is `.html`, after a name. -/
def PagePath (path : Str) : Prop :=
  ∃ dir name, path = dir ++ name ++ ".html".toList ∧ (dir = [] ∨ ∃ d, dir = d ++ ['/']) ∧ '/' ∉ name ∧ name ≠ []

/-- `name` without its extension: what is before its last dot, unless the dot starts it. -/
inductive Stem : Str → Str → Prop
  | ext {s e : Str} : s ≠ [] → '.' ∉ e → Stem (s ++ '.' :: e) s
  | hidden {e : Str} : '.' ∉ e → Stem ('.' :: e) ('.' :: e)
  | plain {n : Str} : '.' ∉ n → Stem n n
end Spec
open Spec

/-! ### The parts of a path -/

theorem split_ne_nil (sep : Char) (s : Str) : split sep s ≠ [] := by
  cases s with
  | nil => simp [split]
  | cons c s =>
    rw [split]
    split
    · simp
    · split <;> simp

theorem split_none {sep : Char} {s : Str} (h : sep ∉ s) : split sep s = [s] := by
  induction s with
  | nil => rfl
  | cons c s ih =>
    rw [split, if_neg (by rintro rfl; exact h (by simp)), ih (fun hm => h (by simp [hm]))]

theorem split_cons (sep c : Char) (s : Str) : split sep (c :: s) =
    if c = sep then [] :: split sep s else match split sep s with | [] => [[c]] | p :: ps => (c :: p) :: ps := by
  rw [split]
  split
  · rfl
  · cases split sep s <;> rfl

theorem split_append (sep : Char) (a b : Str) : split sep (a ++ sep :: b) = split sep a ++ split sep b := by
  induction a with
  | nil =>
    show split sep (sep :: b) = [] :: split sep b
    rw [split_cons, if_pos rfl]
  | cons c a ih =>
    rw [List.cons_append, split_cons, split_cons, ih]
    by_cases hc : c = sep
    · rw [if_pos hc, if_pos hc]; rfl
    · rw [if_neg hc, if_neg hc]
      cases hs : split sep a with
      | nil => exact absurd hs (split_ne_nil sep a)
      | cons p ps => rfl

/-- slashes and `.` parts -/
inductive Junk : Str → Prop
  | nil : Junk []
  | slash {s : Str} : Junk s → Junk ('/' :: s)
  | dot {s : Str} : Junk s → Junk ('/' :: '.' :: s)

theorem Junk.append {a b : Str} (ha : Junk a) (hb : Junk b) : Junk (a ++ b) := by
  induction ha with
  | nil => exact hb
  | slash _ ih => exact .slash ih
  | dot _ ih => exact .dot ih

theorem dropTail_junk (s : Str) : ∃ tail, Junk tail ∧ s.reverse = (dropTail s).reverse ++ tail := by
  induction s using dropTail.induct with
  | case1 s ih =>
    obtain ⟨t, h1, h2⟩ := ih
    refine ⟨t ++ ['/'], h1.append (.slash .nil), ?_⟩
    rw [dropTail, List.reverse_cons, h2, List.append_assoc]
  | case2 s ih =>
    obtain ⟨t, h1, h2⟩ := ih
    refine ⟨t ++ ['/', '.'], h1.append (.dot .nil), ?_⟩
    rw [dropTail, List.reverse_cons, List.reverse_cons, h2]
    simp
  | case3 s h1 h2 =>
    refine ⟨[], .nil, ?_⟩
    rw [dropTail.eq_3 s h1 h2, List.append_nil]

/-- what is after the first part of a tail has no component -/
theorem split_junk {s : Str} (h : Junk s) (hs : s ≠ []) : ∃ ps, split '/' s = [] :: ps ∧ ps.filterMap compOf = [] := by
  have key : ∀ {s : Str}, Junk s → ∀ a : Str, (a = [] ∨ a = ['.']) → ∃ p ps, split '/' (a ++ s) = p :: ps ∧ compOf p = none ∧ ps.filterMap compOf = [] := by
    intro s h
    induction h with
    | nil =>
      rintro a (rfl | rfl)
      · exact ⟨[], [], rfl, rfl, rfl⟩
      · exact ⟨['.'], [], by decide, by decide, rfl⟩
    | @slash s _ ih =>
      intro a ha
      obtain ⟨p, ps, h1, h2, h3⟩ := ih [] (.inl rfl)
      rw [List.nil_append] at h1
      refine ⟨a, p :: ps, ?_, ?_, ?_⟩
      · rw [split_append, h1, split_none]
        · rfl
        · rcases ha with rfl | rfl <;> decide
      · rcases ha with rfl | rfl <;> decide
      · rw [List.filterMap_cons, h2, h3]
    | @dot s _ ih =>
      intro a ha
      obtain ⟨p, ps, h1, h2, h3⟩ := ih ['.'] (.inr rfl)
      refine ⟨a, p :: ps, ?_, ?_, ?_⟩
      · show split '/' (a ++ '/' :: (['.'] ++ s)) = _
        rw [split_append, h1, split_none]
        · rfl
        · rcases ha with rfl | rfl <;> decide
      · rcases ha with rfl | rfl <;> decide
      · rw [List.filterMap_cons, h2, h3]
  cases h with
  | nil => exact absurd rfl hs
  | @slash s h =>
    obtain ⟨p, ps, h1, h2, h3⟩ := key h [] (.inl rfl)
    rw [List.nil_append] at h1
    refine ⟨p :: ps, ?_, by rw [List.filterMap_cons, h2, h3]⟩
    rw [split, if_pos rfl, h1]
  | @dot s h =>
    obtain ⟨p, ps, h1, h2, h3⟩ := key h ['.'] (.inr rfl)
    refine ⟨p :: ps, ?_, by rw [List.filterMap_cons, h2, h3]⟩
    rw [split, if_pos rfl]
    exact congrArg _ h1

/-- the part before a slash -/
def Dir (dir : Str) : Prop := dir = [] ∨ ∃ d, dir = d ++ ['/']

/-- the components of a directory -/
def dirComps (dir : Str) : List Comp :=
  match dir with
  | [] => []
  | _ => components dir

theorem split_name {name tail : Str} (hn : '/' ∉ name) (ht : Junk tail) : ∃ ps, split '/' (name ++ tail) = name :: ps ∧ ps.filterMap compOf = [] := by
  cases tail with
  | nil => exact ⟨[], by rw [List.append_nil, split_none hn], rfl⟩
  | cons c tail =>
    obtain ⟨ps, h1, h2⟩ := split_junk ht (by simp)
    obtain rfl : c = '/' := by cases ht <;> rfl
    rw [split, if_pos rfl] at h1
    refine ⟨split '/' tail, by rw [split_append, split_none hn]; rfl, ?_⟩
    rw [(List.cons.inj h1).2, h2]

theorem components_dir {dir name tail : Str} (hd : Dir dir) (hn : '/' ∉ name) {c : Comp} (hname : compOf name = some c) (ht : Junk tail) :
    components (dir ++ name ++ tail) = dirComps dir ++ [c] := by
  obtain ⟨ps, h1, h2⟩ := split_name hn ht
  have hne : name ≠ [] := by rintro rfl; simp [compOf] at hname
  have hdot : name ≠ ['.'] := by rintro rfl; simp [compOf] at hname
  rcases hd with rfl | ⟨d, rfl⟩
  · unfold components
    rw [List.nil_append, h1]
    simp only [if_neg hne, if_neg hdot, hname, h2]
    rfl
  · have e1 : split '/' (d ++ ['/'] ++ name ++ tail) = split '/' d ++ name :: ps := by
      rw [List.append_assoc, List.append_assoc]
      show split '/' (d ++ '/' :: (name ++ tail)) = _
      rw [split_append, h1]
    have e2 : split '/' (d ++ ['/']) = split '/' d ++ [[]] := by
      rw [split_append]; rfl
    have e3 : dirComps (d ++ ['/']) = components (d ++ ['/']) := by
      unfold dirComps
      split
      · rename_i h; simp at h
      · rfl
    rw [e3]
    unfold components
    rw [e1, e2]
    cases hs : split '/' d with
    | nil => exact absurd hs (split_ne_nil _ d)
    | cons p rest =>
      have h0 : compOf [] = none := rfl
      have r1 : rest ++ name :: ps ≠ [] := by simp
      have r2 : rest ++ [([] : Str)] ≠ [] := by simp
      simp only [List.cons_append, List.filterMap_append, List.filterMap_cons, hname, h2, h0, List.filterMap_nil, List.append_nil, if_neg r1, if_neg r2,
        List.append_assoc]

theorem takeWhile_sep (s : Str) : '/' ∉ s.takeWhile (· != '/') := by
  induction s with
  | nil => simp
  | cons c s ih =>
    by_cases hc : c = '/'
    · simp [hc]
    · rw [List.takeWhile_cons_of_pos (by simpa using hc), List.mem_cons]
      rintro (h | h)
      · exact hc h.symm
      · exact ih h

theorem splitLast_parts (path : Str) : ∃ tail, Junk tail ∧ path = (splitLast path).1 ++ (splitLast path).2 ++ tail ∧ Dir (splitLast path).1 ∧ '/' ∉ (splitLast path).2 := by
  obtain ⟨tail, h1, h2⟩ := dropTail_junk path.reverse
  rw [List.reverse_reverse] at h2
  refine ⟨tail, h1, ?_, ?_, ?_⟩
  · unfold splitLast
    simp only
    rw [← List.reverse_append, List.takeWhile_append_dropWhile]
    exact h2
  · unfold splitLast Dir
    simp only
    cases h : (dropTail path.reverse).dropWhile (· != '/') with
    | nil => exact .inl rfl
    | cons c s =>
      have : (c != '/') = false := by
        have := List.head?_dropWhile_not (p := (· != '/')) (l := dropTail path.reverse)
        rw [h] at this
        simpa using this
      obtain rfl : c = '/' := by simpa using this
      exact .inr ⟨s.reverse, by simp⟩
  · unfold splitLast
    simp only [List.mem_reverse]
    exact takeWhile_sep _

/-- a name which is a component -/
theorem compOf_name {name : Str} (h : ¬ (name = [] ∨ name = ['.'] ∨ name = ['.', '.'])) : compOf name = some (.normal name) := by
  unfold compOf
  rw [if_neg fun e => h (.inl e), if_neg fun e => h (.inr (.inl e)), if_neg fun e => h (.inr (.inr e))]

theorem fileName_last (cs : List Comp) (n : Str) : fileName (cs ++ [.normal n]) = some n := by
  unfold fileName
  rw [List.getLast?_concat]

/-! ### The stem -/

theorem dropWhile_dot {e : Str} (he : '.' ∉ e) (s : Str) : (s ++ '.' :: e).reverse.dropWhile (· != '.') = '.' :: s.reverse := by
  rw [List.reverse_append, List.reverse_cons, List.append_assoc]
  have : ∀ (r : Str), '.' ∉ r → ∀ x, (r ++ '.' :: x).dropWhile (· != '.') = '.' :: x := by
    intro r
    induction r with
    | nil => intro _ x; rfl
    | cons c r ih =>
      intro h x
      rw [List.cons_append, List.dropWhile_cons_of_pos, ih fun hm => h (by simp [hm])]
      simp only [bne_iff_ne, ne_eq]
      rintro rfl
      exact h (by simp)
  exact this e.reverse (by simpa using he) _

theorem stem_ext {s e : Str} (hs : s ≠ []) (he : '.' ∉ e) : stem (s ++ '.' :: e) = s := by
  unfold stem
  rw [dropWhile_dot he]
  simp only
  rw [if_neg (by simpa using hs), List.reverse_reverse]

theorem stem_spec (name : Str) : Stem name (stem name) := by
  by_cases hd : '.' ∈ name
  · obtain ⟨e, s, h1, h2⟩ : ∃ e s : Str, name.reverse = e ++ '.' :: s ∧ '.' ∉ e := by
      have : '.' ∈ name.reverse := by simpa using hd
      obtain ⟨e, s, h⟩ := List.eq_append_cons_of_mem this
      exact ⟨e, s, h.1, h.2⟩
    have h : name = s.reverse ++ '.' :: e.reverse := by
      rw [← List.reverse_reverse name, h1]; simp
    have he : '.' ∉ e.reverse := by simpa using h2
    by_cases hs : s.reverse = []
    · rw [hs, List.nil_append] at h
      have : stem name = name := by
        unfold stem
        have := dropWhile_dot he []
        rw [List.nil_append] at this
        rw [h, this]
        rfl
      rw [this, h]
      exact .hidden he
    · rw [h, stem_ext hs he]
      exact .ext hs he
  · have : stem name = name := by
      unfold stem
      have : name.reverse.dropWhile (· != '.') = [] := by
        have : ∀ r : Str, '.' ∉ r → r.dropWhile (· != '.') = [] := by
          intro r
          induction r with
          | nil => intro _; rfl
          | cons c r ih =>
            intro h
            rw [List.dropWhile_cons_of_pos, ih fun hm => h (by simp [hm])]
            simp only [bne_iff_ne, ne_eq]
            rintro rfl
            exact h (by simp)
        exact this _ (by simpa using hd)
      rw [this]
    rw [this]
    exact .plain hd

theorem stem_ne_nil {name : Str} (h : name ≠ []) : stem name ≠ [] := by
  have := stem_spec name
  generalize stem name = s at this
  cases this with
  | ext h1 h2 => assumption
  | hidden h1 => exact h
  | plain h1 => exact h

theorem stem_slash {name : Str} (h : '/' ∉ name) : '/' ∉ stem name := by
  have := stem_spec name
  generalize stem name = s at this
  cases this with
  | ext h1 h2 => intro hm; exact h (by simp [hm])
  | hidden h1 => exact h
  | plain h1 => exact h

/-! ### The properties -/

/-- the path of a file name with a new extension is the whole -/
theorem splitLast_file {dir name ext : Str} (hd : Dir dir) (hn : '/' ∉ name) (he : Extension ext) :
    splitLast (dir ++ (name ++ '.' :: ext)) = (dir, name ++ '.' :: ext) := by
  obtain ⟨h1, h2, h3⟩ := he
  obtain ⟨a, c, rfl⟩ : ∃ a c, ext = a ++ [c] := ⟨_, _, (List.dropLast_append_getLast h1).symm⟩
  have hc1 : c ≠ '/' := by rintro rfl; exact h2 (by simp)
  have hc2 : c ≠ '.' := by rintro rfl; exact h3 (by simp)
  have hr : (dir ++ (name ++ '.' :: (a ++ [c]))).reverse = (name ++ '.' :: (a ++ [c])).reverse ++ dir.reverse := by simp
  have hdrop : dropTail (dir ++ (name ++ '.' :: (a ++ [c]))).reverse = (name ++ '.' :: (a ++ [c])).reverse ++ dir.reverse := by
    rw [hr]
    have : (name ++ '.' :: (a ++ [c])).reverse ++ dir.reverse = c :: (a.reverse ++ '.' :: (name.reverse ++ dir.reverse)) := by simp
    rw [this, dropTail]
    · intro s h; exact hc1 (List.cons.inj h).1
    · intro s h; exact hc2 (List.cons.inj h).1
  have hall : ∀ x ∈ (name ++ '.' :: (a ++ [c])).reverse, (x != '/') = true := by
    intro x hx
    simp only [bne_iff_ne, ne_eq]
    rintro rfl
    rw [List.mem_reverse, List.mem_append] at hx
    rcases hx with hx | hx
    · exact hn hx
    · rcases List.mem_cons.1 hx with hx | hx
      · exact absurd hx (by decide)
      · exact h2 hx
  have hstart : ∀ d : Str, Dir d → d.reverse.dropWhile (· != '/') = d.reverse ∧ d.reverse.takeWhile (· != '/') = [] := by
    rintro d (rfl | ⟨d, rfl⟩)
    · exact ⟨rfl, rfl⟩
    · simp
  unfold splitLast
  simp only [hdrop]
  rw [List.dropWhile_append_of_pos hall, List.takeWhile_append_of_pos hall, (hstart dir hd).1, (hstart dir hd).2]
  simp

theorem dropTail_fixed (s : Str) : ∀ x, dropTail s ≠ '/' :: x ∧ dropTail s ≠ '.' :: '/' :: x := by
  induction s using dropTail.induct with
  | case1 s ih => intro x; rw [dropTail]; exact ih x
  | case2 s ih => intro x; rw [dropTail]; exact ih x
  | case3 s h1 h2 => intro x; rw [dropTail.eq_3 s h1 h2]; exact ⟨fun h => h1 x h, fun h => h2 x h⟩

theorem splitLast_reverse (path : Str) : (splitLast path).2.reverse ++ (splitLast path).1.reverse = dropTail path.reverse := by
  unfold splitLast
  simp only [List.reverse_reverse, List.takeWhile_append_dropWhile]

/-- a path without a file name -/
theorem splitLast_none {path : Str} (h : (splitLast path).2 = [] ∨ (splitLast path).2 = ['.'] ∨ (splitLast path).2 = ['.', '.']) :
    fileName (components path) = none := by
  obtain ⟨tail, h1, h2, h3, h4⟩ := splitLast_parts path
  have hr := splitLast_reverse path
  have hf := dropTail_fixed path.reverse
  rw [← hr] at hf
  generalize (splitLast path).1 = dir at h2 h3 hf
  generalize (splitLast path).2 = name at h h2 h4 hf
  subst h2
  have hdir : name ≠ ['.', '.'] → dir = [] := by
    intro hn
    rcases h3 with h3 | ⟨d, rfl⟩
    · exact h3
    · exfalso
      rw [List.reverse_append] at hf
      rcases h with rfl | rfl | rfl
      · exact (hf d.reverse).1 rfl
      · exact (hf d.reverse).2 rfl
      · exact hn rfl
  obtain ⟨ps, e1, e2⟩ := split_name h4 h1
  rcases h with rfl | rfl | rfl
  · obtain rfl := hdir (by simp)
    unfold components
    rw [List.nil_append, e1]
    simp only [if_true, e2, List.append_nil]
    split <;> rfl
  · obtain rfl := hdir (by simp)
    unfold components
    rw [List.nil_append, e1]
    simp only [e2, List.append_nil]
    rfl
  · rw [components_dir h3 h4 (c := .up) rfl h1]
    unfold fileName
    rw [List.getLast?_concat]

theorem setExtension_file {ext path : Str} (hn : ¬ ((splitLast path).2 = [] ∨ (splitLast path).2 = ['.'] ∨ (splitLast path).2 = ['.', '.'])) :
    setExtension ext path = (splitLast path).1 ++ (stem (splitLast path).2 ++ '.' :: ext) := by
  unfold setExtension
  simp only
  rw [if_neg hn, List.append_assoc]

theorem setExtension_none {ext path : Str} (hn : (splitLast path).2 = [] ∨ (splitLast path).2 = ['.'] ∨ (splitLast path).2 = ['.', '.']) :
    setExtension ext path = path := by
  unfold setExtension
  simp only
  rw [if_pos hn]

theorem newName {name ext : Str} (he : Extension ext) : ¬ (name ++ '.' :: ext = [] ∨ name ++ '.' :: ext = ['.'] ∨ name ++ '.' :: ext = ['.', '.']) := by
  obtain ⟨h1, h2, h3⟩ := he
  obtain ⟨c, hc⟩ := List.exists_mem_of_ne_nil _ h1
  have hm : c ∈ name ++ '.' :: ext := by simp [hc]
  rintro (h | h | h) <;> rw [h] at hm
  · cases hm
  · simp only [List.mem_singleton] at hm; exact h3 (hm ▸ hc)
  · simp only [List.mem_cons, List.not_mem_nil, or_false, or_self] at hm; exact h3 (hm ▸ hc)

theorem newName_slash {name ext : Str} (hn : '/' ∉ name) (he : Extension ext) : '/' ∉ name ++ '.' :: ext := by
  rw [List.mem_append, List.mem_cons]
  rintro (h | h | h)
  · exact hn h
  · exact absurd h (by decide)
  · exact he.2.1 h

/-- Setting the extension keeps the directory and the name before the extension: the new path has the components of the path, but
the last, which is the name with the new extension instead of its own. -/
theorem C94_extension {ext path name : Str} (he : Extension ext) (hp : fileName (components path) = some name) :
    ∃ s, Stem name s ∧ components (setExtension ext path) = (components path).dropLast ++ [.normal (s ++ '.' :: ext)] := by
  obtain ⟨tail, h1, h2, h3, h4⟩ := splitLast_parts path
  by_cases hn : (splitLast path).2 = [] ∨ (splitLast path).2 = ['.'] ∨ (splitLast path).2 = ['.', '.']
  · exfalso
    rw [splitLast_none hn] at hp
    cases hp
  · have hc := compOf_name hn
    have e1 := components_dir h3 h4 hc h1
    rw [← h2] at e1
    rw [e1, fileName_last] at hp
    cases hp
    refine ⟨_, stem_spec _, ?_⟩
    have e2 := components_dir h3 (newName_slash (stem_slash h4) he) (compOf_name (newName he)) .nil
    rw [setExtension_file hn, e1, List.dropLast_concat]
    rwa [List.append_nil] at e2

/-- A path without a file name is not changed. -/
theorem C94_no_name {ext path : Str} (hp : fileName (components path) = none) : setExtension ext path = path := by
  by_cases hn : (splitLast path).2 = [] ∨ (splitLast path).2 = ['.'] ∨ (splitLast path).2 = ['.', '.']
  · exact setExtension_none hn
  · obtain ⟨tail, h1, h2, h3, h4⟩ := splitLast_parts path
    have e1 := components_dir h3 h4 (compOf_name hn) h1
    rw [← h2] at e1
    rw [e1, fileName_last] at hp
    cases hp

/-- Only the last extension set counts. -/
theorem C94_twice {ext ext' : Str} (he : Extension ext) (path : Str) : setExtension ext' (setExtension ext path) = setExtension ext' path := by
  by_cases hn : (splitLast path).2 = [] ∨ (splitLast path).2 = ['.'] ∨ (splitLast path).2 = ['.', '.']
  · rw [setExtension_none (ext := ext) hn]
  · obtain ⟨tail, h1, h2, h3, h4⟩ := splitLast_parts path
    have e := splitLast_file h3 (stem_slash h4) he
    have hs : stem (splitLast path).2 ≠ [] := stem_ne_nil fun h => hn (.inl h)
    have hn' : ¬ ((splitLast (setExtension ext path)).2 = [] ∨ (splitLast (setExtension ext path)).2 = ['.'] ∨
        (splitLast (setExtension ext path)).2 = ['.', '.']) := by
      rw [setExtension_file hn, e]
      exact newName he
    rw [setExtension_file hn', setExtension_file (ext := ext) hn, e, setExtension_file hn, stem_ext hs he.2.2]

/-- Setting the extension `html` does not change a path exactly when the path has no file name, or is a name with the extension
`html`, and nothing after it. -/
theorem C94_html (path : Str) : setExtension "html".toList path = path ↔ fileName (components path) = none ∨ PagePath path := by
  have hx : Extension "html".toList := ⟨by decide, by decide, by decide⟩
  constructor
  · intro h
    cases hp : fileName (components path) with
    | none => exact .inl rfl
    | some name =>
      refine .inr ?_
      have hn : ¬ ((splitLast path).2 = [] ∨ (splitLast path).2 = ['.'] ∨ (splitLast path).2 = ['.', '.']) := by
        intro hn
        rw [splitLast_none hn] at hp
        cases hp
      obtain ⟨tail, h1, h2, h3, h4⟩ := splitLast_parts path
      rw [setExtension_file hn] at h
      exact ⟨(splitLast path).1, stem (splitLast path).2, by rw [List.append_assoc]; exact h.symm, h3, stem_slash h4, stem_ne_nil fun h => hn (.inl h)⟩
  · rintro (h | ⟨dir, name, rfl, h1, h2, h3⟩)
    · exact C94_no_name h
    · have e := splitLast_file h1 h2 hx
      have e' : dir ++ name ++ ".html".toList = dir ++ (name ++ '.' :: "html".toList) := by rw [List.append_assoc]; rfl
      rw [e', setExtension_file (by rw [e]; exact newName hx), e, stem_ext h3 hx.2.2]

/-- The paths of some reports, the raw reports next to them, and the pages made from these. -/
example : setExtension "json".toList "logs/report.html".toList = "logs/report.json".toList ∧
    setExtension "html".toList "logs/report.json".toList = "logs/report.html".toList ∧
    setExtension "json".toList "report".toList = "report.json".toList ∧ setExtension "json".toList ".html".toList = ".html.json".toList ∧
    fileName (components "logs/report.html".toList) = some "report.html".toList ∧ Extension "json".toList ∧ PagePath "logs/report.html".toList := by
  refine ⟨by decide +kernel, by decide +kernel, by decide +kernel, by decide +kernel, by decide +kernel, ⟨by decide, by decide, by decide⟩,
    "logs/".toList, "report".toList, by decide +kernel, .inr ⟨"logs".toList, by decide +kernel⟩, by decide, by decide⟩

end LJ.Render

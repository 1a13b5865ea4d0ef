/-
The name under which a file is compared, exactly: the rules which give it from the path, as a relation which does not
mention how the program computes it.
-/
import Verif.Paths.Props
namespace LJ.Paths

namespace Spec

/-- What a piece of a path between slashes stands for: nothing (an empty piece, or a dot), the parent directory (two
dots, which is not a name), or a name. -/
def piece (p : Str) : List (Option Str) :=
  if p = [] ∨ p = ['.'] then [] else if p = ['.', '.'] then [none] else [some p]

/-- The names of a path, from the first one to the last one. -/
inductive Parts : Str → List (Option Str) → Prop where
  | last {p : Str} (h : '/' ∉ p) : Parts p (piece p)
  | more {p rest : Str} {ps : List (Option Str)} (h : '/' ∉ p) (hr : Parts rest ps) : Parts (p ++ '/' :: rest) (piece p ++ ps)

/-- The name of the file, given the names of the path from the last one to the first one. -/
def fileOf : List (Option Str) → Str
  | some f :: _ => f
  | _ => "N/A".toList

/-- The directory which counts, if any: the one of the file, unless it is named by the hash of a commit: then the one above,
or the empty name. -/
def dirOf : List (Option Str) → Option Str
  | _ :: some d :: above =>
    if SmallHash d then
      match above with
      | some g :: _ => some g
      | _ => some []
    else some d
  | _ => none

/-- The directory, a slash and the file; or the file alone. -/
def full (dir : Option Str) (file : Str) : Str :=
  match dir with
  | some d => d ++ '/' :: file
  | none => file

/-- A symbol. -/
def Symbol (c : Char) : Prop := c ∈ "/._-".toList

/-- `n` is what is left of `s` without the characters which are neither letters nor symbols, then without the symbols at both
ends, then without the extensions `.gz`. -/
def Cleaned (s n : Str) : Prop :=
  ∃ a m b, s.filter (fun c => decide (Kept c)) = a ++ m ++ b ∧ (∀ c ∈ a, Symbol c) ∧ (∀ c ∈ b, Symbol c) ∧
    (∀ c, m.head? = some c → Letter c) ∧ (∀ c, m.getLast? = some c → Letter c) ∧
    ∃ k, m = n ++ (List.replicate k ".gz".toList).flatten ∧ ¬ ".gz".toList <:+ n

/-- `x` is what is before the first dash of `s` (all of it without a dash). -/
def BeforeDash (s x : Str) : Prop := '-' ∉ x ∧ (s = x ∨ ∃ y, s = x ++ '-' :: y)

/-- A service of kubernetes: a name with a dash. -/
def Service (file : Str) : Prop := "k8s_".toList <+: file ∧ '-' ∈ file

/-- An instance of qemu. -/
def Instance (dir : Option Str) (file : Str) : Prop := dir = some "qemu".toList ∧ "instance-".toList <+: file

/-- The name given to a file in a directory. -/
inductive Named (dir : Option Str) (file : Str) : Str → Prop where
  | «instance» (h : Instance dir file) : Named dir file "qemu/instance".toList
  | pod (h : dir = some "pod".toList) {x : Str} (hx : BeforeDash file x) : Named dir file ("pod/".toList ++ x)
  | service (h1 : ¬ Instance dir file) (h2 : dir ≠ some "pod".toList) (h : Service file) {x : Str} (hx : BeforeDash file x) : Named dir file x
  | volume (h1 : ¬ Instance dir file) (h2 : dir ≠ some "pod".toList) (h : "pvc-".toList <+: file) : Named dir file "pvc".toList
  | ordinary (h1 : ¬ Instance dir file) (h2 : dir ≠ some "pod".toList) (h3 : ¬ Service file) (h4 : ¬ "pvc-".toList <+: file) {x : Str}
      (hx : Cleaned (full dir file) x) : Named dir file x

/-- A file with its own rule: an instance, a file of a pod, a service or a volume. -/
def Special (ps : List (Option Str)) : Prop :=
  Instance (dirOf ps.reverse) (fileOf ps.reverse) ∨ dirOf ps.reverse = some "pod".toList ∨ Service (fileOf ps.reverse) ∨
    "pvc-".toList <+: fileOf ps.reverse

instance (ps : List (Option Str)) : Decidable (Special ps) := by
  unfold Special Instance Service; infer_instance

end Spec
open Spec

/-! ### Paths -/

theorem parts_split {base : Str} {ps : List (Option Str)} (h : Parts base ps) : ps = (split '/' base).flatMap piece := by
  induction h with
  | last h => rw [split_no _ h]; simp
  | more h _ ih => rw [split_sep, split_no _ h, ih]; simp

theorem split_once {base : Str} (h : '/' ∈ base) : ∃ p rest, '/' ∉ p ∧ base = p ++ '/' :: rest := by
  induction base with
  | nil => exact absurd h (by simp)
  | cons c s ih =>
    by_cases hc : c = '/'
    · exact ⟨[], s, by simp, by simp [hc]⟩
    · obtain ⟨p, rest, hp, e⟩ := ih ((List.mem_cons.1 h).resolve_left (Ne.symm hc))
      exact ⟨c :: p, rest, by simp [hp, Ne.symm hc], by simp [e]⟩

theorem parts_exists (base : Str) : ∃ ps, Parts base ps := by
  by_cases h : '/' ∈ base
  · obtain ⟨p, rest, hp, e⟩ := split_once h
    have : rest.length < base.length := by rw [e]; simp; omega
    obtain ⟨ps, hps⟩ := parts_exists rest
    exact ⟨_, by rw [e]; exact Parts.more hp hps⟩
  · exact ⟨_, .last h⟩
termination_by base.length

/-- the component of a name -/
def compFor : Option Str → Comp
  | some n => .normal n
  | none => .up

theorem compOf_piece (p : Str) : (compOf p).toList = (piece p).map compFor := by
  unfold compOf piece
  by_cases h1 : p = [] <;> by_cases h2 : p = ['.'] <;> by_cases h3 : p = ['.', '.'] <;> simp [h1, h2, h3, compFor]

theorem filterMap_pieces (l : List Str) : l.filterMap compOf = (l.flatMap piece).map compFor := by
  induction l with
  | nil => rfl
  | cons p l ih =>
    rw [List.flatMap_cons, List.map_append, ← ih, ← compOf_piece]
    cases h : compOf p <;> simp [h]

/-- the components of a path: its names, after the root or a first dot -/
theorem components_parts {base : Str} {ps : List (Option Str)} (h : Parts base ps) :
    ∃ pre, (pre = [] ∨ pre = [.root] ∨ pre = [.cur]) ∧ components base = pre ++ ps.map compFor := by
  rw [parts_split h]
  unfold components
  cases hs : split '/' base with
  | nil => exact ⟨[], .inl rfl, by simp⟩
  | cons first rest =>
    simp only
    rw [filterMap_pieces, List.flatMap_cons, List.map_append]
    by_cases h1 : first = []
    · by_cases h2 : rest = []
      · exact ⟨[], .inl rfl, by simp [h1, h2, piece]⟩
      · exact ⟨[.root], .inr (.inl rfl), by simp [h1, h2, piece]⟩
    · by_cases h2 : first = ['.']
      · exact ⟨[.cur], .inr (.inr rfl), by simp [h2, piece]⟩
      · exact ⟨[], .inl rfl, by simp only [h1, h2, if_false]; rw [compOf_piece]; simp⟩

theorem fileName_rev {pre : List Comp} (hp : pre = [] ∨ pre = [.root] ∨ pre = [.cur]) (r : List (Option Str)) :
    fileName (pre ++ r.reverse.map compFor) = r.head?.join := by
  rcases r with _ | ⟨_ | n, r⟩
  · rcases hp with rfl | rfl | rfl <;> rfl
  · simp [fileName, compFor]
  · simp [fileName, compFor]

theorem parent_rev {pre : List Comp} (x : Option Str) (r : List (Option Str)) :
    parent (pre ++ (x :: r).reverse.map compFor) = some (pre ++ r.reverse.map compFor) := by
  have e : pre ++ (x :: r).reverse.map compFor = (pre ++ r.reverse.map compFor) ++ [compFor x] := by simp
  rw [e]
  unfold parent
  rw [List.getLast?_concat, List.dropLast_concat]
  cases x <;> rfl

theorem parentStr_nil {pre : List Comp} (hp : pre = [] ∨ pre = [.root] ∨ pre = [.cur]) : parentStr pre = none := by
  rcases hp with rfl | rfl | rfl <;> rfl

theorem parentStr_rev {pre : List Comp} (hp : pre = [] ∨ pre = [.root] ∨ pre = [.cur]) (x : Option Str) (r : List (Option Str)) :
    parentStr (pre ++ (x :: r).reverse.map compFor) = r.head?.join.map fun n => (pre ++ r.reverse.map compFor, n) := by
  unfold parentStr
  rw [parent_rev, Option.bind_some, fileName_rev hp]

theorem short_rev {pre : List Comp} (hp : pre = [] ∨ pre = [.root] ∨ pre = [.cur]) (r : List (Option Str)) :
    fileNameOr (pre ++ r.reverse.map compFor) = fileOf r ∧
    shortFileName (pre ++ r.reverse.map compFor) = full (dirOf r) (fileOf r) := by
  have hf : fileNameOr (pre ++ r.reverse.map compFor) = fileOf r := by
    unfold fileNameOr
    rw [fileName_rev hp]
    rcases r with _ | ⟨_ | n, r⟩ <;> rfl
  refine ⟨hf, ?_⟩
  unfold shortFileName
  rw [hf]
  rcases r with _ | ⟨x, r⟩
  · simp only [List.reverse_nil, List.map_nil, List.append_nil]
    rw [parentStr_nil hp]; rfl
  · rw [parentStr_rev hp]
    rcases r with _ | ⟨_ | d, r⟩
    · rfl
    · rfl
    · simp only [List.head?_cons, Option.join_some, Option.map_some, dirOf]
      by_cases hd : SmallHash d
      · rw [if_pos (isSmallHash_iff d |>.2 hd), if_pos hd, parentStr_rev hp]
        rcases r with _ | ⟨_ | g, r⟩ <;> rfl
      · rw [if_neg (fun h => hd ((isSmallHash_iff d).1 h)), if_neg hd]; rfl

theorem parts_names {base : Str} {ps : List (Option Str)} (h : Parts base ps) : ∀ n, some n ∈ ps → '/' ∉ n := by
  have key : ∀ p : Str, '/' ∉ p → ∀ n, some n ∈ piece p → '/' ∉ n := by
    intro p hp n hn
    unfold piece at hn
    split at hn
    · simp at hn
    · split at hn
      · simp at hn
      · simp at hn; exact hn ▸ hp
  induction h with
  | last h => exact key _ h
  | more h _ ih =>
    intro n hn
    rcases List.mem_append.1 hn with hn | hn
    · exact key _ h n hn
    · exact ih n hn

theorem indexName_parts {base : Str} {ps : List (Option Str)} (h : Parts base ps) :
    indexName base = modelName (full (dirOf ps.reverse) (fileOf ps.reverse)) (fileOf ps.reverse) := by
  obtain ⟨pre, hp, e⟩ := components_parts h
  obtain ⟨h1, h2⟩ := short_rev hp ps.reverse
  rw [List.reverse_reverse] at h1 h2
  show modelName (shortFileName (components base)) (fileNameOr (components base)) = _
  rw [e, h1, h2]

/-! ### Cleaning a name -/

theorem symbol_iff (c : Char) : Symbol c ↔ isSymbol c = true := by
  simp [Symbol, isSymbol, or_assoc]

theorem letter_of_kept {c : Char} (h : Kept c) (hs : isSymbol c = false) : Letter c := (letter_iff c).2 ⟨h, hs⟩

theorem dropWhile_all {p : Char → Bool} {a : Str} (h : ∀ c ∈ a, p c = true) (x : Str) : (a ++ x).dropWhile p = x.dropWhile p := by
  induction a with
  | nil => rfl
  | cons c a ih =>
    rw [List.cons_append, List.dropWhile_cons, if_pos (h c (by simp)), ih fun c hc => h c (by simp [hc])]

theorem dropWhile_head {p : Char → Bool} {x : Str} (h : ∀ c, x.head? = some c → p c = false) : x.dropWhile p = x := by
  cases x with
  | nil => rfl
  | cons c x => rw [List.dropWhile_cons, if_neg]; simp [h c rfl]

theorem trimBoth_eq {p : Char → Bool} {a m b : Str} (ha : ∀ c ∈ a, p c = true) (hb : ∀ c ∈ b, p c = true)
    (h1 : ∀ c, m.head? = some c → p c = false) (h2 : ∀ c, m.getLast? = some c → p c = false) : trimBoth p (a ++ m ++ b) = m := by
  rw [trimBoth_append _ _ hb]
  unfold trimBoth trimStart trimEnd
  rw [dropWhile_all ha, dropWhile_head h1, dropWhile_head, List.reverse_reverse]
  intro c hc
  rw [List.head?_reverse] at hc
  exact h2 c hc

theorem trimBoth_parts (p : Char → Bool) (s : Str) : ∃ a b, s = a ++ trimBoth p s ++ b ∧ (∀ c ∈ a, p c = true) ∧ (∀ c ∈ b, p c = true) ∧
    (∀ c, (trimBoth p s).head? = some c → p c = false) ∧ (∀ c, (trimBoth p s).getLast? = some c → p c = false) := by
  have hall : ∀ (x : Str) (c : Char), c ∈ x.takeWhile p → p c = true := by
    intro x
    induction x with
    | nil => intro c hc; simp at hc
    | cons d x ih =>
      intro c hc
      rw [List.takeWhile_cons] at hc
      split at hc
      · rename_i hd
        rcases List.mem_cons.1 hc with rfl | hc
        · exact hd
        · exact ih c hc
      · simp at hc
  have hhead : ∀ (x : Str) (c : Char), (x.dropWhile p).head? = some c → p c = false := by
    intro x
    induction x with
    | nil => intro c hc; simp at hc
    | cons d x ih =>
      intro c hc
      rw [List.dropWhile_cons] at hc
      split at hc
      · exact ih c hc
      · rename_i hd
        simp at hc
        rw [← hc]; simpa using hd
  let x := s.dropWhile p
  have e1 : s = s.takeWhile p ++ x := (List.takeWhile_append_dropWhile).symm
  have e2 : x = (x.reverse.dropWhile p).reverse ++ (x.reverse.takeWhile p).reverse := by
    rw [← List.reverse_append, List.takeWhile_append_dropWhile, List.reverse_reverse]
  have et : trimBoth p s = (x.reverse.dropWhile p).reverse := rfl
  refine ⟨s.takeWhile p, (x.reverse.takeWhile p).reverse, ?_, hall s, ?_, ?_, ?_⟩
  · rw [et, List.append_assoc, ← e2]; exact e1
  · intro c hc; exact hall _ c (List.mem_reverse.1 hc)
  · intro c hc
    rw [et] at hc
    refine hhead s c ?_
    show x.head? = some c
    rw [e2, List.head?_append, hc]; rfl
  · intro c hc
    rw [et, List.getLast?_reverse] at hc
    exact hhead _ c hc

theorem trimGz_eq {n : Str} (hn : ¬ ".gz".toList <:+ n) (k : Nat) : trimGz (n ++ (List.replicate k ".gz".toList).flatten) = n := by
  induction k with
  | zero =>
    simp only [List.replicate_zero, List.flatten_nil, List.append_nil]
    unfold trimGz
    unfold trimRevGz
    split
    · rename_i s h
      refine absurd ⟨s.reverse, ?_⟩ hn
      have := congrArg List.reverse h
      rw [List.reverse_reverse] at this
      rw [this]; simp
    · rw [List.reverse_reverse]
  | succ k ih => rw [List.replicate_succ', List.flatten_append, ← List.append_assoc, List.flatten_singleton, trimGz_gz, ih]

theorem trimGz_parts (s : Str) : ∃ k, s = trimGz s ++ (List.replicate k ".gz".toList).flatten ∧ ¬ ".gz".toList <:+ trimGz s := by
  have hn : ¬ ".gz".toList <:+ trimGz s := by
    rintro ⟨t, ht⟩
    refine trimRevGz_end s.reverse t.reverse ?_
    have := congrArg List.reverse ht
    unfold trimGz at this
    rw [List.reverse_reverse] at this
    rw [← this]; simp
  have key : ∀ r : Str, ∃ k, r = (List.replicate k ['z', 'g', '.']).flatten ++ trimRevGz r := by
    intro r
    induction r using trimRevGz.induct with
    | case1 s ih =>
      obtain ⟨k, hk⟩ := ih
      refine ⟨k + 1, ?_⟩
      unfold trimRevGz
      rw [List.replicate_succ, List.flatten_cons]
      simp only [List.cons_append, List.nil_append]
      rw [← hk]
    | case2 s h =>
      refine ⟨0, ?_⟩
      unfold trimRevGz
      split
      · rename_i s'
        exact absurd rfl (h s')
      · rfl
  obtain ⟨k, hk⟩ := key s.reverse
  refine ⟨k, ?_, hn⟩
  have := congrArg List.reverse hk
  rw [List.reverse_reverse, List.reverse_append] at this
  have er : ((List.replicate k ['z', 'g', '.']).flatten).reverse = (List.replicate k ".gz".toList).flatten := by
    clear this hk hn key
    induction k with
    | zero => rfl
    | succ k ih => rw [List.replicate_succ, List.flatten_cons, List.reverse_append, ih, List.replicate_succ', List.flatten_append, List.flatten_singleton]; rfl
  rw [er] at this
  exact this

theorem cleaned_iff (s n : Str) : Cleaned s n ↔ cleanName s = n := by
  unfold cleanName
  rw [keep_eq]
  constructor
  · rintro ⟨a, m, b, e, ha, hb, h1, h2, k, rfl, hn⟩
    rw [e, trimBoth_eq (fun c hc => (symbol_iff c).1 (ha c hc)) (fun c hc => (symbol_iff c).1 (hb c hc))
      (fun c hc => ((letter_iff c).1 (h1 c hc)).2) (fun c hc => ((letter_iff c).1 (h2 c hc)).2), trimGz_eq hn]
  · rintro rfl
    obtain ⟨a, b, e, ha, hb, h1, h2⟩ := trimBoth_parts isSymbol (s.filter fun c => decide (Kept c))
    have hk : ∀ c ∈ trimBoth isSymbol (s.filter fun c => decide (Kept c)), Kept c := by
      intro c hc
      have := trimBoth_sub _ _ c hc
      simpa using (List.mem_filter.1 this).2
    obtain ⟨k, ek, hn⟩ := trimGz_parts (trimBoth isSymbol (s.filter fun c => decide (Kept c)))
    exact ⟨a, _, b, e, fun c hc => (symbol_iff c).2 (ha c hc), fun c hc => (symbol_iff c).2 (hb c hc),
      fun c hc => letter_of_kept (hk c (List.mem_of_mem_head? hc)) (h1 c hc),
      fun c hc => letter_of_kept (hk c (List.mem_of_mem_getLast? hc)) (h2 c hc), k, ek, hn⟩

/-! ### The rules -/

theorem beforeDash_pod {s x : Str} (h : BeforeDash s x) : takeUntilPodUuid s = x := by
  obtain ⟨hx, rfl | ⟨y, rfl⟩⟩ := h
  · unfold takeUntilPodUuid; rw [split_no _ hx]; rfl
  · unfold takeUntilPodUuid; rw [split_sep, split_no _ hx]; rfl

theorem beforeDash_exists (s : Str) : ∃ x, BeforeDash s x := by
  by_cases h : '-' ∈ s
  · induction s with
    | nil => exact absurd h (by simp)
    | cons c s ih =>
      by_cases hc : c = '-'
      · exact ⟨[], by simp, .inr ⟨s, by simp [hc]⟩⟩
      · obtain ⟨x, hx, hs⟩ := ih ((List.mem_cons.1 h).resolve_left (Ne.symm hc))
        refine ⟨c :: x, by simp [hx, Ne.symm hc], ?_⟩
        rcases hs with rfl | ⟨y, rfl⟩
        · exact .inl rfl
        · exact .inr ⟨y, by simp⟩
  · exact ⟨s, h, .inl rfl⟩

theorem beforeDash_once {s x : Str} (hd : '-' ∈ s) (h : BeforeDash s x) : splitOnce '-' s = some x := by
  obtain ⟨hx, rfl | ⟨y, rfl⟩⟩ := h
  · exact absurd hd hx
  · clear hd
    induction x with
    | nil => simp [splitOnce]
    | cons c x ih =>
      have h1 : c ≠ '-' := by rintro rfl; exact hx (by simp)
      rw [List.cons_append, splitOnce, if_neg h1, ih (fun h => hx (by simp [h]))]; rfl

theorem startsWith_full {dir : Option Str} {file pat q : Str} (hd : ∀ d, dir = some d → '/' ∉ d) (hf : '/' ∉ file ∨ file = "N/A".toList) (hp : '/' ∉ pat)
    (hN : pat ≠ ['N']) : startsWith (full dir file) (pat ++ '/' :: q) = true ↔ dir = some pat ∧ q <+: file := by
  cases dir with
  | some d =>
    have := startsWith_cons_slash (d := d) (m := file) (hd d rfl) hp (q := q)
    simpa [full] using this
  | none =>
    simp only [full, reduceCtorEq, false_and, iff_false]
    intro h
    have h := startsWith_iff.1 h
    rcases hf with hf | rfl
    · exact hf (h.subset (by simp))
    · have e : "N/A".toList = ['N'] ++ '/' :: ['A'] := rfl
      rw [e, ← startsWith_iff, startsWith_cons_slash (by decide) hp] at h
      exact hN h.1.symm

theorem named_iff {dir : Option Str} {file : Str} (hd : ∀ d, dir = some d → '/' ∉ d) (hf : '/' ∉ file ∨ file = "N/A".toList) (n : Str) :
    Named dir file n ↔ modelName (full dir file) file = n := by
  have hq : startsWith (full dir file) "qemu/instance-".toList = true ↔ Instance dir file :=
    startsWith_full (pat := "qemu".toList) (q := "instance-".toList) hd hf (by decide) (by decide)
  have hp : startsWith (full dir file) "pod/".toList = true ↔ dir = some "pod".toList := by
    rw [show "pod/".toList = "pod".toList ++ '/' :: [] from rfl, startsWith_full hd hf (by decide) (by decide)]
    simp
  have hk : ¬ Service file → ¬ "pvc-".toList <+: file → isK8sService file = none := by
    intro h3 h4
    unfold isK8sService
    split
    · rename_i h
      exact splitOnce_none _ fun hm => h3 ⟨startsWith_iff.1 h, hm⟩
    · rw [if_neg fun h => h4 (startsWith_iff.1 h)]
  have hs : ∀ x, Service file → BeforeDash file x → isK8sService file = some x := by
    intro x h hx
    unfold isK8sService
    rw [if_pos (startsWith_iff.2 h.1), beforeDash_once h.2 hx]
  have hv : "pvc-".toList <+: file → isK8sService file = some "pvc".toList := by
    intro h
    unfold isK8sService
    rw [if_neg, if_pos (startsWith_iff.2 h)]
    intro h'
    obtain ⟨t, rfl⟩ := h
    obtain ⟨u, hu⟩ := startsWith_iff.1 h'
    simp at hu
  have hpod : ∀ x, dir = some "pod".toList → BeforeDash file x → takeUntilPodUuid (full dir file) = "pod/".toList ++ x := by
    rintro x rfl ⟨hx, h⟩
    refine beforeDash_pod ⟨by simp [hx], ?_⟩
    rcases h with rfl | ⟨y, rfl⟩
    · exact .inl rfl
    · exact .inr ⟨y, rfl⟩
  have hip : Instance dir file → dir ≠ some "pod".toList := by
    rintro ⟨h, _⟩ h'
    rw [h] at h'
    exact absurd h' (by decide)
  constructor
  · intro h
    unfold modelName
    cases h with
    | «instance» h => rw [if_pos (hq.2 h)]
    | pod h hx => rw [if_neg fun h' => hip (hq.1 h') h, if_pos (hp.2 h), hpod _ h hx]
    | service h1 h2 h hx => rw [if_neg fun h' => h1 (hq.1 h'), if_neg fun h' => h2 (hp.1 h'), hs _ h hx]
    | volume h1 h2 h => rw [if_neg fun h' => h1 (hq.1 h'), if_neg fun h' => h2 (hp.1 h'), hv h]
    | ordinary h1 h2 h3 h4 hx => rw [if_neg fun h' => h1 (hq.1 h'), if_neg fun h' => h2 (hp.1 h'), hk h3 h4]; exact (cleaned_iff _ _).1 hx
  · rintro rfl
    unfold modelName
    by_cases h1 : Instance dir file
    · rw [if_pos (hq.2 h1)]; exact .instance h1
    · rw [if_neg fun h' => h1 (hq.1 h')]
      by_cases h2 : dir = some "pod".toList
      · rw [if_pos (hp.2 h2)]
        obtain ⟨x, hx⟩ := beforeDash_exists file
        rw [hpod x h2 hx]
        exact .pod h2 hx
      · rw [if_neg fun h' => h2 (hp.1 h')]
        by_cases h3 : Service file
        · obtain ⟨x, hx⟩ := beforeDash_exists file
          rw [hs x h3 hx]
          exact .service h1 h2 h3 hx
        · by_cases h4 : "pvc-".toList <+: file
          · rw [hv h4]; exact .volume h1 h2 h4
          · rw [hk h3 h4]; exact .ordinary h1 h2 h3 h4 ((cleaned_iff _ _).2 rfl)

theorem dirOf_mem {r : List (Option Str)} {d : Str} (h : dirOf r = some d) : d = [] ∨ some d ∈ r := by
  unfold dirOf at h
  split at h
  · split at h
    · split at h
      · injection h with h; subst h; right; simp
      · injection h with h; exact .inl h.symm
    · injection h with h; subst h; right; simp
  · cases h

theorem fileOf_mem (r : List (Option Str)) : fileOf r = "N/A".toList ∨ some (fileOf r) ∈ r := by
  unfold fileOf
  split
  · right; simp
  · exact .inl rfl

/-- Every path has its names, and only those. -/
theorem C141_parts (base : Str) : ∃ ps, Parts base ps ∧ ∀ ps', Parts base ps' → ps' = ps := by
  obtain ⟨ps, h⟩ := parts_exists base
  exact ⟨ps, h, fun ps' h' => (parts_split h').trans (parts_split h).symm⟩

/-- The name under which a file is compared is the one the rules give to its name and its directory. -/
theorem C141_name {base : Str} {ps : List (Option Str)} (h : Parts base ps) (n : Str) :
    indexName base = n ↔ Named (dirOf ps.reverse) (fileOf ps.reverse) n := by
  rw [indexName_parts h]
  refine (named_iff ?_ ?_ n).symm
  · intro d hd
    rcases dirOf_mem hd with rfl | hm
    · simp
    · exact parts_names h d (List.mem_reverse.1 hm)
  · rcases fileOf_mem ps.reverse with e | hm
    · exact .inr e
    · exact .inl (parts_names h _ (List.mem_reverse.1 hm))

/-- The rules give one name to every file of every directory. -/
theorem C141_rules (base : Str) {ps : List (Option Str)} (h : Parts base ps) :
    ∃ n, Named (dirOf ps.reverse) (fileOf ps.reverse) n ∧ ∀ n', Named (dirOf ps.reverse) (fileOf ps.reverse) n' → n' = n :=
  ⟨indexName base, (C141_name h _).1 rfl, fun n' h' => ((C141_name h n').2 h').symm⟩

theorem ordinary_named {ps : List (Option Str)} (hs : ¬ Special ps) {x : Str} (hx : Cleaned (full (dirOf ps.reverse) (fileOf ps.reverse)) x) :
    Named (dirOf ps.reverse) (fileOf ps.reverse) x :=
  .ordinary (fun h => hs (.inl h)) (fun h => hs (.inr (.inl h))) (fun h => hs (.inr (.inr (.inl h)))) (fun h => hs (.inr (.inr (.inr h)))) hx

theorem parts_snoc {a : Str} {ps : List (Option Str)} (h : Parts a ps) {n : Str} (hn : '/' ∉ n) : Parts (a ++ '/' :: n) (ps ++ piece n) := by
  induction h with
  | last h => exact .more h (.last hn)
  | more h _ ih =>
    rw [List.append_assoc, List.cons_append, List.append_assoc]
    exact .more h ih

theorem parts_file {dir name : Str} (hd : Spec.Dir dir) (hn : Normal name) {ps : List (Option Str)} (h : Parts dir ps) :
    Parts (dir ++ name) (ps ++ [some name]) := by
  have hp : piece name = [some name] := by
    unfold piece
    rw [if_neg (fun h => h.elim hn.2.1 hn.2.2.1), if_neg hn.2.2.2]
  rcases hd with rfl | ⟨a, rfl⟩
  · have : ps = [] := by rw [parts_split h]; rfl
    rw [this, List.nil_append, List.nil_append, ← hp]
    exact .last hn.1
  · obtain ⟨qs, hq⟩ := parts_exists a
    have : ps = qs := by
      rw [parts_split h, parts_split hq, split_sep, List.flatMap_append]; simp [split, piece]
    rw [this, List.append_assoc, List.singleton_append, ← hp]
    exact parts_snoc hq hn.1

/-- Files whose names, with the directory which counts, differ only by other characters than letters and `/._-` have the same
name, when they are not special. -/
theorem C40_same {base base' : Str} {ps ps' : List (Option Str)} (h : Parts base ps) (h' : Parts base' ps') (hs : ¬ Special ps) (hs' : ¬ Special ps')
    (hk : (full (dirOf ps.reverse) (fileOf ps.reverse)).filter (fun c => decide (Kept c)) =
      (full (dirOf ps'.reverse) (fileOf ps'.reverse)).filter fun c => decide (Kept c)) : indexName base = indexName base' := by
  have ho := ordinary_named hs ((cleaned_iff (full (dirOf ps.reverse) (fileOf ps.reverse)) _).2 rfl)
  have ho' := ordinary_named hs' ((cleaned_iff (full (dirOf ps'.reverse) (fileOf ps'.reverse)) _).2 rfl)
  rw [(C141_name h _).2 ho, (C141_name h' _).2 ho']
  unfold cleanName
  rw [keep_eq, keep_eq, hk]

/-- A file and its rotations have the same name, when they are not special. -/
theorem C40_rotation {ps : List (Option Str)} {dir name r : Str} (hd : Spec.Dir dir) (hn : Normal name) (hr : ∀ c ∈ r, ¬ Letter c ∧ c ≠ '/')
    (h : Parts dir ps) (hs : ¬ Special (ps ++ [some name])) (hs' : ¬ Special (ps ++ [some (name ++ '.' :: r)])) :
    indexName (dir ++ (name ++ '.' :: r)) = indexName (dir ++ name) := by
  have hn' := normal_suffix hn r (fun h => (hr _ h).2 rfl)
  have hp := parts_file hd hn h
  have hp' := parts_file hd hn' h
  have ho := ordinary_named hs ((cleaned_iff _ _).2 rfl)
  have ho' := ordinary_named hs' ((cleaned_iff _ _).2 rfl)
  rw [(C141_name hp' _).2 ho', (C141_name hp _).2 ho]
  simp only [List.reverse_append, List.reverse_cons, List.reverse_nil, List.nil_append, List.singleton_append]
  have e : ∀ f : Str, dirOf (some f :: ps.reverse) = dirOf (none :: ps.reverse) := by
    intro f; rcases ps.reverse with _ | ⟨_ | d, r⟩ <;> rfl
  rw [e, e, fileOf, fileOf]
  have e2 : full (dirOf (none :: ps.reverse)) (name ++ '.' :: r) = full (dirOf (none :: ps.reverse)) name ++ '.' :: r := by
    unfold full; split <;> simp
  rw [e2, cleanName_suffix]
  intro c hc
  rcases List.mem_cons.1 hc with rfl | hc
  · decide
  · exact (hr c hc).1

/-! ### Examples -/

/-- a compressed file in a directory named by a commit -/
theorem hashParts : Parts "config-update/015da2b/job-output.json.gz".toList
    [some "config-update".toList, some "015da2b".toList, some "job-output.json.gz".toList] :=
  .more (p := "config-update".toList) (by decide) (.more (p := "015da2b".toList) (by decide) (.last (p := "job-output.json.gz".toList) (by decide)))

/-- the rules, applied without the program -/
example : indexName "config-update/015da2b/job-output.json.gz".toList = "config-update/job-output.json".toList :=
  (C141_name hashParts _).2 (.ordinary (by unfold Instance; decide) (by decide) (by unfold Service; decide) (by decide)
    ⟨[], "config-update/job-output.json.gz".toList, [], by decide, by simp, by simp, by decide, by decide, 1, by decide, by decide⟩)

/-- a file whose name is not in the path: the name of the directory before the dots -/
example : indexName "a/..".toList = "a/N/A".toList :=
  (C141_name (.more (p := ['a']) (by decide) (.last (p := ['.', '.']) (by decide))) _).2 (.ordinary (by unfold Instance; decide) (by decide) (by unfold Service; decide)
    (by decide) ⟨[], "a/N/A".toList, [], by decide, by simp, by simp, by decide, by decide, 0, by decide, by decide⟩)

/-- a service, a volume, a pod and an instance -/
example : indexName "x/k8s_zuul-uuid".toList = "k8s_zuul".toList ∧ indexName "x/pvc-1.txt".toList = "pvc".toList ∧
    indexName "pod/zuul-7fdb57778f-qkzkc.log".toList = "pod/zuul".toList ∧ indexName "libvirt/qemu/instance-000000ec.log".toList = "qemu/instance".toList :=
  have two : ∀ a b : Str, '/' ∉ a → '/' ∉ b → Parts (a ++ '/' :: b) (piece a ++ piece b) := fun _ _ ha hb => .more ha (.last hb)
  ⟨(C141_name (two "x".toList "k8s_zuul-uuid".toList (by decide) (by decide)) _).2 (.service (by unfold Instance; decide) (by decide) (by unfold Service; decide)
      ⟨by decide, .inr ⟨"uuid".toList, by decide⟩⟩),
    (C141_name (two "x".toList "pvc-1.txt".toList (by decide) (by decide)) _).2 (.volume (by unfold Instance; decide) (by decide) (by decide)),
    (C141_name (two "pod".toList "zuul-7fdb57778f-qkzkc.log".toList (by decide) (by decide)) _).2 (.pod (by decide) (x := "zuul".toList)
      ⟨by decide, .inr ⟨"7fdb57778f-qkzkc.log".toList, by decide⟩⟩),
    (C141_name (.more (p := "libvirt".toList) (by decide) (two "qemu".toList "instance-000000ec.log".toList (by decide) (by decide))) _).2
      (.instance (by unfold Instance; decide))⟩

/-- the same build directory with other numbers -/
example : indexName "builds/2/log".toList = indexName "42/log".toList :=
  C40_same (.more (p := "builds".toList) (by decide) (.more (p := "2".toList) (by decide) (.last (p := "log".toList) (by decide))))
    (.more (p := "42".toList) (by decide) (.last (p := "log".toList) (by decide))) (by decide) (by decide) (by decide)

/-- rotations of a file below a directory of pods -/
example : indexName "pod/zuul/merger.log.2017-11-12".toList = indexName "pod/zuul/merger.log".toList :=
  C40_rotation (dir := "pod/zuul/".toList) (name := "merger.log".toList) (r := "2017-11-12".toList) (.inr ⟨"pod/zuul".toList, rfl⟩) (by decide) (by decide)
    (.more (p := "pod".toList) (by decide) (.more (p := "zuul".toList) (by decide) (.last (p := []) (by decide)))) (by decide) (by decide)

end LJ.Paths

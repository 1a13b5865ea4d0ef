/-
C134: only the normalised lines of the baselines matter.
-/
import Verif.Report.Grown
import Verif.Report.Listing
namespace LJ.Report
open LJ.Process (Str Bytes Ev Env)
open LJ.Process (toyL)
variable {C S N D E ε : Type} [DecidableEq N] {w : World C S N D E ε}

namespace Spec

/-- The normalised lines which are known for a name when these are the baselines, if any. -/
def knownFor (w : World C S N D E ε) (baselines : List C) (n : N) : Option (List Str) :=
  (baselineFor w.nameOf (baselines.flatMap fun c => validSources w.valid (w.list c)) n).map (learned w.tokenize w.decode w.isJson (readLines w))

/-- The same normalised lines are known, in any order and number, or nothing is in both cases. -/
def SameKnown (a b : Option (List Str)) : Prop :=
  match a, b with
  | none, none => True
  | some a, some b => ∀ t, t ∈ a ↔ t ∈ b
  | _, _ => False

end Spec

/-- the index of a name has the normalised lines which are known for it -/
theorem known_index {order : List (N × List S) → List (N × List S)} (ho : ∀ g, (order g).Perm g) {cs : List C} {m : Model C S N} (hm : train w order cs = .ok m) (n : N) :
    Spec.SameKnown ((lookupOrSingle m.indexes n).map fun i => i.chunks.flatten) (Spec.knownFor w cs n) := by
  have h := lookup_baseline ho hm n
  unfold Spec.knownFor
  cases hb : Spec.baselineFor w.nameOf (cs.flatMap fun c => Spec.validSources w.valid (w.list c)) n with
  | none =>
    rw [hb] at h
    simp only at h
    rw [h]
    trivial
  | some ss =>
    rw [hb] at h
    obtain ⟨i, h1, h2⟩ := h
    rw [h1]
    exact fun t => learned_index h2 t

theorem sameKnown_trans {a b c : Option (List Str)} (h : Spec.SameKnown a b) (g : Spec.SameKnown b c) : Spec.SameKnown a c := by
  cases a <;> cases b <;> cases c <;> first | trivial | exact h.elim | exact g.elim | exact fun t => (h t).trans (g t)

theorem sameKnown_symm {a b : Option (List Str)} (h : Spec.SameKnown a b) : Spec.SameKnown b a := by
  cases a <;> cases b <;> first | trivial | exact h.elim | exact fun t => (h t).symm

theorem names_once : ∀ l : List N, ∃ names : List N, names.Nodup ∧ ∀ n, n ∈ names ↔ n ∈ l
  | [] => ⟨[], .nil, fun _ => Iff.rfl⟩
  | x :: l => by
    obtain ⟨names, h, g⟩ := names_once l
    by_cases hx : x ∈ names
    · refine ⟨names, h, fun n => ?_⟩
      rw [g, List.mem_cons]
      constructor
      · exact .inr
      · rintro (rfl | h)
        · exact (g _).1 hx
        · exact h
    · exact ⟨x :: names, List.nodup_cons.2 ⟨hx, h⟩, fun n => by rw [List.mem_cons, List.mem_cons, g]⟩

/-- C134, for every listing, content and result of the readers: two models whose baselines have the same normalised lines for a name report the same of this name in every target: the
sources with their anomalies, contexts and counts, and the errors; and when this is so of all the names, the number of lines and the sources without a baseline are the same as well. -/
theorem C134_known (hs : SearchOk w) (hu : Unordered w) {o1 o2 o3 o4 : List (N × List S) → List (N × List S)} (h1 : ∀ g, (o1 g).Perm g) (h2 : ∀ g, (o2 g).Perm g)
    (h3 : ∀ g, (o3 g).Perm g) (h4 : ∀ g, (o4 g).Perm g) {cs cs' : List C} {target : C} {m m' : Model C S N} {r r' : Report C S N D E ε}
    (hm : train w o1 cs = .ok m) (hm' : train w o2 cs' = .ok m') (hr : report w m o3 target = some (.ok r)) (hr' : report w m' o4 target = some (.ok r')) :
    (∀ n, Spec.SameKnown (Spec.knownFor w cs n) (Spec.knownFor w cs' n) →
      (r'.logReports.filter fun l => l.indexName = n) = (r.logReports.filter fun l => l.indexName = n) ∧
        (r'.readErrors.filter fun x => w.nameOf x.1 = n) = r.readErrors.filter fun x => w.nameOf x.1 = n) ∧
    ((∀ n, Spec.SameKnown (Spec.knownFor w cs n) (Spec.knownFor w cs' n)) →
      r'.totalLineCount = r.totalLineCount ∧ ∀ ss, ss ∈ r'.indexErrors ↔ ss ∈ r.indexErrors) := by
  have usable : Spec.Usable w.valid (w.list target) := by
    obtain ⟨_, e, g⟩ := report_total hs m o3 h3 target
    rw [hr] at e
    cases e
    exact g.1 ⟨r, rfl⟩
  obtain ⟨dist, hd⟩ := dist_of_search hs m
  obtain ⟨dist', hd'⟩ := dist_of_search hs m'
  obtain ⟨_, e, g1, g2, g3, g4⟩ := C127_report m h3 target hs usable (dist := dist) hd
  rw [hr] at e; cases e
  obtain ⟨_, e, g1', g2', g3', g4'⟩ := C127_report m' h4 target hs usable (dist := dist') hd'
  rw [hr'] at e; cases e
  have key : ∀ n, Spec.SameKnown (Spec.knownFor w cs n) (Spec.knownFor w cs' n) → dist' n = dist n := by
    intro n hk
    have hk := sameKnown_trans (known_index h1 hm n) (sameKnown_trans hk (sameKnown_symm (known_index h2 hm' n)))
    have hd := hd n
    have hd' := hd' n
    cases hl : lookupOrSingle m.indexes n with
    | none =>
      rw [hl] at hd hk
      cases hl' : lookupOrSingle m'.indexes n with
      | none =>
        rw [hl'] at hd'
        simp only at hd hd'
        rw [hd, hd']
      | some i' => rw [hl'] at hk; exact hk.elim
    | some i =>
      rw [hl] at hd hk
      cases hl' : lookupOrSingle m'.indexes n with
      | none => rw [hl'] at hk; exact hk.elim
      | some i' =>
        rw [hl'] at hd' hk
        obtain ⟨f, e, hf⟩ := hd
        obtain ⟨f', e', hf'⟩ := hd'
        rw [e, e']
        congr 1
        funext t
        have a := hf [t]
        have b := hf' [t]
        rw [← hu i.chunks i'.chunks hk, a] at b
        simpa using b.symm
  have said : ∀ n, dist' n = dist n → Spec.saidOf w (Spec.validSources w.valid (w.list target)) dist' n =
      Spec.saidOf w (Spec.validSources w.valid (w.list target)) dist n := by
    intro n h
    unfold Spec.saidOf
    rw [h]
  constructor
  · intro n hk
    have e := said n (key n hk)
    constructor
    · refine logs_eq (n := n) (fun l hl => by simpa using (List.mem_filter.1 hl).2) (fun l hl => by simpa using (List.mem_filter.1 hl).2) ?_
      rw [g1 n, g1' n, e]
    · rw [g2 n, g2' n, e]
  · intro hk
    have e := fun n => said n (key n (hk n))
    have hdist : dist' = dist := funext fun n => key n (hk n)
    refine ⟨?_, fun ss => by rw [g4 ss, g4' ss, hdist]⟩
    obtain ⟨names, hnd, hnames⟩ := names_once ((Spec.validSources w.valid (w.list target)).map w.nameOf)
    have hnames : ∀ n, n ∈ names ↔ ∃ s ∈ Spec.validSources w.valid (w.list target), w.nameOf s = n := by
      intro n
      rw [hnames, List.mem_map]
    rw [g3 names hnd hnames, g3' names hnd hnames, hdist]

/-- For a name, baselines with the same files, in any order and number, when the files of a name are all JSON or all not. -/
theorem C134_files {cs cs' : List C}
    (hsame : ∀ s, s ∈ (cs.flatMap fun c => Spec.validSources w.valid (w.list c)) ↔ s ∈ cs'.flatMap fun c => Spec.validSources w.valid (w.list c))
    (hj : ∀ s ∈ cs.flatMap (fun c => Spec.validSources w.valid (w.list c)),
      ∀ t ∈ cs.flatMap (fun c => Spec.validSources w.valid (w.list c)), w.nameOf s = w.nameOf t → w.isJson s = w.isJson t) (n : N) :
    Spec.SameKnown (Spec.knownFor w cs n) (Spec.knownFor w cs' n) := by
  unfold Spec.knownFor
  generalize (cs.flatMap fun c => Spec.validSources w.valid (w.list c)) = a at hsame hj
  generalize (cs'.flatMap fun c => Spec.validSources w.valid (w.list c)) = b at hsame
  have learn : ∀ x y : List S, (∀ s, s ∈ x ↔ s ∈ y) → (∀ s ∈ x, ∀ t ∈ x, w.isJson s = w.isJson t) → ∀ t,
      t ∈ Spec.learned w.tokenize w.decode w.isJson (readLines w) x ↔ t ∈ Spec.learned w.tokenize w.decode w.isJson (readLines w) y := by
    intro x y hxy hx t
    have hhead : x.head?.any w.isJson = y.head?.any w.isJson := by
      cases x with
      | nil =>
        cases y with
        | nil => rfl
        | cons s y => exact absurd ((hxy s).2 (.head _)) (by simp)
      | cons s x =>
        cases y with
        | nil => exact absurd ((hxy s).1 (.head _)) (by simp)
        | cons s' y => exact hx s (.head _) s' ((hxy s').2 (.head _))
    unfold Spec.learned
    rw [hhead]
    simp only [List.mem_flatMap]
    exact ⟨fun ⟨s, h, g⟩ => ⟨s, (hxy s).1 h, g⟩, fun ⟨s, h, g⟩ => ⟨s, (hxy s).2 h, g⟩⟩
  have hmem : n ∈ a.map w.nameOf ↔ n ∈ b.map w.nameOf := by
    simp only [List.mem_map]
    exact ⟨fun ⟨s, h, g⟩ => ⟨s, (hsame s).1 h, g⟩, fun ⟨s, h, g⟩ => ⟨s, (hsame s).2 h, g⟩⟩
  unfold Spec.baselineFor
  by_cases hn : n ∈ a.map w.nameOf
  · rw [if_pos hn, if_pos (hmem.1 hn)]
    refine learn _ _ (fun s => by rw [List.mem_filter, List.mem_filter, hsame]) ?_
    intro s hs t ht
    rw [List.mem_filter] at hs ht
    exact hj s hs.1 t ht.1 ((of_decide_eq_true hs.2).trans (of_decide_eq_true ht.2).symm)
  · rw [if_neg hn, if_neg fun h => hn (hmem.2 h)]
    cases a with
    | nil =>
      cases b with
      | nil => trivial
      | cons s b => exact absurd ((hsame s).2 (.head _)) (by simp)
    | cons s a =>
      cases b with
      | nil => exact absurd ((hsame s).1 (.head _)) (by simp)
      | cons s' b =>
        have hone : ∀ (s : S) (l : List S), (∀ t ∈ l, w.nameOf t = w.nameOf s) ↔ ∀ x ∈ s :: l, ∀ y ∈ s :: l, w.nameOf x = w.nameOf y := by
          intro s l
          constructor
          · intro h x hx y hy
            have : ∀ x ∈ s :: l, w.nameOf x = w.nameOf s := by
              intro x hx
              rcases List.mem_cons.1 hx with rfl | hx
              · rfl
              · exact h x hx
            exact (this x hx).trans (this y hy).symm
          · intro h t ht
            exact h t (.tail _ ht) s (.head _)
        simp only
        by_cases h : ∀ t ∈ a, w.nameOf t = w.nameOf s
        · have h' : ∀ t ∈ b, w.nameOf t = w.nameOf s' := by
            rw [hone] at h ⊢
            exact fun x hx y hy => h x ((hsame x).2 hx) y ((hsame y).2 hy)
          rw [if_pos h, if_pos h']
          refine learn _ _ hsame ?_
          rw [hone] at h
          exact fun x hx y hy => hj x hx y hy (h x hx y hy)
        · have h' : ¬ ∀ t ∈ b, w.nameOf t = w.nameOf s' := by
            rw [hone] at h ⊢
            exact fun g => h fun x hx y hy => g x ((hsame x).1 hx) y ((hsame y).1 hy)
          rw [if_neg h, if_neg h']
          trivial

/-- two baselines with the same lines, in files of other names -/
def known1 : World Nat String String Nat Unit Unit := small (fun | 0 => [.ok "a1", .ok "b1"] | 1 => [.ok "b1", .ok "a3", .ok "a2"] | _ => [.ok "a4"])
  [("a1", fun _ => [.ok (toyL "p" 1), .ok (toyL "q" 2)]), ("b1", fun _ => [.ok (toyL "p" 1)]), ("a2", fun _ => [.ok (toyL "q" 1)]),
   ("a3", fun _ => [.ok (toyL "p" 1), .ok (toyL "p" 2)]), ("a4", fun _ => [.ok (toyL "p" 1), .ok (toyL "r" 2)])]

example : Spec.SameKnown (Spec.knownFor known1 [0] "a") (Spec.knownFor known1 [1, 1] "a") ∧
    Spec.knownFor known1 [0] "a" = some ["p".toList, "q".toList] ∧
    linesFor known1 [0] 2 "a" = some [("a4", 2, "r".toList)] ∧ linesFor known1 [1, 1] 2 "a" = some [("a4", 2, "r".toList)] := by
  have e1 : Spec.knownFor known1 [0] "a" = some ["p".toList, "q".toList] := by decide +kernel
  have e2 : Spec.knownFor known1 [1, 1] "a" = some ["p".toList, "p".toList, "q".toList, "p".toList, "p".toList, "q".toList] := by decide +kernel
  refine ⟨?_, e1, by decide +kernel, by decide +kernel⟩
  rw [e1, e2]
  intro t
  simp only [List.mem_cons, List.not_mem_nil, or_false]
  constructor
  · rintro (h | h)
    · exact .inl h
    · exact .inr (.inr (.inl h))
  · rintro (h | h | h | h | h | h) <;> first | exact .inl h | exact .inr h

end LJ.Report

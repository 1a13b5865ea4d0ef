/-
C136: how the lines of a kind of log are spread over files.

A log which is rotated, split, joined or copied gives other files with the same lines.  The lines of all the files of a name are compared with the
same index (model.rs:462-530 `report`, one index by name, one `skip_lines` for all the sources of a group): two targets are compared here, by the
normalised lines of their files of each name.
-/
import Verif.Report.Listing
namespace LJ.Report
open LJ.Process (Str Bytes Ev Env Err AnomalyContext Trainer Stop toyL)
set_option linter.unusedSectionVars false
variable {C S N D E ε : Type} [DecidableEq N] {w : World C S N D E ε}

/-! ### Specification -/

/-- The normalised lines of the files of a name, in the order of the listing. -/
def Spec.normals (w : World C S N D E ε) (text : S → List LJ.Process.Spec.Line) (target : C) (n : N) : List Str :=
  ((Spec.validSources w.valid (w.list target)).filter fun s => decide (w.nameOf s = n)).flatMap fun s => (text s).map fun l => w.tokenize l.text

/-- The files of a target can be read: they have these lines, without a marker of the program itself. -/
def Spec.AllRead (w : World C S N D E ε) (text : S → List LJ.Process.Spec.Line) (target : C) : Prop :=
  ∀ s ∈ Spec.validSources w.valid (w.list target), ∃ reader lines, w.openSource s = .ok reader ∧
    reader (w.isJson s) = lines.map Except.ok ∧ LJ.Process.Spec.Reads w.decode lines (text s) ∧ LJ.Process.Spec.NoMarker (text s)

/-- another state of the files: other listings and other contents -/
def restored (w : World C S N D E ε) (list : C → List (Except E S)) (open' : S → Except E (Bool → List (Ev ε))) : World C S N D E ε :=
  { w with list := list, openSource := open' }

/-! ### What is found for a name -/

theorem filter_flatMap_logs (m : Model C S N) (gs : List (N × List S)) (n : N) :
    ((gs.flatMap (groupLogs w m)).filter fun l => decide (l.indexName = n)) = (gs.filter fun g => decide (g.1 = n)).flatMap (groupLogs w m) := by
  induction gs with
  | nil => rfl
  | cons g gs ih =>
    rw [List.flatMap_cons, List.filter_append, ih, List.filter_cons]
    by_cases hgn : g.1 = n
    · rw [if_pos (by simpa using hgn), List.flatMap_cons]
      congr 1
      rw [List.filter_eq_self]
      intro l hl'
      rw [(groupLogs_spec hl').1]; simpa using hgn
    · rw [if_neg (by simpa using hgn)]
      have : (groupLogs w m g).filter (fun l => decide (l.indexName = n)) = [] := by
        rw [List.filter_eq_nil_iff]
        intro l hl'
        rw [(groupLogs_spec hl').1]; simpa using hgn
      rw [this, List.nil_append]

/-- a partition has one group of a name, with all the sources of the name, unless there is none -/
theorem partition_group {gs : List (N × List S)} {nameOf : S → N} {ss : List S} (h : Spec.IsPartition nameOf ss gs) (n : N) :
    gs.filter (fun g => decide (g.1 = n)) =
      if ss.filter (fun s => decide (nameOf s = n)) = [] then [] else [(n, ss.filter fun s => decide (nameOf s = n))] := by
  have hval : ∀ g ∈ gs.filter (fun g => decide (g.1 = n)), g = (n, ss.filter fun s => decide (nameOf s = n)) := by
    rintro ⟨k, v⟩ hg
    rw [List.mem_filter, decide_eq_true_eq] at hg
    obtain ⟨hg, rfl⟩ := hg
    rw [((h.2 _ _).1 hg).2]
  have hnd : ((gs.filter (fun g => decide (g.1 = n))).map Prod.fst).Nodup := h.1.sublist ((List.filter_sublist).map _)
  split
  · rename_i hnil
    rw [List.filter_eq_nil_iff]
    rintro ⟨k, v⟩ hg hk
    rw [decide_eq_true_eq] at hk
    subst hk
    obtain ⟨a, b⟩ := (h.2 _ _).1 hg
    exact a (b.trans hnil)
  · rename_i hne
    have hmem : (n, ss.filter fun s => decide (nameOf s = n)) ∈ gs.filter (fun g => decide (g.1 = n)) :=
      List.mem_filter.2 ⟨(h.2 _ _).2 ⟨hne, rfl⟩, by simp⟩
    generalize gs.filter (fun g => decide (g.1 = n)) = l at hval hnd hmem
    match l, hval, hnd, hmem with
    | [a], hval, _, _ => rw [hval a (by simp)]
    | a :: b :: l, hval, hnd, _ =>
      rw [hval a (by simp), hval b (by simp)] at hnd
      simp at hnd

/-- What is found for a name is made of the normalised lines of the files of the name, once each. -/
theorem found_normals {m : Model C S N} {n : N} {dist : Index S → Str → D} (hs : SearchOk w)
    (hd : ∀ i, LJ.Process.Spec.Pointwise (w.search i.chunks) (dist i)) {o : List (N × List S) → List (N × List S)}
    (ho : ∀ g, (o g).Perm g) {target : C} {r : Report C S N D E ε} (hr : report w m o target = some (.ok r)) {text : S → List LJ.Process.Spec.Line}
    (hgood : Spec.AllRead w text target) :
    found w r n = match lookupOrSingle m.indexes n with
      | none => []
      | some i => ((LJ.Process.Spec.firsts id [] (Spec.normals w text target n)).filter fun t => w.over (dist i t)).map fun t => (t, dist i t) := by
  obtain ⟨gs, hp, rfl⟩ := report_ok hs ho hr
  unfold found
  simp only [total, emptyReport, List.nil_append]
  rw [filter_flatMap_logs, partition_group hp, List.flatMap_assoc]
  split
  · rename_i hnil
    unfold Spec.normals
    rw [hnil]
    cases lookupOrSingle m.indexes n <;> rfl
  · rw [List.flatMap_singleton]
    unfold groupLogs groupRuns indexFor
    simp only
    cases lookupOrSingle m.indexes n with
    | none => rfl
    | some i =>
      simp only
      obtain ⟨a1, _, _⟩ := runs_good (hd i) ((Spec.validSources w.valid (w.list target)).filter fun s => decide (w.nameOf s = n)) text
        (fun s h => hgood s (List.mem_filter.1 h).1) n []
      have hk : ∀ ls : List (LogReport S N D), (ls.flatMap fun l => l.anomalies.map fun a => (w.tokenize a.anomaly.line, a.anomaly.distance)) =
          (ls.flatMap fun l => l.anomalies.map (·.anomaly)).map fun a => (w.tokenize a.line, a.distance) := by
        intro ls
        rw [List.map_flatMap]
        simp only [List.map_map]
        rfl
      rw [hk, a1]
      unfold LJ.Process.Spec.anomalies Spec.normals
      rw [← List.map_flatMap, ← firsts_map, List.filter_map, List.map_map, List.map_map]
      rfl

theorem firsts_nodup_id (Z : List Str) : (LJ.Process.Spec.firsts id [] Z).Nodup := by
  have := (LJ.Process.firsts_nodup (key := id) [] Z).1
  rwa [List.map_id] at this

/-! ### Theorems -/

section
variable {list : C → List (Except E S)} {open' : S → Except E (Bool → List (Ev ε))}

/-- C136.  When the files of a name of two targets have the same lines, but for what is not kept, in any number of files, in any order and any number
of times, the same is found for this name in both targets, whatever else is in the targets. -/
theorem C136_same (hs : SearchOk w) {m : Model C S N} {o o' : List (N × List S) → List (N × List S)} (ho : ∀ g, (o g).Perm g)
    (ho' : ∀ g, (o' g).Perm g) {target target' : C} {r r' : Report C S N D E ε} (hr : report w m o target = some (.ok r))
    (hr' : report (restored w list open') m o' target' = some (.ok r')) {text text' : S → List LJ.Process.Spec.Line}
    (hgood : Spec.AllRead w text target) (hgood' : Spec.AllRead (restored w list open') text' target') {n : N}
    (h : ∀ t, t ∈ Spec.normals w text target n ↔ t ∈ Spec.normals (restored w list open') text' target' n) :
    (found w r n).Perm (found w r' n) := by
  choose dist hd using fun i : Index S => hs i.chunks
  have hs' : SearchOk (restored w list open') := hs
  have e := found_normals (n := n) hs hd ho hr hgood
  have e' := found_normals (n := n) hs' hd ho' hr' hgood'
  have : found w r' n = found (restored w list open') r' n := rfl
  rw [this, e, e']
  cases lookupOrSingle m.indexes n with
  | none => exact .rfl
  | some i =>
    refine (List.Perm.filter _ ?_).map _
    rw [List.perm_ext_iff_of_nodup (firsts_nodup_id _) (firsts_nodup_id _)]
    intro x
    rw [LJ.Process.firsts_id_mem, LJ.Process.firsts_id_mem, h]

/-- C136.  When the lines come in the same order, as when a log is split into files listed in its order, or when files are joined, they are found in
the same order. -/
theorem C136_split (hs : SearchOk w) {m : Model C S N} {o o' : List (N × List S) → List (N × List S)} (ho : ∀ g, (o g).Perm g)
    (ho' : ∀ g, (o' g).Perm g) {target target' : C} {r r' : Report C S N D E ε} (hr : report w m o target = some (.ok r))
    (hr' : report (restored w list open') m o' target' = some (.ok r')) {text text' : S → List LJ.Process.Spec.Line}
    (hgood : Spec.AllRead w text target) (hgood' : Spec.AllRead (restored w list open') text' target') {n : N}
    (h : Spec.normals w text target n = Spec.normals (restored w list open') text' target' n) : found w r n = found w r' n := by
  choose dist hd using fun i : Index S => hs i.chunks
  have hs' : SearchOk (restored w list open') := hs
  have e := found_normals (n := n) hs hd ho hr hgood
  have e' := found_normals (n := n) hs' hd ho' hr' hgood'
  have : found w r' n = found (restored w list open') r' n := rfl
  rw [this, e, e', h]
  rfl

/-- C136.  Files added to a target only add to what is found: what was found for a name is still found, with the same distances. -/
theorem C136_more (hs : SearchOk w) {m : Model C S N} {o o' : List (N × List S) → List (N × List S)} (ho : ∀ g, (o g).Perm g)
    (ho' : ∀ g, (o' g).Perm g) {target target' : C} {r r' : Report C S N D E ε} (hr : report w m o target = some (.ok r))
    (hr' : report (restored w list open') m o' target' = some (.ok r')) {text text' : S → List LJ.Process.Spec.Line}
    (hgood : Spec.AllRead w text target) (hgood' : Spec.AllRead (restored w list open') text' target') {n : N}
    (h : ∀ t ∈ Spec.normals w text target n, t ∈ Spec.normals (restored w list open') text' target' n) :
    (∀ x ∈ found w r n, x ∈ found w r' n) ∧
    ∀ x ∈ found w r' n, x ∈ found w r n ∨ x.1 ∉ Spec.normals w text target n := by
  choose dist hd using fun i : Index S => hs i.chunks
  have hs' : SearchOk (restored w list open') := hs
  have e := found_normals (n := n) hs hd ho hr hgood
  have e' := found_normals (n := n) hs' hd ho' hr' hgood'
  have : found w r' n = found (restored w list open') r' n := rfl
  rw [this, e, e']
  cases lookupOrSingle m.indexes n with
  | none => exact ⟨fun _ h => h, fun _ h => .inl h⟩
  | some i =>
    constructor
    · intro x hx
      obtain ⟨t, ht, rfl⟩ := List.mem_map.1 hx
      rw [List.mem_filter, LJ.Process.firsts_id_mem] at ht
      refine List.mem_map.2 ⟨t, ?_, rfl⟩
      rw [List.mem_filter, LJ.Process.firsts_id_mem]
      exact ⟨⟨h t ht.1.1, ht.1.2⟩, ht.2⟩
    · intro x hx
      obtain ⟨t, ht, rfl⟩ := List.mem_map.1 hx
      rw [List.mem_filter, LJ.Process.firsts_id_mem] at ht
      by_cases hm : t ∈ Spec.normals w text target n
      · refine .inl (List.mem_map.2 ⟨t, ?_, rfl⟩)
        rw [List.mem_filter, LJ.Process.firsts_id_mem]
        exact ⟨⟨hm, ht.1.2⟩, ht.2⟩
      · exact .inr hm

end

/-! ### Cases -/

/-- a log, and the same log in two files, out of order, with a line which is copied -/
def log1 : Nat → List (Except Unit String) := fun _ => [.ok "a1"]

def open1 : List (String × (Bool → List (Ev Unit))) := [("a1", fun _ => [.ok (toyL "p" 1), .ok (toyL "q" 2), .ok (toyL "r" 3)])]

def log2 : Nat → List (Except Unit String) := fun _ => [.ok "b1", .ok "a2", .ok "a3"]

def open2 : List (String × (Bool → List (Ev Unit))) :=
  [("a2", fun _ => [.ok (toyL "q" 1), .ok (toyL "r" 2)]), ("a3", fun _ => [.ok (toyL "p" 1), .ok (toyL "q" 2)]), ("b1", fun _ => [.ok (toyL "z" 1)])]

def textOf (table : List (String × (Bool → List (Ev Unit)))) (s : String) : List LJ.Process.Spec.Line :=
  match table.lookup s with
  | some r => (r false).filterMap fun x => match x with | .ok l => some ⟨((small log1 table).decode l.1).getD [], l.2⟩ | .error _ => none
  | none => []

/-- The hypotheses of C136 are met. -/
example : Spec.AllRead (small log1 open1) (textOf open1) 0 ∧
    Spec.AllRead (restored (small log1 open1) log2 (small log2 open2).openSource) (textOf open2) 0 ∧
    (∀ t, t ∈ Spec.normals (small log1 open1) (textOf open1) 0 "a" ↔
      t ∈ Spec.normals (restored (small log1 open1) log2 (small log2 open2).openSource) (textOf open2) 0 "a") ∧
    Spec.normals (small log1 open1) (textOf open1) 0 "a" = [['p'], ['q'], ['r']] ∧
    Spec.normals (restored (small log1 open1) log2 (small log2 open2).openSource) (textOf open2) 0 "a" = [['q'], ['r'], ['p'], ['q']] ∧
    shown (report (small log1 open1) ⟨[], [("a", ⟨[], [[['r']]], 0, 0⟩)]⟩ id 0) = [("a1", ["p", "q"])] ∧
    shown (report (restored (small log1 open1) log2 (small log2 open2).openSource) ⟨[], [("a", ⟨[], [[['r']]], 0, 0⟩)]⟩ id 0) =
      [("b1", ["z"]), ("a2", ["q"]), ("a3", ["p"])] := by
  refine ⟨?_, ?_, ?_, by decide +kernel, by decide +kernel, by decide +kernel, by decide +kernel⟩
  · intro s hs
    have e : Spec.validSources (small log1 open1).valid ((small log1 open1).list 0) = ["a1"] := by decide +kernel
    rw [e] at hs
    cases List.mem_singleton.1 hs
    exact ⟨_, [toyL "p" 1, toyL "q" 2, toyL "r" 3], rfl, rfl, by decide +kernel, by unfold LJ.Process.Spec.NoMarker; decide +kernel⟩
  · intro s hs
    have e : Spec.validSources (small log2 open2).valid ((small log2 open2).list 0) = ["b1", "a2", "a3"] := by decide +kernel
    have hs : s ∈ ["b1", "a2", "a3"] := e ▸ hs
    have : s = "b1" ∨ s = "a2" ∨ s = "a3" := by simpa using hs
    rcases this with rfl | rfl | rfl
    · exact ⟨_, [toyL "z" 1], rfl, rfl, by decide +kernel, by unfold LJ.Process.Spec.NoMarker; decide +kernel⟩
    · exact ⟨_, [toyL "q" 1, toyL "r" 2], rfl, rfl, by decide +kernel, by unfold LJ.Process.Spec.NoMarker; decide +kernel⟩
    · exact ⟨_, [toyL "p" 1, toyL "q" 2], rfl, rfl, by decide +kernel, by unfold LJ.Process.Spec.NoMarker; decide +kernel⟩
  · have h1 : Spec.normals (small log1 open1) (textOf open1) 0 "a" = [['p'], ['q'], ['r']] := by decide +kernel
    have h2 : Spec.normals (restored (small log1 open1) log2 (small log2 open2).openSource) (textOf open2) 0 "a" = [['q'], ['r'], ['p'], ['q']] := by
      decide +kernel
    rw [h1, h2]
    intro t
    simp only [List.mem_cons, List.not_mem_nil, or_false]
    constructor
    · rintro (h | h | h) <;> simp [h]
    · rintro (h | h | h | h) <;> simp [h]

end LJ.Report

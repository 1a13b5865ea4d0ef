/-
C27 and C28 do not hold in full: sources where a context is incomplete, or where two contexts overlap.
-/
import Verif.Process.Props
namespace LJ.Process
open Spec (firsts cuts)
variable {D ε : Type}

theorem collect_many (n m : Nat) (hm : m < 512) (tl : List (Ev Unit)) :
    collect toy (n + 1) ((many m).map Except.ok ++ tl) (St.new []) = collect toy (n + 1) tl (pushAll toy (many m) (St.new [])) := by
  have hlen : (many m).length = m := by simp [many]
  obtain ⟨_, h2, h3⟩ := reach_new (env := toy) (many m) (St.new []) (.start []) rfl (many_plain (by omega)) (many_nodup (by omega))
    (by simp [St.new]) (by rw [hlen]; simp [St.new]; omega)
  exact collect_congr n _ tl rfl h2 (h3 Unit tl)

theorem process_many (m : Nat) (hm : m < 512) (tl : List LogLine) :
    process toy [] ((many m ++ tl).map (Except.ok (ε := Unit))) =
      collect toy (m + tl.length + 2) (tl.map Except.ok) (pushAll toy (many m) (St.new [])) := by
  have hlen : (many m).length = m := by simp [many]
  unfold process
  rw [List.map_append, collect_many _ m hm]
  simp [hlen]

theorem many_positions (m : Nat) (hm : m < 512) (tl : List LogLine) :
    Spec.positions toy.tokenize toyDist toy.over [] (toySrc (many m ++ tl)) =
      ((firsts (tokE toy) ((many m).map (keyL toy)) (ents m tl)).filter (overE toy toyDist)).map (fun e => e.2 - 1) := by
  have hlen : (many m).length = m := by simp [many]
  unfold toySrc
  rw [positions_eq, ents_append, firsts_append, List.filter_append, List.map_append]
  have hk : (ents 0 (many m)).map (tokE toy) = (many m).map (keyL toy) := by
    have : (ents 0 (many m)).map (tokE toy) = ((ents 0 (many m)).map Prod.fst).map (keyL toy) := by rw [List.map_map]; rfl
    rw [this, ents_fst]
  have hf : (firsts (tokE toy) [] (ents 0 (many m))).filter (overE toy toyDist) = [] := by
    rw [List.filter_eq_nil_iff]
    intro e he
    have h1 := (firsts_sublist _ _).subset he
    have h2 : keyL toy e.1 ∈ (many m).map (keyL toy) := by
      rw [← hk]; exact List.mem_map_of_mem h1
    rw [many_key (by omega)] at h2
    obtain ⟨i, hi, h3⟩ := List.mem_map.1 h2
    have hi := List.mem_range.1 hi
    show ¬ (toyDist (keyL toy e.1) == 1) = true
    rw [← h3]
    have : Char.ofNat (97 + i / 26) ≠ 'X' := by
      intro hx
      have := ofNat_inj (b := 88) (by omega) (by omega) hx
      omega
    simp [toyDist, this]
  rw [hf, hk, hlen]
  simp

/-- 511 distinct normal lines, an anomaly, and two repeated lines -/
def tail27 : List LogLine := [toyL "X" 512, toyL "aa" 513, toyL "aa" 514]
def lines27 : List LogLine := many 511 ++ tail27

theorem many_reads (m : Nat) (hm : m < 512) (tl : List LogLine) (h : ∀ l ∈ tl, l.1.all (· < 128) = true)
    (h' : ∀ l ∈ toySrc tl, contains MARKER l.text = false) :
    Spec.Reads toy.decode (many m ++ tl) (toySrc (many m ++ tl)) ∧ Spec.NoMarker (toySrc (many m ++ tl)) := by
  constructor
  · apply toySrc_reads
    intro l hl
    rcases List.mem_append.1 hl with hl | hl
    · obtain ⟨i, hi, rfl⟩ := many_mem hl
      have := many_text (i := i) (by omega)
      by_contra hc
      have h0 : toy.decode [UInt8.ofNat (97 + i / 26), UInt8.ofNat (97 + i % 26)] = none := if_neg hc
      rw [h0] at this
      cases this
    · exact h l hl
  · rw [noMarker_iff]
    intro l hl
    unfold toySrc at hl
    rw [List.map_append] at hl
    rcases List.mem_append.1 hl with hl | hl
    · obtain ⟨x, hx, rfl⟩ := List.mem_map.1 hl
      obtain ⟨raw, h1, h2⟩ := many_plain (by omega) x hx
      show contains MARKER ((toy.decode x.1).getD []) = false
      rw [h1]; exact h2
    · exact h' l hl

/-- the windows of the run, by evaluation -/
theorem windows27 : runWindows toy toyDist [] lines27 (toySrc lines27) = [⟨511, 3, 0⟩] := by
  unfold runWindows lines27
  rw [process_many 511 (by decide) tail27, many_positions 511 (by decide) tail27, many_key (by decide)]
  decide +kernel

/-- C27 does not hold in full: the two lines after the anomaly are missing from its context. -/
theorem C27_false : Spec.Reads toy.decode lines27 (toySrc lines27) ∧ Spec.NoMarker (toySrc lines27) ∧
    ¬ AfterComplete (runWindows toy toyDist [] lines27 (toySrc lines27)) (toySrc lines27).length := by
  obtain ⟨h1, h2⟩ := many_reads 511 (by decide) tail27 (by decide +kernel) (by decide +kernel)
  refine ⟨h1, h2, ?_⟩
  have n : (toySrc lines27).length = 514 := by simp [toySrc, lines27, many, tail27]
  rw [windows27, n]
  intro h
  have := h.2 ⟨511, 3, 0⟩ (by decide)
  revert this
  decide

/-- the same normal line, again and again -/
def rep (n : Nat) : List LogLine := (List.range n).map fun i => ([97, 97], i + 1)

theorem rep_mem {n : Nat} {l : LogLine} (h : l ∈ rep n) : l.1 = [97, 97] := by
  obtain ⟨i, _, rfl⟩ := List.mem_map.1 h
  rfl

/-- lines whose tokens are known enter the buffer only -/
def buffered (ls : List LogLine) (s : St D) : St D :=
  { s with
    buffer := s.buffer ++ ents s.coord ls
    coord := s.coord + ls.length
    lineCount := s.lineCount + ls.length
    byteCount := s.byteCount + (ls.map fun l => l.1.length).sum }

theorem read_known {env : Env D} (ls : List LogLine) (s : St D) (hp : Plain env ls)
    (hk : ∀ l ∈ ls, keyL env l ∈ s.skipLines) (hlen : s.buffer.length + ls.length ≤ 5120) (tl : List (Ev ε)) :
    readAnomalies env (ls.map Except.ok ++ tl) s = readAnomalies env tl (buffered ls s) := by
  induction ls generalizing s with
  | nil => simp [buffered, ents]
  | cons l ls ih =>
    obtain ⟨raw, hd, hm⟩ := hp l (by simp)
    have hk' : env.tokenize raw ∈ s.skipLines := by
      have := hk l (by simp)
      unfold keyL at this
      rw [hd] at this
      exact this
    have hpush : (s.count l).push env l raw = buffered [l] s := by
      unfold St.push
      have e : (s.count l).skipLines = s.skipLines := rfl
      simp only [e, if_pos hk']
      simp [St.count, buffered, ents]
    simp only [List.length_cons] at hlen
    show readAnomalies env (.ok l :: (ls.map Except.ok ++ tl)) s = _
    rw [readAnomalies_line _ _ _ _ hd hm]
    have hfull : ((s.count l).push env l raw).full (!decide (env.tokenize raw ∈ s.skipLines)) = false := by
      rw [hpush]
      simp [St.full, hk', buffered, ents, CHUNK_SIZE]
      omega
    have hline : s.line env l raw = some (buffered [l] s) := by
      unfold St.line
      have e : (s.count l).skipLines = s.skipLines := rfl
      rw [hpush] at hfull
      simp only [e, hpush, hfull]
      rfl
    rw [hline, hfull]
    simp only [Option.bind_some, Bool.false_eq_true, false_and, if_false]
    rw [ih]
    · congr 1
      simp [buffered, ents, Nat.add_assoc, Nat.add_comm 1]
    · exact fun x hx => hp x (by simp [hx])
    · exact fun x hx => hk x (by simp [hx])
    · simp [buffered, ents]; omega

/-- an anomaly as 5120th line after repeated lines, one more repeated line, and another anomaly -/
def tail28 : List LogLine := [toyL "X" 5120, toyL "aa" 5121, toyL "Xa" 5122]
def lines28 : List LogLine := rep 5119 ++ tail28

theorem rep_key (l : LogLine) (h : l.1 = [97, 97]) : keyL toy l = ['a', 'a'] := by
  unfold keyL
  rw [h]
  decide +kernel

theorem rep_plain (n : Nat) : Plain toy (rep n) := by
  intro l hl
  refine ⟨['a', 'a'], ?_, by decide +kernel⟩
  rw [rep_mem hl]
  decide +kernel

/-- the state after `n + 1` repeated lines -/
def stateRep (n : Nat) : St Nat :=
  ⟨ents 0 (rep (n + 1)), [['a', 'a']], [1], [], none, [], [['a', 'a']], n + 1, n + 1, 2 * (n + 1)⟩

theorem rep_cons (n : Nat) : rep (n + 1) = ([97, 97], 1) :: (List.range n).map fun i => ([97, 97], i + 2) := by
  unfold rep
  rw [List.range_succ_eq_map]
  simp

theorem sum_const {α : Type} (f : α → Nat) (l : List α) (h : ∀ x ∈ l, f x = 2) : (l.map f).sum = 2 * l.length := by
  induction l with
  | nil => rfl
  | cons x l ih =>
    rw [List.map_cons, List.sum_cons, ih fun y hy => h y (by simp [hy]), h x (by simp), List.length_cons]
    omega

theorem process_rep (n : Nat) (hn : n < 5120) (tl : List LogLine) :
    process toy [] ((rep (n + 1) ++ tl).map (Except.ok (ε := Unit))) = collect toy (n + tl.length + 3) (tl.map Except.ok) (stateRep n) := by
  have hc := rep_cons n
  have hlen : ((rep (n + 1) ++ tl).map (Except.ok (ε := Unit))).length + 2 = n + tl.length + 2 + 1 := by simp [rep]; omega
  unfold process
  rw [hlen]
  apply collect_congr
  · rfl
  · rfl
  · have hp := rep_plain (n + 1)
    have hm : ∀ l ∈ rep (n + 1), l.1 = [97, 97] := fun l hl => rep_mem hl
    have hst : stateRep n = buffered ((List.range n).map fun i => ([97, 97], i + 2))
        (⟨[(([97, 97], 1), 1)], [['a', 'a']], [1], [], none, [], [['a', 'a']], 1, 1, 2⟩ : St Nat) := by
      unfold stateRep buffered
      rw [hc, sum_const _ _ (by intro x hx; obtain ⟨i, _, rfl⟩ := List.mem_map.1 hx; rfl)]
      simp only [ents, List.length_map, List.length_range, List.singleton_append, Nat.zero_add, St.mk.injEq, true_and]
      omega
    rw [List.map_append, hst]
    rw [hc] at hp hm ⊢
    rw [← read_known]
    · rw [List.map_cons, List.cons_append, readAnomalies_line _ _ _ ['a', 'a'] (by decide +kernel) (by decide +kernel)]
      have hl : (St.new [] : St Nat).line toy ([97, 97], 1) ['a', 'a'] =
          some ⟨[(([97, 97], 1), 1)], [['a', 'a']], [1], [], none, [], [['a', 'a']], 1, 1, 2⟩ := by decide +kernel
      rw [hl]
      simp
    · exact fun l hl => hp l (List.mem_cons_of_mem _ hl)
    · intro l hl
      rw [rep_key l (hm l (List.mem_cons_of_mem _ hl))]
      simp
    · simp; omega

theorem positions28 : Spec.positions toy.tokenize toyDist toy.over [] (toySrc lines28) = [5119, 5121] := by
  have hlen : (rep 5119).length = 5119 := by simp [rep]
  unfold toySrc lines28
  rw [positions_eq, ents_append, firsts_append, List.filter_append, List.map_append]
  have hk : ∀ e ∈ ents 0 (rep 5119), tokE toy e = ['a', 'a'] := by
    intro e he
    refine rep_key e.1 (rep_mem (n := 5119) ?_)
    rw [← ents_fst 0 (rep 5119)]
    exact List.mem_map_of_mem he
  have hf : (firsts (tokE toy) [] (ents 0 (rep 5119))).filter (overE toy toyDist) = [] := by
    rw [List.filter_eq_nil_iff]
    intro e he
    have := hk e ((firsts_sublist _ _).subset he)
    show ¬ (toyDist (tokE toy e) == 1) = true
    rw [this]; decide
  rw [hf, hlen]
  have hc : firsts (tokE toy) ([] ++ (ents 0 (rep 5119)).map (tokE toy)) (ents (0 + 5119) tail28) =
      firsts (tokE toy) [['a', 'a']] (ents (0 + 5119) tail28) := by
    apply firsts_congr
    intro x
    rw [List.nil_append, List.mem_singleton, List.mem_map]
    constructor
    · rintro ⟨e, he, rfl⟩; exact hk e he
    · rintro rfl
      exact ⟨(([97, 97], 1), 1), by unfold rep; rw [List.range_succ_eq_map]; simp [ents], by decide +kernel⟩
  rw [hc]
  decide +kernel

theorem windows28 : runWindows toy toyDist [] lines28 (toySrc lines28) = [⟨5119, 3, 1⟩, ⟨5121, 1, 0⟩] := by
  unfold runWindows
  rw [positions28, show lines28 = rep (5118 + 1) ++ tail28 from rfl, process_rep 5118 (by decide)]
  decide +kernel

theorem reads28 : Spec.Reads toy.decode lines28 (toySrc lines28) ∧ Spec.NoMarker (toySrc lines28) := by
  have h : ∀ l ∈ lines28, l.1 = [97, 97] ∨ l ∈ tail28 := by
    intro l hl
    rcases List.mem_append.1 hl with h | h
    · exact .inl (rep_mem h)
    · exact .inr h
  constructor
  · apply toySrc_reads
    intro l hl
    rcases h l hl with h | h
    · rw [h]; decide
    · have : ∀ l ∈ tail28, l.1.all (· < 128) = true := by decide +kernel
      exact this l h
  · rw [noMarker_iff]
    intro x hx
    obtain ⟨l, hl, rfl⟩ := List.mem_map.1 hx
    rcases h l hl with h | h
    · show contains MARKER ((toy.decode l.1).getD []) = false
      rw [h]; decide +kernel
    · have : ∀ l ∈ tail28, contains MARKER (lineL toy l).text = false := by decide +kernel
      exact this l h

/-- C28 does not hold in full: the line between the anomalies is shown twice. -/
theorem C28_false : Spec.Reads toy.decode lines28 (toySrc lines28) ∧ Spec.NoMarker (toySrc lines28) ∧
    ¬ NoOverlap (runWindows toy toyDist [] lines28 (toySrc lines28)) := by
  refine ⟨reads28.1, reads28.2, ?_⟩
  rw [windows28]
  intro h
  have := h [] ⟨5119, 3, 1⟩ ⟨5121, 1, 0⟩ [] rfl
  revert this
  decide

/-- A state where 512 targets are pending is reached (the bound of C29 is exact). -/
example : ∃ s, Reach toy true s ∧ s.targets.length = 512 := by
  have hlen : (many 511).length = 511 := by simp [many]
  obtain ⟨h1, h2, _⟩ := reach_new (env := toy) (many 511) (St.new []) (.start []) rfl (many_plain (by omega)) (many_nodup (by omega))
    (by simp [St.new]) (by rw [hlen]; decide)
  have hd : toy.decode (toyL "X" 512).1 = some "X".toList := by decide +kernel
  have h3 := Reach.line h1 h2 hd (by decide +kernel)
  have hnew : toy.tokenize "X".toList ∉ (pushAll toy (many 511) (St.new [])).skipLines := by
    show "X".toList ∉ ((many 511).map (keyL toy)).reverse ++ []
    rw [List.append_nil, List.mem_reverse, many_key (by decide)]
    intro hm
    obtain ⟨i, _, hi⟩ := List.mem_map.1 hm
    have := congrArg List.length hi
    simp at this
  have ht : (((pushAll toy (many 511) (St.new [])).count (toyL "X" 512)).push toy (toyL "X" 512) "X".toList).targets.length = 512 := by
    unfold St.push
    have e : ((pushAll toy (many 511) (St.new [])).count (toyL "X" 512)).skipLines = (pushAll toy (many 511) (St.new [])).skipLines := rfl
    simp only [e, if_neg hnew]
    simp [St.count, pushAll, St.new, hlen]
  refine ⟨_, ?_, ht⟩
  have hf : (((pushAll toy (many 511) (St.new [])).count (toyL "X" 512)).push toy (toyL "X" 512) "X".toList).full
      (!decide (toy.tokenize "X".toList ∈ (pushAll toy (many 511) (St.new [])).skipLines)) = true := by
    unfold St.full
    rw [ht]
    have : (!decide (toy.tokenize "X".toList ∈ (pushAll toy (many 511) (St.new [])).skipLines)) = true := by
      rw [decide_eq_false hnew]; rfl
    rw [this]
    rfl
  rw [hf] at h3
  exact h3

end LJ.Process

/-
A small concrete processor, for the examples and the counterexamples.
-/
import Verif.Process.Train
import Verif.Process.Full
import Mathlib.Data.List.Nodup
namespace LJ.Process
open Spec (firsts cuts)
variable {D ε : Type} {env : Env D} {dist : Str → D}

/-- bytes are ASCII, tokens are the text, a line starting with `X` is anomalous -/
def toyDist (t : Str) : Nat := if t.head? = some 'X' then 1 else 0
def toy : Env Nat where
  decode bs := if bs.all (· < 128) then some (bs.map fun b => Char.ofNat b.toNat) else none
  tokenize := id
  search ts := ts.map toyDist
  over d := d == 1

theorem toy_pointwise : Spec.Pointwise toy.search toyDist := fun _ => rfl

/-- a line of the toy reader and of the source -/
def toyL (s : String) (n : Nat) : LogLine := (s.toList.map fun c => UInt8.ofNat c.toNat, n)
def toyS (s : String) (n : Nat) : Spec.Line := ⟨s.toList, n⟩

def lines1 : List LogLine := [toyL "a" 1, toyL "b" 2, toyL "X1" 3, toyL "c" 4, toyL "X1" 5, toyL "X2" 6, toyL "d" 7]
def src1 : List Spec.Line := [toyS "a" 1, toyS "b" 2, toyS "X1" 3, toyS "c" 4, toyS "X1" 5, toyS "X2" 6, toyS "d" 7]

instance (decode : Bytes → Option Str) (lines : List LogLine) (src : List Spec.Line) : Decidable (Spec.Reads decode lines src) :=
  inferInstanceAs (Decidable (List.Forall₂ _ _ _))

theorem noMarker_iff (src : List Spec.Line) : Spec.NoMarker src ↔ ∀ l ∈ src, contains MARKER l.text = false := by
  unfold Spec.NoMarker
  constructor
  · intro h l hl; rw [← Bool.not_eq_true, contains_iff]; exact h l hl
  · intro h l hl; have := h l hl; rw [← Bool.not_eq_true, contains_iff] at this; exact this

theorem reads1 : Spec.Reads toy.decode lines1 src1 := by decide +kernel
theorem noMarker1 : Spec.NoMarker src1 := (noMarker_iff _).2 (by decide +kernel)


/-- lines for the counterexamples: `n` distinct normal lines -/
def many (n : Nat) : List LogLine :=
  (List.range n).map fun i => ([UInt8.ofNat (97 + i / 26), UInt8.ofNat (97 + i % 26)], i + 1)
def toySrc (lines : List LogLine) : List Spec.Line := lines.map (lineL toy)

theorem toySrc_reads {lines : List LogLine} (h : ∀ l ∈ lines, l.1.all (· < 128) = true) : Spec.Reads toy.decode lines (toySrc lines) := by
  induction lines with
  | nil => exact .nil
  | cons l lines ih =>
    refine .cons ⟨?_, rfl⟩ (ih fun x hx => h x (by simp [hx]))
    have h1 := h l (by simp)
    have h2 : toy.decode l.1 = some (l.1.map fun b => Char.ofNat b.toNat) := by
      show (if _ then _ else _) = _
      rw [if_pos h1]
    simp only [lineL, h2, Option.getD_some]

theorem many_mem {n : Nat} {l : LogLine} (h : l ∈ many n) :
    ∃ i < n, l = ([UInt8.ofNat (97 + i / 26), UInt8.ofNat (97 + i % 26)], i + 1) := by
  obtain ⟨i, hi, rfl⟩ := List.mem_map.1 h
  exact ⟨i, List.mem_range.1 hi, rfl⟩

/-! ### Reading many new lines -/

/-- the state after new lines -/
def pushAll (env : Env D) (ls : List LogLine) (s : St D) : St D :=
  { s with
    buffer := s.buffer ++ ents s.coord ls
    targets := s.targets ++ ls.map (keyL env)
    targetsCoord := s.targetsCoord ++ (ents s.coord ls).map Prod.snd
    skipLines := (ls.map (keyL env)).reverse ++ s.skipLines
    coord := s.coord + ls.length
    lineCount := s.lineCount + ls.length
    byteCount := s.byteCount + (ls.map fun l => l.1.length).sum }

theorem pushAll_cons {l : LogLine} {raw : Str} (hd : env.decode l.1 = some raw) (ls : List LogLine) (s : St D)
    (hn : env.tokenize raw ∉ s.skipLines) : pushAll env (l :: ls) s = pushAll env ls ((s.count l).push env l raw) := by
  have hk : keyL env l = env.tokenize raw := by simp [keyL, hd]
  unfold St.push
  have e : (s.count l).skipLines = s.skipLines := rfl
  simp only [e, if_neg hn]
  simp [pushAll, St.count, ents, hk, Nat.add_assoc, Nat.add_comm 1]

theorem reach_new (ls : List LogLine) (s : St D) (h : Reach env false s) (ha : s.anomalies = []) (hp : Plain env ls)
    (hnd : (ls.map (keyL env)).Nodup) (hnew : ∀ l ∈ ls, keyL env l ∉ s.skipLines) (hlen : s.targets.length + ls.length < 512) :
    Reach env false (pushAll env ls s) ∧ (pushAll env ls s).anomalies = [] ∧
      ∀ (ε : Type) (tl : List (Ev ε)), readAnomalies env (ls.map Except.ok ++ tl) s = readAnomalies env tl (pushAll env ls s) := by
  induction ls generalizing s with
  | nil =>
    have : pushAll env [] s = s := by simp [pushAll, ents]
    rw [this]
    exact ⟨h, ha, fun _ _ => rfl⟩
  | cons l ls ih =>
    obtain ⟨raw, hd, hm⟩ := hp l (by simp)
    have hk : keyL env l = env.tokenize raw := by simp [keyL, hd]
    have hn : env.tokenize raw ∉ s.skipLines := by rw [← hk]; exact hnew l (by simp)
    rw [List.map_cons, List.nodup_cons] at hnd
    rw [List.length_cons] at hlen
    have hpush : (s.count l).push env l raw = { s.count l with
        buffer := s.buffer ++ [(l, s.coord + 1)]
        skipLines := env.tokenize raw :: s.skipLines
        targets := s.targets ++ [env.tokenize raw]
        targetsCoord := s.targetsCoord ++ [s.coord + 1] } := by
      unfold St.push
      have e : (s.count l).skipLines = s.skipLines := rfl
      simp only [e, if_neg hn]
      rfl
    have hfull : ((s.count l).push env l raw).full (!decide (env.tokenize raw ∈ s.skipLines)) = false := by
      unfold St.full
      rw [hpush]
      simp [hn, CHUNK_SIZE]
      omega
    have h1 := Reach.line h ha hd hm
    rw [hfull] at h1
    rw [pushAll_cons hd ls s hn]
    obtain ⟨g1, g2, g3⟩ := ih ((s.count l).push env l raw) h1 (by rw [hpush]; exact ha) (fun x hx => hp x (by simp [hx])) hnd.2
      (by
        intro x hx
        rw [hpush]
        simp only [List.mem_cons, not_or]
        refine ⟨?_, hnew x (by simp [hx])⟩
        intro he
        exact hnd.1 (by rw [hk, ← he]; exact List.mem_map_of_mem hx))
      (by rw [hpush]; simp; omega)
    refine ⟨g1, g2, fun ε tl => ?_⟩
    rw [List.map_cons, List.cons_append, readAnomalies_line _ s l raw hd hm]
    have hl : s.line env l raw = some ((s.count l).push env l raw) := by
      unfold St.line
      have e : (s.count l).skipLines = s.skipLines := rfl
      simp only [e, hfull]
      rfl
    rw [hl]
    simp only [Option.bind_some, hfull, Bool.false_eq_true, false_and, if_false]
    exact g3 ε tl

theorem firsts_new {α : Type} {key : α → Str} (xs : List α) (seen : List Str) (hn : (xs.map key).Nodup) (h : ∀ x ∈ xs, key x ∉ seen) :
    firsts key seen xs = xs := by
  induction xs generalizing seen with
  | nil => rfl
  | cons x xs ih =>
    rw [List.map_cons, List.nodup_cons] at hn
    rw [firsts_cons, if_neg (h x (by simp)), ih _ hn.2]
    intro y hy
    rw [List.mem_cons, not_or]
    refine ⟨?_, h y (by simp [hy])⟩
    intro he
    exact hn.1 (by rw [← he]; exact List.mem_map_of_mem hy)

theorem many_text {i : Nat} (h : i < 800) : toy.decode [UInt8.ofNat (97 + i / 26), UInt8.ofNat (97 + i % 26)] =
    some [Char.ofNat (97 + i / 26), Char.ofNat (97 + i % 26)] := by
  have h1 : (UInt8.ofNat (97 + i / 26)).toNat = 97 + i / 26 := by rw [UInt8.toNat_ofNat']; omega
  have h2 : (UInt8.ofNat (97 + i % 26)).toNat = 97 + i % 26 := by rw [UInt8.toNat_ofNat']; omega
  have h3 : UInt8.ofNat (97 + i / 26) < 128 := by rw [UInt8.lt_iff_toNat_lt, h1]; show 97 + i / 26 < 128; omega
  have h4 : UInt8.ofNat (97 + i % 26) < 128 := by rw [UInt8.lt_iff_toNat_lt, h2]; show 97 + i % 26 < 128; omega
  have h5 : ([UInt8.ofNat (97 + i / 26), UInt8.ofNat (97 + i % 26)] : Bytes).all (· < 128) = true := by
    rw [List.all_cons, List.all_cons, decide_eq_true h3, decide_eq_true h4]; rfl
  show (if _ then some _ else none) = _
  rw [if_pos h5]
  simp only [List.map_cons, List.map_nil, h1, h2]

theorem ofNat_inj {a b : Nat} (ha : a < 256) (hb : b < 256) (h : Char.ofNat a = Char.ofNat b) : a = b := by
  have key : ∀ n, n < 256 → (Char.ofNat n).toNat = n := by decide +kernel
  have h1 := key a ha
  have h2 := key b hb
  rw [← h1, ← h2, h]

theorem many_key {n : Nat} (h : n ≤ 800) : (many n).map (keyL toy) =
    (List.range n).map fun i => [Char.ofNat (97 + i / 26), Char.ofNat (97 + i % 26)] := by
  unfold many
  rw [List.map_map]
  apply List.map_congr_left
  intro i hi
  have := List.mem_range.1 hi
  show toy.tokenize ((toy.decode _).getD []) = _
  rw [many_text (by omega)]
  rfl

theorem many_nodup {n : Nat} (h : n ≤ 800) : ((many n).map (keyL toy)).Nodup := by
  rw [many_key h]
  apply List.Nodup.map_on _ List.nodup_range
  intro i hi j hj he
  have h1 := List.mem_range.1 hi
  have h2 := List.mem_range.1 hj
  simp only [List.cons.injEq, and_true] at he
  have := ofNat_inj (by omega) (by omega) he.1
  have := ofNat_inj (by omega) (by omega) he.2
  omega

theorem many_plain {n : Nat} (h : n ≤ 800) : Plain toy (many n) := by
  intro l hl
  obtain ⟨i, hi, rfl⟩ := many_mem hl
  refine ⟨_, many_text (by omega), ?_⟩
  rw [← Bool.not_eq_true, contains_iff]
  intro hc
  have := hc.length_le
  have e : MARKER.length = 18 := by decide
  rw [e] at this
  simp at this

end LJ.Process

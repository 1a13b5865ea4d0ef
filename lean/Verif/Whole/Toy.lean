/-
A concrete machine: two baseline lines, a target with a known line whose date and number changed, and a new one.
-/
import Verif.Whole.Text
namespace LJ.Whole
open LJ.Process (Str Bytes)
open LJ.Report (train report)
open Spec (utf8 textFile PlainLine Ordinary reported)

/-- The words are hashed as numbers in base 31, and the files are read byte by byte. -/
noncomputable def toyMachine (files : Str → Option Bytes) : Machine where
  wd := Char.isAlphanum
  hash w := w.foldl (fun h c => h * 31 + c.toNat) 0
  fp := LJ.Index.FP.exact
  checks := true
  files := files
  walk _ := []
  cut _ d := d.map fun b => [b]
  gunzip := id

theorem toyMachine_ordinary (files : Str → Option Bytes) : Ordinary (toyMachine files) where
  fp := ⟨(LJ.Index.twoRoundings_standard LJ.Index.rounding_id).err, (LJ.Index.twoRoundings_standard LJ.Index.rounding_id).nat,
    (LJ.Index.twoRoundings_standard LJ.Index.rounding_id).acc⟩
  blocks := by
    intro p d b hb
    obtain ⟨x, _, rfl⟩ := List.mem_map.1 hb
    exact ⟨by simp, by simp⟩
  whole := by
    intro p d
    show (d.map fun b => [b]).flatten = d
    induction d with
    | nil => rfl
    | cons x d ih => rw [List.map_cons, List.flatten_cons, ih]; rfl

def oldLines : List Str := ["2023-01-12 service started with pid 4321".toList, "client connected".toList]
def newLines : List Str := ["2024-02-28 service started with pid 998877".toList, "volume vanished quickly".toList, "client connected".toList]

noncomputable def toyDisk : Machine := toyMachine fun p =>
  if p = "old.log".toList then some (textFile oldLines) else if p = "new.log".toList then some (textFile newLines) else none

/-- One line is reported, with its number. -/
example : ∃ m r, train toyDisk.world id [.file "old.log".toList] = .ok m ∧ report toyDisk.world m id (.file "new.log".toList) = some (.ok r) ∧
    reported r = [(2, "volume vanished quickly".toList)] := by
  have hplain : ∀ l ∈ oldLines ++ newLines, PlainLine l := by
    intro l hl
    unfold PlainLine
    rw [utf8_eq]
    revert l
    decide +kernel
  have htok : (newLines[0]?.map toyDisk.tok = oldLines[0]?.map toyDisk.tok ∧ newLines[2]?.map toyDisk.tok = oldLines[1]?.map toyDisk.tok) ∧
      (newLines.map toyDisk.tok).Nodup := by
    have e : toyDisk.tok = LJ.Tokenizer.process Char.isAlphanum := rfl
    rw [e]
    decide +kernel
  obtain ⟨m, r, dist, g1, g2, _, _, _, g6, g7, g8⟩ := C88_diff (toyMachine_ordinary _) (M := toyDisk) (o1 := id) (o2 := id) (fun _ => .rfl) (fun _ => .rfl)
    (a := "old.log".toList) (b := "new.log".toList) (la := oldLines) (lb := newLines) rfl rfl
    (fun l hl => hplain l (by simp [hl])) (fun l hl => hplain l (by simp [hl]))
    (by decide +kernel) (by decide +kernel) (by decide +kernel) (by decide +kernel) (by decide +kernel)
  refine ⟨m, r, g1, g2, ?_⟩
  have hin : ∀ i l, (i, l) ∈ reported r ↔ (i, l) = (2, "volume vanished quickly".toList) := by
    intro i l
    rw [g7]
    constructor
    · rintro ⟨k, rfl, k1, _, k3⟩
      have hk : k < 3 := (List.getElem?_eq_some_iff.1 k1).1
      have hknown : ∀ x ∈ oldLines, ∀ y, newLines[k]? = some y → toyDisk.tok y = toyDisk.tok x → False := by
        intro x hx y hy e
        rw [k1] at hy
        cases hy
        exact near_known g6 (List.mem_map.2 ⟨x, hx, e.symm⟩) k3
      have : k = 0 ∨ k = 1 ∨ k = 2 := by omega
      rcases this with rfl | rfl | rfl
      · exact (hknown _ (by simp [oldLines]) _ rfl (Option.some.inj htok.1.1)).elim
      · cases k1; rfl
      · exact (hknown _ (by simp [oldLines]) _ rfl (Option.some.inj htok.1.2)).elim
    · intro e
      cases e
      refine ⟨1, rfl, rfl, ?_, near_new g6 ?_⟩
      · intro j hj l' hl' e
        have : j = 0 := by omega
        subst this
        cases hl'
        have h := htok.2
        simp only [newLines, List.map_cons, List.nodup_cons, List.mem_cons, not_or] at h
        exact h.1.1 e
      · have hno : ∀ b ∈ oldLines.map (LJ.Tokenizer.process Char.isAlphanum), ∀ w ∈ b.splitOn ' ',
            ∀ w' ∈ (LJ.Tokenizer.process Char.isAlphanum "volume vanished quickly".toList).splitOn ' ',
            w.foldl (fun h c => h * 31 + c.toNat) 0 % 260000 ≠ w'.foldl (fun h c => h * 31 + c.toNat) 0 % 260000 := by decide +kernel
        rintro b hb ⟨w, hw, w', hw', e⟩
        exact hno b hb w hw w' hw' e
  have hlen : (reported r).length ≤ 1 := by
    match hr : reported r with
    | [] => simp
    | [_] => simp
    | x :: y :: t =>
      have hx := (hin x.1 x.2).1 (by rw [hr]; simp)
      have hy := (hin y.1 y.2).1 (by rw [hr]; simp)
      rw [hr] at g8
      simp only [List.map_cons, List.pairwise_cons, List.mem_cons] at g8
      have := g8.1 y.1 (.inl rfl)
      have h1 : x.1 = 2 := congrArg Prod.fst hx
      have h2 : y.1 = 2 := congrArg Prod.fst hy
      omega
  have hmem : (2, "volume vanished quickly".toList) ∈ reported r := (hin _ _).2 rfl
  match hr : reported r with
  | [] => rw [hr] at hmem; cases hmem
  | [x] => rw [hr, List.mem_singleton] at hmem; rw [hmem]
  | x :: y :: t => rw [hr] at hlen; simp at hlen

/-! ### Blank lines, a backslash, an unterminated last line -/

def oldText : Str := "service started\n".toList
def newText : Str := "\nservice started\nC:\\temp vanished".toList

noncomputable def toyTexts : Machine := toyMachine fun p =>
  if p = "old.log".toList then some (utf8 oldText) else if p = "new.log".toList then some (utf8 newText) else none

example : ∃ m r, train toyTexts.world id [.file "old.log".toList] = .ok m ∧ report toyTexts.world m id (.file "new.log".toList) = some (.ok r) ∧
    r.totalLineCount = 2 ∧ (∀ l, (2, l) ∉ reported r) ∧ (3, "C:\\temp vanished".toList) ∈ reported r := by
  have hp : ∀ t ∈ [oldText, newText], Spec.PlainText t := by
    intro t ht
    refine ⟨?_, ?_, ?_⟩
    · revert t; decide +kernel
    · revert t; decide +kernel
    · intro l hl
      rw [utf8_eq]
      have : ∀ t ∈ [oldText, newText], ∀ l ∈ t.splitOn '\n', (l.flatMap String.utf8EncodeChar).length < 6000 := by decide +kernel
      exact this t ht l hl
  have hsp : newText.splitOn '\n' = [[], "service started".toList, "C:\\temp vanished".toList] := by decide +kernel
  have hline : ∀ i l, Spec.IsLine newText i l → (i = 2 ∧ l = "service started".toList) ∨ (i = 3 ∧ l = "C:\\temp vanished".toList) := by
    rintro i l ⟨h1, h2, h3⟩
    rw [hsp] at h3
    match i, h2 with
    | 1, _ => simp at h3; exact absurd h3 h1
    | 2, _ => simp at h3; exact .inl ⟨rfl, h3.symm⟩
    | 3, _ => simp at h3; exact .inr ⟨rfl, h3.symm⟩
    | n + 4, _ => simp at h3
  obtain ⟨m, r, dist, g1, g2, _, _, g5, g6, g7, _⟩ := C88_texts (toyMachine_ordinary _) (M := toyTexts) (o1 := id) (o2 := id) (fun _ => .rfl) (fun _ => .rfl)
    (a := "old.log".toList) (b := "new.log".toList) (ta := oldText) (tb := newText) rfl rfl (hp _ (by simp)) (hp _ (by simp))
    (by decide +kernel) (by decide +kernel) (by decide +kernel) (by decide +kernel) (by
      intro i l hl
      rcases hline i l hl with ⟨_, rfl⟩ | ⟨_, rfl⟩ <;> decide +kernel)
  have hknown : ((oldText.splitOn '\n').filter fun l => decide (l ≠ [])) = ["service started".toList] := by decide +kernel
  rw [hknown] at g6
  refine ⟨m, r, g1, g2, by rw [g5, hsp]; decide, ?_, ?_⟩
  · intro l hl
    obtain ⟨k1, _, k3⟩ := (g7 2 l).1 hl
    rcases hline 2 l k1 with ⟨_, rfl⟩ | ⟨h, _⟩
    · exact near_known g6 (by simp) k3
    · omega
  · refine (g7 3 _).2 ⟨⟨by decide, by decide, by rw [hsp]; rfl⟩, ?_, near_new g6 ?_⟩
    · intro j l' hj hl' e
      rcases hline j l' hl' with ⟨_, rfl⟩ | ⟨h, _⟩
      · have hne : LJ.Tokenizer.process Char.isAlphanum "service started".toList ≠ LJ.Tokenizer.process Char.isAlphanum "C:\\temp vanished".toList := by decide +kernel
        exact hne e
      · omega
    · have hno : ∀ b ∈ ["service started".toList].map (LJ.Tokenizer.process Char.isAlphanum), ∀ w ∈ b.splitOn ' ',
          ∀ w' ∈ (LJ.Tokenizer.process Char.isAlphanum "C:\\temp vanished".toList).splitOn ' ',
          w.foldl (fun h c => h * 31 + c.toNat) 0 % 260000 ≠ w'.foldl (fun h c => h * 31 + c.toNat) 0 % 260000 := by decide +kernel
      rintro b hb ⟨w, hw, w', hw', e⟩
      exact hno b hb w hw w' hw' e

end LJ.Whole

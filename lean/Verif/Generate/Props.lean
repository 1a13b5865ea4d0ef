/-
Properties of the generator: C69.
-/
import Verif.Generate.Model
import Verif.Generate.Spec
import Verif.Output.Props
namespace LJ.Generate
open Spec (Word Line)

variable {σ : Type} (rng : Rng σ)

theorem alnum_of_mem : ∀ c ∈ alphanumeric, c.isAlphanum = true := by decide +kernel

theorem samples_spec : ∀ (n : Nat) (s : σ), (samples rng n s).1.length = n ∧ ∀ c ∈ (samples rng n s).1, c.isAlphanum = true
  | 0, s => ⟨rfl, by simp [samples]⟩
  | n + 1, s => by
    obtain ⟨h1, h2⟩ := samples_spec n (rng.sample s).2
    refine ⟨by simp only [samples, List.length_cons, h1], ?_⟩
    intro c hc
    simp only [samples, List.mem_cons] at hc
    rcases hc with rfl | hc
    · exact alnum_of_mem _ (rng.sample_alnum s)
    · exact h2 c hc

theorem words_spec : ∀ (n : Nat) (result : Str) (s : σ), ∃ ws : List Str, ws.length = n ∧ (∀ w ∈ ws, Word w) ∧
    (words rng n result s).1 = result ++ ws.flatMap fun w => w ++ [' ']
  | 0, result, s => ⟨[], rfl, by simp, by simp [words]⟩
  | n + 1, result, s => by
    have hlo := rng.range_lo 2 18 s (by decide)
    have hhi := rng.range_hi 2 18 s (by decide)
    obtain ⟨l1, l2⟩ := samples_spec rng (rng.range 2 18 s).1 (rng.range 2 18 s).2
    obtain ⟨ws, h1, h2, h3⟩ := words_spec n (result ++ (samples rng (rng.range 2 18 s).1 (rng.range 2 18 s).2).1 ++ [' '])
      (samples rng (rng.range 2 18 s).1 (rng.range 2 18 s).2).2
    refine ⟨(samples rng (rng.range 2 18 s).1 (rng.range 2 18 s).2).1 :: ws, by simp [h1], ?_, ?_⟩
    · intro w hw
      rcases List.mem_cons.1 hw with rfl | hw
      · exact ⟨by omega, by omega, l2⟩
      · exact h2 w hw
    · simp only [words]
      rw [h3]
      simp

theorem dropLast_words (ws : List Str) : (ws.flatMap fun w => w ++ [' ']).dropLast = [' '].intercalate ws := by
  induction ws with
  | nil => rfl
  | cons w ws ih =>
    cases ws with
    | nil => simp [List.intercalate]
    | cons v vs =>
      have hne : ((v :: vs).flatMap fun w => w ++ [' ']) ≠ [] := by simp
      rw [List.flatMap_cons, List.dropLast_append_of_ne_nil hne, ih]
      simp [List.intercalate, List.intersperse]

/-- A generated line has 2 to 9 words of 2 to 17 letters and digits, whatever the random numbers. -/
theorem C69_line (s : σ) : Line (genLine rng s).1 := by
  have hlo := rng.range_lo 2 10 s (by decide)
  have hhi := rng.range_hi 2 10 s (by decide)
  obtain ⟨ws, h1, h2, h3⟩ := words_spec rng (rng.range 2 10 s).1 [] (rng.range 2 10 s).2
  refine ⟨ws, by omega, by omega, h2, ?_⟩
  rw [← dropLast_words]
  simp only [genLine]
  rw [h3, List.nil_append]

/-- The words of a line are found back by cutting it at the spaces. -/
theorem line_split {l : Str} (ws : List Str) (hne : ws ≠ []) (hw : ∀ w ∈ ws, Word w) (e : l = [' '].intercalate ws) : l.splitOn ' ' = ws := by
  subst e
  apply List.splitOn_intercalate
  · intro w hm hs
    have := (hw w hm).2.2 ' ' hs
    revert this
    decide
  · exact hne

/-- So a generated line, cut at its spaces, has 2 to 9 words; it has no other space, and 5 to 161 characters. -/
theorem C69_words (s : σ) : 2 ≤ ((genLine rng s).1.splitOn ' ').length ∧ ((genLine rng s).1.splitOn ' ').length ≤ 9 ∧
    (∀ w ∈ (genLine rng s).1.splitOn ' ', Word w) ∧ 5 ≤ (genLine rng s).1.length ∧ (genLine rng s).1.length ≤ 161 := by
  obtain ⟨ws, h1, h2, h3, h4⟩ := C69_line rng s
  have hne : ws ≠ [] := by rintro rfl; simp at h1
  have hl : ∀ ws : List Str, (∀ w ∈ ws, Word w) → ws ≠ [] →
      3 * ws.length - 1 ≤ ([' '].intercalate ws).length ∧ ([' '].intercalate ws).length + 1 ≤ 18 * ws.length := by
    intro ws hw hne
    rw [← dropLast_words, List.length_dropLast]
    have : ∀ ws : List Str, (∀ w ∈ ws, Word w) → 3 * ws.length ≤ (ws.flatMap fun w => w ++ [' ']).length ∧
        (ws.flatMap fun w => w ++ [' ']).length ≤ 18 * ws.length := by
      intro ws
      induction ws with
      | nil => simp
      | cons w ws ih =>
        intro h
        have a := h w (by simp)
        have b := ih fun w hw => h w (by simp [hw])
        have a1 := a.1
        have a2 := a.2.1
        simp only [List.flatMap_cons, List.length_append, List.length_cons, List.length_nil] at b ⊢
        omega
    have h := this ws hw
    have : 0 < ws.length := List.length_pos_of_ne_nil hne
    omega
  rw [line_split ws hne h3 h4]
  have := hl ws h3 hne
  rw [← h4] at this
  exact ⟨h1, h2, h3, by omega, by omega⟩

/-- The iterator gives as many lines as asked, all well formed; asking for more lines does not change the
first ones. -/
theorem C69_lines : ∀ (n : Nat) (s : σ), (genLines rng n s).length = n ∧ (∀ l ∈ genLines rng n s, Line l) ∧
    ∀ m ≤ n, (genLines rng n s).take m = genLines rng m s
  | 0, s => ⟨rfl, by simp [genLines], fun m hm => by simp [Nat.le_zero.1 hm, genLines]⟩
  | n + 1, s => by
    obtain ⟨h1, h2, h3⟩ := C69_lines n (genLine rng s).2
    refine ⟨by simp [genLines, h1], ?_, ?_⟩
    · intro l hl
      simp only [genLines, List.mem_cons] at hl
      rcases hl with rfl | hl
      · exact C69_line rng s
      · exact h2 l hl
    · intro m hm
      cases m with
      | zero => rfl
      | succ m => simp only [genLines, List.take_succ_cons]; rw [h3 m (by omega)]

/-! ### The generated text is read back as the generated lines -/

/-- the bytes of an ASCII text -/
def bytes (l : Str) : LJ.Iterator.Bytes := l.map Char.toUInt8

theorem alnum_bytes : ∀ n < 128, (Char.ofNat n).isAlphanum = true → (Char.ofNat n).toUInt8 ≠ '\n'.toUInt8 ∧ (Char.ofNat n).toUInt8 ≠ '\\'.toUInt8 := by
  decide +kernel

theorem alnum_small (c : Char) (h : c.isAlphanum = true) : c.toNat < 128 := by
  simp only [Char.isAlphanum, Char.isAlpha, Char.isUpper, Char.isLower, Char.isDigit, Bool.or_eq_true, Bool.and_eq_true, decide_eq_true_eq] at h
  have e : c.toNat = c.val.toNat := rfl
  simp only [ge_iff_le, UInt32.le_iff_toNat_le] at h
  rw [e]
  rcases h with (h | h) | h
  · exact Nat.lt_of_le_of_lt h.2 (by decide)
  · exact Nat.lt_of_le_of_lt h.2 (by decide)
  · exact Nat.lt_of_le_of_lt h.2 (by decide)

theorem line_chars {l : Str} (h : Line l) : ∀ c ∈ l, c.toUInt8 ≠ '\n'.toUInt8 ∧ c.toUInt8 ≠ '\\'.toUInt8 := by
  obtain ⟨ws, h1, h2, h3, rfl⟩ := h
  intro c hc
  rw [← dropLast_words] at hc
  have hc := List.dropLast_sublist _ |>.subset hc
  obtain ⟨w, hw, hc⟩ := List.mem_flatMap.1 hc
  rcases List.mem_append.1 hc with hc | hc
  · have ha := (h3 w hw).2.2 c hc
    have := alnum_bytes c.toNat (alnum_small c ha)
    rw [Char.ofNat_toNat] at this
    exact this ha
  · rw [List.mem_singleton.1 hc]
    decide

/-- Written one per line in a file, any number of generated lines are read back as they are, with their
numbers, whatever the sizes of the reads. -/
theorem C69_read_back (checks : Bool) (n : Nat) (s : σ) (reads : List LJ.Iterator.Bytes) (hb : LJ.Iterator.Spec.Blocks reads)
    (hf : reads.flatten = (genLines rng n s).flatMap fun l => bytes l ++ ['\n'.toUInt8]) :
    LJ.Iterator.allLines (ε := Unit) (LJ.Iterator.build checks) false (LJ.Iterator.fromReads reads) =
      (((genLines rng n s).map bytes).zipIdx 1, .finished) := by
  apply LJ.Output.file_lines
  · intro t ht
    obtain ⟨l, hl, rfl⟩ := List.mem_map.1 ht
    have hline := (C69_lines rng n s).2.1 l hl
    have hc := line_chars hline
    have hlen : 0 < l.length ∧ l.length < 6000 := by
      have : ∀ (n : Nat) (s : σ), ∀ l ∈ genLines rng n s, 0 < l.length ∧ l.length < 6000 := by
        intro n
        induction n with
        | zero => intro s l hl; simp [genLines] at hl
        | succ n ih =>
          intro s l hl
          simp only [genLines, List.mem_cons] at hl
          rcases hl with rfl | hl
          · have := (C69_words rng s).2.2.2
            omega
          · exact ih _ l hl
      exact this n s l hl
    refine ⟨?_, ?_, by simpa [bytes] using hlen.1, by simpa [bytes] using hlen.2⟩
    · intro h
      obtain ⟨c, hm, e⟩ := List.mem_map.1 h
      exact (hc c hm).1 e
    · intro h
      obtain ⟨c, hm, e⟩ := List.mem_map.1 h
      exact (hc c hm).2 e
  · exact hb
  · rw [hf, LJ.Output.fileOf, List.flatMap_map]

/-- The text of the python binding is the lines with one line break between them. -/
theorem C69_python (seed : σ) (n : Nat) : (generate rng seed n).splitOn '\n' = if n = 0 then [[]] else genLines rng n seed := by
  have hj : ∀ ls : List Str, joinLines ls = ['\n'].intercalate ls := by
    intro ls
    induction ls with
    | nil => rfl
    | cons x xs ih =>
      cases xs with
      | nil => simp [joinLines, List.intercalate]
      | cons y ys => rw [joinLines, ih]; simp [List.intercalate, List.intersperse]
  obtain ⟨h1, h2, _⟩ := C69_lines rng n seed
  unfold generate
  rw [hj]
  split
  · rename_i h; subst h; rfl
  · rename_i h
    apply List.splitOn_intercalate
    · intro l hl hm
      exact (line_chars (h2 l hl) '\n' hm).1 rfl
    · intro e
      rw [e] at h1
      exact h h1.symm

/-- a generator: the state is a counter -/
def counter : Rng Nat where
  range lo hi s := (if lo < hi then lo + s % (hi - lo) else lo, s + 1)
  sample s := (alphanumeric[s % 62]'(Nat.mod_lt _ (by decide)), s + 7)
  range_lo lo hi s h := by simp only [if_pos h]; omega
  range_hi lo hi s h := by
    simp only [if_pos h]
    have := Nat.mod_lt s (Nat.sub_pos_of_lt h)
    omega
  sample_alnum s := List.getElem_mem _

example : (genLine counter 0).1 = "CJQ Yfmt07ELS".toList := by decide +kernel

end LJ.Generate

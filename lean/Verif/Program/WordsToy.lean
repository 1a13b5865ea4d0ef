/-
A case of C138.
-/
import Verif.Program.Words
import Verif.Program.Toy
namespace LJ.Program
open LJ.Process (Str Bytes)
open LJ.Paths (Input Source)
open LJ.Whole (Machine Local toyMachine toyMachine_ordinary)
open LJ.Report (train report)
open LJ.Whole.Spec (Ordinary)

def oldWords : List Str := ["service alpha started normally".toList]

/-- a line with one new word of four, and another with two -/
def newWords : List Str := ["service bravo started normally".toList, "service bravo stopped normally".toList]

noncomputable def wordDisk : Machine :=
  { toyMachine fun p =>
      if p = "old.log".toList then some (LJ.Whole.Spec.textFile oldWords) else if p = "new.log".toList then some (LJ.Whole.Spec.textFile newWords) else none with
    checks := false }

theorem wordDisk_ordinary : Ordinary wordDisk :=
  ⟨(toyMachine_ordinary wordDisk.files).fp, (toyMachine_ordinary wordDisk.files).blocks, (toyMachine_ordinary wordDisk.files).whole⟩

theorem words_plain : ∀ l ∈ oldWords ++ newWords, LJ.Whole.Spec.PlainLine l := by
  intro l hl
  have h : ∀ l ∈ oldWords ++ newWords, l ≠ [] ∧ '\n' ∉ l ∧ '\\' ∉ l ∧ (l.flatMap String.utf8EncodeChar).length < 6000 := by decide +kernel
  obtain ⟨h1, h2, h3, h4⟩ := h l hl
  exact ⟨h1, h2, h3, by rw [LJ.Whole.utf8_eq]; exact h4⟩

theorem oldWords_log : Spec.Log wordDisk toyOutside "old.log".toList oldWords :=
  ⟨rfl, by decide +kernel, rfl, fun l hl => words_plain l (by simp [hl]), by decide +kernel, by decide +kernel, by decide +kernel⟩

theorem newWords_log : Spec.Log wordDisk toyOutside "new.log".toList newWords :=
  ⟨rfl, by decide +kernel, rfl, fun l hl => words_plain l (by simp [hl]), by decide +kernel, by decide +kernel, by decide +kernel⟩

instance (hash : Str → Nat) (a b : Str) : Decidable (LJ.Index.Spec.Apart hash a b) := by
  unfold LJ.Index.Spec.Apart
  infer_instance

theorem words_similar : Spec.Similar wordDisk.hash (wordDisk.tok "service alpha started normally".toList) (wordDisk.tok "service bravo started normally".toList) := by
  have e1 : LJ.Tokenizer.process Char.isAlphanum "service alpha started normally".toList = "service alpha started normally".toList := by decide +kernel
  have e2 : LJ.Tokenizer.process Char.isAlphanum "service bravo started normally".toList = "service bravo started normally".toList := by decide +kernel
  unfold Spec.Similar
  show LJ.Index.Spec.Apart (fun w => w.foldl (fun h c => h * 31 + c.toNat) 0) (LJ.Tokenizer.process Char.isAlphanum "service alpha started normally".toList)
    (LJ.Tokenizer.process Char.isAlphanum "service bravo started normally".toList) ∧ _
  have f1 : wordDisk.tok "service alpha started normally".toList = "service alpha started normally".toList := e1
  have f2 : wordDisk.tok "service bravo started normally".toList = "service bravo started normally".toList := e2
  rw [e1, e2, f1, f2]
  decide +kernel

theorem words_far : Spec.Far wordDisk.hash (wordDisk.tok "service alpha started normally".toList) (wordDisk.tok "service bravo stopped normally".toList) := by
  have e1 : LJ.Tokenizer.process Char.isAlphanum "service alpha started normally".toList = "service alpha started normally".toList := by decide +kernel
  have e2 : LJ.Tokenizer.process Char.isAlphanum "service bravo stopped normally".toList = "service bravo stopped normally".toList := by decide +kernel
  unfold Spec.Far
  show LJ.Index.Spec.Apart (fun w => w.foldl (fun h c => h * 31 + c.toNat) 0) (LJ.Tokenizer.process Char.isAlphanum "service alpha started normally".toList)
    (LJ.Tokenizer.process Char.isAlphanum "service bravo stopped normally".toList) ∧ _
  have f1 : wordDisk.tok "service alpha started normally".toList = "service alpha started normally".toList := e1
  have f2 : wordDisk.tok "service bravo stopped normally".toList = "service bravo stopped normally".toList := e2
  rw [e1, e2, f1, f2]
  decide +kernel

/-- With one new word of four a line is not reported; with two it is. -/
example : ((localTool wordDisk toyOutside toyPages toyLocal).run .quiet false noFiles ⟨none, none, .diff ["old.log".toList] "new.log".toList⟩).printed =
    ["   0 | service bravo started normally\n".toList, "29 2 | service bravo stopped normally\n".toList] := by
  obtain ⟨dist, ws, _, h6, h3, hlong, h5, h7, h8⟩ := C138_diff (M := wordDisk) (G := toyPages) wordDisk_ordinary toyLocal_orders oldWords_log newWords_log
    (by decide +kernel) (mode := .quiet) (by decide) false noFiles
  have hone : ∀ j, j ∈ ws.map (·.i) ↔ j = 1 := by
    intro j
    constructor
    · intro hj
      match j with
      | 0 => exact (h7 0 _ rfl hj _ (.head _) words_similar).elim
      | 1 => rfl
      | j + 2 =>
        obtain ⟨w, hw, e⟩ := List.mem_map.1 hj
        have hlen : newWords.length = 2 := rfl
        have := (hlong.size w hw).2.2.2
        omega
    · rintro rfl
      refine h8 1 _ rfl ?_ ?_
      · intro i hi l' hl' e
        have : i = 0 := by omega
        subst this
        cases hl'
        have h : LJ.Tokenizer.process Char.isAlphanum "service bravo started normally".toList ≠
          LJ.Tokenizer.process Char.isAlphanum "service bravo stopped normally".toList := by decide +kernel
        exact h e
      · intro l' hl'
        rw [List.mem_singleton.1 hl']
        exact words_far
  have hw := one_window hone h3 (h5 (by decide))
  rw [h6, hw]
  have e : (fun l => toyLocal.live.score (dist (wordDisk.tok l))) = fun _ => "29".toList := rfl
  rw [e]
  decide +kernel

/-- The report of these files: the hypotheses of `C138_trees` are met, and the second line is the one reported. -/
example : ∃ m r, train wordDisk.world id [.file "old.log".toList] = .ok m ∧ report wordDisk.world m id (.file "new.log".toList) = some (.ok r) ∧
    ∀ n, n = LJ.Whole.Spec.nameOf (.loc 0 (some "new.log".toList)) →
      (∃ a ∈ Spec.anomaliesOf r n, wordDisk.tok a.anomaly.line = wordDisk.tok "service bravo stopped normally".toList) ∧
      ∀ a ∈ Spec.anomaliesOf r n, wordDisk.tok a.anomaly.line ≠ wordDisk.tok "service bravo started normally".toList := by
  have hcan : ∀ p, p = "old.log".toList ∨ p = "new.log".toList → LJ.Whole.Spec.CanList wordDisk (.file p) := by
    intro p hp
    have h : ∀ p ∈ ["old.log".toList, "new.log".toList], (∀ x ∈ wordDisk.list (.file p), x.isOk = true) ∧ LJ.Whole.Spec.sourcesOf wordDisk (.file p) ≠ [] := by decide +kernel
    obtain ⟨h1, h2⟩ := h p (by simpa using hp)
    refine ⟨?_, h2⟩
    intro e h
    exact absurd (h1 _ h) (by simp [Except.isOk, Except.toBool])
  obtain ⟨m, r, dist, h1, h2, _, _⟩ := LJ.Whole.C127_trees (M := wordDisk) rfl wordDisk_ordinary.fp wordDisk_ordinary.blocks (o1 := id) (o2 := id)
    (fun _ => .rfl) (fun _ => .rfl) (baselines := [.file "old.log".toList]) (target := .file "new.log".toList)
    (by intro c hc; rw [List.mem_singleton.1 hc]; exact hcan _ (.inl rfl))
    (by intro c hc; rw [List.mem_singleton.1 hc]
        have h : ∀ s ∈ LJ.Whole.Spec.sourcesOf wordDisk (.file "old.log".toList), LJ.Whole.Spec.reads wordDisk s ≠ none := by decide +kernel
        exact h)
    (hcan _ (.inr rfl))
  refine ⟨m, r, h1, h2, ?_⟩
  rintro n rfl
  have hk : LJ.Whole.Spec.known wordDisk [.file "old.log".toList] (LJ.Whole.Spec.nameOf (.loc 0 (some "new.log".toList))) =
      some [wordDisk.tok "service alpha started normally".toList] := by decide +kernel
  obtain ⟨g1, g2⟩ := C138_trees (M := wordDisk) rfl wordDisk_ordinary.fp wordDisk_ordinary.blocks (o1 := id) (o2 := id) (fun _ => .rfl) (fun _ => .rfl) h1 h2 hk
  constructor
  · refine g2 ?_ _ ?_ ?_
    · have h : ∀ s ∈ LJ.Whole.Spec.sourcesOf wordDisk (.file "new.log".toList), s = .loc 0 (some "new.log".toList) := by decide +kernel
      intro s hs
      rw [h s hs]
      exact LJ.Whole.readable_of (by decide +kernel)
    · decide +kernel
    · intro b hb
      rw [List.mem_singleton.1 hb]
      exact words_far
  · intro a ha e
    refine g1 a ha _ (.head _) ?_
    rw [e]
    exact words_similar

end LJ.Program

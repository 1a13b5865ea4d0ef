/-
Lemmas on the trainer.
-/
import Verif.Process.General
namespace LJ.Process
open Spec (firsts cuts)
variable {D ε : Type} {env : Env D} {dist : Str → D}

theorem firsts_id_mem (seen X : List Str) (x : Str) : x ∈ firsts id seen X ↔ x ∈ X ∧ x ∉ seen := by
  induction X generalizing seen with
  | nil => simp [firsts]
  | cons y X ih =>
    rw [firsts_cons]
    simp only [id]
    split
    · rename_i hy
      rw [ih, List.mem_cons]
      constructor
      · rintro ⟨h1, h2⟩; exact ⟨.inr h1, h2⟩
      · rintro ⟨rfl | h1, h2⟩
        · exact absurd hy h2
        · exact ⟨h1, h2⟩
    · rename_i hy
      rw [List.mem_cons, ih, List.mem_cons, List.mem_cons]
      constructor
      · rintro (rfl | ⟨h1, h2⟩)
        · exact ⟨.inl rfl, hy⟩
        · exact ⟨.inr h1, fun h => h2 (.inr h)⟩
      · rintro ⟨rfl | h1, h2⟩
        · exact .inl rfl
        · by_cases he : x = y
          · exact .inl he
          · exact .inr ⟨h1, fun h => h.elim he h2⟩

theorem firsts_nodup {α : Type} {key : α → Str} (seen : List Str) (X : List α) :
    ((firsts key seen X).map key).Nodup ∧ ∀ x ∈ firsts key seen X, key x ∉ seen := by
  induction X generalizing seen with
  | nil => exact ⟨.nil, by simp [firsts]⟩
  | cons y X ih =>
    rw [firsts_cons]
    split
    · exact ih seen
    · rename_i hy
      obtain ⟨h1, h2⟩ := ih (key y :: seen)
      refine ⟨?_, ?_⟩
      · rw [List.map_cons, List.nodup_cons]
        refine ⟨?_, h1⟩
        intro hm
        obtain ⟨z, hz, he⟩ := List.mem_map.1 hm
        exact h2 z hz (by rw [he]; simp)
      · intro x hx
        rcases List.mem_cons.1 hx with rfl | hx
        · exact hy
        · exact fun h => h2 x hx (by simp [h])

/-- the invariant of the trainer: `X` are the tokens of the lines read -/
structure TInv (X : List Str) (t : Trainer) : Prop where
  flat : t.chunks.flatten ++ t.baselines = firsts id [] X
  full : ∀ c ∈ t.chunks, c.length = 512
  part : t.baselines.length < 512
  skip : ∀ x, x ∈ t.skipLines ↔ x ∈ X
  lines : t.lineCount = X.length

theorem TInv.addTokens {X : List Str} {t : Trainer} (h : TInv X t) (x : Str) :
    TInv (X ++ [x]) ({ t with lineCount := t.lineCount + 1 }.addTokens x) := by
  have hf : firsts id [] (X ++ [x]) = firsts id [] X ++ if x ∈ t.skipLines then [] else [x] := by
    rw [firsts_append]
    congr 1
    rw [firsts_cons]
    by_cases hx : x ∈ t.skipLines
    · have : x ∈ X := (h.skip x).1 hx
      simp [hx, this, firsts]
    · have : ¬ x ∈ X := fun h' => hx ((h.skip x).2 h')
      simp [hx, this, firsts]
  unfold Trainer.addTokens
  simp only
  split
  · rename_i hx
    rw [if_pos hx, List.append_nil] at hf
    refine ⟨by rw [hf]; exact h.flat, h.full, h.part, ?_, by simp [h.lines]⟩
    intro y
    rw [h.skip, List.mem_append, List.mem_singleton]
    exact ⟨.inl, fun h' => h'.elim id fun e => e ▸ (h.skip x).1 hx⟩
  · rename_i hx
    rw [if_neg hx] at hf
    have hskip : ∀ y, y ∈ x :: t.skipLines ↔ y ∈ X ++ [x] := by
      intro y
      rw [List.mem_cons, h.skip, List.mem_append, List.mem_singleton, or_comm]
    split
    · rename_i hl
      refine ⟨?_, ?_, by simp, hskip, by simp [h.lines]⟩
      · show (t.chunks ++ [t.baselines ++ [x]]).flatten ++ [] = _
        rw [hf, ← h.flat]; simp
      · intro c hc
        rcases List.mem_append.1 hc with hc | hc
        · exact h.full c hc
        · rw [List.mem_singleton] at hc; rw [hc]; exact hl
    · rename_i hl
      refine ⟨?_, h.full, ?_, hskip, by simp [h.lines]⟩
      · show t.chunks.flatten ++ (t.baselines ++ [x]) = _
        rw [hf, ← h.flat]; simp
      · have := h.part
        show (t.baselines ++ [x]).length < 512
        simp only [List.length_append, List.length_cons, List.length_nil, CHUNK_SIZE] at hl ⊢
        omega

theorem addTokens_counts (t : Trainer) (x : Str) : (t.addTokens x).byteCount = t.byteCount := by
  unfold Trainer.addTokens
  simp only
  split
  · rfl
  · split <;> rfl

/-- the tokens of the lines a reader returns -/
def tokensOf (env : Env D) (r : List (Ev ε)) : List Str := (Spec.readable env.decode r).map fun x => env.tokenize x.2

theorem TInv.add (r : List (Ev ε)) {X : List Str} {t : Trainer} (h : TInv X t) :
    TInv (X ++ tokensOf env r) (t.add env r).2 ∧
      (t.add env r).2.byteCount = t.byteCount + ((Spec.readable env.decode r).map fun x => x.1.length).sum := by
  induction r generalizing X t with
  | nil => simpa [tokensOf, Spec.readable, Trainer.add] using h
  | cons ev r ih =>
    cases ev with
    | error e => simpa [tokensOf, Spec.readable, Trainer.add] using h
    | ok l =>
      unfold Trainer.add
      cases hd : env.decode l.1 with
      | none => simpa [tokensOf, Spec.readable, hd] using h
      | some raw =>
        simp only
        have h1 := h.addTokens (env.tokenize raw)
        have h2 : TInv (X ++ [env.tokenize raw])
            ({ t with lineCount := t.lineCount + 1, byteCount := t.byteCount + l.1.length }.addTokens (env.tokenize raw)) := by
          refine ⟨?_, ?_, ?_, ?_, ?_⟩
          · rw [← h1.flat]; unfold Trainer.addTokens; simp only; split
            · rfl
            · split <;> rfl
          · intro c hc; apply h1.full
            revert hc; unfold Trainer.addTokens; simp only; split
            · exact id
            · split <;> exact id
          · refine Nat.lt_of_le_of_lt (Nat.le_of_eq ?_) h1.part
            unfold Trainer.addTokens; simp only; split
            · rfl
            · split <;> rfl
          · intro x; rw [← h1.skip]; unfold Trainer.addTokens; simp only; split
            · rfl
            · split <;> rfl
          · rw [← h1.lines]; unfold Trainer.addTokens; simp only; split
            · rfl
            · split <;> rfl
        obtain ⟨g1, g2⟩ := ih h2
        refine ⟨?_, ?_⟩
        · have : tokensOf env (.ok l :: r) = env.tokenize raw :: tokensOf env r := by simp [tokensOf, Spec.readable, hd]
          rw [this]
          rw [List.append_assoc] at g1
          exact g1
        · rw [g2, addTokens_counts]
          simp [Spec.readable, hd]
          omega

theorem TInv.addAll (rs : List (List (Ev ε))) {X : List Str} {t : Trainer} (h : TInv X t) :
    TInv (X ++ (rs.map (tokensOf env)).flatten) (t.addAll env rs) ∧
      (t.addAll env rs).byteCount =
        t.byteCount + ((rs.map (Spec.readable env.decode)).flatten.map fun x => x.1.length).sum := by
  induction rs generalizing X t with
  | nil => simpa [Trainer.addAll] using h
  | cons r rs ih =>
    obtain ⟨h1, h2⟩ := h.add (env := env) r
    obtain ⟨h3, h4⟩ := ih h1
    have e : t.addAll env (r :: rs) = (t.add env r).2.addAll env rs := rfl
    rw [e]
    refine ⟨?_, ?_⟩
    · simpa [List.append_assoc] using h3
    · rw [h4, h2]; simp; omega

theorem TInv.new : TInv [] Trainer.new := ⟨rfl, by simp [Trainer.new], by simp [Trainer.new], by simp [Trainer.new], rfl⟩

/-- the trainer after adding the readers and completing -/
def trained (env : Env D) (readers : List (List (Ev ε))) : Trainer := (Trainer.new.addAll env readers).complete

/-- the tokens of the lines the readers return, in order -/
def trainedTokens (env : Env D) (readers : List (List (Ev ε))) : List Str :=
  (readers.map (Spec.readable env.decode)).flatten.map fun x => env.tokenize x.2

theorem trainedTokens_eq (readers : List (List (Ev ε))) :
    trainedTokens env readers = (readers.map (tokensOf env)).flatten := by
  unfold trainedTokens tokensOf
  rw [List.map_flatten, List.map_map]
  rfl

end LJ.Process

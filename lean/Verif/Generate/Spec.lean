/-
What a generated line is.
-/
namespace LJ.Generate.Spec

/-- A word: 2 to 17 ASCII letters and digits. -/
def Word (w : List Char) : Prop := 2 ≤ w.length ∧ w.length ≤ 17 ∧ ∀ c ∈ w, c.isAlphanum = true

/-- A line: 2 to 9 words with one space between them. -/
def Line (l : List Char) : Prop := ∃ ws : List (List Char), 2 ≤ ws.length ∧ ws.length ≤ 9 ∧ (∀ w ∈ ws, Word w) ∧ l = [' '].intercalate ws

end LJ.Generate.Spec

/-
The claims about sessions of the python module (C87), in terms of the calls and of their answers.
-/
import Verif.Python.Model
namespace LJ.Python

/-- In a session with the calls `cs` and the answers `as`, the value `h` was made by `index`, with these baselines, before the call `i`. -/
def MadeRows (cs : List Call) (as : List Answer) (i : Nat) (h : Nat) (bs : List Str) : Prop :=
  ∃ j < i, cs[j]? = some (.index bs) ∧ as[j]? = some (.capsule h)

/-- The value `h` was made by `index_mat`, with these baselines, before the call `i`. -/
def MadeMat (cs : List Call) (as : List Answer) (i : Nat) (h : Nat) (bs : List Str) : Prop :=
  ∃ j < i, cs[j]? = some (.indexMat bs) ∧ as[j]? = some (.capsule h)

/-- The value `h` was made by `load_mat`, with these bytes, before the call `i`. -/
def Loaded (cs : List Call) (as : List Answer) (i : Nat) (h : Nat) (b : LJ.Codec.Bytes) : Prop :=
  ∃ j < i, cs[j]? = some (.loadMat b) ∧ as[j]? = some (.capsule h)

/-- The bytes were given by `save_mat` for a value made by `index_mat` with these baselines. -/
def Saved (cs : List Call) (as : List Answer) (b : LJ.Codec.Bytes) (bs : List Str) : Prop :=
  ∃ k h, cs[k]? = some (.saveMat h) ∧ as[k]? = some (.bytes b) ∧ MadeMat cs as k h bs

/-- The program only gives to `search` what `index` returned, and to `search_mat` and `save_mat` what `index_mat` or
`load_mat` returned. -/
def Disciplined (cs : List Call) (as : List Answer) : Prop :=
  (∀ i h t, cs[i]? = some (.search h t) → ∃ bs, MadeRows cs as i h bs) ∧
  (∀ i h ts, cs[i]? = some (.searchMat h ts) → (∃ bs, MadeMat cs as i h bs) ∨ ∃ b, Loaded cs as i h b) ∧
  ∀ i h, cs[i]? = some (.saveMat h) → (∃ bs, MadeMat cs as i h bs) ∨ ∃ b, Loaded cs as i h b

end LJ.Python

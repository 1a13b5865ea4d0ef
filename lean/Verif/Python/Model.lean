/-
The python module: the calls of a session, and the opaque objects they share.  A python program which makes these
calls one after the other (python holds its global lock during each call).
-/
import Verif.Python.Memory
import Verif.Tokenizer.Model
import Verif.Generate.Model
namespace LJ.Python
open LJ.Index (FP Features SIZE)
open LJ.Codec (Matrix matrix)

/-- The parameters: the word characters of the regular expressions, the hash of words, the arithmetic and the random
generator with its fixed seed (generate.rs:17-21). -/
structure Env where
  wd : Char → Bool
  hash : Str → Nat
  fp : FP
  σ : Type
  rng : LJ.Generate.Rng σ
  seed : σ

/-- What a capsule holds: a `Vec<Features>` (bindings.rs:36-40) or a `FeaturesMatrix` (bindings.rs:54-58 and 81-85).  Both have
the name "model". -/
inductive Object where
  | rows (features : List Features)
  | mat (m : Matrix)

/-- The capsules made so far: a python value holds the number of one of them. -/
abbrev Heap := List Object

/-- The functions of the module. -/
inductive Call where
  | process (line : Str)
  | generate (size : Nat)
  | index (baselines : List Str)
  | search (model : Nat) (target : Str)
  | indexMat (baselines : List Str)
  | searchMat (model : Nat) (targets : List Str)
  | saveMat (model : Nat)
  | loadMat (buf : LJ.Codec.Bytes)

/-- What python gets.  `panic` is a python exception (pyo3 catches panics); `undefined` is undefined behaviour;
`notFinite` are the distances for a loaded matrix with infinite elements or which are not numbers, which are not modelled. -/
inductive Answer where
  | text (s : Str)
  | capsule (h : Nat)
  | distance (d : ℝ)
  | distances (ds : List ℝ)
  | bytes (b : LJ.Codec.Bytes)
  | panic
  | notACapsule
  | notFinite
  | undefined

/-- `PyCapsule::new` -/
def store (σ : Heap) (o : Object) : Option Heap × Answer := (some (σ ++ [o]), .capsule σ.length)

/-- bindings.rs:35-40 `index` -/
noncomputable def index (env : Env) (σ : Heap) (baselines : List Str) : Option Heap × Answer :=
  match LJ.Index.index env.fp env.hash baselines with
  | some fs => store σ (.rows fs)
  | none => (some σ, .panic)

/-- bindings.rs:42-50 `search`.  `reference` does not check the type of what the capsule holds. -/
noncomputable def search (env : Env) (σ : Heap) (model : Nat) (target : Str) : Option Heap × Answer :=
  match σ[model]? with
  | none => (some σ, .notACapsule)
  | some (.mat _) => (none, .undefined)
  | some (.rows fs) =>
    match LJ.Index.search env.fp env.hash fs target with
    | some d => (some σ, .distance d)
    | none => (some σ, .panic)

/-- bindings.rs:53-58 `index_mat`.  A matrix too large for the memory is a failure. -/
noncomputable def indexMat (env : Env) (σ : Heap) (baselines : List Str) : Option Heap × Answer :=
  match (LJ.Index.indexMat env.fp env.hash baselines).bind toMatrix with
  | some m => store σ (.mat m)
  | none => (some σ, .panic)

/-- index.rs:61-67 `search_mat` with the matrix in memory: `sprs` panics when the number of columns of the baselines is not
the number of rows of the (transposed) targets.  For a matrix stored by columns, the product accumulates each cell in the
same order, and the order of the cells has no effect on the minimum. -/
noncomputable def searchMatrix (env : Env) (m : Matrix) (targets : List Str) : Answer :=
  if m.val.cols.toNat ≠ SIZE then .panic
  else match matOf m with
    | none => .notFinite
    | some b =>
      match LJ.Index.searchMat env.fp env.hash b targets with
      | some ds => .distances ds
      | none => .panic

/-- bindings.rs:60-68 `search_mat` -/
noncomputable def searchMat (env : Env) (σ : Heap) (model : Nat) (targets : List Str) : Option Heap × Answer :=
  match σ[model]? with
  | none => (some σ, .notACapsule)
  | some (.rows _) => (none, .undefined)
  | some (.mat m) => (some σ, searchMatrix env m targets)

/-- bindings.rs:70-78 `save_mat`, index.rs:48-50 -/
def saveMat (σ : Heap) (model : Nat) : Option Heap × Answer :=
  match σ[model]? with
  | none => (some σ, .notACapsule)
  | some (.rows _) => (none, .undefined)
  | some (.mat m) =>
    match matrix.enc m with
    | some b => (some σ, .bytes b)
    | none => (some σ, .panic)

/-- bindings.rs:80-85 `load_mat`, index.rs:52-54 -/
def loadMat (σ : Heap) (buf : LJ.Codec.Bytes) : Option Heap × Answer :=
  match LJ.Codec.load matrix buf with
  | some m => store σ (.mat m)
  | none => (some σ, .panic)

/-- One call: the new capsules, none after undefined behaviour, and the answer. -/
noncomputable def call (env : Env) (σ : Heap) : Call → Option Heap × Answer
  | .process line => (some σ, .text (LJ.Tokenizer.process env.wd line))
  | .generate size => (some σ, .text (LJ.Generate.generate env.rng env.seed size))
  | .index bs => index env σ bs
  | .search h t => search env σ h t
  | .indexMat bs => indexMat env σ bs
  | .searchMat h ts => searchMat env σ h ts
  | .saveMat h => saveMat σ h
  | .loadMat b => loadMat σ b

/-- The calls of a session, one after the other; nothing is known after undefined behaviour. -/
noncomputable def session (env : Env) : Heap → List Call → Option Heap × List Answer
  | σ, [] => (some σ, [])
  | σ, c :: cs =>
    match call env σ c with
    | (none, a) => (none, [a])
    | (some σ', a) => ((session env σ' cs).1, a :: (session env σ' cs).2)

end LJ.Python

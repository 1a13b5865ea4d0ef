/-
Model of `index/src/index.rs`.

`fxhash::hash32` is an arbitrary function `hash`.  Numbers of type `F = f32` are real numbers, and
the floating point operations are those of `FP`: `FP.exact` is exact arithmetic, and the theorems
that hold for every `FP` do not depend on how the operations are rounded.

The sparse vectors and matrices are those of the crate `sprs`: a vector is the list of its stored
(index, value) pairs, a matrix in row storage is the list of its rows.  `CsVec::new` panics unless
the indices are strictly increasing and smaller than the dimension: a panic is `none`.
-/
import Mathlib.Analysis.Real.Sqrt
import Mathlib.Data.List.Sort
namespace LJ.Index

abbrev Str := List Char

/-- The arithmetic of `f32`: `fl` rounds the exact result of a division, a square root, an addition
or a subtraction; `mulAcc s x y` is `s += x * y` as computed by `sprs` (one or two roundings). -/
structure FP where
  fl : ℝ → ℝ
  mulAcc : ℝ → ℝ → ℝ → ℝ

/-- exact arithmetic -/
def FP.exact : FP := ⟨id, fun s x y => s + x * y⟩

/-- index.rs:114 `SIZE` -/
def SIZE : Nat := 260000

/-- `line.split(' ')`: the fields between the blanks, an empty line has one empty field. -/
def splitSp : Str → List Str
  | [] => [[]]
  | c :: cs =>
    if c = ' ' then [] :: splitSp cs
    else match splitSp cs with
      | w :: ws => (c :: w) :: ws
      | [] => [[c]]

/-- index.rs:123-128, one word: its column and its sign.  The `f32` values 1.0 and -1.0 are
integers here. -/
def wordKey (hash : Str → Nat) (word : Str) : Nat × Int :=
  (hash word % SIZE, if hash word ≥ 2147483648 then 1 else -1)

/-- `sorted_by(|a, b| Ord::cmp(&a.0, &b.0))`: a stable sort. -/
def insertKey (x : Nat × Int) : List (Nat × Int) → List (Nat × Int)
  | [] => [x]
  | y :: ys => if x.1 ≤ y.1 then x :: y :: ys else y :: insertKey x ys
def sortKeys : List (Nat × Int) → List (Nat × Int)
  | [] => []
  | x :: xs => insertKey x (sortKeys xs)

/-- `dedup_by(|a, b| a.0 == b.0)`: keeps the first of consecutive equal keys. -/
def dedupKeys : List (Nat × Int) → List (Nat × Int)
  | [] => []
  | x :: xs =>
    match dedupKeys xs with
    | [] => [x]
    | y :: ys => if x.1 = y.1 then x :: ys else x :: y :: ys

/-- `CsVec::new(SIZE, keys, values)`: panics when the indices are not strictly increasing or too
large. -/
def csVecNew (entries : List (Nat × Int)) : Option (List (Nat × Int)) :=
  if (entries.map Prod.fst).Pairwise (· < ·) ∧ ∀ k ∈ entries.map Prod.fst, k < SIZE then some entries else none

/-- index.rs:120-140 `vectorize` -/
def vectorize (hash : Str → Nat) (line : Str) : Option (List (Nat × Int)) :=
  csVecNew (dedupKeys (sortKeys ((splitSp line).map (wordKey hash))))

/-- A row of a matrix, or a vector of `f32`. -/
abbrev Row := List (Nat × ℝ)

/-- The values of a vector as `f32`. -/
def toRow (v : List (Nat × Int)) : Row := v.map fun e => (e.1, (e.2 : ℝ))

/-- One step of the accumulation: nothing when `b` has no entry at this index. -/
def accStep (fp : FP) (b : Row) (acc : ℝ) (e : Nat × ℝ) : ℝ :=
  match b.lookup e.1 with
  | some y => fp.mulAcc acc e.2 y
  | none => acc

/-- `CsVec::dot`, and the accumulation of one cell of the sparse matrix product: over the stored
entries of `a` in increasing order of index, when `b` has an entry at the same index. -/
noncomputable def dot (fp : FP) (a b : Row) : ℝ :=
  a.foldl (accStep fp b) 0

/-- index.rs:19-24 `Features` -/
structure Features where
  norm : ℝ
  vector : Row

/-- index.rs:26-32 `into_feature` -/
noncomputable def intoFeature (fp : FP) (hash : Str → Nat) (line : Str) : Option Features := do
  let v ← vectorize hash line
  let r := toRow v
  pure ⟨dot fp r r, r⟩

/-- index.rs:34-37 `index` -/
noncomputable def index (fp : FP) (hash : Str → Nat) (lines : List Str) : Option (List Features) :=
  lines.mapM (intoFeature fp hash)

/-- index.rs:142-146 `similarity` -/
noncomputable def similarity (fp : FP) (a b : Features) : ℝ :=
  fp.fl (dot fp a.vector b.vector / fp.fl √(fp.fl (a.norm * b.norm)))

/-- index.rs:39-46 `search` -/
noncomputable def search (fp : FP) (hash : Str → Nat) (baselines : List Features) (line : Str) : Option ℝ := do
  let f ← intoFeature fp hash line
  pure (fp.fl (1 - baselines.foldl (fun acc b => max (similarity fp f b) acc) 0))

/-- `CsVec::l2_norm`: the square root of the sum of the squares. -/
noncomputable def l2norm (fp : FP) (v : Row) : ℝ :=
  fp.fl √(v.foldl (fun acc e => fp.fl (acc + fp.fl (e.2 * e.2))) 0)

/-- A `FeaturesMatrix` in row storage. -/
abbrev Mat := List Row

/-- index.rs:91-101 `create_mat`.  The indices of each vector are distinct, so that `to_csr` has no
duplicate to sum, and increasing, so that it does not reorder the entries. -/
noncomputable def createMat (fp : FP) (vectors : List (List (Nat × Int))) : Mat :=
  vectors.map fun v => (toRow v).map fun e => (e.1, fp.fl (e.2 / l2norm fp (toRow v)))

/-- index.rs:56-59 `index_mat` -/
noncomputable def indexMat (fp : FP) (hash : Str → Nat) (lines : List Str) : Option Mat := do
  let vs ← lines.mapM (vectorize hash)
  pure (createMat fp vs)

/-- The stored cells of `baselines * targets` (`targets` given by its columns), row by row: a cell
is stored when the row and the column have a common index. -/
noncomputable def product (fp : FP) (baselines targets : Mat) : List (ℝ × Nat × Nat) :=
  baselines.zipIdx.flatMap fun (b, row) => targets.zipIdx.filterMap fun (t, col) =>
    if b.any (fun e => (t.lookup e.1).isSome) then some (dot fp b t, row, col) else none

/-- index.rs:84-86 and 108-110, the update of the result by the stored cells. -/
noncomputable def update (fp : FP) (result : List ℝ) (cells : List (ℝ × Nat × Nat)) : List ℝ :=
  cells.foldl (fun r c => r.modify c.2.2 fun old => min (fp.fl (1 - c.1)) old) result

/-- index.rs:103-112 `cosine_distance` -/
noncomputable def cosineDistance (fp : FP) (baselines targets : Mat) : List ℝ :=
  update fp (List.replicate targets.length 1) (product fp baselines targets)

/-- index.rs:77-89 `cosine_distance_chunk` -/
noncomputable def cosineDistanceChunk (fp : FP) (baselines : List Mat) (targets : Mat) : List ℝ :=
  baselines.foldl (fun r b => update fp r (product fp b targets)) (List.replicate targets.length 1)

/-- index.rs:61-67 `search_mat`.  `transpose_mut` only exchanges the roles of rows and columns. -/
noncomputable def searchMat (fp : FP) (hash : Str → Nat) (baselines : Mat) (lines : List Str) : Option (List ℝ) := do
  let vs ← lines.mapM (vectorize hash)
  pure (cosineDistance fp baselines (createMat fp vs))

/-- index.rs:69-75 `search_mat_chunk` -/
noncomputable def searchMatChunk (fp : FP) (hash : Str → Nat) (baselines : List Mat) (lines : List Str) : Option (List ℝ) := do
  let vs ← lines.mapM (vectorize hash)
  pure (cosineDistanceChunk fp baselines (createMat fp vs))

/-- model.rs:588-613 `hashing_index`: the baselines are one matrix per chunk.  `add` pushes the
matrix of the chunk, `search` is `search_mat_chunk`. -/
abbrev HashingIndex := List Mat
def HashingIndex.new : HashingIndex := []
noncomputable def HashingIndex.add (fp : FP) (hash : Str → Nat) (self : HashingIndex) (baselines : List Str) :
    Option HashingIndex := do
  let m ← indexMat fp hash baselines
  pure (self ++ [m])
noncomputable def HashingIndex.search (fp : FP) (hash : Str → Nat) (self : HashingIndex) (targets : List Str) :
    Option (List ℝ) := searchMatChunk fp hash self targets

/-- The index obtained by adding chunks one after the other (what `ChunkTrainer` does). -/
noncomputable def HashingIndex.build (fp : FP) (hash : Str → Nat) (chunks : List (List Str)) : Option HashingIndex :=
  chunks.foldlM (HashingIndex.add fp hash) HashingIndex.new

end LJ.Index

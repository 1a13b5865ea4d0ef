/-
Model of the generator of log lines (`generate/src/generate.rs`) and of its python binding.

The random number generator is any state machine which keeps the contracts of `rand`: `gen_range(lo..hi)`
is in the range, and a sample of `Alphanumeric` is an ASCII letter or digit.  The streams of ChaCha are
not modelled: the theorems hold for every generator.
-/
namespace LJ.Generate

abbrev Str := List Char

/-- `rand::distributions::Alphanumeric` samples from these characters. -/
def alphanumeric : Str := "ABCDEFGHIJKLMNOPQRSTUVWXYZabcdefghijklmnopqrstuvwxyz0123456789".toList

/-- `rand::Rng`: `range` is `gen_range(lo..hi)`, `sample` is a sample of `Alphanumeric`.  Calling `gen_range`
with an empty range panics; the two calls below have `lo < hi`. -/
structure Rng (σ : Type) where
  range : Nat → Nat → σ → Nat × σ
  sample : σ → Char × σ
  range_lo : ∀ lo hi s, lo < hi → lo ≤ (range lo hi s).1
  range_hi : ∀ lo hi s, lo < hi → (range lo hi s).1 < hi
  sample_alnum : ∀ s, (sample s).1 ∈ alphanumeric

variable {σ : Type} (rng : Rng σ)

/-- generate.rs:27-31, `sample_iter(&Alphanumeric).take(word_size).map(char::from).collect()` -/
def samples : Nat → σ → Str × σ
  | 0, s => ([], s)
  | n + 1, s =>
    let (c, s) := rng.sample s
    let (w, s) := samples n s
    (c :: w, s)

/-- generate.rs:25-34, the loop: `result` is the text so far. -/
def words : Nat → Str → σ → Str × σ
  | 0, result, s => (result, s)
  | n + 1, result, s =>
    let (size, s) := rng.range 2 18 s
    let (word, s) := samples rng size s
    words n (result ++ word ++ [' ']) s

/-- generate.rs:23-37 `gen_line` -/
def genLine (s : σ) : Str × σ :=
  let (n, s) := rng.range 2 10 s
  let (result, s) := words rng n [] s
  (result.dropLast, s)

/-- generate.rs:39-53 `gen_lines`, the first `n` lines: the iterator never ends. -/
def genLines : Nat → σ → List Str
  | 0, _ => []
  | n + 1, s =>
    let (l, s) := genLine rng s
    l :: genLines n s

/-- `join("\n")` -/
def joinLines : List Str → Str
  | [] => []
  | [x] => x
  | x :: y :: xs => x ++ '\n' :: joinLines (y :: xs)

/-- bindings.rs:20-26 `generate`: `seed` is the state of `fixed_rng` (generate.rs:17-21). -/
def generate (seed : σ) (size : Nat) : Str := joinLines (genLines rng size seed)

end LJ.Generate

/-
Concrete commands for C115 and C129.
-/
import Verif.Program.Agree
import Verif.Program.Announce
import Verif.Program.Toy
namespace LJ.Program
open LJ.Process (Str Bytes Ev)
open LJ.Paths (Input Res)
open LJ.Cli (Fs)
open Spec

deriving instance DecidableEq for LJ.Report.Index
deriving instance DecidableEq for LJ.Report.Model

/-- the model of the four files -/
def fourModel : Option (LJ.Report.Model Unit Nat Nat) :=
  match toyTool.train [()] with
  | .ok m => some m
  | .error _ => none

/-- the same program, which can save that model in one byte -/
def savingTool : Tool Unit Nat Nat Nat Unit Unit :=
  { toyTool with
    encModel := fun m => if some m = fourModel then some [7] else none
    decModel := fun b => if b = [7] then fourModel else none }

theorem savingTool_format : ∀ m b, savingTool.encModel m = some b → savingTool.decModel b = some m := by
  intro m b h
  simp only [savingTool] at h ⊢
  split at h
  · rename_i he
    cases h
    rw [if_pos rfl, he]
  · cases h

/-- Non-vacuity of C115: `url` is `diff` with the baseline discovered, and both compare the files. -/
example : savingTool.main none false false noFiles ⟨none, none, .url "http://x".toList⟩ =
      savingTool.main none false false noFiles ⟨none, none, .diff ["b".toList] "http://x".toList⟩ ∧
    (savingTool.main none false false noFiles ⟨none, none, .url "http://x".toList⟩).result = .ok () :=
  ⟨C115_diff (.url (by decide +kernel)) (.inl ⟨by decide +kernel, rfl⟩) (cs := [()]) rfl (.cons (.inr ⟨by decide +kernel, rfl⟩) .nil) (fun p h => by cases h) none false false none,
   by decide +kernel⟩

/-- A model is trained, saved, and used. -/
example : (savingTool.main none false false noFiles ⟨none, some "m".toList, .train ["b".toList]⟩).result = .ok () ∧
    let trained := (savingTool.main none false false noFiles ⟨none, some "m".toList, .train ["b".toList]⟩).fs
    trained.files "m".toList = some [7] ∧
    (savingTool.main none false false trained ⟨some "r".toList, some "m".toList, .path "x".toList⟩).fs.files "r".toList = some [] ∧
    (savingTool.main none false false trained ⟨some "r".toList, some "m".toList, .path "x".toList⟩).result =
      (savingTool.main none false false noFiles ⟨some "r".toList, none, .diff ["b".toList] "x".toList⟩).result := by
  have ht : (savingTool.main none false false noFiles ⟨none, some "m".toList, .train ["b".toList]⟩).result = .ok () := by decide +kernel
  have h := C115_trained savingTool_format (p := "m".toList) rfl ht (x := "x".toList) (.path (by decide +kernel)) (report := some "r".toList)
    (by rintro (h | ⟨h, _⟩) <;> revert h <;> decide)
  exact ⟨ht, by decide +kernel, by decide +kernel, h.2.2.2.1⟩

/-- On a terminal, `diff` prints what `train` prints, and then what the command prints with the model. -/
example : (savingTool.main none true false noFiles ⟨none, none, .diff ["b".toList] "x".toList⟩).printed =
      (savingTool.main none true false noFiles ⟨none, some "m".toList, .train ["b".toList]⟩).printed ++
        (savingTool.main none true false (savingTool.main none true false noFiles ⟨none, some "m".toList, .train ["b".toList]⟩).fs
          ⟨none, some "m".toList, .path "x".toList⟩).printed ∧
    (savingTool.main none true false noFiles ⟨none, some "m".toList, .train ["b".toList]⟩).printed =
      ["\r\x1b[1;33m[+]\x1b[0m Loading index 3 with 13, 33".toList, "\r\x1b[1;33m[+]\x1b[0m Loading index 0 with 20".toList,
        "\r\x1b[1;33m[+]\x1b[0m Loading index 1 with 1".toList] := by
  have ht : (savingTool.main none true false noFiles ⟨none, some "m".toList, .train ["b".toList]⟩).result = .ok () := by decide +kernel
  have h := C115_trained savingTool_format (p := "m".toList) rfl ht (x := "x".toList) (.path (by decide +kernel)) (report := none)
    (by rintro (h | ⟨h, _⟩) <;> revert h <;> decide)
  exact ⟨h.1 () (.inr ⟨by decide +kernel, rfl⟩), by decide +kernel⟩

/-- Non-vacuity of C129: a report is announced and written, on a terminal after the progress. -/
example : (toyTool.main none true false noFiles ⟨some "r".toList, none, .diff [] "x".toList⟩).result = .ok () ∧
    (toyTool.main none true false noFiles ⟨some "r".toList, none, .diff ["b".toList] "x".toList⟩).result = .ok () ∧
    (toyTool.main none true false noFiles ⟨some "r".toList, none, .diff ["b".toList] "x".toList⟩).printed =
      ["\r\x1b[1;33m[+]\x1b[0m Loading index 3 with 13, 33".toList, "\r\x1b[1;33m[+]\x1b[0m Loading index 0 with 20".toList,
        "\r\x1b[1;33m[+]\x1b[0m Loading index 1 with 1".toList, "\r\x1b[1;33m[+]\x1b[0m Inspecting 13".toList,
        "\r\x1b[1;33m[+]\x1b[0m Inspecting 33".toList, "\r\x1b[1;33m[+]\x1b[0m Inspecting 20".toList, "\r\x1b[1;33m[+]\x1b[0m Inspecting 1".toList,
        "\"r\": Writing report...\n".toList] ∧
    (toyTool.main none true false noFiles ⟨some "r".toList, none, .diff [] "x".toList⟩).printed = [announce toyTool "r".toList] ∧
    (toyTool.main none true false noFiles ⟨some "r".toList, none, .diff [] "x".toList⟩).fs.files "r".toList ≠ noFiles.files "r".toList := by
  decide +kernel

/-- A report which can't be written is announced (and the raw report which can't be saved is not). -/
example : announce toyTool "r".toList ∈
      (({ toyTool with noCreate := fun p => p = "r".toList } : Tool Unit Nat Nat Nat Unit Unit).main none false false noFiles ⟨some "r".toList, none, .diff [] "x".toList⟩).printed ∧
    (toyTool.main none false true noFiles ⟨some "r".toList, none, .diff [] "x".toList⟩).printed = [] := by
  decide +kernel

end LJ.Program

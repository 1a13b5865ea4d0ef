/-
`PathBuf::set_extension`, with which the command names the raw report (main.rs:262-264) and the `render` program names the page
(render.rs:6-7), on the paths of `Verif/Paths`.
-/
import Verif.Paths.Model
namespace LJ.Render
open LJ.Paths (Str)

/-- What is left of a reversed path without the slashes and the `.` parts at its end: these are not components. -/
def dropTail : Str → Str
  | '/' :: s => dropTail s
  | '.' :: '/' :: s => dropTail s
  | s => s

/-- The last part of a path, and what is before it. -/
def splitLast (path : Str) : Str × Str :=
  let r := dropTail path.reverse
  ((r.dropWhile (· != '/')).reverse, (r.takeWhile (· != '/')).reverse)

/-- `Path::file_stem` of a file name: what is before the last dot, or the name when it has no dot but at its start. -/
def stem (name : Str) : Str :=
  match name.reverse.dropWhile (· != '.') with
  | [] => name
  | _ :: before => if before = [] then name else before.reverse

/-- `PathBuf::set_extension` with an extension which is not empty, as called in main.rs:264 and render.rs:7. -/
def setExtension (ext path : Str) : Str :=
  let (dir, name) := splitLast path
  if name = [] ∨ name = ['.'] ∨ name = ['.', '.'] then path else dir ++ stem name ++ '.' :: ext

end LJ.Render

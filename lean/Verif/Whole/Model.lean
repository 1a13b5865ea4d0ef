/-
The whole program on local files, put together from the models of its parts: listing the files
(`Verif/Paths`), reading them (`Verif/Iterator`), tokenizing (`Verif/Tokenizer`), the hashing index
(`Verif/Index`), training and processing (`Verif/Process`) and the report (`Verif/Report`).
-/
import Verif.Report.Witness
import Verif.Iterator.Props
import Verif.Paths.Props
import Verif.Codec.Props
namespace LJ.Whole
open LJ.Process (Str Bytes Ev)
open LJ.Paths (Source Entry)

/-- What the program runs on: the word characters of the regular expressions, the hash function of the
words, the arithmetic, debug or release build, the files, the walks of the directories, how the reads cut
the data, and the gzip decoder. -/
structure Machine where
  wd : Char → Bool
  hash : Str → Nat
  fp : LJ.Index.FP
  checks : Bool
  files : Str → Option Bytes
  walk : Str → List (Except Unit Entry)
  cut : Str → Bytes → List Bytes
  gunzip : Bytes → Bytes

/-- `std::str::from_utf8` -/
def decode (b : Bytes) : Option Str := (LJ.Codec.bytesString b).map String.toList

/-- The parameters of the tokenizer and the index. -/
def Machine.cfg (M : Machine) : LJ.Process.Cfg := ⟨decode, M.wd, M.hash, M.fp⟩

/-- model.rs:57-63 `Content`, the local ones -/
inductive Local where
  | file (path : Str)
  | directory (path : Str)
deriving DecidableEq, Repr

/-- files.rs:42-66 `file_iter`, `dir_iter`, called by model.rs:381-390 `get_sources_iter` -/
def Machine.list (M : Machine) : Local → List (Except Unit Source)
  | .file path => [.ok (.loc 0 (some path))]
  | .directory path => LJ.Paths.dirIter (M.walk path)

/-- The results of the line iterator (iterator.rs:117-156), for the processor.  When it
panics (C07) the program ends: the theorems are about data for which it does not. -/
def events (r : List LJ.Process.LogLine × LJ.Iterator.End Unit) : List (Ev Unit) :=
  r.1.map Except.ok ++ match r.2 with | .failed e => [.error e] | _ => []

/-- model.rs:270-273 and 297-300: opening a source and reading its lines.  A path which is not a string and
remote sources are not modelled here: they can't be opened. -/
def Machine.openSource (M : Machine) : Source → Except Unit (Bool → List (Ev Unit))
  | .loc _ (some path) =>
    match LJ.Paths.fromPath M.files path with
    | none => .error ()
    | some reader => .ok fun json =>
      events (LJ.Iterator.allLines (LJ.Iterator.build M.checks) json (LJ.Iterator.fromReads (M.cut path (reader.data M.gunzip))))
  | _ => .error ()

/-- The program with the hashing index (main.rs:246, `hashing_index::new`).  When the relative path of a source
can't be computed the program panics: the theorems are about sources for which it can. -/
noncomputable def Machine.world (M : Machine) : LJ.Report.World Local Source Str ℝ Unit Unit :=
  LJ.Report.indexWorld M.cfg true M.list (fun s => LJ.Paths.isValid s.asStr) (fun s => s.indexName.getD [])
    (fun s => s.isJson.getD false) M.openSource

/-- model.rs:566-571 the tokens of a line -/
def Machine.tok (M : Machine) (line : Str) : Str := LJ.Tokenizer.process M.wd line

end LJ.Whole

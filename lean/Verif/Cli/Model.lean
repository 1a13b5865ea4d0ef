/-
Model of the commands of the command line (`cli/src/main.rs`: `process` and the `train` command) and of the
files they read and write.

What the other crates do (listing the contents, training, reporting, rendering, the file formats) is given
by the functions of `World`; they have models of their own in the other directories.  A panic in one of
them ends the command as an error does, and is one of the values of `Er`.
-/
namespace LJ.Cli

abbrev Bytes := List UInt8
abbrev Str := List Char

/-- The file system: the contents of the files.  In a place of `denied` paths (a directory without the search
permission) nothing can be seen, read or created. -/
structure Fs (P : Type) where
  files : P → Option Bytes
  denied : P → Bool

/-- What the commands use.  `P`: paths, `I`: inputs, `C`: contents, `M`: models, `R`: reports, `Er`: errors. -/
structure World (P I C M R Er : Type) where
  /-- `Content::from_input` -/
  fromInput : I → Except Er C
  /-- `Content::discover_baselines` -/
  discover : C → Except Er (List C)
  /-- `Model::train` with the hashing index -/
  train : List C → Except Er M
  /-- `Model::report` -/
  report : M → C → Except Er R
  /-- `process_live`, which prints: its result -/
  live : C → M → Except Er Unit
  /-- `logreduce_report::render` -/
  render : R → Except Er Bytes
  /-- the compressed bytes of a saved model; an error when it can't be serialised -/
  encModel : M → Except Er Bytes
  /-- reading a saved model -/
  decModel : Bytes → Except Er M
  /-- the compressed bytes of a saved report -/
  encReport : R → Except Er Bytes
  /-- `PathBuf::set_extension("json")` -/
  withJson : P → P
  /-- `File::create`: the error, for a path where no file can be created -/
  createErr : P → Option Er
  /-- the number of bytes of a file that can be written, when the disk is full -/
  limit : P → Option Nat
  /-- the number of bytes at the end of a compressed file which `GzEncoder` writes only when it is dropped -/
  held : Bytes → Nat
  notFound : Er
  permission : Er
  noSpace : Er
  ambiguous : Er
  noModelPath : Er

section
variable {P I C M R Er : Type} [DecidableEq P] (w : World P I C M R Er)

/-- `Path::exists`: false also when the metadata can't be read -/
def exists' (fs : Fs P) (p : P) : Bool := !fs.denied p && (fs.files p).isSome

/-- Setting the contents of a file. -/
def put (fs : Fs P) (p : P) (b : Bytes) : Fs P := { fs with files := fun q => if q = p then some b else fs.files q }

/-- `File::create`: makes an empty file or empties the file. -/
def create (fs : Fs P) (p : P) : Except Er (Fs P) :=
  if fs.denied p then .error w.permission
  else match w.createErr p with
    | some e => .error e
    | none => .ok (put fs p [])

/-- `File::open` and reading it all. -/
def readFile (fs : Fs P) (p : P) : Except Er Bytes :=
  if fs.denied p then .error w.permission
  else match fs.files p with
    | some b => .ok b
    | none => .error w.notFound

/-- The bytes which reach the file. -/
def written (p : P) (b : Bytes) : Bytes :=
  match w.limit p with
  | none => b
  | some n => b.take n

/-- The end of `Model::save` and `Report::save` on an open file: the writes of `serialize_into` return their
errors, but the last bytes are written when `GzEncoder` is dropped, which ignores the errors. -/
def writeGz (fs : Fs P) (p : P) (b : Bytes) : Except Er Unit × Fs P :=
  let done := written w p b
  (if done.length < b.length - w.held b then .error w.noSpace else .ok (), put fs p done)

/-- model.rs:443-453 `Model::save` and model.rs:239-248 `Report::save`.  (When the value can't be serialised, what is left
in the file is not modelled further: it is empty here.) -/
def saveGz (fs : Fs P) (p : P) (enc : Except Er Bytes) : Except Er Unit × Fs P :=
  match create w fs p with
  | .error e => (.error e, fs)
  | .ok fs =>
    match enc with
    | .error e => (.error e, fs)
    | .ok b => writeGz w fs p b

/-- model.rs:435-441 `Model::load` -/
def load (fs : Fs P) (p : P) : Except Er M :=
  match readFile w fs p with
  | .error e => .error e
  | .ok b => w.decModel b

/-- `std::fs::write` -/
def writeFile (fs : Fs P) (p : P) (b : Bytes) : Except Er Unit × Fs P :=
  match create w fs p with
  | .error e => (.error e, fs)
  | .ok fs =>
    let done := written w p b
    (if done.length < b.length then .error w.noSpace else .ok (), put fs p done)

/-- `.map(Content::from_input).collect::<Result<Vec<_>>>()` -/
def fromInputs : List I → Except Er (List C)
  | [] => .ok []
  | i :: is =>
    match w.fromInput i with
    | .error e => .error e
    | .ok c =>
      match fromInputs is with
      | .error e => .error e
      | .ok cs => .ok (c :: cs)

/-- main.rs:236-242, the baselines. -/
def findBaselines (content : C) : Option (List I) → Except Er (List C)
  | none => w.discover content
  | some is => fromInputs w is

/-- main.rs:233-247, making the model. -/
def makeModel (content : C) (baselines : Option (List I)) : Except Er M :=
  match findBaselines w content baselines with
  | .error e => .error e
  | .ok cs => w.train cs

/-- main.rs:229-232, an existing model. -/
def existingModel (fs : Fs P) (p : P) : Option (List I) → Except Er M
  | none => load w fs p
  | some _ => .error w.ambiguous

/-- main.rs:228-248, the model. -/
def getModel (fs : Fs P) (content : C) (modelPath : Option P) (baselines : Option (List I)) : Except Er M :=
  match modelPath with
  | some p => if exists' fs p then existingModel w fs p baselines else makeModel w content baselines
  | none => makeModel w content baselines

/-- What other processes do to the files while the command runs: until the model is made (or the command fails), between the test
of line 251 and the creation of the file, and before the report is written. -/
structure Others (P : Type) where
  training : Fs P → Fs P
  saving : Fs P → Fs P
  reporting : Fs P → Fs P

/-- Nobody else uses the files. -/
def alone {P : Type} : Others P := ⟨id, id, id⟩

/-- main.rs:250-253, saving the model. -/
def saveModel (o : Others P) (fs : Fs P) (modelPath : Option P) (m : M) : Except Er Unit × Fs P :=
  match modelPath with
  | some p => if exists' fs p then (.ok (), fs) else saveGz w (o.saving fs) p (w.encModel m)
  | none => (.ok (), fs)

/-- main.rs:261-266, saving the raw report when `LOGREDUCE_CACHE` is set. -/
def saveRaw (cache : Bool) (fs : Fs P) (file : P) (r : R) : Except Er Unit × Fs P :=
  if cache then saveGz w fs (w.withJson file) (w.encReport r) else (.ok (), fs)

/-- main.rs:268-274, writing the page. -/
def writePage (fs : Fs P) (file : P) (r : R) : Except Er Unit × Fs P :=
  match w.render r with
  | .error e => (.error e, fs)
  | .ok b => writeFile w fs file b

/-- main.rs:258-275, with a report file. -/
def writeReport (cache : Bool) (fs : Fs P) (file : P) (m : M) (content : C) : Except Er Unit × Fs P :=
  match w.report m content with
  | .error e => (.error e, fs)
  | .ok r =>
    match saveRaw w cache fs file r with
    | (.error e, fs) => (.error e, fs)
    | (.ok (), fs) => writePage w fs file r

/-- main.rs:255-276 -/
def inspect (cache : Bool) (fs : Fs P) (report : Option P) (m : M) (content : C) : Except Er Unit × Fs P :=
  match report with
  | none => (w.live content m, fs)
  | some file => writeReport w cache fs file m content

/-- What a command did: its result, the model used to inspect the target, and the files. -/
structure Run (P M Er : Type) where
  result : Except Er Unit
  model : Option M
  fs : Fs P

/-- main.rs:217-277 `process`; `cache` tells that `LOGREDUCE_CACHE` is set. -/
def process (o : Others P) (cache : Bool) (fs : Fs P) (report modelPath : Option P) (baselines : Option (List I)) (input : I) : Run P M Er :=
  match w.fromInput input with
  | .error e => ⟨.error e, none, o.training fs⟩
  | .ok content =>
    match getModel w fs content modelPath baselines with
    | .error e => ⟨.error e, none, o.training fs⟩
    | .ok m =>
      match saveModel w o (o.training fs) modelPath m with
      | (.error e, fs) => ⟨.error e, none, fs⟩
      | (.ok (), fs) =>
        let (res, fs) := inspect w cache (o.reporting fs) report m content
        ⟨res, some m, fs⟩

/-- main.rs:102-118, the `train` command. -/
def trainCommand (fs : Fs P) (modelPath : Option P) (baselines : List I) : Except Er Unit × Fs P :=
  match modelPath with
  | none => (.error w.noModelPath, fs)
  | some p =>
    match fromInputs w baselines with
    | .error e => (.error e, fs)
    | .ok cs =>
      match w.train cs with
      | .error e => (.error e, fs)
      | .ok m => saveGz w fs p (w.encModel m)

/-- A save of a compressed file stopped by a crash after `n` bytes. -/
def crashSave (fs : Fs P) (p : P) (b : Bytes) (n : Nat) : Fs P := put fs p (b.take n)

end
end LJ.Cli

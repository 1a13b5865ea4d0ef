/-
Model of the command line of the program: the arguments as they are declared in `cli/src/main.rs`, and as they are read by
`clap` 3.2 (`Cli::parse`), from the words given by the user to a value of `Args`.

Simplified: the words are texts (an argument which is not UTF-8 is refused by `clap`, but for the values of the two options);
what `clap` prints is left out.  A word which would be a second value of an argument which takes one, after `--`, is `unclear`.
-/
import Verif.Program.Model
namespace LJ.Program
open LJ.Process (Str)
open LJ.Cli (Fs)

/-- `clap_lex`, `is_long` or `is_short`: the word looks like an option. -/
def dashed (w : Str) : Bool := w.head? == some '-' && w != ['-']

/-- The arguments of a command, in order: whether an argument takes many values (main.rs:32-78), and
`allow_missing_positional` (main.rs:33 and 42). -/
structure Shape where
  many : List Bool
  allowMissing : Bool

/-- `clap`, `Parser::get_matches_with`, the place of a word: `pos` is the place of the last one, `next` the word after it. -/
def Shape.place (sh : Shape) (pos : Nat) (trailing : Bool) (next : Option Str) : Nat :=
  let second := pos + 1 == sh.many.length
  if (second && sh.many.dropLast.any id) || (sh.allowMissing && second && !trailing) then
    if next.all dashed then pos + 1 else pos
  else if trailing && sh.allowMissing then sh.many.length
  else pos

/-- The values of the arguments, by place. -/
abbrev Values := Nat → List Str

/-- One more value. -/
def Values.add (got : Values) (p : Nat) (w : Str) : Values := fun q => if q = p then got q ++ [w] else got q

/-- How the reading of the words of a command ends. -/
inductive Read where
  | values (got : Values)
  | info
  | usage
  | unclear

/-- The flag `-h` or `--help` of every command. -/
def isHelp (w : Str) : Bool := w == "--help".toList || w.take 2 == "-h".toList

/-- The flag `-V` or `--version` of the program, declared by `version` (main.rs:12). -/
def isVersion (w : Str) : Bool := w == "--version".toList || w.take 2 == "-V".toList

/-- `clap`, `Parser::get_matches_with` for the words of a command which has no option. -/
def Shape.read (sh : Shape) (pos : Nat) (trailing : Bool) (got : Values) : List Str → Read
  | [] => .values got
  | w :: ws =>
    if !trailing && w == "--".toList then sh.read pos true got ws
    else if !trailing && dashed w then (if isHelp w then .info else .usage)
    else
      let p := sh.place pos trailing ws.head?
      match sh.many[p - 1]? with
      | none => .usage
      | some true => sh.read p trailing (got.add p w) ws
      | some false => if got p = [] then sh.read (p + 1) trailing (got.add p w) ws else .unclear

/-- main.rs:37, 40, 65, 69, 73 and 77: a command with one argument. -/
def single (f : Str → Command) : Shape × (Values → Option Command) := (⟨[false], false⟩, fun got => (got 1).head?.map f)

/-- main.rs:52-62, `required = true`: a command with a list of arguments. -/
def list (f : List Str → Command) : Shape × (Values → Option Command) :=
  (⟨[true], false⟩, fun got => if got 1 = [] then none else some (f (got 1)))

/-- main.rs:32-78 `Commands`: the names given by the derive macro, and the arguments. -/
def command (w : Str) : Option (Shape × (Values → Option Command)) :=
  if w = "diff".toList then some (⟨[true, false], true⟩, fun got => (got 2).head?.map (.diff (got 1)))
  else if w = "path".toList then some (single .path)
  else if w = "url".toList then some (single .url)
  else if w = "journald".toList then some (⟨[false, false], true⟩, fun got => (got 2).head?.map (.journald (got 1).head?))
  else if w = "current-build".toList then some (⟨[], false⟩, fun _ => some .currentBuild)
  else if w = "train".toList then some (list .train)
  else if w = "test".toList then some (list .test)
  else if w = "debug-groups".toList then some (single .debugGroups)
  else if w = "debug-tokenizer".toList then some (single .debugTokenizer)
  else if w = "debug-iterator".toList then some (single .debugIterator)
  else if w = "debug-indexname".toList then some (single .debugIndexname)
  else none

/-- How the reading of the command line ends: a command to run, a text of information (`--help`, `--version`), an error of usage. -/
inductive Usage where
  | run (args : Args)
  | info
  | usage
  | unclear
deriving DecidableEq, Repr

/-- The options read so far; `bad` tells that one has no value, or was given twice, which `clap` finds at the end. -/
structure Opts where
  report : Option Str
  model : Option Str
  bad : Bool

/-- main.rs:16-17 `report` -/
def Opts.setReport (o : Opts) (v : Str) : Opts := { o with report := some v, bad := o.bad || o.report.isSome }

/-- main.rs:19-25 `model` -/
def Opts.setModel (o : Opts) (v : Str) : Opts := { o with model := some v, bad := o.bad || o.model.isSome }

/-- `--name=value` -/
def attached (name : String) (w : Str) : Option Str :=
  if name.toList ++ ['='] <+: w then some (w.drop (name.toList.length + 1)) else none

/-- main.rs:27-28 `command`, after the options. -/
def Opts.finish (o : Opts) (sub : Shape × (Values → Option Command)) (ws : List Str) : Usage :=
  match sub.1.read 1 false (fun _ => []) ws with
  | .info => .info
  | .usage => .usage
  | .unclear => .unclear
  | .values got =>
    match sub.2 got with
    | none => .usage
    | some c => if o.bad then .usage else .run ⟨o.report, o.model, c⟩

/-- `clap`, `Parser::get_matches_with` for the options and the name of the command.  The option `set` waits for its value.  The command
`help` is disabled (main.rs:13), and a command is required (main.rs:27-28). -/
def top (o : Opts) (set : Option (Opts → Str → Opts)) : List Str → Usage
  | [] => .usage
  | w :: ws =>
    if set.isNone && (command w).isSome then
      match command w with
      | some sub => o.finish sub ws
      | none => .usage
    else if w = "--".toList then .usage
    else if dashed w then
      let o := { o with bad := o.bad || set.isSome }
      if w = "--report".toList then top o (some Opts.setReport) ws
      else if w = "--model".toList then top o (some Opts.setModel) ws
      else if isHelp w || isVersion w then .info
      else
        match attached "--report" w, attached "--model" w with
        | some v, _ => top (o.setReport v) none ws
        | none, some v => top (o.setModel v) none ws
        | none, none => .usage
    else
      match set with
      | some f => top (f o w) none ws
      | none => .usage

/-- main.rs:208 `Cli::parse`, for the words after the name of the program. -/
def parse (argv : List Str) : Usage := top ⟨none, none, false⟩ none argv

section
variable {C S N D E ε : Type} [DecidableEq N]

/-- The status of a process whose `main` returns this, or panics. -/
def exitCode : Except (Problem C E) Unit → Nat
  | .ok () => 0
  | .error .panic => 101
  | .error _ => 1

/-- main.rs:159-215, with the arguments: the files and the status of the process.  `unclear` is taken for an error of usage. -/
def Tool.program (T : Tool C S N D E ε) (level : Option Bool) (tty cache : Bool) (fs : Fs Str) (argv : List Str) : Done C S N E × Nat :=
  if level = some false then
    (keep fs ([], .error .level), 1)
  else
    match parse argv with
    | .run args => let d := T.main level tty cache fs args; (d, exitCode d.result)
    | .info => (keep fs ([], .ok ()), 0)
    | .usage => (keep fs ([], .ok ()), 2)
    | .unclear => (keep fs ([], .ok ()), 2)

end
end LJ.Program

/-
Model of the paths and locations: `model/src/files.rs`, `urls.rs`, `reader.rs` (the choice of the reader)
and the sources and inputs of `model.rs`.

A string is its list of characters.  Offsets in strings are offsets in bytes, as in the program.  The file
system, the URL parser and the recognition of zuul URLs are parameters.
-/
namespace LJ.Paths

/-- A string of the program. -/
abbrev Str := List Char

/-! ### Strings -/

/-- `str::starts_with` with a string -/
def startsWith (s pat : Str) : Bool := pat.isPrefixOf s

/-- `str::ends_with` with a string -/
def endsWith (s pat : Str) : Bool := pat.isSuffixOf s

/-- `str::contains` with a string -/
def contains (pat : Str) : Str → Bool
  | [] => pat.isEmpty
  | c :: s => pat.isPrefixOf (c :: s) || contains pat s

/-- `str::split` with a character -/
def split (sep : Char) : Str → List Str
  | [] => [[]]
  | c :: s =>
    if c = sep then [] :: split sep s
    else
      match split sep s with
      | [] => [[c]]
      | p :: ps => (c :: p) :: ps

/-- `str::split_once` with a character: what is before it, if it is there -/
def splitOnce (sep : Char) : Str → Option Str
  | [] => none
  | c :: s => if c = sep then some [] else (splitOnce sep s).map (c :: ·)

/-- `str::trim_start_matches` with a predicate -/
def trimStart (p : Char → Bool) (s : Str) : Str := s.dropWhile p

/-- `str::trim_end_matches` with a predicate -/
def trimEnd (p : Char → Bool) (s : Str) : Str := (s.reverse.dropWhile p).reverse

/-- `str::trim_matches` with a predicate -/
def trimBoth (p : Char → Bool) (s : Str) : Str := trimEnd p (trimStart p s)

/-- `str::trim_end_matches(".gz")`, on the reversed string -/
def trimRevGz : Str → Str
  | 'z' :: 'g' :: '.' :: s => trimRevGz s
  | s => s

/-- `str::trim_end_matches(".gz")` -/
def trimGz (s : Str) : Str := (trimRevGz s.reverse).reverse

/-- `&s[n..]`: a panic when `n` is past the end or inside a character -/
def sliceFrom : Str → Nat → Option Str
  | s, 0 => some s
  | [], _ + 1 => none
  | c :: s, n + 1 => if c.utf8Size ≤ n + 1 then sliceFrom s (n + 1 - c.utf8Size) else none

/-- `&s[..n]` -/
def sliceTo : Str → Nat → Option Str
  | _, 0 => some []
  | [], _ + 1 => none
  | c :: s, n + 1 => if c.utf8Size ≤ n + 1 then (sliceTo s (n + 1 - c.utf8Size)).map (c :: ·) else none

/-- `str::len` -/
def byteLen (s : Str) : Nat := (s.map Char.utf8Size).sum

/-! ### Paths (`std::path::Path` on Unix) -/

/-- `std::path::Component` -/
inductive Comp where
  | root
  | cur
  | up
  | normal (name : Str)
deriving DecidableEq, Repr

/-- The component of a part between slashes; empty parts and `.` are not components. -/
def compOf (part : Str) : Option Comp :=
  if part = [] then none
  else if part = ['.'] then none
  else if part = ['.', '.'] then some .up
  else some (.normal part)

/-- `Path::components`: the root, or `.` at the very start, then the parts. -/
def components (s : Str) : List Comp :=
  match split '/' s with
  | [] => []
  | first :: rest =>
    let head : List Comp :=
      if first = [] then (if rest = [] then [] else [.root])
      else if first = ['.'] then [.cur]
      else (compOf first).toList
    head ++ rest.filterMap compOf

/-- `Path::file_name` of the path with these components -/
def fileName (cs : List Comp) : Option Str :=
  match cs.getLast? with
  | some (.normal n) => some n
  | _ => none

/-- `Path::parent` of the path with these components -/
def parent (cs : List Comp) : Option (List Comp) :=
  match cs.getLast? with
  | none => none
  | some .root => none
  | some _ => some cs.dropLast

/-- `Path::extension`: what is after the last dot of the file name, unless it starts the name. -/
def extensionOf (name : Str) : Option Str :=
  match (split '.' name).reverse with
  | ext :: before => if before = [] then none else if before = [[]] then none else some ext
  | [] => none

/-- `Path::extension` -/
def extension (s : Str) : Option Str := (fileName (components s)).bind extensionOf

/-! ### Index names -/

/-- files.rs:67-70 `is_small_hash` -/
def isSmallHash (name : Str) : Bool :=
  byteLen name == 7 && name.all fun c => ('a' ≤ c && c ≤ 'f') || c.isDigit

/-- files.rs:82-93 `is_k8s_service` -/
def isK8sService (name : Str) : Option Str :=
  if startsWith name "k8s_".toList then splitOnce '-' name
  else if startsWith name "pvc-".toList then some "pvc".toList
  else none

/-- files.rs:106-112 `take_until_pod_uuid`; `split` always yields a first part. -/
def takeUntilPodUuid (name : Str) : Str := (split '-' name).headD name

/-- files.rs:127-133 `parent_str` -/
def parentStr (cs : List Comp) : Option (List Comp × Str) :=
  (parent cs).bind fun p => (fileName p).map fun name => (p, name)

/-- files.rs:137-141 -/
def fileNameOr (cs : List Comp) : Str := (fileName cs).getD "N/A".toList

/-- files.rs:143-151, the file name with the name of its directory -/
def shortFileName (cs : List Comp) : Str :=
  match parentStr cs with
  | none => fileNameOr cs
  | some (p, name) =>
    if isSmallHash name then ((parentStr p).map Prod.snd).getD [] ++ '/' :: fileNameOr cs
    else name ++ '/' :: fileNameOr cs

/-- files.rs:164, 167 the symbols of a name -/
def isSymbol (c : Char) : Bool := c == '/' || c == '.' || c == '_' || c == '-'

/-- files.rs:162-166 `replace`: what is kept of a name -/
def keep (s : Str) : Str := s.filter fun c => c.isAlpha || isSymbol c

/-- files.rs:161-169 the ordinary name -/
def cleanName (short : Str) : Str := trimGz (trimBoth isSymbol (keep short))

/-- files.rs:153-170 the name, given the short file name and the file name -/
def modelName (short name : Str) : Str :=
  if startsWith short "qemu/instance-".toList then "qemu/instance".toList
  else if startsWith short "pod/".toList then takeUntilPodUuid short
  else
    match isK8sService name with
    | some service => service
    | none => cleanName short

/-- files.rs:136-172 `IndexName::from_path` -/
def indexName (base : Str) : Str :=
  let cs := components base
  modelName (shortFileName cs) (fileNameOr cs)

/-! ### Sources -/

/-- model.rs:76-80 `Source`.  A local path is bytes, which may not be a string: its `to_str` is given. -/
inductive Source where
  | loc (baseLen : Nat) (path : Option Str)
  | remote (baseLen : Nat) (url : Str)
deriving DecidableEq, Repr

/-- model.rs:105-110 `as_str` -/
def Source.asStr : Source → Str
  | .loc _ path => path.getD []
  | .remote _ url => url

/-- model.rs:98-103 `get_relative`; a panic is `none`. -/
def Source.getRelative : Source → Option Str
  | .loc baseLen path => sliceFrom (path.getD []) baseLen
  | .remote baseLen url => sliceFrom url baseLen

/-- model.rs:95-97 `is_json` -/
def Source.isJson (s : Source) : Option Bool := s.getRelative.map fun r => endsWith r ".json".toList

/-- model.rs:167-169 `IndexName::from_source` -/
def Source.indexName (s : Source) : Option Str := s.getRelative.map LJ.Paths.indexName

/-- model.rs:116-134 the suffixes -/
def EXTS : List Str :=
  [".ico", ".png", ".clf", ".tar", ".tar.bzip2", ".subunit", ".sqlite", ".db", ".bin", ".pcap.log.txt",
   ".eot", ".otf", ".woff", ".woff2", ".ttf", ".yaml", ".ini", ".conf",
   "job-output.json", "log-classify.json", "zuul-manifest.json", ".html",
   "cacerts", "local/creds", "pacemaker/authkey", "mysql/tc.log.txt", "corosync/authkey",
   "object.builder", "account.builder", "container.builder"].map String.toList

/-- model.rs:135-138, with the compressed ones -/
def allExts : List Str := EXTS.flatMap fun ext => [ext, ext ++ ".gz".toList]

/-- model.rs:112-142 `is_valid` -/
def isValid (s : Str) : Bool := allExts.all (fun ext => !endsWith s ext) && !contains "/etc/".toList s

/-! ### Listing a local directory -/

/-- `Path::join` on strings: `walkdir` joins the names of the entries to the path of their directory. -/
def join (dir name : Str) : Str := if dir = [] || endsWith dir ['/'] then dir ++ name else dir ++ '/' :: name

/-- files.rs:54-64: one name added to the path of an entry -/
def joinStep (p n : Option Str) : Option Str :=
  match p, n with
  | some p, some n => some (join p n)
  | _, _ => none

/-- files.rs:54-64 `dir_iter`, for one entry at the end of a chain of names below the directory; a name
which is not a string makes the path not a string. -/
def entryPath (dir : Str) (names : List (Option Str)) : Option Str := names.foldl joinStep (some dir)

/-- files.rs:55 and 62: the source of the entry -/
def dirSource (dir : Str) (names : List (Option Str)) : Source := .loc (byteLen dir) (entryPath dir names)

/-- An entry of `walkdir`: an error, or what `keep_path` looks at. -/
structure Entry where
  symlink : Bool
  file : Bool
  source : Source

/-- files.rs:46-53 `keep_path` -/
def keepPath {E : Type} : Except E Entry → Bool
  | .ok e => !e.symlink && e.file
  | .error _ => true

/-- files.rs:54-64 `dir_iter` on the results of the walk -/
def dirIter {E : Type} (walk : List (Except E Entry)) : List (Except E Source) :=
  (walk.filter keepPath).map fun e => e.map (·.source)

/-! ### Opening -/

/-- reader.rs:40-48 `DecompressReader`, for the local files -/
inductive Reader where
  | flat (data : List UInt8)
  | gz (data : List UInt8)
deriving DecidableEq, Repr

/-- reader.rs:51-60 `from_path`; the file system gives the data of a file which can be opened. -/
def fromPath (fs : Str → Option (List UInt8)) (path : Str) : Option Reader :=
  match fs path with
  | none => none
  | some fp =>
    let ext := (extension path).getD []
    some (if ext = ".gz".toList then .gz fp else .flat fp)

/-- reader.rs:107-115 `read`: what the reader yields, `gunzip` being the decoder. -/
def Reader.data (gunzip : List UInt8 → List UInt8) : Reader → List UInt8
  | .flat d => d
  | .gz d => gunzip d

/-- The result of an operation which may panic. -/
inductive Res (α : Type) where
  | ok (a : α)
  | err
  | panic
deriving DecidableEq, Repr

/-- urls.rs:30-37 `url_open`: the base and the URL given to the reader. -/
def urlOpen (parse : Str → Option Str) (pre : Nat) (url : Str) : Res (Str × Str) :=
  if pre = 0 then .ok (url, url)
  else
    match sliceTo url 42 with
    | none => .panic
    | some b =>
      match parse b with
      | some base => .ok (base, url)
      | none => .err

/-- urls.rs:41 and 55 `httpdir_iter`: the source of a listed URL. -/
def httpdirSource (url u : Str) : Source := .remote (byteLen (trimEnd (· == '/') url) + 1) u

/-! ### Inputs -/

/-- model.rs:39-42 `Input` -/
inductive Input where
  | path (s : Str)
  | url (s : Str)
deriving DecidableEq, Repr

/-- model.rs:45-51 `Input::from_string` -/
def Input.fromString (s : Str) : Input := if startsWith s "http".toList then .url s else .path s

/-- model.rs:57-63 `Content` -/
inductive Content (Z : Type) where
  | file (s : Source)
  | directory (s : Source)
  | zuul (b : Z)
deriving DecidableEq, Repr

/-- What the program asks the file system and the network about inputs. -/
structure Outside (Z : Type) where
  isDir : Str → Bool
  isFile : Str → Bool
  /-- `Url::parse`: the normalised URL -/
  parse : Str → Option Str
  /-- `Url::has_authority` -/
  hasAuthority : Str → Bool
  /-- zuul.rs `from_zuul_url` (`Verif/Zuul`): `none` when it is not a zuul URL -/
  zuulUrl : Str → Option (Res Z)

/-- files.rs:12-23 `Content::from_path` -/
def fromPathStr {Z : Type} (o : Outside Z) (path : Str) : Res (Content Z) :=
  if o.isDir path then .ok (.directory (.loc 0 (some path)))
  else if o.isFile path then .ok (.file (.loc 0 (some path)))
  else .err

/-- urls.rs:15-25 `Content::from_url` -/
def fromUrl {Z : Type} (o : Outside Z) (url : Str) : Res (Content Z) :=
  if !o.hasAuthority url then .err
  else
    match o.zuulUrl url with
    | some (.ok b) => .ok (.zuul b)
    | some .err => .err
    | some .panic => .panic
    | none => if endsWith url ['/'] then .ok (.directory (.remote 0 url)) else .ok (.file (.remote 0 url))

/-- model.rs:326-334 `Content::from_input` -/
def fromInput {Z : Type} (o : Outside Z) : Input → Res (Content Z)
  | .path s => fromPathStr o s
  | .url s =>
    match o.parse s with
    | none => .panic
    | some url => fromUrl o url

/-- model.rs:342-364 and files.rs:26-32 `discover_baselines`, for the contents which are not builds. -/
def discoverBaselines {Z : Type} (o : Outside Z) (zuul : Z → Res (List (Content Z))) : Content Z → Res (List (Content Z))
  | .file (.loc _ (some path)) =>
    match fromInput o (.path (path ++ ".0".toList)) with
    | .ok c => .ok [c]
    | .err => .err
    | .panic => .panic
  | .file (.loc _ none) => .panic
  | .file (.remote _ _) => .err
  | .directory _ => .err
  | .zuul b =>
    match zuul b with
    | .ok [] => .err
    | .ok bs => .ok bs
    | .err => .err
    | .panic => .panic

end LJ.Paths

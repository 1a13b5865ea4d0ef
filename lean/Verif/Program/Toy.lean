/-
Concrete programs: where the commands do what is expected, and where they do not.
-/
import Verif.Program.LocalProps
import Verif.Program.Modes
import Verif.Whole.Toy
namespace LJ.Program
open LJ.Process (Str Bytes Ev AnomalyContext)
open LJ.Process.Spec (Line Window Consecutive Shows)
open LJ.Paths (Input Res Outside Content Source)
open LJ.Whole (Machine Local toyDisk toyMachine toyMachine_ordinary oldLines newLines)
open LJ.Output (OutputMode println decimal)
open LJ.Cli (Fs)
open Spec

/-! ### The commands -/

/-- A directory with four files: the name of the index is the last digit of their number, and each has one line. -/
def toyTool : Tool Unit Nat Nat Nat Unit Unit where
  logs := {
    list := fun _ => [.ok 13, .ok 20, .ok 1, .ok 33]
    valid := fun _ => true
    nameOf := fun s => s % 10
    isJson := fun _ => false
    openSource := fun _ => .ok fun _ => [.ok ([120], 1)]
    decode := fun _ => some ['x']
    tokenize := id
    search := fun _ ts => ts.map fun _ => 0
    over := fun _ => false }
  fromInput _ := .ok ()
  discover _ := .ok [()]
  trainOrder := id
  reportOrder := id
  groupOrder := List.reverse
  live := ⟨fun _ => [], decimal, fun _ => [], fun _ => [], decimal⟩
  page _ := some []
  encModel _ := none
  decModel _ := none
  encReport _ := none
  withJson p := p ++ ".json".toList
  noCreate _ := false
  limit _ := none
  held _ := 0
  le a b := decide (a ≤ b)
  nameText := decimal
  quote p := ['"'] ++ p ++ ['"']
  showName := decimal
  showSources ss := (ss.map decimal).flatten
  utf8Err _ := []
  readErr _ := []
  tokenizer := id
  indexName := id
  test _ := ([], some true)

theorem toyTool_calm : Calm toyTool where
  input _ := by intro h; cases h
  discover _ := by intro h; cases h
  search _ := ⟨fun _ => 0, fun _ => rfl⟩
  page _ := by intro h; cases h
  test _ := by intro h; cases h

theorem toyTool_orders : Orders toyTool where
  train _ := .rfl
  report _ := .rfl
  group g := List.reverse_perm g

theorem toyTool_le : LinearLe toyTool.le where
  total a b := by simp only [toyTool, decide_eq_true_eq]; omega
  trans a b c := by simp only [toyTool, decide_eq_true_eq]; omega
  antisymm a b := by simp only [toyTool, decide_eq_true_eq]; omega

def noFiles : Fs Str := ⟨fun _ => none, fun _ => false⟩

/-- `journald` panics. -/
theorem C97_false : ¬ C97 := fun h =>
  h _ _ _ _ _ _ toyTool toyTool_calm toyTool_orders .quiet false noFiles ⟨none, none, .currentBuild⟩ rfl

example : (toyTool.run .quiet false noFiles ⟨none, none, .path "a".toList⟩).result ≠ .error .panic :=
  C97_partial toyTool_calm toyTool_orders _ _ _ (fun h => h)

/-- `diff` without a source succeeds, with an empty model. -/
theorem C98_false : ¬ C98 := by
  intro h
  have hu : LJ.Report.Spec.Usable toyTool.logs.valid (toyTool.logs.list ()) := ⟨by simp [toyTool], by simp [toyTool, LJ.Report.Spec.validSources]⟩
  obtain ⟨h1, ⟨m, h2, h3, _⟩, _⟩ := C98_no_source (dst := "a".toList) (content := ()) toyTool_calm .quiet false noFiles rfl hu toyTool_orders
  obtain ⟨m', e, n, i, hi, _⟩ := h _ _ _ _ _ _ toyTool toyTool_calm toyTool_orders (fun _ => by simp [toyTool]) .quiet false noFiles ⟨none, none, .diff [] "a".toList⟩
    trivial (by intro p hp; cases hp) h1
  rw [h2] at e
  cases e
  rw [h3] at hi
  cases hi

/-- A comparison with a baseline has an index for each of the four files. -/
example : ∃ m, (toyTool.run .quiet false noFiles ⟨none, none, .diff ["b".toList] "a".toList⟩).model = some m ∧
    ∀ s ∈ [13, 20, 1, 33], ∃ n i, (n, i) ∈ m.indexes ∧ s ∈ i.sources := by
  have hok : (toyTool.run .quiet false noFiles ⟨none, none, .diff ["b".toList] "a".toList⟩).result = .ok () := by decide +kernel
  obtain ⟨m, h1, h2, h3, _⟩ := C98_partial toyTool_orders (fun _ => by simp [toyTool]) .quiet false noFiles (args := ⟨none, none, .diff ["b".toList] "a".toList⟩)
    trivial (fun _ h => by cases h) (by intro p hp; cases hp) hok
  refine ⟨m, h1, ?_⟩
  obtain ⟨c, hc⟩ := List.exists_mem_of_ne_nil _ h2
  exact fun s hs => h3 c hc s (by simpa [sourcesOf, toyTool, LJ.Report.Spec.validSources] using hs)

/-- Three groups, sorted. -/
example : (toyTool.run .quiet false noFiles ⟨none, none, .debugGroups "a".toList⟩).printed = ["0: 20\n".toList, "1: 1\n".toList, "3: 1333\n".toList] := by
  have hg : LJ.Report.groupSources toyTool.logs [()] = .ok [(3, [13, 33]), (0, [20]), (1, [1])] := by decide +kernel
  have h1 : (toyTool.run .quiet false noFiles ⟨none, none, .debugGroups "a".toList⟩).printed = toyTool.groupLines [(3, [13, 33]), (0, [20]), (1, [1])] := by
    show (toyTool.debugGroups (Input.fromString "a".toList)).1 = _
    unfold Tool.debugGroups
    have : toyTool.fromInput (Input.fromString "a".toList) = .ok () := rfl
    simp only [this, ofRes, hg]
  have h2 : ([(1, [1]), (0, [20]), (3, [13, 33])] : List (Nat × List Nat)).mergeSort (fun x y => toyTool.le x.1 y.1) = [(0, [20]), (1, [1]), (3, [13, 33])] := by
    simp [List.mergeSort, toyTool]
  rw [h1]
  unfold Tool.groupLines
  show ((([(1, [1]), (0, [20]), (3, [13, 33])] : List (Nat × List Nat)).mergeSort (fun x y => toyTool.le x.1 y.1)).map _) = _
  rw [h2]
  decide +kernel

example : LJ.Report.Spec.Usable toyTool.logs.valid (toyTool.logs.list ()) := ⟨by simp [toyTool], by simp [toyTool, LJ.Report.Spec.validSources]⟩

/-- In a terminal, a progress text is added; the result is the same. -/
example : (toyTool.main none true false noFiles ⟨none, none, .diff [] "a".toList⟩).printed =
      [" -> No baselines for 13\n".toList, " -> No baselines for 20\n".toList, " -> No baselines for 1\n".toList, " -> No baselines for 33\n".toList,
       "\r\x1b[1;33m[+]\x1b[0m : Reduced from 0 to 0".toList] ∧
    (toyTool.main none false false noFiles ⟨none, none, .diff [] "a".toList⟩).printed =
      [" -> No baselines for 13\n".toList, " -> No baselines for 20\n".toList, " -> No baselines for 1\n".toList, " -> No baselines for 33\n".toList] ∧
    (toyTool.main none true false noFiles ⟨none, none, .diff [] "a".toList⟩).result = (toyTool.main none false false noFiles ⟨none, none, .diff [] "a".toList⟩).result ∧
    (toyTool.main (some false) true false noFiles ⟨none, none, .diff [] "a".toList⟩).result = .error .level := by
  decide +kernel

/-! ### Two local logs -/

/-- The files of the machine, and a file which looks like a URL. -/
def toyOutside : Outside Empty where
  isDir _ := false
  isFile p := decide (p = "old.log".toList ∨ p = "new.log".toList ∨ p = "httpd.log".toList)
  parse _ := none
  hasAuthority _ := false
  zuulUrl _ := none

noncomputable def toyPages : PageMaker := ⟨true, ⟨fun _ => 29, fun _ => 76⟩, [], [], ⟨fun _ => [], fun _ => [], fun _ => [], id, [], [], fun _ _ => []⟩, fun _ => []⟩

noncomputable def toyLocal : Tool Local Source Str ℝ Unit Unit where
  logs := toyDisk.world
  fromInput _ := .err
  discover _ := .err
  trainOrder := id
  reportOrder := id
  groupOrder := id
  live := ⟨fun _ => [], fun _ => [], fun _ => [], fun _ => [], fun _ => "29".toList⟩
  page _ := none
  encModel _ := none
  decModel _ := none
  encReport _ := none
  withJson := id
  noCreate _ := false
  limit _ := none
  held _ := 0
  le _ _ := true
  nameText := id
  quote p := ['"'] ++ p ++ ['"']
  showName := id
  showSources _ := []
  utf8Err _ := []
  readErr _ := []
  tokenizer := id
  indexName := id
  test _ := ([], none)

theorem toyLocal_orders : Orders toyLocal where
  train _ := .rfl
  report _ := .rfl
  group _ := .rfl

theorem toy_plain : ∀ l ∈ oldLines ++ newLines, LJ.Whole.Spec.PlainLine l := by
  intro l hl
  unfold LJ.Whole.Spec.PlainLine
  rw [LJ.Whole.utf8_eq]
  revert l
  decide +kernel

theorem oldLog : Log toyDisk toyOutside "old.log".toList oldLines where
  dir := rfl
  file := by decide +kernel
  bytes := rfl
  lines l hl := toy_plain l (by simp [hl])
  valid := by decide +kernel
  json := by decide +kernel
  url := by decide +kernel

theorem newLog : Log toyDisk toyOutside "new.log".toList newLines where
  dir := rfl
  file := by decide +kernel
  bytes := rfl
  lines l hl := toy_plain l (by simp [hl])
  valid := by decide +kernel
  json := by decide +kernel
  url := by decide +kernel

section
variable {M : Machine} {X : Outside Empty} {G : PageMaker} {T : Tool Local Source Str ℝ Unit Unit}

/-- a target which can't be made -/
theorem diff_panic {p : Str} (h : localInput X (Input.fromString p) = .panic) (mode : OutputMode) (cache : Bool) (fs : Fs Str) (report : Option Str) (src : List Str) :
    ((localTool M X G T).run mode cache fs ⟨report, none, .diff src p⟩).result = .error .panic := by
  have e : ((localTool M X G T).cli mode).fromInput (Input.fromString p) = .error .panic := by
    show ofRes (localInput X _) = _
    rw [h]; rfl
  unfold Tool.run Tool.process LJ.Cli.process
  simp only [e]

/-- a file without a baseline -/
theorem path_alone {p : Str} (hdir : X.isDir p = false) (hfile : X.isFile p = true) (hno : X.isDir (p ++ ".0".toList) = false ∧ X.isFile (p ++ ".0".toList) = false)
    (mode : OutputMode) (cache : Bool) (fs : Fs Str) (report : Option Str) :
    ((localTool M X G T).run mode cache fs ⟨report, none, .path p⟩).result = .error .input := by
  have f1 : ((localTool M X G T).cli mode).fromInput (.path p) = .ok (.file p) := by
    show ofRes (localInput X _) = _
    rw [localInput_file hdir hfile]; rfl
  have f2 : ((localTool M X G T).cli mode).discover (.file p) = .error .input := by
    show ofRes (localDiscover X _) = _
    have : localInput X (.path (p ++ ".0".toList)) = .err := by
      unfold localInput LJ.Paths.fromInput LJ.Paths.fromPathStr
      simp only [hno.1, hno.2]
      rfl
    rw [discover_file, this]; rfl
  unfold Tool.run Tool.process LJ.Cli.process LJ.Cli.getModel LJ.Cli.makeModel LJ.Cli.findBaselines
  simp only [f1, f2]
end

/-- `httpd.log` is read as a URL by `diff`, and not by `path`. -/
theorem C102_false : ¬ C102 := by
  intro h
  have e := congrArg Done.result (h toyDisk toyOutside toyPages toyLocal .quiet false noFiles none "httpd.log".toList rfl (by decide +kernel))
  have h0 : localInput toyOutside (Input.fromString "httpd.log".toList) = .panic := by decide +kernel
  rw [diff_panic h0, path_alone rfl (by decide +kernel) ⟨rfl, by decide +kernel⟩] at e
  cases e

/-- The two commands agree on `new.log`. -/
example : (localTool toyDisk toyOutside toyPages toyLocal).run .quiet false noFiles ⟨none, none, .path "new.log".toList⟩ =
    (localTool toyDisk toyOutside toyPages toyLocal).run .quiet false noFiles ⟨none, none, .diff ["new.log.0".toList] "new.log".toList⟩ := by
  have : "new.log.0".toList = "new.log".toList ++ ".0".toList := by decide +kernel
  rw [this]
  exact C102_partial newLog.dir newLog.file newLog.url _ _ (by intro p hp; cases hp) _

/-- The lines of `old.log`. -/
example : ((localTool toyDisk toyOutside toyPages toyLocal).run .quiet false noFiles ⟨none, none, .debugIterator "old.log".toList⟩).printed =
    ["1 | 2023-01-12 service started with pid 4321\n".toList, "2 | client connected\n".toList] := by
  rw [(C100_text (M := toyDisk) (toyMachine_ordinary _) oldLog _ _ _ _ _).2.2]
  decide +kernel

/-- the second line of `new.log` is the new one -/
theorem toy_new {dist : Str → ℝ} (g6 : LJ.Whole.Spec.Near toyDisk.hash (oldLines.map toyDisk.tok) dist) (k : Nat) : New toyDisk.tok dist newLines k ↔ k = 1 := by
  have htok : (newLines[0]?.map toyDisk.tok = oldLines[0]?.map toyDisk.tok ∧ newLines[2]?.map toyDisk.tok = oldLines[1]?.map toyDisk.tok) ∧
      (newLines.map toyDisk.tok).Nodup := by
    have e : toyDisk.tok = LJ.Tokenizer.process Char.isAlphanum := rfl
    rw [e]
    decide +kernel
  constructor
  · rintro ⟨l, k1, _, k3⟩
    have hk : k < 3 := (List.getElem?_eq_some_iff.1 k1).1
    have hknown : ∀ x ∈ oldLines, ∀ y, newLines[k]? = some y → toyDisk.tok y = toyDisk.tok x → False := by
      intro x hx y hy e
      rw [k1] at hy
      cases hy
      exact LJ.Whole.near_known g6 (List.mem_map.2 ⟨x, hx, e.symm⟩) k3
    have : k = 0 ∨ k = 1 ∨ k = 2 := by omega
    rcases this with rfl | rfl | rfl
    · exact (hknown _ (by simp [oldLines]) _ rfl (Option.some.inj htok.1.1)).elim
    · rfl
    · exact (hknown _ (by simp [oldLines]) _ rfl (Option.some.inj htok.1.2)).elim
  · rintro rfl
    refine ⟨"volume vanished quickly".toList, rfl, ?_, LJ.Whole.near_new g6 ?_⟩
    · intro j hj l' hl' e
      have : j = 0 := by omega
      subst this
      cases hl'
      have h := htok.2
      simp only [newLines, List.map_cons, List.nodup_cons, List.mem_cons, not_or] at h
      exact h.1.1 e
    · have hno : ∀ b ∈ oldLines.map (LJ.Tokenizer.process Char.isAlphanum), ∀ w ∈ b.splitOn ' ',
          ∀ w' ∈ (LJ.Tokenizer.process Char.isAlphanum "volume vanished quickly".toList).splitOn ' ',
          w.foldl (fun h c => h * 31 + c.toNat) 0 % 260000 ≠ w'.foldl (fun h c => h * 31 + c.toNat) 0 % 260000 := by decide +kernel
      rintro b hb ⟨w, hw, w', hw', e⟩
      exact hno b hb w hw w' hw' e

/-- a window around the only new line -/
theorem one_window {n k : Nat} {ws : List Window} (h2 : ∀ j, j ∈ ws.map (·.i) ↔ j = k) (h3 : (ws.map (·.i)).Pairwise (· < ·)) (h5 : Contexts n ws) :
    ws = [⟨k, min 3 k, min 3 (n - k - 1)⟩] := by
  match ws with
  | [] => exact absurd ((h2 k).2 rfl) (by simp)
  | [w] =>
    have h : w.i = k := (h2 w.i).1 (.head _)
    have hb := h5.first w rfl
    have ha := h5.last w rfl
    rw [h] at hb ha
    cases w
    simp only at h hb ha
    rw [h, hb, ha]
  | w :: w' :: ws =>
    have e1 : w.i = k := (h2 w.i).1 (.head _)
    have e2 : w'.i = k := (h2 w'.i).1 (.tail _ (.head _))
    have : w.i < w'.i := (List.pairwise_cons.1 h3).1 w'.i (.head _)
    omega

/-- One line of `new.log` is shown, with the lines around it: their numbers are too small by one. -/
example : ((localTool toyDisk toyOutside toyPages toyLocal).run .quiet false noFiles ⟨none, none, .diff ["old.log".toList] "new.log".toList⟩).printed =
    ["   0 | 2024-02-28 service started with pid 998877\n".toList, "29 2 | volume vanished quickly\n".toList, "   2 | client connected\n".toList] := by
  obtain ⟨_, _, dist, ws, h1, h2, h3, _, h5, h6⟩ := C101_diff (M := toyDisk) (G := toyPages) (toyMachine_ordinary _) toyLocal_orders oldLog newLog
    (by decide +kernel) (mode := .quiet) (by decide) false noFiles
  have hw := one_window (fun j => (h2 j).trans (toy_new h1 j)) h3 (h5 (by decide))
  rw [h6, hw]
  have e : (fun l => toyLocal.live.score (dist (toyDisk.tok l))) = fun _ => "29".toList := rfl
  rw [e]
  decide +kernel

/-- The page has one item. -/
example : ∃ page c item, ((localTool toyDisk toyOutside toyPages toyLocal).run .quiet false noFiles
      ⟨some "out.html".toList, none, .diff ["old.log".toList] "new.log".toList⟩).fs.files "out.html".toList = some (toyPages.write page) ∧
    LJ.Output.Spec.Within c page ∧ LJ.Output.Spec.ItemsOf c [item] := by
  obtain ⟨_, _, dist, ws, page, c, items, h1, h2, h3, _, h5, h6, h7, h8, _, _, _, h9⟩ := C101_page (M := toyDisk) (G := toyPages) (toyMachine_ordinary _) toyLocal_orders
    oldLog newLog (by decide +kernel) (by decide) .quiet (fs := noFiles) (file := "out.html".toList) ⟨rfl, rfl, rfl⟩
  have hw := one_window (fun j => (h2 j).trans (toy_new h1 j)) h3 (h5 (by decide))
  rw [if_neg (by rw [hw]; simp)] at h9
  obtain ⟨item, rfl, _⟩ := h9
  exact ⟨page, c, item, by rw [h6, if_pos rfl], h7, h8⟩

end LJ.Program

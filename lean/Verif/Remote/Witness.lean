/-
Concrete comparisons of remote files, evaluated.
-/
import Verif.Remote.SameLift
import Verif.Iterator.Eval
import Verif.Cache.Props
namespace LJ.Remote
open LJ.Codec (Bytes Texts Url Source Content)
open LJ.Cache (State Remote Response Opened File demoTexts demoUrl demoDigest)
open LJ.Process (Str Ev Env Trainer St AnomalyContext Stop)
open LJ.Report (Index Model Report ListErr Fail LogReport ReadErr World)

/-! ### Evaluation -/

/-- `nexts`, with a bound on the calls -/
def nextsN {ε : Type} (cfg : LJ.Iterator.Cfg) (fuel : Nat) : Nat → LJ.Iterator.BL ε → Option (LJ.Iterator.BL ε)
  | 0, s => some s
  | n + 1, s =>
    match LJ.Iterator.nextN cfg fuel s with
    | none => none
    | some (s, _) => nextsN cfg fuel n s

theorem nextsN_nexts {ε : Type} {cfg : LJ.Iterator.Cfg} {fuel n : Nat} {s s' : LJ.Iterator.BL ε} (h : nextsN cfg fuel n s = some s') : nexts cfg n s = s' := by
  induction n generalizing s with
  | zero => exact Option.some.inj h
  | succ n ih =>
    unfold nextsN at h
    cases hn : LJ.Iterator.nextN cfg fuel s with
    | none => rw [hn] at h; cases h
    | some p =>
      obtain ⟨s1, o⟩ := p
      rw [hn] at h
      unfold nexts
      rw [LJ.Iterator.nextN_next hn]
      exact ih h

section
variable {t : Texts} {N D E : Type} {S : Setup t N D E}

theorem lines_eval {json : Bool} {r : LJ.Iterator.Reader Unit} (fuel : Nat) {L : List (Ev Unit)}
    (h : (LJ.Iterator.drainN S.cfg fuel (LJ.Iterator.BL.new r json)).map LJ.Whole.events = some L) : S.lines json r = L :=
  LJ.Iterator.allLines_summary LJ.Whole.events h

theorem readsMade_eval {json : Bool} {r : LJ.Iterator.Reader Unit} (fuel : Nat) {n m : Nat}
    (h : (nextsN S.cfg fuel n (LJ.Iterator.BL.new r json)).map (fun s => r.length - s.reader.length) = some m) : S.readsMade json r n = m := by
  cases hn : nextsN S.cfg fuel n (LJ.Iterator.BL.new r json) with
  | none => rw [hn] at h; cases h
  | some s =>
    rw [hn] at h
    unfold Setup.readsMade
    rw [nextsN_nexts hn]
    exact Option.some.inj h

/-- the cache with a new entry, which was read `m` times -/
def fetched (digest : String → List Char) (base url : Url t) (body : Remote) (m : Nat) (c : State) : State :=
  LJ.Cache.readerClose c.readers.length (readMany c.readers.length m ((LJ.Cache.remoteAdd digest base url body c).getD c))

theorem read_fetch {net : Nat → Net t} {pre : UInt64} {base url : Url t} {json : Bool} {asked : List (Ev Unit) → Nat} {s : Sys} {resp : Response} {L : List (Ev Unit)} {m : Nat}
    (hu : S.useCache = true) (hb : baseOf pre.toNat url = .ok base) (hg : LJ.Cache.remoteGet S.digest base url s.cache = none)
    (hn : s.cache.names (LJ.Cache.httpName S.digest base url) = none) (hr : (net s.asked).get url = some resp)
    (hl : S.lines json (reads resp.body) = L) (hm : S.readsMade json (reads resp.body) (asked L) = m) :
    S.read net (.remote pre url) json asked s = (.ok L, ⟨fetched S.digest base url resp.body m s.cache, s.asked + 1⟩) := by
  unfold Setup.read fetched
  simp only [hb]
  unfold Setup.fromUrl LJ.Cache.fromUrl
  simp only [hu, if_true, hg, hr, Setup.asks, LJ.Cache.remoteAdd, LJ.Cache.create, hn, Option.map_some, Option.isSome_none, Bool.and_false, Bool.not_false, Option.getD_some]
  have hrd : (s.cache.readers ++ [some (⟨resp.body, s.cache.files.length⟩ : LJ.Cache.Reader)])[s.cache.readers.length]? = some (some ⟨resp.body, s.cache.files.length⟩) := by simp
  unfold Setup.consume
  simp only [hrd, hl, hm]

theorem read_hit {net : Nat → Net t} {pre : UInt64} {base url : Url t} {json : Bool} {asked : List (Ev Unit) → Nat} {s : Sys} {d : Bytes} {f : Bool} {L : List (Ev Unit)}
    (hu : S.useCache = true) (hb : baseOf pre.toNat url = .ok base) (hg : LJ.Cache.remoteGet S.digest base url s.cache = some (d, f))
    (hl : S.lines json (S.gzReads d f) = L) : S.read net (.remote pre url) json asked s = (.ok L, s) := by
  unfold Setup.read
  simp only [hb]
  unfold Setup.fromUrl LJ.Cache.fromUrl
  simp only [hu, if_true, hg, Setup.asks, Option.isSome_some, Bool.and_true, Bool.not_true, Bool.false_eq_true, if_false, Setup.consume, hl]

theorem read_live {net : Nat → Net t} {pre : UInt64} {base url : Url t} {json : Bool} {asked : List (Ev Unit) → Nat} {s : Sys} {resp : Response} {L : List (Ev Unit)}
    (hu : S.useCache = false) (hb : baseOf pre.toNat url = .ok base) (hr : (net s.asked).get url = some resp)
    (hl : S.lines json (reads resp.body) = L) : S.read net (.remote pre url) json asked s = (.ok L, ⟨s.cache, s.asked + 1⟩) := by
  unfold Setup.read
  simp only [hb]
  unfold Setup.fromUrl LJ.Cache.fromUrl
  simp only [hu, Bool.false_eq_true, if_false, hr, Setup.asks, Bool.false_and, Bool.not_false, if_true, Setup.consume, hl]

/-- what a report keeps of one source -/
def oneReport (name : Unit) (x y : Source t) (index : Index (Source t)) (as : List (AnomalyContext D)) (err : Option (LJ.Process.Err Unit)) (st : St D) :
    Report (Content t) (Source t) Unit D E Unit :=
  LJ.Report.record name index y as err st ⟨.file y, [.file x], [], [], [], [], 0, 0⟩

/-- the index of one source -/
def oneIndex (S : Setup t N D E) (x : Source t) (la : List (Ev Unit)) : Index (Source t) :=
  ⟨[x], (Trainer.new.add (S.env []) la).2.complete.chunks, (Trainer.new.add (S.env []) la).2.complete.lineCount, (Trainer.new.add (S.env []) la).2.complete.byteCount⟩

/-- the comparison of two files -/
theorem compare_files {S : Setup t Unit D E} {net : Nat → Net t} {x y : Source t} {s s1 s2 : Sys} {la lb : List (Ev Unit)} {as : List (AnomalyContext D)}
    {err : Option (LJ.Process.Err Unit)} {st : St D} (hx : S.valid x = true) (hy : S.valid y = true)
    (ha : S.read net x (S.isJson x) (trainAsked (S.env [])) s = (.ok la, s1))
    (hb : S.read net y (S.isJson y) (processAsked (S.env (oneIndex S x la).chunks) []) s1 = (.ok lb, s2))
    (hi : S.inspect (oneIndex S x la) lb [] = some (as, err, st)) :
    S.compare net id id [.file x] (.file y) s = (.ok (oneReport () x y (oneIndex S x la) as err st), s2) := by
  have hnx : S.nameOf x = () := rfl
  have h1 : S.train net id [.file x] s = (.ok ⟨[.file x], [((), oneIndex S x la)]⟩, s1) := by
    simp only [Setup.train, Setup.groupInto, Setup.getSources, Setup.list, List.filter, LJ.Report.keepSource, hx, LJ.Report.collectOk, List.foldl, LJ.Report.push, id,
      Setup.trainGroups, Setup.trainIndex, Setup.firstJson, Setup.trainSources, ha, oneIndex]
  unfold Setup.compare
  rw [h1]
  simp only [Setup.report, Setup.groupInto, Setup.getSources, Setup.list, List.filter, LJ.Report.keepSource, hy, LJ.Report.collectOk, List.foldl, LJ.Report.push, id,
      Setup.reportGroups, Setup.reportGroup, LJ.Report.lookupOrSingle, List.lookup, BEq.rfl, Setup.reportSources, hb, hi, oneReport]

/-- what is found in the second file -/
def found (S : Setup t Unit D E) (x y : Source t) (la lb : List (Ev Unit)) (h : (S.inspect (oneIndex S x la) lb []).isSome) : Report (Content t) (Source t) Unit D E Unit :=
  oneReport () x y (oneIndex S x la) ((S.inspect (oneIndex S x la) lb []).get h).1 ((S.inspect (oneIndex S x la) lb []).get h).2.1 ((S.inspect (oneIndex S x la) lb []).get h).2.2

theorem compare_found {S : Setup t Unit D E} {net : Nat → Net t} {x y : Source t} {s s1 s2 : Sys} {la lb : List (Ev Unit)} (hx : S.valid x = true) (hy : S.valid y = true)
    (ha : S.read net x (S.isJson x) (trainAsked (S.env [])) s = (.ok la, s1))
    (hb : S.read net y (S.isJson y) (processAsked (S.env (oneIndex S x la).chunks) []) s1 = (.ok lb, s2))
    (hi : (S.inspect (oneIndex S x la) lb []).isSome) :
    S.compare net id id [.file x] (.file y) s = (.ok (found S x y la lb hi), s2) :=
  compare_files hx hy ha hb (Option.some_get hi).symm

end

/-! ### The program of the examples -/

/-- the program of the examples: a line is an anomaly when it is not among those of the baseline -/
def demo (useCache : Bool) : Setup demoTexts Unit Bool Unit where
  digest := demoDigest
  useCache := useCache
  checks := false
  cut d := d.map fun b => [b]
  netError := ()
  localList _ := []
  localOpen _ := .error ()
  valid _ := true
  nameOf _ := ()
  isJson _ := false
  decode b := some (b.map fun c => Char.ofNat c.toNat)
  tokenize s := s
  search chunks ts := ts.map fun x => !decide (x ∈ chunks.flatten)
  over d := d

theorem demo_cut (b : Bool) : CutOk (demo b) := by
  intro d
  refine ⟨?_, ?_⟩
  · intro x hx
    simp only [demo, List.mem_map] at hx
    obtain ⟨c, _, rfl⟩ := hx
    exact ⟨by simp, by simp⟩
  · simp only [demo]
    induction d with
    | nil => rfl
    | cons c d ih => simp [ih]

theorem demo_search (b : Bool) : SearchOk (demo b) := fun chunks => ⟨fun x => !decide (x ∈ chunks.flatten), fun _ => rfl⟩

/-- an URL of the examples -/
def demoSource (s : String) : Source demoTexts := .remote 0 (demoUrl s)

theorem demo_base (s : String) : baseOf (0 : UInt64).toNat (demoUrl s) = .ok (demoUrl s) := rfl

/-- bytes of a text -/
def ascii (s : String) : Bytes := s.toList.map fun c => UInt8.ofNat c.toNat

/-! ### A connection which is lost -/

/-- two files; the connection of the second one is lost after its first line -/
def lostNet : Nat → Net demoTexts := fun _ =>
  { get := fun u => if u = demoUrl "b" then some ⟨200, ⟨ascii "a\n", []⟩⟩ else if u = demoUrl "t" then some ⟨200, ⟨ascii "a\nz\n", [.short 1, .fail]⟩⟩ else none
    list := fun _ => none }

/-- the first line of the files -/
def lineA : Ev Unit := .ok (ascii "a", 1)

/-- nothing in the cache, no request made -/
def start : Sys := ⟨State.empty, 0⟩

/-- the cache after the baseline -/
def lost1 : Sys := ⟨fetched demoDigest (demoUrl "b") (demoUrl "b") ⟨ascii "a\n", []⟩ 1 start.cache, 1⟩
/-- the cache after the target -/
def lost2 : Sys := ⟨fetched demoDigest (demoUrl "t") (demoUrl "t") ⟨ascii "a\nz\n", [.short 1, .fail]⟩ 2 lost1.cache, 2⟩

theorem lost_base : (demo true).read lostNet (demoSource "b") false (trainAsked ((demo true).env [])) start = (.ok [lineA], lost1) :=
  read_fetch (S := demo true) (L := [lineA]) (m := 1) (resp := ⟨200, ⟨ascii "a\n", []⟩⟩) rfl (demo_base "b") (by decide +kernel) (by decide +kernel) (by decide +kernel)
    (lines_eval 8 (by decide +kernel)) (readsMade_eval 8 (by decide +kernel))

theorem lost_target : (demo true).read lostNet (demoSource "t") false (processAsked ((demo true).env (oneIndex (demo true) (demoSource "b") [lineA]).chunks) []) lost1 =
    (.ok [lineA, .error ()], lost2) :=
  read_fetch (S := demo true) (L := [lineA, .error ()]) (m := 2) (resp := ⟨200, ⟨ascii "a\nz\n", [.short 1, .fail]⟩⟩) rfl (demo_base "t") (by decide +kernel) (by decide +kernel) (by decide +kernel)
    (lines_eval 8 (by decide +kernel)) (readsMade_eval 8 (by decide +kernel))


theorem lost_hit (f : List (Ev Unit) → Nat) : (demo true).read lostNet (demoSource "b") false f lost2 = (.ok [lineA], lost2) :=
  read_hit (S := demo true) (L := [lineA]) (d := ascii "a\n") (f := true) rfl (demo_base "b") (by decide +kernel) (lines_eval 8 (by decide +kernel))

theorem lost_short (f : List (Ev Unit) → Nat) : (demo true).read lostNet (demoSource "t") false f lost2 = (.ok [lineA], lost2) :=
  read_hit (S := demo true) (L := [lineA]) (d := ascii "a\n") (f := true) rfl (demo_base "t") (by decide +kernel) (lines_eval 8 (by decide +kernel))

/-! ### A file with the marker -/

/-- a file, one which contains the marker, and one with the line after the marker -/
def markNet : Nat → Net demoTexts := fun _ =>
  { get := fun u =>
      if u = demoUrl "b" then some ⟨200, ⟨ascii "a\n", []⟩⟩
      else if u = demoUrl "m" then some ⟨200, ⟨ascii "TASK [log-classify\nz\n", [.short 18]⟩⟩
      else if u = demoUrl "t" then some ⟨200, ⟨ascii "z\n", []⟩⟩
      else none
    list := fun _ => none }

/-- the line with the marker -/
def lineM : Ev Unit := .ok (ascii "TASK [log-classify", 1)
/-- the line after the marker -/
def lineZ (n : Nat) : Ev Unit := .ok (ascii "z", n)

/-- the cache after the first file -/
def mark1 : Sys := ⟨fetched demoDigest (demoUrl "b") (demoUrl "b") ⟨ascii "a\n", []⟩ 1 start.cache, 1⟩
/-- the cache after the file with the marker -/
def mark2 : Sys := ⟨fetched demoDigest (demoUrl "m") (demoUrl "m") ⟨ascii "TASK [log-classify\nz\n", [.short 18]⟩ 1 mark1.cache, 2⟩
/-- the cache after the last file -/
def mark3 : Sys := ⟨fetched demoDigest (demoUrl "t") (demoUrl "t") ⟨ascii "z\n", []⟩ 1 mark2.cache, 3⟩

theorem mark_base : (demo true).read markNet (demoSource "b") false (trainAsked ((demo true).env [])) start = (.ok [lineA], mark1) :=
  read_fetch (S := demo true) (L := [lineA]) (m := 1) (resp := ⟨200, ⟨ascii "a\n", []⟩⟩) rfl (demo_base "b") (by decide +kernel) (by decide +kernel) (by decide +kernel)
    (lines_eval 8 (by decide +kernel)) (readsMade_eval 8 (by decide +kernel))

theorem mark_target : (demo true).read markNet (demoSource "m") false (processAsked ((demo true).env (oneIndex (demo true) (demoSource "b") [lineA]).chunks) []) mark1 =
    (.ok [lineM, lineZ 2], mark2) :=
  read_fetch (S := demo true) (L := [lineM, lineZ 2]) (m := 1) (resp := ⟨200, ⟨ascii "TASK [log-classify\nz\n", [.short 18]⟩⟩) rfl (demo_base "m") (by decide +kernel) (by decide +kernel) (by decide +kernel)
    (lines_eval 8 (by decide +kernel)) (readsMade_eval 8 (by decide +kernel))

theorem mark_hit (f : List (Ev Unit) → Nat) : (demo true).read markNet (demoSource "m") false f mark2 = (.ok [lineM], mark2) :=
  read_hit (S := demo true) (L := [lineM]) (d := ascii "TASK [log-classify\n") (f := true) rfl (demo_base "m") (by decide +kernel) (lines_eval 64 (by decide +kernel))

theorem mark_last : (demo true).read markNet (demoSource "t") false (processAsked ((demo true).env (oneIndex (demo true) (demoSource "m") [lineM]).chunks) []) mark2 =
    (.ok [lineZ 1], mark3) :=
  read_fetch (S := demo true) (L := [lineZ 1]) (m := 1) (resp := ⟨200, ⟨ascii "z\n", []⟩⟩) rfl (demo_base "t") (by decide +kernel) (by decide +kernel) (by decide +kernel)
    (lines_eval 8 (by decide +kernel)) (readsMade_eval 8 (by decide +kernel))

theorem live_base (f : List (Ev Unit) → Nat) : (demo false).read markNet (demoSource "m") false f start = (.ok [lineM, lineZ 2], ⟨start.cache, 1⟩) :=
  read_live (S := demo false) (L := [lineM, lineZ 2]) (resp := ⟨200, ⟨ascii "TASK [log-classify\nz\n", [.short 18]⟩⟩) rfl (demo_base "m") (by decide +kernel) (lines_eval 8 (by decide +kernel))

theorem live_last (f : List (Ev Unit) → Nat) : (demo false).read markNet (demoSource "t") false f ⟨start.cache, 1⟩ = (.ok [lineZ 1], ⟨start.cache, 2⟩) :=
  read_live (S := demo false) (L := [lineZ 1]) (resp := ⟨200, ⟨ascii "z\n", []⟩⟩) rfl (demo_base "t") (by decide +kernel) (lines_eval 8 (by decide +kernel))


end LJ.Remote

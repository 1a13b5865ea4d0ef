/-
A concrete comparison of a build, evaluated.
-/
import Verif.Remote.WebProps
namespace LJ.Remote
open LJ.Codec (Bytes Texts Url Source Content)
open LJ.Cache (State Remote Response Opened File demoTexts demoUrl demoDigest)
open LJ.Process (Str Ev Env Trainer St AnomalyContext Stop)
open LJ.Report (Index Model Report ListErr Fail LogReport ReadErr World)
open LJ.Zuul (Target encodeBuild newContent)

section
variable {t : Texts} {D E : Type} {S : Setup t Unit D E} {W : Web t}

/-- what is found, when there is one file in each content -/
def foundIn (S : Setup t Unit D E) (c c' : Content t) (x y : Source t) (la lb : List (Ev Unit)) (h : (S.inspect (oneIndex S x la) lb []).isSome) :
    Report (Content t) (Source t) Unit D E Unit :=
  LJ.Report.record () (oneIndex S x la) y ((S.inspect (oneIndex S x la) lb []).get h).1 ((S.inspect (oneIndex S x la) lb []).get h).2.1 ((S.inspect (oneIndex S x la) lb []).get h).2.2
    ⟨c', [c], [], [], [], [], 0, 0⟩

theorem compare_single {net : Nat → Net t} {c c' : Content t} {x y : Source t} {s s1 s2 s3 s4 : Sys} {la lb : List (Ev Unit)}
    (hx : S.getSources net c s = (.ok [x], s1)) (ha : S.read net x (S.isJson x) (trainAsked (S.env [])) s1 = (.ok la, s2))
    (hy : S.getSources net c' s2 = (.ok [y], s3))
    (hb : S.read net y (S.isJson y) (processAsked (S.env (oneIndex S x la).chunks) []) s3 = (.ok lb, s4))
    (hi : (S.inspect (oneIndex S x la) lb []).isSome) :
    S.compare net id id [c] c' s = (.ok (foundIn S c c' x y la lb hi), s4) := by
  have h1 : S.train net id [c] s = (.ok ⟨[c], [((), oneIndex S x la)]⟩, s2) := by
    simp only [Setup.train, Setup.groupInto, hx, List.foldl, LJ.Report.push, id, Setup.trainGroups, Setup.trainIndex, Setup.firstJson, Setup.trainSources, ha, oneIndex]
  unfold Setup.compare
  rw [h1]
  have hi' := (Option.some_get hi).symm
  simp only [Setup.report, Setup.groupInto, hy, List.foldl, LJ.Report.push, id, Setup.reportGroups, Setup.reportGroup, LJ.Report.lookupOrSingle, List.lookup, BEq.rfl,
    Setup.reportSources, hb]
  rw [hi']
  rfl

theorem compareBuild_eval {net : Nat → Net t} {o1 o2 : List (Unit × List (Source t)) → List (Unit × List (Source t))} {now : Int} {x y : Target W.env} {s s1 s2 : Sys}
    {r : Report (Content t) (Source t) Unit D E Unit} (h1 : S.discover W net now x s = (.ok y, s1))
    (h2 : S.compare net o1 o2 [.zuul (W.build y)] (.zuul (W.build x)) s1 = (.ok r, s2)) : S.compareBuild W net o1 o2 now x s = (.ok r, s2) := by
  unfold Setup.compareBuild
  rw [h1]
  simp only [h2]

theorem compareUrl_eval {net : Nat → Net t} {o1 o2 : List (Unit × List (Source t)) → List (Unit × List (Source t))} {now : Int} {text : Str} {x : Target W.env} {s s1 : Sys}
    {api : LJ.Zuul.Url W.env} {uid : Str} (h : IsBuildUrl W text api uid) (h1 : S.lookup W net api uid s = (.ok x, s1)) :
    S.compareUrl W net o1 o2 now text s = S.compareBuild W net o1 o2 now x s1 := by
  rw [compareUrl_build h, h1]

theorem lookup_eval {net : Nat → Net t} {x : Target W.env} {s : Sys} {api : LJ.Zuul.Url W.env} {uid : Str} {b : LJ.Zuul.Build W.env}
    (h1 : (S.getBuild W net (toUrl api) uid s).1 = some b) (h2 : newContent api b = some x) :
    S.lookup W net api uid s = (.ok x, (S.getBuild W net (toUrl api) uid s).2) := by
  unfold Setup.lookup
  generalize S.getBuild W net (toUrl api) uid s = z at h1
  obtain ⟨o, s1⟩ := z
  simp only at h1
  subst h1
  simp only [h2]

theorem discover_eval {net : Nat → Net t} {now : Int} {x y : Target W.env} {s : Sys} {samples order : List (LJ.Zuul.Build W.env)} {b : LJ.Zuul.Build W.env}
    (h1 : (S.getSamples W net x s).1 = some samples) (h2 : ranked x now samples = order) (h3 : (S.firstAvailable net order (S.getSamples W net x s).2).1 = some b)
    (h4 : newContent x.api b = some y) : S.discover W net now x s = (.ok y, (S.firstAvailable net order (S.getSamples W net x s).2).2) := by
  unfold Setup.discover
  generalize S.getSamples W net x s = z at h1 h3
  obtain ⟨o, s1⟩ := z
  simp only at h1 h3
  subst h1
  simp only [h2]
  generalize S.firstAvailable net order s1 = z at h3
  obtain ⟨o, s2⟩ := z
  simp only at h3
  subst h3
  simp only [h4]

theorem getSources_eval {net : Nat → Net t} {b : LJ.Codec.Build t} {s : Sys} {u : Url t} (h : (LJ.Cache.httpdirIter S.digest b.logUrl ((net s.asked).list b.logUrl) s.cache).1 = some [u])
    (hv : S.valid (.remote (UInt64.ofNat (baseLen b.logUrl)) u) = true) :
    S.getSources net (.zuul b) s = (.ok [.remote (UInt64.ofNat (baseLen b.logUrl)) u], (S.getSources net (.zuul b) s).2) := by
  unfold Setup.getSources Setup.list Setup.httpdir
  simp only [h, List.map, List.filter, LJ.Report.keepSource, hv, LJ.Report.collectOk]

end

/-! ### The servers -/

/-- the files -/
def logA := "http://logs.example.org/0123456789/0123456789/a"
def logT := "http://logs.example.org/0123456789/0123456789/t"
def logZ := "http://logs.example.org/0123456789/0123456789/z"

/-- their first 42 bytes -/
def logBase : Url demoTexts := demoUrl "http://logs.example.org/0123456789/0123456"

/-- two builds which can be used -/
def twoSamples : List (LJ.Zuul.Build webEnv) := [webBuild "1" "e" 3, webBuild "2" "g" 4]

/-- the documents of the API -/
def twoWeb : Web demoTexts := { demoWeb with jsonList := fun d => if d = [1] then some (.arr (twoSamples.map encodeBuild)) else none }

/-- the network; there is no answer for the logs of the first build if `lost`. -/
def twoNet (lost : Bool) : Nat → Net demoTexts := fun _ =>
  { get := fun u => if u = demoUrl logA then some ⟨200, ⟨ascii "a\n", []⟩⟩ else if u = demoUrl logZ then some ⟨200, ⟨ascii "z\n", []⟩⟩
      else if u = demoUrl logT then some ⟨200, ⟨ascii "a\nz\n", []⟩⟩ else none
    list := fun u => if u = demoUrl "d" then some [demoUrl logT] else if u = demoUrl "e" then some [demoUrl logA] else if u = demoUrl "g" then some [demoUrl logZ] else none
    head := fun u => if lost && decide (u = demoUrl "e") then none else some 200
    api := fun u => if u = demoUrl "B" then some ⟨200, ⟨[0], []⟩⟩ else if u = demoUrl "L" then some ⟨200, ⟨[1], []⟩⟩ else none }

/-- the builds, as builds of `twoWeb` -/
abbrev B2 := LJ.Zuul.Build twoWeb.env
def two0 : B2 := webTarget
def twoE : B2 := webBuild "1" "e" 3
def twoG : B2 := webBuild "2" "g" 4
/-- the contents -/
def twoX : Target twoWeb.env := webX
def twoTE : Target twoWeb.env := { webY with uuid := "1".toList }
def twoTG : Target twoWeb.env := { webX with uuid := "2".toList, logUrl := webUrl "g", change := 4 }
def twoApi : LJ.Zuul.Url twoWeb.env := webUrl "https://z/api/tenant/x/"
def twoUid : Str := "0123456789abcdef0123456789abcdef".toList

theorem two_ranked : ranked (W := twoWeb) twoX 735727 [twoE, twoG] = [twoE, twoG] := by
  have e : ([twoE, twoG].map fun b => (LJ.Zuul.baselineScore twoX 735727 b, b)).filter (fun p => p.1.isSome && decide (twoX.uuid ≠ p.2.uuid)) =
    [(some 110, twoE), (some 110, twoG)] := by decide +kernel
  unfold ranked
  rw [e, List.mergeSort_of_pairwise (by simp [LJ.Zuul.scoreGe])]
  rfl

/-- the cache after the lookup, after the list of the builds, after the choice and after the listing of the baseline -/
def two1 (lost : Bool) (s : Sys) : Sys := ((demo true).getBuild twoWeb (twoNet lost) (toUrl twoApi) twoUid s).2
def two2 (lost : Bool) (s : Sys) : Sys := ((demo true).getSamples twoWeb (twoNet lost) twoX (two1 lost s)).2
def two3 (lost : Bool) (s : Sys) : Sys := ((demo true).firstAvailable (W := twoWeb) (twoNet lost) [twoE, twoG] (two2 lost s)).2
def two4 (lost : Bool) (b : Target twoWeb.env) (s : Sys) : Sys := ((demo true).getSources (twoNet lost) (.zuul (twoWeb.build b)) (two3 lost s)).2
/-- the listing of the target -/
def two6 (lost : Bool) (s : Sys) : Sys := ((demo true).getSources (twoNet lost) (.zuul (twoWeb.build twoX)) s).2

theorem two_api : IsBuildUrl twoWeb "w".toList twoApi twoUid := ⟨demoUrl "w", by decide +kernel, rfl, by decide +kernel⟩

theorem two_eval (lost : Bool) (s : Sys) {x : B2} {tx : Target twoWeb.env} {u : String} {la lb : List (Ev Unit)} {s5 s7 : Sys}
    (h1 : ((demo true).getBuild twoWeb (twoNet lost) (toUrl twoApi) twoUid s).1 = some two0)
    (h2 : ((demo true).getSamples twoWeb (twoNet lost) twoX (two1 lost s)).1 = some [twoE, twoG])
    (h3 : ((demo true).firstAvailable (W := twoWeb) (twoNet lost) [twoE, twoG] (two2 lost s)).1 = some x)
    (h4 : newContent twoApi x = some tx)
    (h5 : (LJ.Cache.httpdirIter demoDigest (twoWeb.build tx).logUrl ((twoNet lost (two3 lost s).asked).list (twoWeb.build tx).logUrl) (two3 lost s).cache).1 = some [demoUrl u])
    (hb : baseLen (twoWeb.build tx).logUrl = 2)
    (h6 : (demo true).read (twoNet lost) (.remote 2 (demoUrl u)) false (trainAsked ((demo true).env [])) (two4 lost tx s) = (.ok la, s5))
    (h7 : (LJ.Cache.httpdirIter demoDigest (demoUrl "d") ((twoNet lost s5.asked).list (demoUrl "d")) s5.cache).1 = some [demoUrl logT])
    (h8 : (demo true).read (twoNet lost) (.remote 2 (demoUrl logT)) false (processAsked ((demo true).env (oneIndex (demo true) (.remote 2 (demoUrl u)) la).chunks) [])
      (two6 lost s5) = (.ok lb, s7))
    (hi : ((demo true).inspect (oneIndex (demo true) (.remote 2 (demoUrl u)) la) lb []).isSome) :
    (demo true).compareUrl twoWeb (twoNet lost) id id 735727 "w".toList s =
      (.ok (foundIn (demo true) (.zuul (twoWeb.build tx)) (.zuul (twoWeb.build twoX)) (.remote 2 (demoUrl u)) (.remote 2 (demoUrl logT)) la lb hi), s7) := by
  have e1 : (demo true).lookup twoWeb (twoNet lost) twoApi twoUid s = (.ok twoX, two1 lost s) := lookup_eval h1 (by decide +kernel)
  have e2 : (demo true).discover twoWeb (twoNet lost) 735727 twoX (two1 lost s) = (.ok tx, two3 lost s) := discover_eval h2 two_ranked h3 h4
  have e3 := getSources_eval (S := demo true) (net := twoNet lost) (b := twoWeb.build tx) (s := two3 lost s) h5 rfl
  rw [hb] at e3
  have e4 := getSources_eval (S := demo true) (net := twoNet lost) (b := twoWeb.build twoX) (s := s5) h7 rfl
  have hd : baseLen (twoWeb.build twoX).logUrl = 2 := by decide +kernel
  rw [hd] at e4
  rw [compareUrl_eval two_api e1]
  exact compareBuild_eval e2 (compare_single e3 h6 e4 h8 hi)

/-! ### The first comparison: there is no answer for the logs of the first build -/

def lostS5 : Sys := ⟨fetched demoDigest (logBase) (demoUrl logZ) ⟨ascii "z\n", []⟩ 1 (two4 true twoTG start).cache, (two4 true twoTG start).asked + 1⟩
def lostS7 : Sys := ⟨fetched demoDigest (logBase) (demoUrl logT) ⟨ascii "a\nz\n", []⟩ 1 (two6 true lostS5).cache, (two6 true lostS5).asked + 1⟩

theorem lostZ : (demo true).read (twoNet true) (.remote 2 (demoUrl logZ)) false (trainAsked ((demo true).env [])) (two4 true twoTG start) = (.ok [lineZ 1], lostS5) :=
  read_fetch (S := demo true) (base := logBase) (L := [lineZ 1]) (m := 1) (resp := ⟨200, ⟨ascii "z\n", []⟩⟩) rfl (by decide +kernel) (by decide +kernel) (by decide +kernel) (by decide +kernel)
    (lines_eval 8 (by decide +kernel)) (readsMade_eval 8 (by decide +kernel))
theorem lostT : (demo true).read (twoNet true) (.remote 2 (demoUrl logT)) false
    (processAsked ((demo true).env (oneIndex (demo true) (.remote 2 (demoUrl logZ)) [lineZ 1]).chunks) []) (two6 true lostS5) = (.ok [lineA, lineZ 2], lostS7) :=
  read_fetch (S := demo true) (base := logBase) (L := [lineA, lineZ 2]) (m := 1) (resp := ⟨200, ⟨ascii "a\nz\n", []⟩⟩) rfl (by decide +kernel) (by decide +kernel) (by decide +kernel) (by decide +kernel)
    (lines_eval 8 (by decide +kernel)) (readsMade_eval 8 (by decide +kernel))
/-- the report -/
def lostR : Report (Content demoTexts) (Source demoTexts) Unit Bool Unit Unit :=
  foundIn (demo true) (.zuul (twoWeb.build twoTG)) (.zuul (twoWeb.build twoX)) (.remote 2 (demoUrl logZ)) (.remote 2 (demoUrl logT)) [lineZ 1] [lineA, lineZ 2] (by decide +kernel)
theorem lostRun : (demo true).compareUrl twoWeb (twoNet true) id id 735727 "w".toList start = (.ok lostR, lostS7) :=
  two_eval true start (x := twoG) (tx := twoTG) (u := logZ) (by decide +kernel) (by decide +kernel) (by decide +kernel) (by decide +kernel) (by decide +kernel) (by decide +kernel) lostZ (by decide +kernel) lostT (by decide +kernel)

/-! ### The same comparison, made again when the server answers -/

def backS5 : Sys := ⟨fetched demoDigest (logBase) (demoUrl logA) ⟨ascii "a\n", []⟩ 1 (two4 false twoTE lostS7).cache, (two4 false twoTE lostS7).asked + 1⟩

theorem backA : (demo true).read (twoNet false) (.remote 2 (demoUrl logA)) false (trainAsked ((demo true).env [])) (two4 false twoTE lostS7) = (.ok [lineA], backS5) :=
  read_fetch (S := demo true) (base := logBase) (L := [lineA]) (m := 1) (resp := ⟨200, ⟨ascii "a\n", []⟩⟩) rfl (by decide +kernel) (by decide +kernel) (by decide +kernel) (by decide +kernel)
    (lines_eval 8 (by decide +kernel)) (readsMade_eval 8 (by decide +kernel))
theorem backT (f : List (Ev Unit) → Nat) : (demo true).read (twoNet false) (.remote 2 (demoUrl logT)) false f (two6 false backS5) = (.ok [lineA, lineZ 2], two6 false backS5) :=
  read_hit (S := demo true) (base := logBase) (L := [lineA, lineZ 2]) (d := ascii "a\nz\n") (f := true) rfl (by decide +kernel) (by decide +kernel) (lines_eval 64 (by decide +kernel))
/-- the report -/
def backR : Report (Content demoTexts) (Source demoTexts) Unit Bool Unit Unit :=
  foundIn (demo true) (.zuul (twoWeb.build twoTE)) (.zuul (twoWeb.build twoX)) (.remote 2 (demoUrl logA)) (.remote 2 (demoUrl logT)) [lineA] [lineA, lineZ 2] (by decide +kernel)
theorem backRun : (demo true).compareUrl twoWeb (twoNet false) id id 735727 "w".toList lostS7 = (.ok backR, two6 false backS5) :=
  two_eval false lostS7 (x := twoE) (tx := twoTE) (u := logA) (by decide +kernel) (by decide +kernel) (by decide +kernel) (by decide +kernel) (by decide +kernel) (by decide +kernel) backA (by decide +kernel) (backT _) (by decide +kernel)

/-! ### A comparison whose servers all answer -/

def goodS5 : Sys := ⟨fetched demoDigest (logBase) (demoUrl logA) ⟨ascii "a\n", []⟩ 1 (two4 false twoTE start).cache, (two4 false twoTE start).asked + 1⟩
def goodS7 : Sys := ⟨fetched demoDigest (logBase) (demoUrl logT) ⟨ascii "a\nz\n", []⟩ 1 (two6 false goodS5).cache, (two6 false goodS5).asked + 1⟩

theorem goodA : (demo true).read (twoNet false) (.remote 2 (demoUrl logA)) false (trainAsked ((demo true).env [])) (two4 false twoTE start) = (.ok [lineA], goodS5) :=
  read_fetch (S := demo true) (base := logBase) (L := [lineA]) (m := 1) (resp := ⟨200, ⟨ascii "a\n", []⟩⟩) rfl (by decide +kernel) (by decide +kernel) (by decide +kernel) (by decide +kernel)
    (lines_eval 8 (by decide +kernel)) (readsMade_eval 8 (by decide +kernel))
theorem goodT : (demo true).read (twoNet false) (.remote 2 (demoUrl logT)) false
    (processAsked ((demo true).env (oneIndex (demo true) (.remote 2 (demoUrl logA)) [lineA]).chunks) []) (two6 false goodS5) = (.ok [lineA, lineZ 2], goodS7) :=
  read_fetch (S := demo true) (base := logBase) (L := [lineA, lineZ 2]) (m := 1) (resp := ⟨200, ⟨ascii "a\nz\n", []⟩⟩) rfl (by decide +kernel) (by decide +kernel) (by decide +kernel) (by decide +kernel)
    (lines_eval 8 (by decide +kernel)) (readsMade_eval 8 (by decide +kernel))
/-- the report -/
def goodR : Report (Content demoTexts) (Source demoTexts) Unit Bool Unit Unit :=
  foundIn (demo true) (.zuul (twoWeb.build twoTE)) (.zuul (twoWeb.build twoX)) (.remote 2 (demoUrl logA)) (.remote 2 (demoUrl logT)) [lineA] [lineA, lineZ 2] (by decide +kernel)
theorem goodRun : (demo true).compareUrl twoWeb (twoNet false) id id 735727 "w".toList start = (.ok goodR, goodS7) :=
  two_eval false start (x := twoE) (tx := twoTE) (u := logA) (by decide +kernel) (by decide +kernel) (by decide +kernel) (by decide +kernel) (by decide +kernel) (by decide +kernel) goodA (by decide +kernel) goodT (by decide +kernel)
end LJ.Remote

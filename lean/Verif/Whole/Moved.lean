/-
C108: a report does not depend on where the directories are.
-/
import Verif.Whole.Toy
import Verif.Paths.Below
import Verif.Report.Relate
namespace LJ.Whole
open LJ.Process (Str Bytes)
open LJ.Report (train report SameAs Renamed ListedAs)
open LJ.Paths (Source Entry dirSource entryPath)
open LJ.Paths.Spec (Normal Neutral)

namespace Spec

/-- What a walk gives below a directory: an error, or a link, a file or a directory with the names which lead to it. -/
abbrev Tree := List (Except Unit (Bool × Bool × List Str))

/-- The walk of this tree at this path. -/
def Tree.at (t : Tree) (dir : Str) : List (Except Unit Entry) :=
  t.map fun e => e.map fun x => ⟨x.1, x.2.1, dirSource dir (x.2.2.map some)⟩

/-- The two directories have the same files, under the same names. -/
structure SameTree (M M' : Machine) (dir dir' : Str) : Prop where
  walk : ∃ t : Tree, M.walk dir = t.at dir ∧ M'.walk dir' = t.at dir' ∧
    ∀ names, .ok (false, true, names) ∈ t → names ≠ [] ∧ ∀ n ∈ names, Normal n
  content : ∀ names, names ≠ [] → (∀ n ∈ names, Normal n) → ∀ p p', entryPath dir (names.map some) = some p →
    entryPath dir' (names.map some) = some p' → M.files p = M'.files p' ∧ ∀ d, M.cut p d = M'.cut p' d

/-- The same program: word characters, hash function, arithmetic and build. -/
structure SameProgram (M M' : Machine) : Prop where
  wd : M.wd = M'.wd
  hash : M.hash = M'.hash
  fp : M.fp = M'.fp
  checks : M.checks = M'.checks

/-- The same file below one of the directories, and below the directory it is moved to. -/
def MovedFile (dirs : List (Str × Str)) (s s' : Source) : Prop :=
  ∃ d ∈ dirs, ∃ names : List Str, names ≠ [] ∧ (∀ n ∈ names, Normal n) ∧ s = dirSource d.1 (names.map some) ∧ s' = dirSource d.2 (names.map some)

/-- One of the directories, and the directory it is moved to. -/
def MovedDir (dirs : List (Str × Str)) (c c' : Local) : Prop := ∃ d ∈ dirs, c = .directory d.1 ∧ c' = .directory d.2

end Spec
open Spec (textFile PlainLine Ordinary HasLines HasTexts Tree SameTree SameProgram MovedFile MovedDir)

theorem moved_world {M M' : Machine} (hp : SameProgram M M') {dirs : List (Str × Str)}
    (hd : ∀ d ∈ dirs, Neutral d.1 ∧ Neutral d.2 ∧ SameTree M M' d.1 d.2) : Renamed (MovedFile dirs) (MovedDir dirs) M.world M'.world where
  list := by
    rintro _ _ ⟨d, hm, rfl, rfl⟩
    obtain ⟨_, _, ⟨t, h1, h2, h3⟩, _⟩ := hd d hm
    show List.Forall₂ _ (LJ.Paths.dirIter (M.walk d.1)) (LJ.Paths.dirIter (M'.walk d.2))
    rw [h1, h2]
    clear h1 h2
    induction t with
    | nil => exact .nil
    | cons e t ih =>
      have ih := ih fun n h => h3 n (by simp [h])
      match e with
      | .error e => exact .cons (.error e) ih
      | .ok (true, f, names) => exact ih
      | .ok (false, false, names) => exact ih
      | .ok (false, true, names) =>
        obtain ⟨g1, g2⟩ := h3 names (by simp)
        exact .cons (.ok ⟨d, hm, names, g1, g2, rfl, rfl⟩) ih
  valid := by
    rintro _ _ ⟨d, hm, names, h1, h2, rfl, rfl⟩
    exact (LJ.Paths.same_below (hd d hm).1 (hd d hm).2.1 h1 h2).1
  nameOf := by
    rintro _ _ ⟨d, hm, names, h1, h2, rfl, rfl⟩
    exact congrArg (·.getD []) (LJ.Paths.same_below (hd d hm).1 (hd d hm).2.1 h1 h2).2.1
  isJson := by
    rintro _ _ ⟨d, hm, names, h1, h2, rfl, rfl⟩
    exact congrArg (·.getD false) (LJ.Paths.same_below (hd d hm).1 (hd d hm).2.1 h1 h2).2.2
  openSource := by
    rintro _ _ ⟨d, hm, names, h1, h2, rfl, rfl⟩
    obtain ⟨b, _, e, _⟩ := LJ.Paths.dirSource_below (hd d hm).1 h1 h2
    obtain ⟨b', _, e', _⟩ := LJ.Paths.dirSource_below (hd d hm).2.1 h1 h2
    obtain ⟨g1, g2⟩ := (hd d hm).2.2.content names h1 h2 _ _ e e'
    show M.openSource _ = M'.openSource _
    unfold dirSource
    rw [e, e', openSource_eq, openSource_eq, g1, hp.checks]
    simp only [g2]
  decode := rfl
  tokenize := by
    show LJ.Process.tokens M.cfg true = LJ.Process.tokens M'.cfg true
    unfold Machine.cfg
    rw [hp.wd, hp.hash, hp.fp]
  search := by
    show (LJ.Report.indexWorld M.cfg _ _ _ _ _ _).search = (LJ.Report.indexWorld M'.cfg _ _ _ _ _ _).search
    unfold Machine.cfg LJ.Report.indexWorld
    rw [hp.wd, hp.hash, hp.fp]
  over := rfl

/-- C108, for directories whose path does not make files ignored: when the baselines and the target are moved, the
comparison gives the same report, with the paths of the moved files.  Missing: directories below an `etc`, or whose path
ends with `local`, `pacemaker`, `mysql` or `corosync`. -/
theorem C108_partial {M M' : Machine} (hp : SameProgram M M') (hfp : M.fp.Standard) {dirs : List (Str × Str)}
    (hd : ∀ d ∈ dirs, Neutral d.1 ∧ Neutral d.2 ∧ SameTree M M' d.1 d.2)
    {o1 o2 o3 o4 : List (Str × List Source) → List (Str × List Source)}
    (h1 : ∀ g, (o1 g).Perm g) (h2 : ∀ g, (o2 g).Perm g) (h3 : ∀ g, (o3 g).Perm g) (h4 : ∀ g, (o4 g).Perm g)
    {t : Str × Str} (ht : t ∈ dirs) {bs : List (Str × Str)} (hbs : ∀ b ∈ bs, b ∈ dirs) {m r}
    (hm : train M.world o1 (bs.map fun b => .directory b.1) = .ok m) (hr : report M.world m o2 (.directory t.1) = some (.ok r)) :
    ∃ m' r', train M'.world o3 (bs.map fun b => .directory b.2) = .ok m' ∧ report M'.world m' o4 (.directory t.2) = some (.ok r') ∧
      SameAs (MovedFile dirs) (MovedDir dirs) r r' := by
  refine LJ.Report.renamed_report (moved_world hp hd) (LJ.Report.searchOk_indexWorld hfp) h1 h2 h3 h4 ?_ ⟨t, ht, rfl, rfl⟩ hm hr
  rw [List.forall₂_map_left_iff, List.forall₂_map_right_iff, List.forall₂_same]
  exact fun b hb => ⟨b, hbs b hb, rfl, rfl⟩

/-! ### A directory with one file, at three places -/

def oneFile : Tree := [.ok (false, false, []), .ok (false, false, ["sub".toList]), .ok (false, true, ["sub".toList, "a.log".toList])]

def places : List Str := ["/logs", "/srv/app/logs", "/srv/etc/logs"].map String.toList

/-- The same files below the three places. -/
noncomputable def threePlaces : Machine :=
  { toyMachine fun p => if p ∈ places.map (· ++ "/sub/a.log".toList) then some (textFile oldLines) else none with
    walk := fun d => oneFile.at d }

theorem threePlaces_ordinary : Ordinary threePlaces :=
  have h := toyMachine_ordinary threePlaces.files
  ⟨h.fp, h.blocks, h.whole⟩

theorem oneFile_normal (names : List Str) (h : .ok (false, true, names) ∈ oneFile) : names ≠ [] ∧ ∀ n ∈ names, Normal n := by
  have : names = ["sub".toList, "a.log".toList] := by
    simp only [oneFile, List.mem_cons, List.not_mem_nil, or_false, Except.ok.injEq, Prod.mk.injEq, Bool.true_eq_false, false_and, and_false, false_or, true_and] at h
    exact h
  subst this
  unfold Normal
  decide

theorem threePlaces_same {a b : Str} (ha : a ∈ places) (hb : b ∈ places) : SameTree threePlaces threePlaces a b where
  walk := ⟨oneFile, rfl, rfl, oneFile_normal⟩
  content := by
    intro names hne hn p p' h h'
    refine ⟨?_, fun _ => rfl⟩
    obtain ⟨n, names, rfl⟩ := List.exists_cons_of_ne_nil hne
    have key : ∀ d ∈ places, ∀ q, entryPath d ((n :: names).map some) = some q →
        threePlaces.files q = if (n :: names).flatMap ('/' :: ·) = "/sub/a.log".toList then some (textFile oldLines) else none := by
      intro d hd q hq
      rw [LJ.Paths.entryPath_names fun x hx => ⟨(hn x hx).2.1, (hn x hx).1⟩] at hq
      have hd2 : ∀ d ∈ places, ¬ (d = [] ∨ ['/'] <:+ d) := by decide
      rw [if_neg (hd2 d hd), Option.some.injEq] at hq
      subst hq
      generalize (n :: names).flatMap ('/' :: ·) = r
      have e : d ++ r ∈ places.map (· ++ "/sub/a.log".toList) ↔ r = "/sub/a.log".toList := by
        rw [List.mem_map]
        constructor
        · rintro ⟨x, hx, e⟩
          have hpre : ∀ d ∈ places, ∀ x ∈ places, d <+: x ++ "/sub/a.log".toList → d = x := by decide
          have := hpre d hd x hx ⟨r, e.symm⟩
          subst this
          exact (List.append_cancel_left e).symm
        · rintro rfl
          exact ⟨d, hd, rfl⟩
      show (if _ then _ else _) = _
      simp only [e]
    rw [key a ha p h, key b hb p' h']

theorem places_neutral : Neutral "/logs".toList ∧ Neutral "/srv/app/logs".toList :=
  ⟨⟨"/logs".toList, by unfold LJ.Paths.Spec.NeutralBase; decide, by decide⟩, ⟨"/srv/app/logs".toList, by unfold LJ.Paths.Spec.NeutralBase; decide, by decide⟩⟩

theorem threePlaces_report : ∃ m r, train threePlaces.world id [.directory "/logs".toList] = .ok m ∧
    report threePlaces.world m id (.directory "/logs".toList) = some (.ok r) ∧ r.totalLineCount = 2 := by
  have hp : ∀ l ∈ oldLines, PlainLine l := by
    intro l hl
    unfold PlainLine
    rw [utf8_eq]
    revert l
    decide +kernel
  let s : Source := dirSource "/logs".toList (["sub".toList, "a.log".toList].map some)
  have hs : s = .loc 5 (some "/logs/sub/a.log".toList) := by decide +kernel
  have hl : HasLines threePlaces s (numbered oldLines) := by
    rw [hs]
    refine ⟨⟨5, _, textFile oldLines, rfl, ?_, textFile_lines hp⟩, ⟨"/sub/a.log".toList, by decide +kernel, by decide⟩⟩
    have hm : "/logs/sub/a.log".toList ∈ places.map (· ++ "/sub/a.log".toList) := by decide +kernel
    exact if_pos (e := none) hm
  have ht : HasTexts threePlaces (.directory "/logs".toList) [s] fun _ => numbered oldLines := by
    refine ⟨?_, ?_, by simp, fun x hx => by rw [List.mem_singleton] at hx; rw [hx]; exact hl⟩
    · intro e h
      have : threePlaces.list (.directory "/logs".toList) = [.ok s] := rfl
      rw [this] at h
      simp at h
    · have : threePlaces.list (.directory "/logs".toList) = [.ok s] := rfl
      rw [this]
      have hv : LJ.Paths.isValid s.asStr = true := by rw [hs]; decide +kernel
      generalize s = s at hv
      simp [LJ.Report.Spec.validSources, hv]
  obtain ⟨m, r, g1, g2, _, _, g5, _⟩ := C88_tree threePlaces_ordinary (o1 := id) (o2 := id) (fun _ => .rfl) (fun _ => .rfl)
    (cs := [.directory "/logs".toList]) (target := .directory "/logs".toList) (fun _ => numbered oldLines) (fun _ => [s])
    (by intro c hc; rw [List.mem_singleton] at hc; subst hc; exact ht) ht
    (by
      intro _ _ l hl
      obtain ⟨x, hx, rfl⟩ := List.mem_map.1 hl
      have hm := List.fst_mem_of_mem_zipIdx hx
      have : ∀ l ∈ oldLines, ¬ "TASK [log-classify".toList <:+: l := by decide +kernel
      exact this _ hm)
    (by
      intro x hx n hn
      rw [List.mem_singleton] at hx
      subst hx
      show Spec.baseFor [s] n ≠ []
      unfold Spec.baseFor
      simp [hn])
  exact ⟨m, r, g1, g2, by rw [g5]; rfl⟩

/-- Non-vacuity: the files are moved from `/logs` to `/srv/app/logs`. -/
example : ∃ m m' r r', train threePlaces.world id [.directory "/logs".toList] = .ok m ∧
    report threePlaces.world m id (.directory "/logs".toList) = some (.ok r) ∧ r.totalLineCount = 2 ∧
    train threePlaces.world id [.directory "/srv/app/logs".toList] = .ok m' ∧
    report threePlaces.world m' id (.directory "/srv/app/logs".toList) = some (.ok r') ∧
    SameAs (MovedFile [("/logs".toList, "/srv/app/logs".toList)]) (MovedDir [("/logs".toList, "/srv/app/logs".toList)]) r r' := by
  obtain ⟨m, r, h1, h2, h3⟩ := threePlaces_report
  obtain ⟨m', r', g1, g2, g3⟩ := C108_partial (M := threePlaces) (M' := threePlaces) ⟨rfl, rfl, rfl, rfl⟩ threePlaces_ordinary.fp
    (dirs := [("/logs".toList, "/srv/app/logs".toList)])
    (by intro d hd; rw [List.mem_singleton] at hd; subst hd; exact ⟨places_neutral.1, places_neutral.2, threePlaces_same (by decide) (by decide)⟩)
    (o1 := id) (o2 := id) (o3 := id) (o4 := id) (fun _ => .rfl) (fun _ => .rfl) (fun _ => .rfl) (fun _ => .rfl)
    (t := ("/logs".toList, "/srv/app/logs".toList)) (by simp) (bs := [("/logs".toList, "/srv/app/logs".toList)]) (fun _ h => h) h1 h2
  exact ⟨m, m', r, r', h1, h2, h3, g1, g2, g3⟩

/-- C108 does not hold for all directories: the comparison which gives a report at `/logs` is refused at `/srv/etc/logs`,
which has the same files, because all of them are ignored. -/
theorem C108_false : ∃ (M : Machine) (m : _) (r : _), Ordinary M ∧ SameTree M M "/logs".toList "/srv/etc/logs".toList ∧
    train M.world id [.directory "/logs".toList] = .ok m ∧ report M.world m id (.directory "/logs".toList) = some (.ok r) ∧
    train M.world id [.directory "/srv/etc/logs".toList] = .error (.sources (.empty (.directory "/srv/etc/logs".toList))) := by
  obtain ⟨m, r, h1, h2, _⟩ := threePlaces_report
  refine ⟨threePlaces, m, r, threePlaces_ordinary, threePlaces_same (by decide) (by decide), h1, h2, ?_⟩
  have hv : LJ.Paths.isValid (dirSource "/srv/etc/logs".toList (["sub".toList, "a.log".toList].map some)).asStr = false := by decide +kernel
  have : LJ.Report.getSources threePlaces.world (.directory "/srv/etc/logs".toList) = .error (.empty (.directory "/srv/etc/logs".toList)) := by
    unfold LJ.Report.getSources
    have : threePlaces.world.list (.directory "/srv/etc/logs".toList) = [.ok (dirSource "/srv/etc/logs".toList (["sub".toList, "a.log".toList].map some))] := rfl
    rw [this, List.filter_cons_of_neg]
    · rfl
    · exact Bool.eq_false_iff.1 hv
  unfold train LJ.Report.groupSources LJ.Report.groupInto
  rw [this]

end LJ.Whole

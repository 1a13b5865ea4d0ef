/-
C145: comparing directories of web servers, or the logs of builds, is comparing copies of them on the disk.
-/
import Verif.Remote.Direct
import Verif.Remote.Witness
import Verif.Whole.Moved
namespace LJ.Remote
open LJ.Codec (Bytes Texts Url Content)
open LJ.Process (Str Ev)
open LJ.Whole (Machine Local)
open LJ.Whole.Spec (Tree)
open LJ.Paths (dirSource entryPath rel trimEnd)
open LJ.Paths.Spec (Normal Neutral NeutralBase)
open LJ.Report (train report SameAs Renamed)

namespace Spec
variable {t : Texts}

/-- A directory on the disk, a URL, and what is below both. -/
structure Copy (t : Texts) where
  dir : Str
  url : Url t
  tree : Tree

/-- The files which are below, by the names which lead to them -/
def Copy.files (c : Copy t) : List (List Str) := c.tree.filterMap fun | .ok (false, true, names) => some names | _ => none

/-- The URL of a file below a URL -/
def below (url : Url t) (names : List Str) : Str := trimEnd (· == '/') url.val.toList ++ '/' :: ['/'].intercalate names

/-- The directory is walked without an error and has the files which are listed from the URL, in this order and with the same data. -/
structure Copied (M : Machine) (site : Site t) (c : Copy t) : Prop where
  walk : M.walk c.dir = c.tree.at c.dir
  errors : ∀ e, .error e ∉ c.tree
  names : ∀ names ∈ c.files, names ≠ [] ∧ ∀ n ∈ names, Normal n
  listed : ∃ urls, site.dirs c.url = some urls ∧ (LJ.Codec.listing t).enc urls ≠ none ∧ urls.map (fun u => u.val.toList) = c.files.map (below c.url)
  content : ∀ names ∈ c.files, ∀ u : Url t, u.val.toList = below c.url names → ∀ p, entryPath c.dir (names.map some) = some p → M.files p = site.docs u
  size : baseLen c.url < 2 ^ 64

/-- The base under which the files are cached, the first 42 bytes of their URLs, is a URL (urls.rs:35, C44). -/
def Based (c : Copy t) : Prop := ∀ names ∈ c.files, ∀ u : Url t, u.val.toList = below c.url names → ∃ b, baseOf 1 u = .ok b

/-- Neither place makes files ignored (C108). -/
def Unhidden (c : Copy t) : Prop := Neutral c.dir ∧ NeutralBase (trimEnd (· == '/') c.url.val.toList)

/-- A file on the disk, and the same file on the server. -/
def CopyFile (copies : List (Copy t)) (s : LJ.Paths.Source) (s' : LJ.Codec.Source t) : Prop :=
  ∃ c ∈ copies, ∃ names ∈ c.files, s = dirSource c.dir (names.map some) ∧
    ∃ u : Url t, s' = .remote (UInt64.ofNat (baseLen c.url)) u ∧ u.val.toList = below c.url names

/-- A directory on the disk, and the URL of the same directory, or the build which has its logs there. -/
def CopyDir (copies : List (Copy t)) (c : Local) (c' : Content t) : Prop :=
  ∃ x ∈ copies, c = .directory x.dir ∧ ((∃ n, c' = .directory (.remote n x.url)) ∨ ∃ b, c' = .zuul b ∧ b.logUrl = x.url)

/-- The program of the machine, with the functions it uses on remote sources. -/
structure Runs (S : Setup t Str ℝ Unit) (M : Machine) : Prop where
  valid : ∀ n u, S.valid (.remote n u) = LJ.Paths.isValid u.val.toList
  nameOf : ∀ n u, S.nameOf (.remote n u) = (LJ.Paths.Source.remote n.toNat u.val.toList).indexName.getD []
  isJson : ∀ n u, S.isJson (.remote n u) = (LJ.Paths.Source.remote n.toNat u.val.toList).isJson.getD false
  decode : S.decode = LJ.Whole.decode
  tokenize : S.tokenize = M.world.tokenize
  search : S.search = M.world.search
  over : S.over = M.world.over

end Spec
open Spec

section
variable {t : Texts} {S : Setup t Str ℝ Unit} {M : Machine} {U V : String → Prop} {site : Site t}

theorem baseOf_ne (pre : Nat) (h : pre ≠ 0) (u : Url t) : baseOf pre u = baseOf 1 u := by
  unfold baseOf
  rw [if_neg h, if_neg (by decide)]

theorem below_relative {url : Url t} (hsize : baseLen url < 2 ^ 64) {names : List Str} {u : Url t} (hu : u.val.toList = below url names) :
    (LJ.Paths.Source.remote (UInt64.ofNat (baseLen url)).toNat u.val.toList).getRelative = some (rel names) := by
  rw [UInt64.toNat_ofNat_of_lt' hsize, hu]
  exact LJ.Paths.C45_remote_partial url.val.toList (rel names)

theorem baseLen_ne {url : Url t} (hsize : baseLen url < 2 ^ 64) : (UInt64.ofNat (baseLen url)).toNat ≠ 0 := by
  rw [UInt64.toNat_ofNat_of_lt' hsize]
  unfold baseLen
  omega

theorem mirror_world (hr : Runs S M) (hM : LJ.Whole.Spec.Ordinary M) (he : S.netError = ()) (hst : Stable U V S site) {copies : List (Copy t)}
    (hc : ∀ c ∈ copies, Copied M site c ∧ Unhidden c ∧ Based c) : Renamed (CopyFile copies) (CopyDir copies) M.world (S.siteWorld site) where
  list := by
    rintro _ c' ⟨c, hm, rfl, hc'⟩
    obtain ⟨hcp, _⟩ := hc c hm
    obtain ⟨urls, e1, e2, e3⟩ := hcp.listed
    have hl : (S.siteWorld site).list c' = S.siteDir site c.url := by
      rcases hc' with ⟨n, rfl⟩ | ⟨b, rfl, hb⟩
      · rfl
      · rw [← hb]; rfl
    have hd : S.siteDir site c.url = urls.map fun u => .ok (.remote (UInt64.ofNat (baseLen c.url)) u) := by
      unfold Setup.siteDir
      rw [e1]
      cases hx : (LJ.Codec.listing t).enc urls with
      | none => exact absurd hx e2
      | some b => simp only [hx]
    rw [hl, hd]
    show List.Forall₂ _ (LJ.Paths.dirIter (M.walk c.dir)) _
    rw [hcp.walk]
    have key : ∀ tree : Tree, (∀ e, .error e ∉ tree) → (∀ names, .ok (false, true, names) ∈ tree → names ∈ c.files) → ∀ urls : List (Url t),
        urls.map (fun u => u.val.toList) = (tree.filterMap fun | .ok (false, true, names) => some names | _ => none).map (below c.url) →
        List.Forall₂ (LJ.Report.ListedAs (CopyFile copies)) (LJ.Paths.dirIter (tree.at c.dir))
          (urls.map fun u => (.ok (.remote (UInt64.ofNat (baseLen c.url)) u) : Except Unit (LJ.Codec.Source t))) := by
      intro tree
      induction tree with
      | nil =>
        intro _ _ urls h
        cases urls with
        | nil => exact .nil
        | cons u us => cases h
      | cons e tree ih =>
        intro g1 g2 urls h
        have ih := ih (fun e h => g1 e (List.mem_cons_of_mem _ h)) (fun n h => g2 n (List.mem_cons_of_mem _ h))
        match e with
        | .error e => exact absurd (List.mem_cons_self ..) (g1 e)
        | .ok (true, f, names) => exact ih urls h
        | .ok (false, false, names) => exact ih urls h
        | .ok (false, true, names) =>
          cases urls with
          | nil => cases h
          | cons u us =>
            simp only [List.filterMap_cons, List.map_cons, List.cons.injEq] at h
            exact .cons (.ok ⟨c, hm, names, g2 names (List.mem_cons_self ..), rfl, u, rfl, h.1⟩) (ih us h.2)
    refine key c.tree hcp.errors (fun names h => ?_) urls e3
    unfold Copy.files
    exact List.mem_filterMap.2 ⟨_, h, rfl⟩
  valid := by
    rintro _ _ ⟨c, hm, names, hn, rfl, u, rfl, hu⟩
    obtain ⟨hcp, ⟨h1, h2⟩, h3⟩ := hc c hm
    obtain ⟨g1, g2⟩ := hcp.names names hn
    obtain ⟨b, hb, e, _⟩ := LJ.Paths.dirSource_below h1 g1 g2
    show LJ.Paths.isValid (dirSource c.dir (names.map some)).asStr = S.valid _
    rw [hr.valid, hu]
    unfold dirSource LJ.Paths.Source.asStr
    rw [e]
    exact (LJ.Paths.isValid_below hb).trans (LJ.Paths.isValid_below h2).symm
  nameOf := by
    rintro _ _ ⟨c, hm, names, hn, rfl, u, rfl, hu⟩
    obtain ⟨hcp, ⟨h1, h2⟩, h3⟩ := hc c hm
    obtain ⟨g1, g2⟩ := hcp.names names hn
    obtain ⟨b, hb, _, e⟩ := LJ.Paths.dirSource_below h1 g1 g2
    show (dirSource c.dir (names.map some)).indexName.getD [] = S.nameOf _
    rw [hr.nameOf]
    unfold LJ.Paths.Source.indexName
    rw [below_relative hcp.size hu]
    rcases e with e | e <;> simp only [e, Option.map_some, LJ.Paths.indexName_slash g1 g2]
  isJson := by
    rintro _ _ ⟨c, hm, names, hn, rfl, u, rfl, hu⟩
    obtain ⟨hcp, ⟨h1, h2⟩, h3⟩ := hc c hm
    obtain ⟨g1, g2⟩ := hcp.names names hn
    obtain ⟨b, hb, _, e⟩ := LJ.Paths.dirSource_below h1 g1 g2
    show (dirSource c.dir (names.map some)).isJson.getD false = S.isJson _
    rw [hr.isJson]
    unfold LJ.Paths.Source.isJson
    rw [below_relative hcp.size hu]
    rcases e with e | e <;> simp only [e, Option.map_some, LJ.Paths.json_slash]
  openSource := by
    rintro _ _ ⟨c, hm, names, hn, rfl, u, rfl, hu⟩
    obtain ⟨hcp, ⟨h1, h2⟩, h3⟩ := hc c hm
    obtain ⟨g1, g2⟩ := hcp.names names hn
    obtain ⟨_, _, e, _⟩ := LJ.Paths.dirSource_below h1 g1 g2
    obtain ⟨b, hb⟩ := h3 names hn u hu
    have hU : U u.val := by
      obtain ⟨urls, k1, _, k3⟩ := hcp.listed
      have : u.val.toList ∈ urls.map (fun u => u.val.toList) := by
        rw [k3, hu]
        exact List.mem_map.2 ⟨names, hn, rfl⟩
      obtain ⟨u', hu', e'⟩ := List.mem_map.1 this
      have : u' = u := Subtype.ext (String.toList_inj.1 e')
      exact hst.known.listed _ _ k1 u (this ▸ hu')
    have hdoc := hcp.content names hn u hu _ e
    show M.openSource _ = (S.siteWorld site).openSource _
    unfold dirSource Setup.siteWorld
    simp only
    rw [e, LJ.Whole.openSource_eq, hdoc, baseOf_ne _ (baseLen_ne hcp.size), hb]
    cases hd : site.docs u with
    | none => rw [he]
    | some d =>
      have hshort := (hst.clean u d hU hd).1
      simp only [Except.ok.injEq]
      funext json
      rw [LJ.Iterator.C02_lines_spec Unit M.checks json (M.cut _ d) (hM.blocks _ d)
        (LJ.Iterator.noOverflow_of_short (by rw [hM.whole]; exact hshort json)), hM.whole]
      simp [LJ.Whole.events, textLines]
  decode := hr.decode.symm
  tokenize := hr.tokenize.symm
  search := hr.search.symm
  over := hr.over.symm

/-- C145, for servers whose files do not change and have short lines of text without the marker line, and places which do not make files ignored.  When the comparison
of the copies on the disk gives a report, the comparison of the URLs, or of the builds which have their logs there, gives the same report with the URLs of the files,
with `LOGREDUCE_CACHE` set or not, and after any other comparisons.  Missing: URLs of less than
42 bytes (C145_false), other orders of the files (C120), long lines (C125) and marker lines (C105_false). -/
theorem C145_partial (hr : Runs S M) (hM : LJ.Whole.Spec.Ordinary M) (he : S.netError = ()) (hst : Stable U V S site) (hf : FarSite S site) {copies : List (Copy t)}
    (hc : ∀ c ∈ copies, Copied M site c ∧ Unhidden c ∧ Based c) {bs : List Local} {bs' : List (Content t)} (hbs : List.Forall₂ (CopyDir copies) bs bs')
    (hbk : ∀ c ∈ bs', KnownContent U c) {target : Local} {target' : Content t} (ht : CopyDir copies target target') (htk : KnownContent U target')
    {o1 o2 : List (Str × List LJ.Paths.Source) → List (Str × List LJ.Paths.Source)} (h1 : ∀ g, (o1 g).Perm g) (h2 : ∀ g, (o2 g).Perm g)
    {o3 o4 : List (Str × List (LJ.Codec.Source t)) → List (Str × List (LJ.Codec.Source t))} (h3 : ∀ g, (o3 g).Perm g) (h4 : ∀ g, (o4 g).Perm g)
    {m r} (hm : train M.world o1 bs = .ok m) (hrep : report M.world m o2 target = some (.ok r))
    (us : List (Bool × Use t Str)) (hus : ∀ p ∈ us, p.2.On U site) (net : Nat → Net t) (hn : Serves site net) (b : Bool) :
    ∃ r', ((S.on b).compare net o3 o4 bs' target' (mixed S us ⟨LJ.Cache.State.empty, 0⟩)).1 = .ok r' ∧ SameAs (CopyFile copies) (CopyDir copies) r r' := by
  obtain ⟨m', r', k1, k2, k3⟩ := LJ.Report.renamed_report (mirror_world hr hM he hst hc) (LJ.Report.searchOk_indexWorld hM.fp) h1 h2 h3 h4 hbs ht hm hrep
  have hfar : ∀ (c : Local) (c' : Content t), CopyDir copies c c' → FarContent c' := by
    rintro c c' ⟨x, _, _, ⟨n, rfl⟩ | ⟨b, rfl, _⟩⟩ <;> exact trivial
  have hfars : ∀ c' ∈ bs', FarContent c' := by
    intro c' hc'
    obtain ⟨i, hi, rfl⟩ := List.getElem_of_mem hc'
    have hi' : i < bs.length := by rw [hbs.length_eq]; exact hi
    exact hfar _ _ (List.Forall₂.get hbs hi' hi)
  refine ⟨r', ?_, k3⟩
  rw [(compare_gives hst hf hn o3 o4 h3 h4 bs' (fun c hc' => ⟨hbk c hc', hfars c hc'⟩) target' ⟨htk, hfar _ _ ht⟩ _ (mixed_holds hst us hus _ holds_empty)).1]
  unfold comparison
  rw [k1]
  simp only
  rw [k2]

end

/-! ### A directory with one file, on a server and on the disk -/

section
open LJ.Cache (demoTexts demoUrl)
open LJ.Whole (threePlaces oneFile oldLines)
open LJ.Whole.Spec (textFile)

def hostedDir : Url demoTexts := demoUrl "https://logs.example.org/builds/0123456789/"
def hostedFile : Url demoTexts := demoUrl "https://logs.example.org/builds/0123456789/sub/a.log"
def hostedBase : Url demoTexts := demoUrl "https://logs.example.org/builds/0123456789"

def hostedSite : Site demoTexts where
  docs u := if u = hostedFile then some (textFile oldLines) else none
  dirs u := if u = hostedDir then some [hostedFile] else none

def hostedNet : Nat → Net demoTexts := fun _ =>
  { get := fun u => if u = hostedFile then some ⟨200, ⟨textFile oldLines, [.short 7]⟩⟩ else none
    list := fun u => if u = hostedDir then some [hostedFile] else none }

noncomputable def hostedSetup : Setup demoTexts Str ℝ Unit where
  digest s := (s.toList.map (fun c => if c = '/' then '!' else c) ++ List.replicate 64 '0').take 64
  useCache := true
  checks := true
  cut d := d.map fun b => [b]
  netError := ()
  localList _ := []
  localOpen _ := .error ()
  valid | .loc _ _ => false | .remote _ u => LJ.Paths.isValid u.val.toList
  nameOf | .loc _ _ => [] | .remote n u => (LJ.Paths.Source.remote n.toNat u.val.toList).indexName.getD []
  isJson | .loc _ _ => false | .remote n u => (LJ.Paths.Source.remote n.toNat u.val.toList).isJson.getD false
  decode := LJ.Whole.decode
  tokenize := threePlaces.world.tokenize
  search := threePlaces.world.search
  over := threePlaces.world.over

def hostedUrls (s : String) : Prop := s = hostedDir.val ∨ s = hostedFile.val
def hostedAll (s : String) : Prop := s = hostedDir.val ∨ s = hostedFile.val ∨ s = hostedBase.val

def hostedCopy : Copy demoTexts := ⟨"/logs".toList, hostedDir, oneFile⟩

theorem hostedBase_of {pre : Nat} {url : Url demoTexts} (h : hostedUrls url.val) : baseOf pre url = .ok (if pre = 0 then url else hostedBase) := by
  unfold baseOf
  split
  · rfl
  · have e : LJ.Paths.sliceTo url.val.toList 42 = some hostedBase.val.toList := by
      rcases h with h | h <;> rw [h] <;> decide +kernel
    rw [e]
    have : parseUrl (t := demoTexts) (String.ofList hostedBase.val.toList) = some hostedBase := by decide +kernel
    simp only [this]

theorem hosted_stable : Stable hostedUrls hostedAll hostedSetup hostedSite where
  digest := by
    refine ⟨?_, ?_, ?_⟩
    · intro s; simp [hostedSetup]
    · intro s h
      have := List.mem_of_mem_take h
      rcases List.mem_append.1 this with h | h
      · obtain ⟨c, _, e⟩ := List.mem_map.1 h
        split at e
        · cases e
        · exact absurd e (by assumption)
      · simp at h
    · intro a b ha hb
      rcases ha with rfl | rfl | rfl <;> rcases hb with rfl | rfl | rfl <;> decide +kernel
  cut := by
    intro d
    refine ⟨?_, (LJ.Whole.toyMachine_ordinary fun _ => none).whole [] d⟩
    intro x hx
    obtain ⟨c, _, rfl⟩ := List.mem_map.1 hx
    exact ⟨by simp, by simp⟩
  search := by
    have h : LJ.Report.SearchOk threePlaces.world := LJ.Report.searchOk_indexWorld LJ.Whole.threePlaces_ordinary.fp
    exact h
  known := by
    refine ⟨fun _ h => h.imp id .inl, ?_, ?_, ?_⟩
    · intro url urls h u hu
      simp only [hostedSite] at h
      split at h
      · cases h
        rw [List.mem_singleton] at hu
        subst hu
        exact .inr rfl
      · cases h
    · intro source x h
      cases h
    · intro pre url b hu hb
      rw [hostedBase_of hu] at hb
      cases hb
      split
      · exact hu.imp id .inl
      · exact .inr (.inr rfl)
  clean := by
    intro url d _ h
    simp only [hostedSite] at h
    split at h
    · cases h
      refine ⟨fun json => by cases json <;> decide +kernel, fun json => ?_⟩
      have : ∀ p ∈ LJ.Iterator.Spec.pieces json (textFile oldLines), (LJ.Whole.decode p.1).any (fun raw => !LJ.Process.contains LJ.Process.MARKER raw) = true := by
        cases json <;> decide +kernel
      intro p hp
      have := this p hp
      show ∃ raw, LJ.Whole.decode p.1 = some raw ∧ _
      cases hd : LJ.Whole.decode p.1 with
      | none => rw [hd] at this; cases this
      | some raw =>
        rw [hd] at this
        exact ⟨raw, rfl, by simpa using this⟩
    · cases h

theorem hosted_far : FarSite hostedSetup hostedSite where
  listed := by
    intro url urls h u hu pre
    rw [hostedBase_of (hosted_stable.known.listed url urls h u hu)]
    exact fun h => by cases h
  local' := by
    intro source x h
    cases h

theorem hosted_serves : Serves hostedSite hostedNet := by
  intro k url
  refine ⟨?_, ?_, rfl⟩
  · simp only [hostedNet, hostedSite]
    split <;> rfl
  · intro resp h
    simp only [hostedNet] at h
    split at h
    · cases h
      simp [Steady]
    · cases h

theorem hostedCopy_files : hostedCopy.files = [["sub".toList, "a.log".toList]] := rfl

theorem hostedCopy_copied : Copied threePlaces hostedSite hostedCopy where
  walk := rfl
  errors := by
    intro e h
    simp [hostedCopy, oneFile] at h
  names := by
    intro names h
    rw [hostedCopy_files, List.mem_singleton] at h
    subst h
    exact LJ.Whole.oneFile_normal _ (by simp [oneFile])
  listed := ⟨[hostedFile], by decide +kernel, by decide +kernel, by decide +kernel⟩
  content := by
    intro names h u hu p hp
    rw [hostedCopy_files, List.mem_singleton] at h
    subst h
    have hu : u = hostedFile := Subtype.ext (String.toList_inj.1 (hu.trans (by decide +kernel)))
    subst hu
    have e : entryPath "/logs".toList (["sub".toList, "a.log".toList].map some) = some "/logs/sub/a.log".toList := by decide +kernel
    have hp : some "/logs/sub/a.log".toList = some p := e.symm.trans hp
    cases hp
    have hm : "/logs/sub/a.log".toList ∈ LJ.Whole.places.map (· ++ "/sub/a.log".toList) := by decide +kernel
    exact if_pos (e := none) hm
  size := by decide +kernel

theorem hostedCopy_based : Based hostedCopy := by
  intro names h u hu
  rw [hostedCopy_files, List.mem_singleton] at h
  subst h
  have hu : u = hostedFile := Subtype.ext (String.toList_inj.1 (hu.trans (by decide +kernel)))
  subst hu
  exact ⟨_, hostedBase_of (.inr rfl)⟩

theorem hostedCopy_unhidden : Unhidden hostedCopy :=
  ⟨LJ.Whole.places_neutral.1, by decide +kernel, by decide +kernel⟩

/-- Non-vacuity of C145: the directory on the disk and on the server, compared with itself, with the cache set, after the same comparison without it. -/
example : ∃ m r r', train threePlaces.world id [.directory "/logs".toList] = .ok m ∧ report threePlaces.world m id (.directory "/logs".toList) = some (.ok r) ∧
    r.totalLineCount = 2 ∧
    ((hostedSetup.on true).compare hostedNet id id [.directory (.remote 0 hostedDir)] (.directory (.remote 0 hostedDir))
      (mixed hostedSetup [(false, ⟨hostedNet, id, id, [.directory (.remote 0 hostedDir)], .directory (.remote 0 hostedDir)⟩)] ⟨LJ.Cache.State.empty, 0⟩)).1 = .ok r' ∧
    SameAs (CopyFile [hostedCopy]) (CopyDir [hostedCopy]) r r' := by
  obtain ⟨m, r, h1, h2, h3⟩ := LJ.Whole.threePlaces_report
  have hd : CopyDir [hostedCopy] (.directory "/logs".toList) (.directory (.remote 0 hostedDir)) := ⟨hostedCopy, by simp, rfl, .inl ⟨0, rfl⟩⟩
  have hk : KnownContent hostedUrls (.directory (.remote 0 hostedDir)) := .inl rfl
  obtain ⟨r', g1, g2⟩ := C145_partial (S := hostedSetup) (M := threePlaces) ⟨fun _ _ => rfl, fun _ _ => rfl, fun _ _ => rfl, rfl, rfl, rfl, rfl⟩
    LJ.Whole.threePlaces_ordinary rfl hosted_stable hosted_far (copies := [hostedCopy])
    (by intro c hc; rw [List.mem_singleton] at hc; subst hc; exact ⟨hostedCopy_copied, hostedCopy_unhidden, hostedCopy_based⟩)
    (.cons hd .nil) (by intro c hc; rw [List.mem_singleton] at hc; subst hc; exact hk) hd hk
    (o1 := id) (o2 := id) (o3 := id) (o4 := id) (fun _ => .rfl) (fun _ => .rfl) (fun _ => .rfl) (fun _ => .rfl) h1 h2
    [(false, ⟨hostedNet, id, id, [.directory (.remote 0 hostedDir)], .directory (.remote 0 hostedDir)⟩)]
    (by
      intro p hp
      rw [List.mem_singleton] at hp
      subst hp
      exact ⟨hosted_serves, fun _ => .rfl, fun _ => .rfl, by intro c hc; rw [List.mem_singleton] at hc; subst hc; exact hk, hk⟩)
    hostedNet hosted_serves true
  exact ⟨m, r, r', h1, h2, h3, g1, g2⟩

/-! ### The same directory at a short URL -/

def shortDir : Url demoTexts := demoUrl "https://logs.example.org/"
def shortFile : Url demoTexts := demoUrl "https://logs.example.org/sub/a.log"

def shortSite : Site demoTexts where
  docs u := if u = shortFile then some (textFile oldLines) else none
  dirs u := if u = shortDir then some [shortFile] else none

def shortNet : Nat → Net demoTexts := fun _ =>
  { get := fun u => if u = shortFile then some ⟨200, ⟨textFile oldLines, [.short 7]⟩⟩ else none
    list := fun u => if u = shortDir then some [shortFile] else none }

def shortCopy : Copy demoTexts := ⟨"/logs".toList, shortDir, oneFile⟩

theorem shortCopy_files : shortCopy.files = [["sub".toList, "a.log".toList]] := rfl

theorem short_serves : Serves shortSite shortNet := by
  intro k url
  refine ⟨?_, ?_, rfl⟩
  · simp only [shortNet, shortSite]
    split <;> rfl
  · intro resp h
    simp only [shortNet] at h
    split at h
    · cases h
      simp [Steady]
    · cases h

theorem shortCopy_copied : Copied threePlaces shortSite shortCopy where
  walk := rfl
  errors := by
    intro e h
    simp [shortCopy, oneFile] at h
  names := by
    intro names h
    rw [shortCopy_files, List.mem_singleton] at h
    subst h
    exact LJ.Whole.oneFile_normal _ (by simp [oneFile])
  listed := ⟨[shortFile], by decide +kernel, by decide +kernel, by decide +kernel⟩
  content := by
    intro names h u hu p hp
    rw [shortCopy_files, List.mem_singleton] at h
    subst h
    have hu : u = shortFile := Subtype.ext (String.toList_inj.1 (hu.trans (by decide +kernel)))
    subst hu
    have e : entryPath "/logs".toList (["sub".toList, "a.log".toList].map some) = some "/logs/sub/a.log".toList := by decide +kernel
    have hp : some "/logs/sub/a.log".toList = some p := e.symm.trans hp
    cases hp
    have hm : "/logs/sub/a.log".toList ∈ LJ.Whole.places.map (· ++ "/sub/a.log".toList) := by decide +kernel
    exact if_pos (e := none) hm
  size := by decide +kernel

/-- C145 does not hold at every URL: the comparison which gives a report at `/logs` panics at `https://logs.example.org/`, which has the same files,
with the cache or without it. -/
theorem C145_false : ∃ (M : Machine) (S : Setup demoTexts Str ℝ Unit) (site : Site demoTexts) (net : Nat → Net demoTexts) (c : Copy demoTexts) (m : _) (r : _),
    Runs S M ∧ LJ.Whole.Spec.Ordinary M ∧ Copied M site c ∧ Unhidden c ∧ Serves site net ∧
    train M.world id [.directory c.dir] = .ok m ∧ report M.world m id (.directory c.dir) = some (.ok r) ∧
    ∀ b, ((S.on b).compare net id id [.directory (.remote 0 c.url)] (.directory (.remote 0 c.url)) ⟨LJ.Cache.State.empty, 0⟩).1 = .panic := by
  obtain ⟨m, r, h1, h2, _⟩ := LJ.Whole.threePlaces_report
  refine ⟨threePlaces, hostedSetup, shortSite, shortNet, shortCopy, m, r, ⟨fun _ _ => rfl, fun _ _ => rfl, fun _ _ => rfl, rfl, rfl, rfl, rfl⟩,
    LJ.Whole.threePlaces_ordinary, shortCopy_copied, ⟨LJ.Whole.places_neutral.1, by decide +kernel, by decide +kernel⟩, short_serves, h1, h2, ?_⟩
  intro b
  cases b <;> rfl

end
end LJ.Remote

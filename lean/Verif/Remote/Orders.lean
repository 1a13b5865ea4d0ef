/-
C145 when the servers list the files in another order than the walk of their copies.
-/
import Verif.Remote.Mirror
import Verif.Whole.Listed
namespace LJ.Remote
open LJ.Codec (Bytes Texts Url Content)
open LJ.Process (Str Ev)
open LJ.Whole (Machine Local)
open LJ.Whole.Spec (Tree)
open LJ.Paths (dirSource entryPath rel trimEnd)
open LJ.Paths.Spec (Normal)
open LJ.Report (train report AnyOrder)

namespace Spec
variable {t : Texts}

/-- The directory is walked without an error and has the files which are listed from the URL, in any order, with the same data. -/
structure CopiedAny (M : Machine) (site : Site t) (c : Copy t) : Prop where
  walk : M.walk c.dir = c.tree.at c.dir
  errors : ∀ e, .error e ∉ c.tree
  names : ∀ names ∈ c.files, names ≠ [] ∧ ∀ n ∈ names, Normal n
  listed : ∃ urls, site.dirs c.url = some urls ∧ (LJ.Codec.listing t).enc urls ≠ none ∧ (urls.map (fun u => u.val.toList)).Perm (c.files.map (below c.url))
  content : ∀ names ∈ c.files, ∀ u : Url t, u.val.toList = below c.url names → ∀ p, entryPath c.dir (names.map some) = some p → M.files p = site.docs u
  size : baseLen c.url < 2 ^ 64

/-- The server has each file it lists. -/
def Served (site : Site t) (url : Url t) : Prop := ∀ urls, site.dirs url = some urls → ∀ u ∈ urls, site.docs u ≠ none

/-- What a report found for a name: the tokens of each anomaly, and its distance. -/
def foundOn (M : Machine) (r : LJ.Report.Report (Content t) (LJ.Codec.Source t) Str ℝ Unit Unit) (n : Str) : List (Str × ℝ) :=
  (r.logReports.filter fun l => l.indexName = n).flatMap fun l => l.anomalies.map fun a => (M.tok a.anomaly.line, a.anomaly.distance)

end Spec
open Spec

section
variable {t : Texts} {S : Setup t Str ℝ Unit} {M : Machine} {U V : String → Prop} {site : Site t}

def isFile : Except Unit (Bool × Bool × List Str) → Bool
  | .ok (false, true, _) => true
  | _ => false

theorem files_filter (tree : Tree) : tree.filter isFile =
    (tree.filterMap fun | .ok (false, true, names) => some names | _ => none).map (fun names => .ok (false, true, names)) := by
  induction tree with
  | nil => rfl
  | cons e tree ih =>
    match e with
    | .error e => simpa [isFile] using ih
    | .ok (true, f, names) => simpa [isFile] using ih
    | .ok (false, false, names) => simpa [isFile] using ih
    | .ok (false, true, names) => exact (List.filter_cons_of_pos rfl).trans (congrArg (List.cons (.ok (false, true, names))) ih)

theorem files_others (tree : Tree) : ((tree.filter fun e => !isFile e).filterMap fun | .ok (false, true, names) => some names | _ => none) = ([] : List (List Str)) := by
  induction tree with
  | nil => rfl
  | cons e tree ih =>
    match e with
    | .error e => simpa [isFile] using ih
    | .ok (true, f, names) => simpa [isFile] using ih
    | .ok (false, false, names) => simpa [isFile] using ih
    | .ok (false, true, names) => simpa [isFile] using ih

/-- the copy, in the order of the server -/
theorem reorder {c : Copy t} (h : CopiedAny M site c) : ∃ tree : Tree, c.tree.Perm tree ∧ ∀ walk, walk c.dir = tree.at c.dir →
    Copied (M.rewalked walk) site ⟨c.dir, c.url, tree⟩ := by
  obtain ⟨urls, e1, e2, e3⟩ := h.listed
  have hf : List.Forall₂ (fun v names => v = below c.url names) (c.files.map (below c.url)) c.files := by
    generalize c.files = l
    induction l with
    | nil => exact .nil
    | cons x l ih => exact .cons rfl ih
  obtain ⟨files, g1, g2⟩ := List.perm_comp_forall₂ e3 hf
  have g1 : urls.map (fun u => u.val.toList) = files.map (below c.url) := by
    clear e3 g2
    generalize urls.map (fun u => u.val.toList) = l at g1
    induction g1 with
    | nil => rfl
    | cons h _ ih => rw [List.map_cons, h, ih]
  have hp : c.tree.Perm ((c.tree.filter fun e => !isFile e) ++ files.map fun names => .ok (false, true, names)) := by
    have k1 : (c.tree.filter isFile).Perm (files.map fun names => .ok (false, true, names)) := by
      rw [files_filter]
      exact (g2.symm.map _)
    exact ((List.filter_append_perm isFile c.tree).symm.trans List.perm_append_comm).trans (k1.append_left _)
  refine ⟨_, hp, fun walk hw => ?_⟩
  have hfiles : (Copy.mk c.dir c.url ((c.tree.filter fun e => !isFile e) ++ files.map fun names => .ok (false, true, names))).files = files := by
    unfold Copy.files
    rw [List.filterMap_append]
    refine (congrArg₂ (· ++ ·) (files_others c.tree) ?_).trans (List.nil_append files)
    rw [List.filterMap_map]
    exact List.filterMap_some
  refine ⟨hw, fun e he => h.errors e (hp.mem_iff.2 he), ?_, ⟨urls, e1, e2, by rw [hfiles]; exact g1⟩, ?_, h.size⟩
  · intro names hn
    rw [hfiles] at hn
    exact h.names names (g2.mem_iff.1 hn)
  · intro names hn u hu p hp
    rw [hfiles] at hn
    exact h.content names (g2.mem_iff.1 hn) u hu p hp

theorem unmarked_texts {d : Bytes} (hdec : S.decode = LJ.Whole.decode) (h : Unmarked S d) (json : Bool) :
    ∀ e ∈ textLines json d, ∃ l x, e = .ok l ∧ LJ.Whole.decode l.1 = some x ∧ ¬ "TASK [log-classify".toList <:+: x := by
  intro e he
  obtain ⟨l, hl, rfl⟩ := List.mem_map.1 he
  have hl' : l ∈ LJ.Iterator.Spec.pieces json d := by
    unfold LJ.Iterator.Spec.lines LJ.Iterator.Spec.keep at hl
    exact (List.mem_filter.1 hl).1
  obtain ⟨raw, h1, h2⟩ := h json l hl'
  refine ⟨l, raw, rfl, by rw [← hdec]; exact h1, fun hm => ?_⟩
  rw [← LJ.Process.contains_iff] at hm
  exact absurd (hm.symm.trans h2) (by decide)

/-- C145 when the servers list the files in any order, and have all the files they list of the target: for each name the same tokens are found as on the disk, with the same
distances, and as many of them, among as many lines.  The other conditions are those of `C145_partial`, and the files of the same name are all JSON or all not; without these conditions, and for
which of several equal lines is shown, the order matters (`LJ.Report.C120_false`, `C120_open_false` and `C120_json_false`). -/
theorem C145_orders_partial (hr : Runs S M) (hM : LJ.Whole.Spec.Ordinary M) (he : S.netError = ()) (hst : Stable U V S site) (hf : FarSite S site) {copies : List (Copy t)}
    (hc : ∀ c ∈ copies, CopiedAny M site c ∧ Unhidden c ∧ Based c) (hone : ∀ c ∈ copies, ∀ c' ∈ copies, c.dir = c'.dir → c = c')
    {bs : List Local} {bs' : List (Content t)} (hbs : List.Forall₂ (CopyDir copies) bs bs')
    (hbk : ∀ c ∈ bs', KnownContent U c) {target : Local} {target' : Content t} (ht : CopyDir copies target target') (htk : KnownContent U target')
    (hj : LJ.Whole.Spec.OneFormat M bs) (hserved : ∀ c ∈ copies, target = .directory c.dir → Served site c.url)
    {o1 o2 : List (Str × List LJ.Paths.Source) → List (Str × List LJ.Paths.Source)} (h1 : ∀ g, (o1 g).Perm g) (h2 : ∀ g, (o2 g).Perm g)
    {o3 o4 : List (Str × List (LJ.Codec.Source t)) → List (Str × List (LJ.Codec.Source t))} (h3 : ∀ g, (o3 g).Perm g) (h4 : ∀ g, (o4 g).Perm g)
    {m r} (hm : train M.world o1 bs = .ok m) (hrep : report M.world m o2 target = some (.ok r))
    (us : List (Bool × Use t Str)) (hus : ∀ p ∈ us, p.2.On U site) (net : Nat → Net t) (hn : Serves site net) (b : Bool) :
    ∃ r', ((S.on b).compare net o3 o4 bs' target' (mixed S us ⟨LJ.Cache.State.empty, 0⟩)).1 = .ok r' ∧
      (∀ n, (LJ.Whole.Spec.found M r n).Perm (foundOn M r' n)) ∧ r.totalAnomalyCount = r'.totalAnomalyCount ∧ r.totalLineCount = r'.totalLineCount ∧
      r.readErrors = [] ∧ r'.readErrors = [] := by
  -- the orders of the servers
  have hre : ∀ c, ∃ tree : Tree, c ∈ copies → c.tree.Perm tree ∧ ∀ walk, walk c.dir = tree.at c.dir → Copied (M.rewalked walk) site ⟨c.dir, c.url, tree⟩ := by
    intro c
    by_cases hmem : c ∈ copies
    · obtain ⟨tree, h⟩ := reorder (hc c hmem).1
      exact ⟨tree, fun _ => h⟩
    · exact ⟨[], fun h => absurd h hmem⟩
  choose re hre using hre
  classical
  let walk : Str → List (Except Unit LJ.Paths.Entry) := fun d => if h : ∃ c ∈ copies, c.dir = d then (re h.choose).at d else M.walk d
  have hwalk : ∀ c ∈ copies, walk c.dir = (re c).at c.dir := by
    intro c hmem
    have h : ∃ c' ∈ copies, c'.dir = c.dir := ⟨c, hmem, rfl⟩
    have e : h.choose = c := hone _ h.choose_spec.1 _ hmem h.choose_spec.2
    show (if h : ∃ c' ∈ copies, c'.dir = c.dir then (re h.choose).at c.dir else M.walk c.dir) = _
    rw [dif_pos h, e]
  have hperm : ∀ d, (M.walk d).Perm (walk d) := by
    intro d
    by_cases h : ∃ c ∈ copies, c.dir = d
    · obtain ⟨c, hmem, rfl⟩ := h
      rw [hwalk c hmem, (hc c hmem).1.walk]
      exact (hre c hmem).1.map _
    · show (M.walk d).Perm (if h : ∃ c ∈ copies, c.dir = d then (re h.choose).at d else M.walk d)
      rw [dif_neg h]
  -- the copies in these orders
  let copy : Copy t → Copy t := fun c => ⟨c.dir, c.url, re c⟩
  have hfiles : ∀ c ∈ copies, (copy c).files.Perm c.files := fun c hmem => ((hre c hmem).1.filterMap _).symm
  have hc' : ∀ c ∈ copies.map copy, Copied (M.rewalked walk) site c ∧ Unhidden c ∧ Based c := by
    intro c hmap
    obtain ⟨c, hmem, rfl⟩ := List.mem_map.1 hmap
    obtain ⟨_, k2, k3⟩ := hc c hmem
    exact ⟨(hre c hmem).2 walk (hwalk c hmem), k2, fun names hn u hu => k3 names ((hfiles c hmem).mem_iff.1 hn) u hu⟩
  have hdir : ∀ x x', CopyDir copies x x' → CopyDir (copies.map copy) x x' := by
    rintro x x' ⟨c, hmem, h1, h2⟩
    exact ⟨copy c, List.mem_map.2 ⟨c, hmem, rfl⟩, h1, h2⟩
  have hr' : Runs S (M.rewalked walk) := ⟨hr.valid, hr.nameOf, hr.isJson, hr.decode, hr.tokenize, hr.search, hr.over⟩
  have hM' : LJ.Whole.Spec.Ordinary (M.rewalked walk) := ⟨hM.fp, hM.blocks, hM.whole⟩
  have hw := mirror_world hr' hM' he hst hc'
  have hs : LJ.Report.SearchOk M.world := LJ.Report.searchOk_indexWorld hM.fp
  -- the texts of the target
  have hsrc : ∀ s, ∃ src : List LJ.Process.Spec.Line, s ∈ LJ.Report.Spec.validSources M.world.valid (M.world.list target) → ∃ reader lines, M.world.openSource s = .ok reader ∧
      reader (M.world.isJson s) = lines.map Except.ok ∧ LJ.Process.Spec.Reads LJ.Whole.decode lines src ∧ LJ.Process.Spec.NoMarker src := by
    intro s
    by_cases hmem : s ∈ LJ.Report.Spec.validSources M.world.valid (M.world.list target)
    · obtain ⟨x, hx, hx'⟩ := List.mem_filterMap.1 hmem
      have hx2 : x = .ok s := by
        cases x with
        | error e => cases hx'
        | ok s' =>
          simp only at hx'
          split at hx'
          · cases hx'; rfl
          · cases hx'
      subst hx2
      have hx : (.ok s : Except Unit LJ.Paths.Source) ∈ (M.rewalked walk).world.list target := (LJ.Whole.list_perm hperm target).mem_iff.1 hx
      have hl := hw.list _ _ (hdir _ _ ht)
      obtain ⟨i, hi, ei⟩ := List.getElem_of_mem hx
      have hi' : i < ((S.siteWorld site).list target').length := by rw [← hl.length_eq]; exact hi
      have hg := List.Forall₂.get hl hi hi'
      simp only [List.get_eq_getElem, ei] at hg
      generalize hy : ((S.siteWorld site).list target')[i] = y at hg
      have hyl : y ∈ (S.siteWorld site).list target' := hy ▸ List.getElem_mem hi'
      cases hg with
      | @ok _ s' hcf =>
        have ho := hw.openSource _ _ hcf
        obtain ⟨c, hcm, names, hnames, rfl, u, rfl, hu⟩ := hcf
        obtain ⟨b0, hb0⟩ := (hc' c hcm).2.2 names hnames u hu
        -- the file is on the server
        obtain ⟨ct, hctm, rfl, htt⟩ := ht
        have hlist : (S.siteWorld site).list target' = S.siteDir site ct.url := by
          rcases htt with ⟨n, rfl⟩ | ⟨b1, rfl, hb1⟩
          · rfl
          · rw [← hb1]; rfl
        obtain ⟨urls, k1, k2, _⟩ := (hc ct hctm).1.listed
        have hd : S.siteDir site ct.url = urls.map fun u => .ok (.remote (UInt64.ofNat (baseLen ct.url)) u) := by
          unfold Setup.siteDir
          rw [k1]
          cases hx : (LJ.Codec.listing t).enc urls with
          | none => exact absurd hx k2
          | some b => simp only [hx]
        rw [hlist, hd] at hyl
        obtain ⟨u', hu', e'⟩ := List.mem_map.1 hyl
        have e' : u' = u := by
          injection e' with e'
          injection e'
        subst e'
        cases hdoc : site.docs u' with
        | none => exact absurd hdoc (hserved ct hctm rfl urls k1 u' hu')
        | some d =>
          have hcl := hst.clean u' d (hst.known.listed _ _ k1 u' hu') hdoc
          have ho : M.world.openSource (dirSource c.dir (names.map some)) = .ok fun json => textLines json d := by
            refine (show M.world.openSource (dirSource c.dir (names.map some)) = _ from ho).trans ?_
            unfold Setup.siteWorld
            simp only
            rw [baseOf_ne _ (baseLen_ne (hc' c hcm).1.size), hb0, hdoc]
          obtain ⟨lines, src, g1, g2, g3⟩ := LJ.Whole.reads_texts (unmarked_texts hr.decode hcl.2 (M.world.isJson (dirSource c.dir (names.map some))))
          exact ⟨src, fun _ => ⟨_, lines, ho, g1, g2, g3⟩⟩
    · exact ⟨[], fun h => absurd h hmem⟩
  choose text htext using hsrc
  obtain ⟨m1, r1, hm1, hr1, q1, q2, q3, _, _, q4, q5⟩ := LJ.Report.C120_partial hs LJ.Report.unordered_indexWorld h1 h1 h2 h2
    (list := (M.rewalked walk).world.list) (LJ.Whole.list_perm hperm) (List.Perm.refl bs) hj hm hrep text htext
  obtain ⟨r', k1, k2⟩ := C145_partial hr' hM' he hst hf hc' (hbs.imp hdir) hbk (hdir _ _ ht) htk h1 h2 h3 h4 hm1 hr1 us hus net hn b
  refine ⟨r', k1, fun n => ?_, q2.trans k2.anomalies, q3.trans k2.lines, q4, ?_⟩
  · refine (q1 n).trans ?_
    obtain ⟨k, e1, e2⟩ := k2.logs
    have : LJ.Report.found M.world r1 n = (k.filter fun l => l.indexName = n).flatMap fun l => l.anomalies.map fun a => (M.tok a.anomaly.line, a.anomaly.distance) := by
      unfold LJ.Report.found
      generalize r1.logReports = l at e1
      clear e2
      induction e1 with
      | nil => rfl
      | @cons x y l k hxy _ ih =>
        rw [List.filter_cons, List.filter_cons, ← hxy.name]
        split
        · rw [List.flatMap_cons, List.flatMap_cons, ih, hxy.anomalies]
          rfl
        · exact ih
    rw [this]
    exact (e2.filter _).flatMap_right _
  · obtain ⟨k, e1, e2⟩ := k2.errors
    rw [q5] at e1
    cases e1
    exact e2.symm.eq_nil

end

/-! ### Two files of the same name, listed in the other order -/

section
open LJ.Cache (demoTexts demoUrl)
open LJ.Whole.Spec (textFile)

def pairTree : Tree := [.ok (false, false, []), .ok (false, true, ["app1.log".toList]), .ok (false, true, ["app2.log".toList])]
def pairText1 : Bytes := textFile ["disk vanished".toList, "all lost".toList]
def pairText2 : Bytes := textFile ["all lost".toList, "time out".toList]

noncomputable def pairMachine : Machine :=
  { LJ.Whole.toyMachine fun p => if p = "/logs/app1.log".toList then some pairText1 else if p = "/logs/app2.log".toList then some pairText2 else none with
    checks := false
    walk := fun d => pairTree.at d }

def pairFile1 : Url demoTexts := demoUrl "https://logs.example.org/builds/0123456789/app1.log"
def pairFile2 : Url demoTexts := demoUrl "https://logs.example.org/builds/0123456789/app2.log"

def pairSite : Site demoTexts where
  docs u := if u = pairFile1 then some pairText1 else if u = pairFile2 then some pairText2 else none
  dirs u := if u = hostedDir then some [pairFile2, pairFile1] else none

def pairNet : Nat → Net demoTexts := fun _ =>
  { get := fun u => if u = pairFile1 then some ⟨200, ⟨pairText1, [.short 7]⟩⟩ else if u = pairFile2 then some ⟨200, ⟨pairText2, []⟩⟩ else none
    list := fun u => if u = hostedDir then some [pairFile2, pairFile1] else none }

noncomputable def pairSetup : Setup demoTexts Str ℝ Unit := { hostedSetup with search := pairMachine.world.search, over := pairMachine.world.over, tokenize := pairMachine.world.tokenize }

def pairUrls (s : String) : Prop := s = hostedDir.val ∨ s = pairFile1.val ∨ s = pairFile2.val
def pairAll (s : String) : Prop := pairUrls s ∨ s = hostedBase.val

def pairCopy : Copy demoTexts := ⟨"/logs".toList, hostedDir, pairTree⟩

theorem pairBase_of {pre : Nat} {url : Url demoTexts} (h : pairUrls url.val) : baseOf pre url = .ok (if pre = 0 then url else hostedBase) := by
  unfold baseOf
  split
  · rfl
  · have e : LJ.Paths.sliceTo url.val.toList 42 = some hostedBase.val.toList := by
      rcases h with h | h | h <;> rw [h] <;> decide +kernel
    rw [e]
    have : parseUrl (t := demoTexts) (String.ofList hostedBase.val.toList) = some hostedBase := by decide +kernel
    simp only [this]

theorem pairMachine_ordinary : LJ.Whole.Spec.Ordinary pairMachine :=
  have h := LJ.Whole.toyMachine_ordinary pairMachine.files
  ⟨h.fp, h.blocks, h.whole⟩

theorem pair_texts {d : Bytes} (hd : d = pairText1 ∨ d = pairText2) : Short d ∧ Unmarked pairSetup d := by
  refine ⟨fun json => by rcases hd with rfl | rfl <;> cases json <;> decide +kernel, fun json => ?_⟩
  have : ∀ p ∈ LJ.Iterator.Spec.pieces json d, (LJ.Whole.decode p.1).any (fun raw => !LJ.Process.contains LJ.Process.MARKER raw) = true := by
    rcases hd with rfl | rfl <;> cases json <;> decide +kernel
  intro p hp
  have := this p hp
  show ∃ raw, LJ.Whole.decode p.1 = some raw ∧ _
  cases hd : LJ.Whole.decode p.1 with
  | none => rw [hd] at this; cases this
  | some raw =>
    rw [hd] at this
    exact ⟨raw, rfl, by simpa using this⟩

theorem pair_stable : Stable pairUrls pairAll pairSetup pairSite where
  digest := by
    refine ⟨hosted_stable.digest.1, hosted_stable.digest.2, ?_⟩
    intro a b ha hb
    rcases ha with (rfl | rfl | rfl) | rfl <;> rcases hb with (rfl | rfl | rfl) | rfl <;> decide +kernel
  cut := hosted_stable.cut
  search := by
    have h : LJ.Report.SearchOk pairMachine.world := LJ.Report.searchOk_indexWorld pairMachine_ordinary.fp
    exact h
  known := by
    refine ⟨fun _ h => .inl h, ?_, ?_, ?_⟩
    · intro url urls h u hu
      simp only [pairSite] at h
      split at h
      · cases h
        simp only [List.mem_cons, List.not_mem_nil, or_false] at hu
        rcases hu with rfl | rfl
        · exact .inr (.inr rfl)
        · exact .inr (.inl rfl)
      · cases h
    · intro source x h
      cases h
    · intro pre url b hu hb
      rw [pairBase_of hu] at hb
      cases hb
      split
      · exact .inl hu
      · exact .inr rfl
  clean := by
    intro url d _ h
    simp only [pairSite] at h
    split at h
    · cases h; exact pair_texts (.inl rfl)
    · split at h
      · cases h; exact pair_texts (.inr rfl)
      · cases h

theorem pair_far : FarSite pairSetup pairSite where
  listed := by
    intro url urls h u hu pre
    rw [pairBase_of (pair_stable.known.listed url urls h u hu)]
    exact fun h => by cases h
  local' := by
    intro source x h
    cases h

theorem pair_serves : Serves pairSite pairNet := by
  intro k url
  refine ⟨?_, ?_, rfl⟩
  · simp only [pairNet, pairSite]
    split
    · rfl
    · split <;> rfl
  · intro resp h
    simp only [pairNet] at h
    split at h
    · cases h; simp [Steady]
    · split at h
      · cases h; simp [Steady]
      · cases h

theorem pairCopy_files : pairCopy.files = [["app1.log".toList], ["app2.log".toList]] := rfl

theorem pairCopy_url {names : List Str} (h : names ∈ pairCopy.files) {u : Url demoTexts} (hu : u.val.toList = below pairCopy.url names) :
    (names = ["app1.log".toList] ∧ u = pairFile1) ∨ (names = ["app2.log".toList] ∧ u = pairFile2) := by
  rw [pairCopy_files] at h
  simp only [List.mem_cons, List.not_mem_nil, or_false] at h
  rcases h with rfl | rfl
  · exact .inl ⟨rfl, Subtype.ext (String.toList_inj.1 (hu.trans (by decide +kernel)))⟩
  · exact .inr ⟨rfl, Subtype.ext (String.toList_inj.1 (hu.trans (by decide +kernel)))⟩

theorem pairCopy_copied : CopiedAny pairMachine pairSite pairCopy where
  walk := rfl
  errors := by
    intro e h
    simp [pairCopy, pairTree] at h
  names := by
    intro names h
    rw [pairCopy_files] at h
    simp only [List.mem_cons, List.not_mem_nil, or_false] at h
    rcases h with rfl | rfl <;> unfold Normal <;> decide
  listed := ⟨[pairFile2, pairFile1], by decide +kernel, by decide +kernel, by
    have e : ([pairFile2, pairFile1].map fun u => u.val.toList) = (pairCopy.files.map (below pairCopy.url)).reverse := by decide +kernel
    rw [e]
    exact List.reverse_perm _⟩
  content := by
    intro names h u hu p hp
    rcases pairCopy_url h hu with ⟨rfl, rfl⟩ | ⟨rfl, rfl⟩
    · have e : entryPath "/logs".toList (["app1.log".toList].map some) = some "/logs/app1.log".toList := by decide +kernel
      have hp : some "/logs/app1.log".toList = some p := e.symm.trans hp
      cases hp
      rfl
    · have e : entryPath "/logs".toList (["app2.log".toList].map some) = some "/logs/app2.log".toList := by decide +kernel
      have hp : some "/logs/app2.log".toList = some p := e.symm.trans hp
      cases hp
      rfl
  size := by decide +kernel

theorem pairCopy_based : Based pairCopy := by
  intro names h u hu
  rcases pairCopy_url h hu with ⟨_, rfl⟩ | ⟨_, rfl⟩
  · exact ⟨_, pairBase_of (.inr (.inl rfl))⟩
  · exact ⟨_, pairBase_of (.inr (.inr rfl))⟩

theorem pair_sources : LJ.Whole.Spec.sourcesOf pairMachine (.directory "/logs".toList) =
    [.loc 5 (some "/logs/app1.log".toList), .loc 5 (some "/logs/app2.log".toList)] := by decide +kernel

/-- Non-vacuity of `C145_orders_partial`: the disk has app1.log then app2.log, which have the same name, and the server lists app2.log first. -/
example : ∃ m r r', train pairMachine.world id [.directory "/logs".toList] = .ok m ∧ report pairMachine.world m id (.directory "/logs".toList) = some (.ok r) ∧
    ((pairSetup.on true).compare pairNet id id [.directory (.remote 0 hostedDir)] (.directory (.remote 0 hostedDir)) ⟨LJ.Cache.State.empty, 0⟩).1 = .ok r' ∧
    r.totalLineCount = r'.totalLineCount := by
  have hcan : LJ.Whole.Spec.CanList pairMachine (.directory "/logs".toList) := by
    refine ⟨?_, ?_⟩
    · intro e he
      have : (Except.error e : Except Unit LJ.Paths.Source) ∈ ([.ok (.loc 5 (some "/logs/app1.log".toList)), .ok (.loc 5 (some "/logs/app2.log".toList))] : List (Except Unit LJ.Paths.Source)) := by
        have h : pairMachine.list (.directory "/logs".toList) = [.ok (.loc 5 (some "/logs/app1.log".toList)), .ok (.loc 5 (some "/logs/app2.log".toList))] := by decide +kernel
        rw [← h]; exact he
      simp at this
    · have := pair_sources
      unfold LJ.Whole.Spec.sourcesOf at this
      rw [this]
      simp
  obtain ⟨m, hm⟩ := LJ.Whole.train_contents (M := pairMachine) rfl pairMachine_ordinary.blocks (o := id) (fun _ => .rfl) (cs := [.directory "/logs".toList])
    (by intro c hc; rw [List.mem_singleton] at hc; subst hc; exact hcan)
    (by
      intro c hc s hs
      rw [List.mem_singleton] at hc
      subst hc
      rw [pair_sources] at hs
      have : ∀ x ∈ [LJ.Paths.Source.loc 5 (some "/logs/app1.log".toList), .loc 5 (some "/logs/app2.log".toList)], LJ.Whole.Spec.reads pairMachine x ≠ none := by decide +kernel
      exact this s hs)
  obtain ⟨res, hr, h⟩ := LJ.Report.report_total (w := pairMachine.world) (LJ.Report.searchOk_indexWorld pairMachine_ordinary.fp) m id (fun _ => .rfl) (.directory "/logs".toList)
  obtain ⟨r, rfl⟩ := h.2 hcan
  have hd : CopyDir [pairCopy] (.directory "/logs".toList) (.directory (.remote 0 hostedDir)) := ⟨pairCopy, by simp, rfl, .inl ⟨0, rfl⟩⟩
  have hk : KnownContent pairUrls (.directory (.remote 0 hostedDir)) := .inl rfl
  obtain ⟨r', g1, _, _, g2, _⟩ := C145_orders_partial (S := pairSetup) (M := pairMachine) ⟨fun _ _ => rfl, fun _ _ => rfl, fun _ _ => rfl, rfl, rfl, rfl, rfl⟩
    pairMachine_ordinary rfl pair_stable pair_far (copies := [pairCopy])
    (by intro c hc; rw [List.mem_singleton] at hc; subst hc; exact ⟨pairCopy_copied, hostedCopy_unhidden, pairCopy_based⟩)
    (by intro c hc c' hc' _; rw [List.mem_singleton] at hc hc'; rw [hc, hc'])
    (.cons hd .nil) (by intro c hc; rw [List.mem_singleton] at hc; subst hc; exact hk) hd hk
    (by
      intro s hs t ht _
      rw [List.flatMap_singleton, pair_sources] at hs ht
      have : ∀ x ∈ [LJ.Paths.Source.loc 5 (some "/logs/app1.log".toList), .loc 5 (some "/logs/app2.log".toList)], LJ.Whole.Spec.json x = false := by decide +kernel
      rw [this s hs, this t ht])
    (by
      intro c hc _ urls hu u hm
      rw [List.mem_singleton] at hc
      subst hc
      have : urls = [pairFile2, pairFile1] := by
        have e : pairSite.dirs pairCopy.url = some [pairFile2, pairFile1] := by decide +kernel
        rw [e] at hu
        exact (Option.some.inj hu).symm
      subst this
      have : ∀ u ∈ [pairFile2, pairFile1], pairSite.docs u ≠ none := by decide +kernel
      exact this u hm)
    (o1 := id) (o2 := id) (o3 := id) (o4 := id) (fun _ => .rfl) (fun _ => .rfl) (fun _ => .rfl) (fun _ => .rfl) hm hr
    [] (by intro p hp; cases hp) pairNet pair_serves true
  exact ⟨m, r, r', hm, hr, g1, g2⟩

end
end LJ.Remote

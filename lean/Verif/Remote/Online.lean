/-
C146: exactly what the comparison of URLs and builds reports.
-/
import Verif.Remote.Mirror
import Verif.Whole.Replay
namespace LJ.Remote
open LJ.Codec (Bytes Texts Url Content)
open LJ.Process (Str Ev)
open LJ.Whole (Machine)
open LJ.Report (train report lookupOrSingle)
open Spec (Runs)

namespace Spec
variable {t : Texts}

/-- What is compared is a URL or a build. -/
def Online : Content t → Prop
  | .file (.remote _ _) => True
  | .directory (.remote _ _) => True
  | .zuul _ => True
  | _ => False

/-- The files which are listed from a URL, if they are and if the list can be kept (C56). -/
def listedAt (site : Site t) (url : Url t) : Option (List (LJ.Codec.Source t)) :=
  match site.dirs url with
  | some urls => if (LJ.Codec.listing t).enc urls = none then none else some (urls.map fun u => .remote (UInt64.ofNat (baseLen url)) u)
  | none => none

/-- The files of what is compared: of a directory those which are listed, of a build those of its logs. -/
def filesOf (site : Site t) : Content t → Option (List (LJ.Codec.Source t))
  | .file source => some [source]
  | .directory (.remote _ url) => listedAt site url
  | .directory (.loc _ _) => none
  | .zuul b => listedAt site b.logUrl

/-- Those which are not ignored -/
def keptOf (S : Setup t Str ℝ Unit) (site : Site t) (c : Content t) : List (LJ.Codec.Source t) := ((filesOf site c).getD []).filter S.valid

/-- The data of a file, if the server has it and the first 42 bytes of the URL of a listed file are a URL (C44) -/
def dataOf (site : Site t) : LJ.Codec.Source t → Option Bytes
  | .remote pre url => match baseOf pre.toNat url with | .ok _ => site.docs url | _ => none
  | .loc _ _ => none

/-- The lines of a file, from its data -/
def linesOf (json : Bool) (d : Bytes) : List (Ev Unit) := (LJ.Iterator.Spec.lines json 6000 d).map .ok

/-- The same, or an error if it can not be read -/
def readOf (S : Setup t Str ℝ Unit) (site : Site t) (s : LJ.Codec.Source t) : Except Unit (List (Ev Unit)) :=
  match dataOf site s with
  | some d => .ok (linesOf (S.isJson s) d)
  | none => .error ()

/-- The lines learned from baselines for a name, if the name has any: those of the files of this name, or of all files if they have one other name -/
def learnedOf (S : Setup t Str ℝ Unit) (site : Site t) (baselines : List (Content t)) (n : Str) : Option (List Str) :=
  (LJ.Report.Spec.baselineFor S.nameOf (baselines.flatMap (keptOf S site)) n).map fun ss =>
    ss.flatMap fun s => (LJ.Process.Spec.readable LJ.Whole.decode (((dataOf site s).map (linesOf (ss.head?.any S.isJson))).getD [])).map Prod.snd

/-- For each name, the distances to the tokens of the lines learned for this name. -/
def DistancesTo (M : Machine) (S : Setup t Str ℝ Unit) (site : Site t) (baselines : List (Content t)) (dist : Str → Option (Str → ℝ)) : Prop :=
  ∀ n, match learnedOf S site baselines n with
    | none => dist n = none
    | some lines => ∃ f, dist n = some f ∧ LJ.Whole.Spec.Near M.hash (lines.map M.tok) f

/-- What a report of files says of a name. -/
noncomputable def saidOf (M : Machine) (S : Setup t Str ℝ Unit) (site : Site t) (files : List (LJ.Codec.Source t)) (dist : Str → Option (Str → ℝ)) (n : Str) :
    List (LJ.Report.Spec.Said (LJ.Codec.Source t) ℝ Unit Unit) :=
  match dist n with
  | some f => LJ.Report.Spec.said M.tok f LJ.Whole.Spec.over LJ.Whole.decode (readOf S site) [] (files.filter fun s => S.nameOf s = n)
  | none => []

/-- The report is this one: for each name, the files with their anomalies, contexts and counts, and their errors; the total of the lines; and the files of the
names which have no baseline. -/
structure Tells (M : Machine) (S : Setup t Str ℝ Unit) (site : Site t) (files : List (LJ.Codec.Source t)) (dist : Str → Option (Str → ℝ))
    (r : LJ.Report.Report (Content t) (LJ.Codec.Source t) Str ℝ Unit Unit) : Prop where
  logs : ∀ n, (r.logReports.filter fun l => l.indexName = n).map (fun l => (l.source, l.anomalies, l.lineCount, l.byteCount)) =
    ((saidOf M S site files dist n).filter fun x => !x.anomalies.isEmpty).map fun x => (x.source, x.anomalies, x.lines, x.bytes)
  errors : ∀ n, r.readErrors.filter (fun x => S.nameOf x.1 = n) = (saidOf M S site files dist n).filterMap fun x => x.error.map fun e => (x.source, e)
  lines : ∀ names : List Str, names.Nodup → (∀ n, n ∈ names ↔ ∃ s ∈ files, S.nameOf s = n) →
    r.totalLineCount = (names.map fun n => ((saidOf M S site files dist n).map (·.lines)).sum).sum
  missing : ∀ ss, ss ∈ r.indexErrors ↔ ∃ n, dist n = none ∧ ss ≠ [] ∧ ss = files.filter fun s => S.nameOf s = n

end Spec
open Spec

section
variable {t : Texts} {S : Setup t Str ℝ Unit} {M : Machine} {U V : String → Prop} {site : Site t}

theorem online_far {c : Content t} (h : Online c) (hf : ∀ s, c = .file s → Far s) : FarContent c := by
  cases c with
  | file s => exact hf s rfl
  | directory s => trivial
  | zuul b => trivial

theorem siteDir_listed (url : Url t) : S.siteDir site url = match listedAt site url with | some fs => fs.map .ok | none => [.error ()] := by
  unfold Setup.siteDir listedAt
  cases site.dirs url with
  | none => rfl
  | some urls =>
    simp only
    cases h : (LJ.Codec.listing t).enc urls with
    | none => simp
    | some b => simp

theorem siteList_files {c : Content t} (h : Online c) : S.siteList site c = match filesOf site c with | some fs => fs.map .ok | none => [.error ()] := by
  match c, h with
  | .file (.remote _ _), _ => rfl
  | .directory (.remote _ url), _ => exact siteDir_listed url
  | .zuul b, _ => exact siteDir_listed b.logUrl

theorem validSources_map (valid : LJ.Codec.Source t → Bool) (fs : List (LJ.Codec.Source t)) :
    LJ.Report.Spec.validSources (E := Unit) valid (fs.map .ok) = fs.filter valid := by
  unfold LJ.Report.Spec.validSources
  induction fs with
  | nil => rfl
  | cons f fs ih =>
    simp only [List.map_cons, List.filterMap_cons, List.filter_cons]
    cases valid f <;> simp [ih]

theorem valid_kept {c : Content t} (h : Online c) : LJ.Report.Spec.validSources (S.siteWorld site).valid ((S.siteWorld site).list c) = keptOf S site c := by
  show LJ.Report.Spec.validSources S.valid (S.siteList site c) = _
  rw [siteList_files h]
  unfold keptOf
  cases filesOf site c with
  | none => rfl
  | some fs => exact validSources_map _ fs

theorem usable_kept {c : Content t} (h : Online c) : LJ.Report.Spec.Usable (S.siteWorld site).valid ((S.siteWorld site).list c) ↔ keptOf S site c ≠ [] := by
  unfold LJ.Report.Spec.Usable
  rw [valid_kept h]
  constructor
  · exact fun h => h.2
  · intro hk
    refine ⟨?_, hk⟩
    intro e he
    have he : .error e ∈ S.siteList site c := he
    rw [siteList_files h] at he
    unfold keptOf at hk
    cases hf : filesOf site c with
    | none => rw [hf] at hk; exact hk rfl
    | some fs =>
      rw [hf] at he
      simp at he

/-- the sources of the contents are remote -/
theorem kept_remote {c : Content t} (h : Online c) : ∀ s ∈ keptOf S site c, ∃ n u, s = .remote n u := by
  intro s hs
  unfold keptOf at hs
  obtain ⟨hs, _⟩ := List.mem_filter.1 hs
  have hl : ∀ url, s ∈ (listedAt site url).getD [] → ∃ n u, s = .remote n u := by
    intro url h
    unfold listedAt at h
    split at h
    · split at h
      · simp at h
      · simp only [Option.getD_some, List.mem_map] at h
        obtain ⟨u, _, rfl⟩ := h
        exact ⟨_, _, rfl⟩
    · simp at h
  match c, h with
  | .file (.remote n u), _ =>
    simp only [filesOf, Option.getD_some, List.mem_singleton] at hs
    exact ⟨_, _, hs⟩
  | .directory (.remote _ url), _ => exact hl url hs
  | .zuul b, _ => exact hl b.logUrl hs

theorem open_data (s : LJ.Codec.Source t) (h : ∃ n u, s = .remote n u) : match dataOf site s with
    | some d => (S.siteWorld site).openSource s = .ok fun json => linesOf json d
    | none => (S.siteWorld site).openSource s = .error () := by
  obtain ⟨n, u, rfl⟩ := h
  unfold dataOf Setup.siteWorld
  simp only
  cases baseOf n.toNat u with
  | ok b => cases site.docs u <;> rfl
  | error e => rfl
  | panic => rfl

theorem content_data (s : LJ.Codec.Source t) (h : ∃ n u, s = .remote n u) : LJ.Report.content (S.siteWorld site) s = readOf S site s := by
  have := open_data (S := S) (site := site) s h
  unfold LJ.Report.content readOf
  cases hd : dataOf site s with
  | none => rw [hd] at this; simp only at this; rw [this]
  | some d => rw [hd] at this; simp only at this; rw [this]; rfl

theorem readLines_data (s : LJ.Codec.Source t) (h : ∃ n u, s = .remote n u) (js : Bool) :
    LJ.Report.readLines (S.siteWorld site) s js = ((dataOf site s).map (linesOf js)).getD [] := by
  have := open_data (S := S) (site := site) s h
  unfold LJ.Report.readLines
  cases hd : dataOf site s with
  | none => rw [hd] at this; simp only at this; rw [this]; rfl
  | some d => rw [hd] at this; simp only at this; rw [this]; rfl

theorem said_congr {X : Type} {tok : Str → Str} {f : Str → ℝ} {over : ℝ → Bool} {decode : LJ.Process.Bytes → Option Str} {c c' : X → Except Unit (List (Ev Unit))}
    (seen : List Str) (ss : List X) (h : ∀ s ∈ ss, c s = c' s) : LJ.Report.Spec.said tok f over decode c seen ss = LJ.Report.Spec.said tok f over decode c' seen ss := by
  induction ss generalizing seen with
  | nil => rfl
  | cons s ss ih =>
    unfold LJ.Report.Spec.said
    rw [h s (by simp)]
    cases c' s with
    | error e => rfl
    | ok evs => simp only [ih _ fun s hs => h s (List.mem_cons_of_mem _ hs)]

/-- the sources of a baseline are among all -/
theorem baselineFor_sub {X : Type} {nameOf : X → Str} {all ss : List X} {n : Str} (h : LJ.Report.Spec.baselineFor nameOf all n = some ss) : ∀ s ∈ ss, s ∈ all := by
  unfold LJ.Report.Spec.baselineFor at h
  split at h
  · cases h
    exact fun s hs => (List.mem_filter.1 hs).1
  · split at h
    · cases h
    · split at h
      · cases h
        exact fun s hs => hs
      · cases h

theorem site_distances (hr : Runs S M) (hfp : M.fp.Standard) {o : List (Str × List (LJ.Codec.Source t)) → List (Str × List (LJ.Codec.Source t))} (ho : ∀ g, (o g).Perm g)
    {cs : List (Content t)} (hon : ∀ c ∈ cs, Online c) {m : LJ.Report.Model (Content t) (LJ.Codec.Source t) Str} (hm : train (S.siteWorld site) o cs = .ok m) :
    ∃ dist, DistancesTo M S site cs dist ∧ ∀ n, match lookupOrSingle m.indexes n with
        | some i => ∃ f, dist n = some f ∧ LJ.Process.Spec.Pointwise ((S.siteWorld site).search i.chunks) f
        | none => dist n = none := by
  have hnear : ∀ i : LJ.Report.Index (LJ.Codec.Source t), ∃ f, LJ.Process.Spec.Pointwise (M.world.search i.chunks) f ∧ LJ.Whole.Spec.Near M.hash i.chunks.flatten f :=
    fun i => LJ.Whole.index_near hfp i.chunks
  choose f h1 h2 using hnear
  have hall : (cs.flatMap fun c => LJ.Report.Spec.validSources (S.siteWorld site).valid ((S.siteWorld site).list c)) = cs.flatMap (keptOf S site) := by
    apply List.flatMap_congr
    exact fun c hc => valid_kept (hon c hc)
  refine ⟨fun n => (lookupOrSingle m.indexes n).map f, ?_, ?_⟩
  · intro n
    have := LJ.Report.lookup_baseline ho hm n
    unfold learnedOf
    rw [hall] at this
    have e' : (S.siteWorld site).nameOf = S.nameOf := rfl
    rw [e'] at this
    cases hbf : LJ.Report.Spec.baselineFor S.nameOf (cs.flatMap (keptOf S site)) n with
    | none =>
      rw [hbf] at this
      simp only at this
      simp only [Option.map_none, this]
    | some ss =>
      rw [hbf] at this
      obtain ⟨i, hi, ht⟩ := this
      simp only [Option.map_some, hi]
      refine ⟨_, rfl, LJ.Whole.near_congr (fun x => ?_) (h2 i)⟩
      rw [LJ.Report.learned_index ht x]
      unfold LJ.Report.Spec.learned
      have e1 : (S.siteWorld site).tokenize = M.tok := hr.tokenize
      have e2 : (S.siteWorld site).decode = LJ.Whole.decode := hr.decode
      have e3 : (S.siteWorld site).isJson = S.isJson := rfl
      rw [e1, e2, e3, List.map_flatMap]
      have e4 : (ss.flatMap fun s => (LJ.Process.Spec.readable LJ.Whole.decode (LJ.Report.readLines (S.siteWorld site) s (ss.head?.any S.isJson))).map fun y => M.tok y.2) =
          ss.flatMap fun s => ((LJ.Process.Spec.readable LJ.Whole.decode (((dataOf site s).map (linesOf (ss.head?.any S.isJson))).getD [])).map Prod.snd).map M.tok := by
        apply List.flatMap_congr
        intro s hs
        obtain ⟨c, hc, hs⟩ := List.mem_flatMap.1 (baselineFor_sub hbf s hs)
        rw [readLines_data s (kept_remote (hon c hc) s hs), List.map_map]
        rfl
      rw [e4]
  · intro n
    cases hl : lookupOrSingle m.indexes n with
    | none => simp only [hl, Option.map_none]
    | some i =>
      refine ⟨f i, by simp only [hl, Option.map_some], ?_⟩
      have : (S.siteWorld site).search = M.world.search := hr.search
      rw [this]
      exact h1 i

/-- C146, for servers whose files do not change and have short lines of text without the marker line.  A comparison of URLs and builds gives a report exactly when each of
them lists a file which is not ignored, and all those of the baselines are there.  The report is then exactly the one of the data of the files: for each name the new
lines, with the distances to the lines learned for this name, their contexts, the counts and the errors.  This is so with `LOGREDUCE_CACHE` set or not, whatever the
cache has from other runs.  Missing: listed URLs of less than 42 bytes (C145_false), long lines (C125), marker lines (C105_false). -/
theorem C146_partial (hr : Runs S M) (hfp : M.fp.Standard) (hst : Stable U V S site) (hf : FarSite S site)
    {bs : List (Content t)} (hbs : ∀ c ∈ bs, Online c ∧ KnownContent U c ∧ ∀ s, c = .file s → Far s)
    {target : Content t} (ht : Online target ∧ KnownContent U target ∧ ∀ s, target = .file s → Far s)
    {o1 o2 : List (Str × List (LJ.Codec.Source t)) → List (Str × List (LJ.Codec.Source t))} (h1 : ∀ g, (o1 g).Perm g) (h2 : ∀ g, (o2 g).Perm g)
    (us : List (Bool × Use t Str)) (hus : ∀ p ∈ us, p.2.On U site) (net : Nat → Net t) (hn : Serves site net) (b : Bool) :
    let result := ((S.on b).compare net o1 o2 bs target (mixed S us ⟨LJ.Cache.State.empty, 0⟩)).1
    ((∃ r, result = .ok r) ↔ (∀ c ∈ bs, keptOf S site c ≠ [] ∧ ∀ s ∈ keptOf S site c, dataOf site s ≠ none) ∧ keptOf S site target ≠ []) ∧
    result ≠ .panic ∧
    ∀ r, result = .ok r → ∃ dist, DistancesTo M S site bs dist ∧ Tells M S site (keptOf S site target) dist r := by
  intro result
  have hres : result = comparison (S.siteWorld site) o1 o2 bs target :=
    (compare_gives hst hf hn o1 o2 h1 h2 bs (fun c hc => ⟨(hbs c hc).2.1, online_far (hbs c hc).1 (hbs c hc).2.2⟩) target
      ⟨ht.2.1, online_far ht.1 ht.2.2⟩ _ (mixed_holds hst us hus _ holds_empty)).1
  rw [hres]
  have hs : LJ.Report.SearchOk (S.siteWorld site) := hst.search
  have htrain := (LJ.Report.C75_train (w := S.siteWorld site) h1 bs).1
  have hcond : (∃ m, train (S.siteWorld site) o1 bs = .ok m) ↔ ∀ c ∈ bs, keptOf S site c ≠ [] ∧ ∀ s ∈ keptOf S site c, dataOf site s ≠ none := by
    rw [htrain]
    constructor
    · rintro ⟨a1, a2⟩ c hc
      have hon := (hbs c hc).1
      refine ⟨(usable_kept hon).1 (a1 c hc), fun s hs hd => ?_⟩
      have a3 := a2 c hc s (by rw [valid_kept hon]; exact hs)
      have a4 := open_data (S := S) (site := site) s (kept_remote hon s hs)
      rw [hd] at a4
      obtain ⟨reader, a3⟩ := a3
      rw [a4] at a3
      cases a3
    · intro h
      refine ⟨fun c hc => (usable_kept (hbs c hc).1).2 (h c hc).1, fun c hc s hs => ?_⟩
      have hon := (hbs c hc).1
      rw [valid_kept hon] at hs
      have a4 := open_data (S := S) (site := site) s (kept_remote hon s hs)
      cases hd : dataOf site s with
      | none => exact absurd hd ((h c hc).2 s hs)
      | some d => rw [hd] at a4; exact ⟨_, a4⟩
  unfold comparison
  cases hm : train (S.siteWorld site) o1 bs with
  | error e =>
    simp only [reduceCtorEq, exists_false, false_iff, not_and, ne_eq, not_false_eq_true, implies_true, and_true, IsEmpty.forall_iff]
    intro h
    obtain ⟨m, hm'⟩ := hcond.2 h
    rw [hm] at hm'
    cases hm'
  | ok m =>
    have hc := hcond.1 ⟨m, hm⟩
    obtain ⟨res, hrep, hok⟩ := LJ.Report.report_total hs m o2 h2 target
    rw [usable_kept ht.1] at hok
    simp only [hrep]
    cases res with
    | error e =>
      simp only [reduceCtorEq, exists_false, false_iff] at hok
      simp only [reduceCtorEq, exists_false, false_iff, not_and, ne_eq, not_false_eq_true, IsEmpty.forall_iff, implies_true, and_true]
      exact fun _ => hok
    | ok r0 =>
      have hu := hok.1 ⟨r0, rfl⟩
      refine ⟨⟨fun _ => ⟨hc, hu⟩, fun _ => ⟨r0, rfl⟩⟩, nofun, ?_⟩
      intro r hr'
      cases hr'
      obtain ⟨dist, hd, hpt⟩ := site_distances hr hfp h1 (fun c hc => (hbs c hc).1) hm
      refine ⟨dist, hd, ?_⟩
      obtain ⟨r', hr', hrest⟩ := LJ.Report.C127_report (w := S.siteWorld site) m h2 target hs ((usable_kept ht.1).2 hu) (dist := dist) (by
        intro n
        have h := hpt n
        cases hl : lookupOrSingle m.indexes n with
        | none => rw [hl] at h; exact h
        | some i => rw [hl] at h; exact h)
      rw [hrep] at hr'
      cases hr'
      have hsaid : LJ.Report.Spec.saidOf (S.siteWorld site) (LJ.Report.Spec.validSources (S.siteWorld site).valid ((S.siteWorld site).list target)) dist =
          saidOf M S site (keptOf S site target) dist := by
        funext n
        unfold LJ.Report.Spec.saidOf saidOf
        rw [valid_kept ht.1]
        have e1 : (S.siteWorld site).tokenize = M.tok := hr.tokenize
        have e2 : (S.siteWorld site).decode = LJ.Whole.decode := hr.decode
        have e3 : (S.siteWorld site).over = LJ.Whole.Spec.over := (hr.over).trans (LJ.Whole.over_of M)
        rw [e1, e2, e3]
        cases dist n with
        | none => rfl
        | some f => exact said_congr _ _ fun s hs => content_data s (kept_remote ht.1 s (List.mem_filter.1 hs).1)
      rw [hsaid, valid_kept ht.1] at hrest
      exact ⟨hrest.1, hrest.2.1, hrest.2.2.1, hrest.2.2.2⟩

/-- C144 for URLs and builds: a line which is a learned line of the baselines of its name with other dates, identifiers or numbers is not reported, and no two lines which
are reported for a name are the same but for such values. -/
theorem C144_online (hr : Runs S M) (hfp : M.fp.Standard) (hst : Stable U V S site) (hf : FarSite S site)
    {bs : List (Content t)} (hbs : ∀ c ∈ bs, Online c ∧ KnownContent U c ∧ ∀ s, c = .file s → Far s)
    {target : Content t} (ht : Online target ∧ KnownContent U target ∧ ∀ s, target = .file s → Far s)
    {o1 o2 : List (Str × List (LJ.Codec.Source t)) → List (Str × List (LJ.Codec.Source t))} (h1 : ∀ g, (o1 g).Perm g) (h2 : ∀ g, (o2 g).Perm g)
    (us : List (Bool × Use t Str)) (hus : ∀ p ∈ us, p.2.On U site) (net : Nat → Net t) (hn : Serves site net) (b : Bool)
    {r} (hres : ((S.on b).compare net o1 o2 bs target (mixed S us ⟨LJ.Cache.State.empty, 0⟩)).1 = .ok r) :
    (∀ l ∈ r.logReports, ∀ a ∈ l.anomalies, ∀ lines, learnedOf S site bs l.indexName = some lines → ∀ x ∈ lines, ¬ LJ.Whole.Spec.Replay M.wd x a.anomaly.line) ∧
    ∀ n, ((r.logReports.filter fun l => l.indexName = n).flatMap fun l => l.anomalies).Pairwise fun a a' => ¬ LJ.Whole.Spec.Replay M.wd a.anomaly.line a'.anomaly.line := by
  rw [(compare_gives hst hf hn o1 o2 h1 h2 bs (fun c hc => ⟨(hbs c hc).2.1, online_far (hbs c hc).1 (hbs c hc).2.2⟩) target
      ⟨ht.2.1, online_far ht.1 ht.2.2⟩ _ (mixed_holds hst us hus _ holds_empty)).1] at hres
  have hs : LJ.Report.SearchOk (S.siteWorld site) := hst.search
  unfold comparison at hres
  split at hres
  · cases hres
  · rename_i m hm
    split at hres
    · cases hres
    · cases hres
    · rename_i r0 hrep
      cases hres
      obtain ⟨dist, hd, hpt⟩ := site_distances hr hfp h1 (fun c hc => (hbs c hc).1) hm
      have etok : (S.siteWorld site).tokenize = M.tok := hr.tokenize
      have eover : (S.siteWorld site).over = LJ.Whole.Spec.over := (hr.over).trans (LJ.Whole.over_of M)
      constructor
      · intro l hl a ha lines hlines x hx' hreplay
        have hx : (M.tok a.anomaly.line, a.anomaly.distance) ∈ LJ.Report.found (S.siteWorld site) r l.indexName := by
          unfold LJ.Report.found
          rw [etok]
          exact List.mem_flatMap.2 ⟨l, List.mem_filter.2 ⟨hl, by simp⟩, List.mem_map.2 ⟨a, ha, rfl⟩⟩
        obtain ⟨i, g, e1, e2, e3⟩ := (LJ.Report.C33_report hs h2 hrep l.indexName).2 (List.ne_nil_of_mem hx)
        obtain ⟨e4, e5⟩ := e3 _ hx
        have hp := hpt l.indexName
        rw [e1] at hp
        obtain ⟨f, f1, f2⟩ := hp
        have hfg : g (M.tok a.anomaly.line) = f (M.tok a.anomaly.line) := by
          have := (e2 [M.tok a.anomaly.line]).symm.trans (f2 [M.tok a.anomaly.line])
          simpa using this
        have hk := hd l.indexName
        rw [hlines] at hk
        obtain ⟨f', g1, g2⟩ := hk
        rw [f1] at g1
        cases g1
        have hin : M.tok a.anomaly.line ∈ lines.map M.tok := List.mem_map.2 ⟨x, hx', LJ.Whole.replay_tokens hreplay⟩
        refine LJ.Whole.near_known g2 hin ?_
        rw [eover] at e5
        simp only at e4
        rw [e4, hfg] at e5
        exact of_decide_eq_true e5
      · intro n
        have h := (LJ.Report.C33_report hs h2 hrep n).1
        unfold LJ.Report.found at h
        rw [List.Nodup, List.pairwise_map, etok] at h
        have e : ((r.logReports.filter fun l => decide (l.indexName = n)).flatMap fun l => l.anomalies.map fun a => (M.tok a.anomaly.line, a.anomaly.distance)) =
            ((r.logReports.filter fun l => decide (l.indexName = n)).flatMap fun l => l.anomalies).map fun a => (M.tok a.anomaly.line, a.anomaly.distance) := by
          rw [List.map_flatMap]
        rw [e, List.pairwise_map] at h
        exact h.imp fun hne hrep => hne (LJ.Whole.replay_tokens hrep)

end

/-! ### The directory of the server of C145 -/

section
open LJ.Whole (threePlaces)

theorem hosted_kept : keptOf hostedSetup hostedSite (.directory (.remote 0 hostedDir)) = [.remote 43 hostedFile] := rfl

theorem hosted_data : dataOf hostedSite (.remote 43 hostedFile) = some (LJ.Whole.Spec.textFile LJ.Whole.oldLines) := by
  decide +kernel

/-- Non-vacuity of C146: the directory compared with itself, with the cache set, after the same comparison without it, gives a report, with what is learned from the file. -/
example : (∃ r, ((hostedSetup.on true).compare hostedNet id id [.directory (.remote 0 hostedDir)] (.directory (.remote 0 hostedDir))
      (mixed hostedSetup [(false, ⟨hostedNet, id, id, [.directory (.remote 0 hostedDir)], .directory (.remote 0 hostedDir)⟩)] ⟨LJ.Cache.State.empty, 0⟩)).1 = .ok r ∧
    ∃ dist, DistancesTo threePlaces hostedSetup hostedSite [.directory (.remote 0 hostedDir)] dist ∧
      Tells threePlaces hostedSetup hostedSite [.remote 43 hostedFile] dist r) ∧
    (learnedOf hostedSetup hostedSite [.directory (.remote 0 hostedDir)] "sub/a.log".toList).isSome = true := by
  have hk : KnownContent hostedUrls (.directory (.remote 0 hostedDir)) := .inl rfl
  have h1 : Online (.directory (.remote 0 hostedDir) : Content LJ.Cache.demoTexts) ∧ KnownContent hostedUrls (.directory (.remote 0 hostedDir)) ∧
      ∀ s, (.directory (.remote 0 hostedDir) : Content LJ.Cache.demoTexts) = .file s → Far s := ⟨trivial, hk, nofun⟩
  obtain ⟨a1, _, a3⟩ := C146_partial (S := hostedSetup) (M := threePlaces) ⟨fun _ _ => rfl, fun _ _ => rfl, fun _ _ => rfl, rfl, rfl, rfl, rfl⟩
    LJ.Whole.threePlaces_ordinary.fp hosted_stable hosted_far (bs := [.directory (.remote 0 hostedDir)])
    (by intro c hc; rw [List.mem_singleton] at hc; subst hc; exact h1) h1 (o1 := id) (o2 := id) (fun _ => .rfl) (fun _ => .rfl)
    [(false, ⟨hostedNet, id, id, [.directory (.remote 0 hostedDir)], .directory (.remote 0 hostedDir)⟩)]
    (by
      intro p hp
      rw [List.mem_singleton] at hp
      subst hp
      exact ⟨hosted_serves, fun _ => .rfl, fun _ => .rfl, by intro c hc; rw [List.mem_singleton] at hc; subst hc; exact hk, hk⟩)
    hostedNet hosted_serves true
  refine ⟨?_, by decide +kernel⟩
  obtain ⟨r, hr⟩ := a1.2 ⟨by
    intro c hc
    rw [List.mem_singleton] at hc
    subst hc
    rw [hosted_kept]
    refine ⟨by simp, ?_⟩
    intro s hs
    rw [List.mem_singleton] at hs
    subst hs
    rw [hosted_data]
    exact nofun, by rw [hosted_kept]; simp⟩
  obtain ⟨dist, d1, d2⟩ := a3 r hr
  rw [hosted_kept] at d2
  exact ⟨r, hr, dist, d1, d2⟩

end
end LJ.Remote

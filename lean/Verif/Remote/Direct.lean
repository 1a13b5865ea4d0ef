/-
On servers whose files do not change, a comparison through the network and the cache is the comparison of `Verif/Report` on what the servers hold.
-/
import Verif.Remote.SameLift
import Verif.Report.Model
namespace LJ.Remote
open LJ.Codec (Bytes Texts Url Source Content)
open LJ.Cache (State)
open LJ.Process (Str Ev Env Trainer St)
open LJ.Report (Index Model Report ListErr Fail World)

section
variable {t : Texts} {N D E : Type}

/-- The opening of this source does not panic: a listed URL has at least 42 bytes, and a character starts at the 43rd one (urls.rs:35, C44). -/
def Far : Source t → Prop
  | .loc _ _ => True
  | .remote pre url => baseOf pre.toNat url ≠ .panic

/-- The same, of what is compared -/
def FarContent : Content t → Prop
  | .file source => Far source
  | _ => True

/-- The same, of all that is listed -/
structure FarSite (S : Setup t N D E) (site : Site t) : Prop where
  listed : ∀ url urls, site.dirs url = some urls → ∀ u ∈ urls, ∀ pre, baseOf pre u ≠ .panic
  local' : ∀ source x, .ok x ∈ S.localList source → Far x

/-- The program on what the servers hold, without network and cache: the lines of a file are those of its data. -/
def Setup.siteWorld (S : Setup t N D E) (site : Site t) : World (Content t) (Source t) N D E Unit where
  list := S.siteList site
  valid := S.valid
  nameOf := S.nameOf
  isJson := S.isJson
  openSource source :=
    match source with
    | .loc _ _ => S.localOpen source
    | .remote pre url =>
      match baseOf pre.toNat url, site.docs url with
      | .ok _, some d => .ok fun json => textLines json d
      | _, _ => .error S.netError
  decode := S.decode
  tokenize := S.tokenize
  search := S.search
  over := S.over

/-- A comparison of `Verif/Report` -/
def comparison {C X : Type} [DecidableEq N] (w : World C X N D E Unit) (order order' : List (N × List X) → List (N × List X)) (baselines : List C) (target : C) :
    Outcome (Fail E C) (Report C X N D E Unit) :=
  match LJ.Report.train w order baselines with
  | .error e => .error e
  | .ok m =>
    match LJ.Report.report w m order' target with
    | none => .panic
    | some (.error e) => .error (.sources e)
    | some (.ok r) => .ok r

variable {S : Setup t N D E} {U V : String → Prop} {site : Site t} {b : Bool} {net : Nat → Net t}

theorem content_far (x : Source t) (hx : Far x) (json : Bool) : S.content site x json =
    match (S.siteWorld site).openSource x with
    | .error e => .error e
    | .ok reader => .ok (reader json) := by
  cases x with
  | loc n p => unfold Setup.content Setup.siteWorld; rfl
  | remote pre url =>
    unfold Far at hx
    unfold Setup.content Setup.siteWorld
    simp only
    cases hb : baseOf pre.toNat url with
    | panic => exact absurd hb hx
    | error e => rfl
    | ok a => cases site.docs url <;> rfl

/-- a result, and a cache which still has what the servers hold -/
def Gives (V : String → Prop) (S : Setup t N D E) (site : Site t) {α : Type} (x : α × Sys) (a : α) : Prop := x.1 = a ∧ Holds V S site x.2.cache

theorem read_gives (hst : Stable U V S site) (hn : Serves site net) (x : Source t) (hx : KnownSource U x ∧ Far x) (json : Bool) (asked : List (Ev Unit) → Nat)
    (hask : ∀ d, Unmarked S d → (textLines json d).length < asked (textLines json d)) (s : Sys) (h : Holds V S site s.cache) :
    Gives V S site ((S.on b).read net x json asked s)
      (match (S.siteWorld site).openSource x with | .error e => .error e | .ok reader => .ok (reader json)) := by
  obtain ⟨k1, k2⟩ := read_same hst.digest hst.cut hst.known hst.clean b hn x hx.1 json asked hask s h
  exact ⟨k1.trans (content_far x hx.2 json), k2⟩

/-- The result of a training -/
def outcome {α : Type} : Except E α → Outcome E α
  | .error e => .error e
  | .ok a => .ok a

theorem trainSources_gives (hst : Stable U V S site) (hn : Serves site net) (json : Bool) (xs : List (Source t)) (hx : ∀ x ∈ xs, KnownSource U x ∧ Far x) (tr : Trainer)
    (s : Sys) (h : Holds V S site s.cache) :
    Gives V S site ((S.on b).trainSources net json xs tr s) (outcome (LJ.Report.trainSources (S.siteWorld site) json xs tr)) := by
  induction xs generalizing tr s with
  | nil => exact ⟨rfl, h⟩
  | cons x xs ih =>
    unfold Setup.trainSources LJ.Report.trainSources
    have hr := read_gives (b := b) hst hn x (hx x (List.mem_cons_self ..)) json (trainAsked (S.env []))
      (fun d hd => by rw [trainAsked_plain _ (plain_lines hd json [])]; omega) s h
    change Gives V S site (match (S.on b).read net x json (trainAsked (S.env [])) s with | (.panic, s) => _ | (.error e, s) => _ | (.ok lines, s) => _) _
    generalize (S.on b).read net x json (trainAsked (S.env [])) s = y at hr ⊢
    obtain ⟨o, s1⟩ := y
    obtain ⟨e, k⟩ := hr
    simp only at e k
    subst e
    cases (S.siteWorld site).openSource x with
    | error e => exact ⟨rfl, k⟩
    | ok reader => exact ih (fun x hx' => hx x (List.mem_cons_of_mem _ hx')) _ s1 k

theorem trainIndex_gives (hst : Stable U V S site) (hn : Serves site net) (xs : List (Source t)) (hx : ∀ x ∈ xs, KnownSource U x ∧ Far x)
    (s : Sys) (h : Holds V S site s.cache) :
    Gives V S site ((S.on b).trainIndex net xs s) (outcome (LJ.Report.trainIndex (S.siteWorld site) xs)) := by
  have e0 : LJ.Report.trainIndex (S.siteWorld site) xs = (match LJ.Report.trainSources (S.siteWorld site) (S.firstJson xs) xs Trainer.new with
      | .error e => .error e
      | .ok tr => .ok ⟨xs, tr.complete.chunks, tr.complete.lineCount, tr.complete.byteCount⟩) := by
    unfold LJ.Report.trainIndex
    cases xs <;> rfl
  have e1 : (S.on b).firstJson xs = S.firstJson xs := by cases xs <;> rfl
  rw [e0]
  unfold Setup.trainIndex
  rw [e1]
  have hr := trainSources_gives (b := b) hst hn (S.firstJson xs) xs hx Trainer.new s h
  generalize (S.on b).trainSources net (S.firstJson xs) xs Trainer.new s = y at hr ⊢
  obtain ⟨o, s1⟩ := y
  obtain ⟨e, k⟩ := hr
  simp only at e k
  subst e
  cases LJ.Report.trainSources (S.siteWorld site) (S.firstJson xs) xs Trainer.new <;> exact ⟨rfl, k⟩

/-- the sources of the groups are known and can be opened without a panic -/
def FarGroups (U : String → Prop) (g : List (N × List (Source t))) : Prop := ∀ p ∈ g, ∀ x ∈ p.2, KnownSource U x ∧ Far x

theorem FarGroups.perm {g g' : List (N × List (Source t))} (h : g'.Perm g) (hg : FarGroups U g) : FarGroups U g' :=
  fun p hp => hg p (h.mem_iff.1 hp)

theorem trainGroups_gives (hst : Stable U V S site) (hn : Serves site net) (g : List (N × List (Source t))) (hg : FarGroups U g)
    (s : Sys) (h : Holds V S site s.cache) :
    Gives V S site ((S.on b).trainGroups net g s) (outcome (LJ.Report.trainGroups (S.siteWorld site) g)) := by
  induction g generalizing s with
  | nil => exact ⟨rfl, h⟩
  | cons p g ih =>
    obtain ⟨n, xs⟩ := p
    unfold Setup.trainGroups LJ.Report.trainGroups
    have hr := trainIndex_gives (b := b) hst hn xs (hg _ (List.mem_cons_self ..)) s h
    generalize (S.on b).trainIndex net xs s = y at hr ⊢
    obtain ⟨o, s1⟩ := y
    obtain ⟨e, k⟩ := hr
    simp only at e k
    subst e
    cases LJ.Report.trainIndex (S.siteWorld site) xs with
    | error e => exact ⟨rfl, k⟩
    | ok index =>
      simp only [outcome]
      have hr2 := ih (fun p hp => hg p (List.mem_cons_of_mem _ hp)) s1 k
      generalize (S.on b).trainGroups net g s1 = z at hr2 ⊢
      obtain ⟨o, s2⟩ := z
      obtain ⟨e, k⟩ := hr2
      simp only at e k
      subst e
      cases LJ.Report.trainGroups (S.siteWorld site) g <;> exact ⟨rfl, k⟩

theorem siteDir_far (hf : FarSite S site) (url : Url t) (x : Source t) (hx : .ok x ∈ S.siteDir site url) : Far x := by
  unfold Setup.siteDir at hx
  cases hdir : site.dirs url with
  | none => rw [hdir] at hx; simp at hx
  | some urls =>
    rw [hdir] at hx
    simp only at hx
    cases hb : (LJ.Codec.listing t).enc urls with
    | none => rw [hb] at hx; simp at hx
    | some bytes =>
      rw [hb] at hx
      simp only [List.mem_map, Except.ok.injEq] at hx
      obtain ⟨u, hu, rfl⟩ := hx
      exact hf.listed url urls hdir u hu _

theorem siteList_far (hf : FarSite S site) (c : Content t) (hc : FarContent c) (x : Source t) (hx : .ok x ∈ S.siteList site c) : Far x := by
  match c, hc with
  | .file source, hc =>
    simp only [Setup.siteList, List.mem_singleton, Except.ok.injEq] at hx
    subst hx
    exact hc
  | .directory (.loc n path), _ => exact hf.local' _ x hx
  | .directory (.remote n url), _ => exact siteDir_far hf url x hx
  | .zuul bu, _ => exact siteDir_far hf bu.logUrl x hx

theorem getSources_gives (hst : Stable U V S site) (hf : FarSite S site) (hn : Serves site net) (c : Content t) (hc : KnownContent U c ∧ FarContent c)
    (s : Sys) (h : Holds V S site s.cache) :
    Gives V S site ((S.on b).getSources net c s) (LJ.Report.getSources (S.siteWorld site) c) ∧
      ∀ sources, LJ.Report.getSources (S.siteWorld site) c = .ok sources → ∀ x ∈ sources, KnownSource U x ∧ Far x := by
  obtain ⟨k1, k2⟩ := list_same hst.digest hst.known b hn c hc.1 s h
  have e : LJ.Report.getSources (S.siteWorld site) c =
      match LJ.Report.collectOk ((S.siteList site c).filter (LJ.Report.keepSource S.valid)) with
      | .error e => .error (.failed e)
      | .ok [] => .error (.empty c)
      | .ok sources => .ok sources := by
    unfold LJ.Report.getSources
    rw [show (S.siteWorld site).list c = S.siteList site c from rfl, show (S.siteWorld site).valid = S.valid from rfl]
    generalize LJ.Report.collectOk ((S.siteList site c).filter (LJ.Report.keepSource S.valid)) = x
    match x with
    | .error e => rfl
    | .ok [] => rfl
    | .ok (y :: ys) => rfl
  rw [e]
  refine ⟨⟨?_, k2⟩, ?_⟩
  · unfold Setup.getSources
    simp only [k1]
    show (match LJ.Report.collectOk ((S.siteList site c).filter (LJ.Report.keepSource S.valid)) with | .error e => _ | .ok [] => _ | .ok sources => _) = _
    generalize LJ.Report.collectOk ((S.siteList site c).filter (LJ.Report.keepSource S.valid)) = x
    match x with
    | .error e => rfl
    | .ok [] => rfl
    | .ok (y :: ys) => rfl
  · intro sources hs x hx
    have hm : .ok x ∈ S.siteList site c := by
      cases hl : LJ.Report.collectOk ((S.siteList site c).filter (LJ.Report.keepSource S.valid)) with
      | error e => rw [hl] at hs; cases hs
      | ok ys =>
        rw [hl] at hs
        have : sources = ys := by
          cases ys with
          | nil => cases hs
          | cons y ys => cases hs; rfl
        subst this
        exact (List.mem_filter.1 (collectOk_mem _ _ hl x hx)).1
    exact ⟨siteList_known hst.known c hc.1 x hm, siteList_far hf c hc.2 x hm⟩

variable [DecidableEq N]

theorem push_far (name : N) (x : Source t) (hx : KnownSource U x ∧ Far x) (g : List (N × List (Source t))) (hg : FarGroups U g) :
    FarGroups U (LJ.Report.push name x g) := by
  induction g with
  | nil =>
    intro p hp y hy
    simp only [LJ.Report.push, List.mem_singleton] at hp
    subst hp
    simp only [List.mem_singleton] at hy
    subst hy
    exact hx
  | cons q g ih =>
    obtain ⟨n, ys⟩ := q
    have hg' : FarGroups U g := fun p hp => hg p (List.mem_cons_of_mem _ hp)
    unfold LJ.Report.push
    split
    · intro p hp y hy
      rcases List.mem_cons.1 hp with rfl | hp
      · rcases List.mem_append.1 hy with hy | hy
        · exact hg (n, ys) (List.mem_cons_self ..) y hy
        · rw [List.mem_singleton] at hy
          subst hy
          exact hx
      · exact hg' p hp y hy
    · intro p hp y hy
      rcases List.mem_cons.1 hp with rfl | hp
      · exact hg (n, ys) (List.mem_cons_self ..) y hy
      · exact ih hg' p hp y hy

theorem foldl_far (xs : List (Source t)) (hx : ∀ x ∈ xs, KnownSource U x ∧ Far x) (name : Source t → N) (g : List (N × List (Source t))) (hg : FarGroups U g) :
    FarGroups U (xs.foldl (fun g x => LJ.Report.push (name x) x g) g) := by
  induction xs generalizing g with
  | nil => exact hg
  | cons x xs ih =>
    rw [List.foldl_cons]
    exact ih (fun y hy => hx y (List.mem_cons_of_mem _ hy)) _ (push_far _ x (hx x (List.mem_cons_self ..)) g hg)

theorem groupInto_gives (hst : Stable U V S site) (hf : FarSite S site) (hn : Serves site net) (cs : List (Content t)) (hc : ∀ c ∈ cs, KnownContent U c ∧ FarContent c)
    (g : List (N × List (Source t))) (hg : FarGroups U g) (s : Sys) (h : Holds V S site s.cache) :
    Gives V S site ((S.on b).groupInto net cs g s) (LJ.Report.groupInto (S.siteWorld site) cs g) ∧
      ∀ g', LJ.Report.groupInto (S.siteWorld site) cs g = .ok g' → FarGroups U g' := by
  induction cs generalizing g s with
  | nil =>
    refine ⟨⟨rfl, h⟩, fun g' hg' => ?_⟩
    simp only [LJ.Report.groupInto, Except.ok.injEq] at hg'
    subst hg'
    exact hg
  | cons c cs ih =>
    unfold Setup.groupInto LJ.Report.groupInto
    obtain ⟨hr, hkn⟩ := getSources_gives (b := b) hst hf hn c (hc c (List.mem_cons_self ..)) s h
    generalize (S.on b).getSources net c s = y at hr ⊢
    obtain ⟨o, s1⟩ := y
    obtain ⟨e, k⟩ := hr
    simp only at e k
    subst e
    cases hgs : LJ.Report.getSources (S.siteWorld site) c with
    | error e => exact ⟨⟨rfl, k⟩, fun g' hg' => by cases hg'⟩
    | ok sources => exact ih (fun c hc' => hc c (List.mem_cons_of_mem _ hc')) _ (foldl_far sources (hkn sources hgs) _ g hg) s1 k

theorem train_gives (hst : Stable U V S site) (hf : FarSite S site) (hn : Serves site net) (order : List (N × List (Source t)) → List (N × List (Source t)))
    (ho : ∀ g, (order g).Perm g) (bs : List (Content t)) (hc : ∀ c ∈ bs, KnownContent U c ∧ FarContent c) (s : Sys) (h : Holds V S site s.cache) :
    Gives V S site ((S.on b).train net order bs s) (outcome (LJ.Report.train (S.siteWorld site) order bs)) := by
  unfold Setup.train LJ.Report.train LJ.Report.groupSources
  obtain ⟨hr, hkn⟩ := groupInto_gives (b := b) hst hf hn bs hc [] (fun p hp => by cases hp) s h
  generalize (S.on b).groupInto net bs [] s = y at hr ⊢
  obtain ⟨o, s1⟩ := y
  obtain ⟨e, k⟩ := hr
  simp only at e k
  subst e
  cases hgs : LJ.Report.groupInto (S.siteWorld site) bs [] with
  | error e => exact ⟨rfl, k⟩
  | ok g =>
    simp only
    have hr2 := trainGroups_gives (b := b) hst hn (order g) ((hkn g hgs).perm (ho g)) s1 k
    generalize (S.on b).trainGroups net (order g) s1 = z at hr2 ⊢
    obtain ⟨o, s2⟩ := z
    obtain ⟨e, k⟩ := hr2
    simp only at e k
    subst e
    cases LJ.Report.trainGroups (S.siteWorld site) (order g) <;> exact ⟨rfl, k⟩

theorem reportSources_gives (hst : Stable U V S site) (hn : Serves site net) (name : N) (index : Index (Source t)) (xs : List (Source t))
    (hx : ∀ x ∈ xs, KnownSource U x ∧ Far x) (skip : List Str) (r : Report (Content t) (Source t) N D E Unit) (s : Sys) (h : Holds V S site s.cache) :
    Gives V S site ((S.on b).reportSources net name index xs skip r s) (LJ.Report.reportSources (S.siteWorld site) name index xs skip r) := by
  induction xs generalizing skip r s with
  | nil => exact ⟨rfl, h⟩
  | cons x xs ih =>
    unfold Setup.reportSources LJ.Report.reportSources
    obtain ⟨dist, hd⟩ := hst.search index.chunks
    have hr := read_gives (b := b) hst hn x (hx x (List.mem_cons_self ..)) (S.isJson x) (processAsked (S.env index.chunks) skip)
      (fun d hu => processAsked_plain (env := S.env index.chunks) hd skip _ (plain_lines hu _ _)) s h
    change Gives V S site (match (S.on b).read net x (S.isJson x) (processAsked (S.env index.chunks) skip) s with | (.panic, s) => _ | (.error e, s) => _ | (.ok lines, s) => _) _
    generalize (S.on b).read net x (S.isJson x) (processAsked (S.env index.chunks) skip) s = y at hr ⊢
    obtain ⟨o, s1⟩ := y
    obtain ⟨e, k⟩ := hr
    simp only at e k
    subst e
    cases (S.siteWorld site).openSource x with
    | error e => exact ⟨rfl, k⟩
    | ok reader =>
      simp only
      have e1 : (S.on b).inspect index (reader (S.isJson x)) skip = LJ.Report.inspect (S.siteWorld site) index x reader skip := by
        unfold Setup.inspect LJ.Report.inspect
        rw [show (S.on b).env index.chunks = S.env index.chunks from rfl, show LJ.Report.envOf (S.siteWorld site) index.chunks = S.env index.chunks from rfl,
          show (S.siteWorld site).isJson x = S.isJson x from rfl]
        generalize LJ.Process.process (S.env index.chunks) skip (reader (S.isJson x)) = y
        obtain ⟨a, st, z⟩ := y
        cases st <;> rfl
      rw [e1]
      cases LJ.Report.inspect (S.siteWorld site) index x reader skip with
      | none => exact ⟨rfl, k⟩
      | some p =>
        obtain ⟨as, err, st⟩ := p
        exact ih (fun x hx' => hx x (List.mem_cons_of_mem _ hx')) _ _ s1 k

theorem reportGroups_gives (hst : Stable U V S site) (hn : Serves site net) (m : Model (Content t) (Source t) N) (gs : List (N × List (Source t)))
    (hg : FarGroups U gs) (r : Report (Content t) (Source t) N D E Unit) (s : Sys) (h : Holds V S site s.cache) :
    Gives V S site ((S.on b).reportGroups net m gs r s) (LJ.Report.reportGroups (S.siteWorld site) m gs r) := by
  induction gs generalizing r s with
  | nil => exact ⟨rfl, h⟩
  | cons g gs ih =>
    unfold Setup.reportGroups LJ.Report.reportGroups
    have hr : Gives V S site ((S.on b).reportGroup net m g r s) (LJ.Report.reportGroup (S.siteWorld site) m g r) := by
      unfold Setup.reportGroup LJ.Report.reportGroup
      cases LJ.Report.lookupOrSingle m.indexes g.1 with
      | some index => exact reportSources_gives hst hn _ _ _ (hg g (List.mem_cons_self ..)) _ _ s h
      | none => exact ⟨rfl, h⟩
    generalize (S.on b).reportGroup net m g r s = y at hr ⊢
    obtain ⟨o, s1⟩ := y
    obtain ⟨e, k⟩ := hr
    simp only at e k
    subst e
    cases LJ.Report.reportGroup (S.siteWorld site) m g r with
    | none => exact ⟨rfl, k⟩
    | some r1 => exact ih (fun p hp => hg p (List.mem_cons_of_mem _ hp)) r1 s1 k

theorem report_gives (hst : Stable U V S site) (hf : FarSite S site) (hn : Serves site net) (m : Model (Content t) (Source t) N)
    (order : List (N × List (Source t)) → List (N × List (Source t))) (ho : ∀ g, (order g).Perm g) (target : Content t) (hc : KnownContent U target ∧ FarContent target)
    (s : Sys) (h : Holds V S site s.cache) :
    Gives V S site ((S.on b).report net m order target s) (LJ.Report.report (S.siteWorld site) m order target) := by
  unfold Setup.report LJ.Report.report LJ.Report.groupSources
  obtain ⟨hr, hkn⟩ := groupInto_gives (b := b) hst hf hn [target] (fun c hc' => by rw [List.mem_singleton] at hc'; subst hc'; exact hc) [] (fun p hp => by cases hp) s h
  generalize (S.on b).groupInto net [target] [] s = y at hr ⊢
  obtain ⟨o, s1⟩ := y
  obtain ⟨e, k⟩ := hr
  simp only at e k
  subst e
  cases hgs : LJ.Report.groupInto (S.siteWorld site) [target] [] with
  | error e => exact ⟨rfl, k⟩
  | ok g =>
    simp only
    have hr2 := reportGroups_gives (b := b) hst hn m (order g) ((hkn g hgs).perm (ho g)) ⟨target, m.baselines, [], [], [], [], 0, 0⟩ s1 k
    generalize (S.on b).reportGroups net m (order g) ⟨target, m.baselines, [], [], [], [], 0, 0⟩ s1 = z at hr2 ⊢
    obtain ⟨o, s2⟩ := z
    obtain ⟨e, k⟩ := hr2
    simp only at e k
    subst e
    cases LJ.Report.reportGroups (S.siteWorld site) m (order g) ⟨target, m.baselines, [], [], [], [], 0, 0⟩ <;> exact ⟨rfl, k⟩

/-- A comparison through the network, with the cache set or not, and with anything the servers gave before in the cache, gives what the comparison of what the
servers hold gives. -/
theorem compare_gives (hst : Stable U V S site) (hf : FarSite S site) (hn : Serves site net) (o1 o2 : List (N × List (Source t)) → List (N × List (Source t)))
    (h1 : ∀ g, (o1 g).Perm g) (h2 : ∀ g, (o2 g).Perm g) (bs : List (Content t)) (hb : ∀ c ∈ bs, KnownContent U c ∧ FarContent c)
    (target : Content t) (hc : KnownContent U target ∧ FarContent target) (s : Sys) (h : Holds V S site s.cache) :
    Gives V S site ((S.on b).compare net o1 o2 bs target s) (comparison (S.siteWorld site) o1 o2 bs target) := by
  unfold Setup.compare comparison
  have hr := train_gives (b := b) hst hf hn o1 h1 bs hb s h
  generalize (S.on b).train net o1 bs s = y at hr ⊢
  obtain ⟨o, s1⟩ := y
  obtain ⟨e, k⟩ := hr
  simp only at e k
  subst e
  cases LJ.Report.train (S.siteWorld site) o1 bs with
  | error e => exact ⟨rfl, k⟩
  | ok m =>
    simp only [outcome]
    have hr2 := report_gives (b := b) hst hf hn m o2 h2 target hc s1 k
    generalize (S.on b).report net m o2 target s1 = z at hr2 ⊢
    obtain ⟨o, s2⟩ := z
    obtain ⟨e, k⟩ := hr2
    simp only at e k
    subst e
    match LJ.Report.report (S.siteWorld site) m o2 target with
    | none => exact ⟨rfl, k⟩
    | some (.error e) => exact ⟨rfl, k⟩
    | some (.ok r) => exact ⟨rfl, k⟩

end
end LJ.Remote

/-
A comparison whose sources were all found is the comparison of what is then in the cache.
-/
import Verif.Remote.Lemmas
namespace LJ.Remote
open LJ.Codec (Bytes Texts Url Source Content)
open LJ.Cache (State Remote Response Opened File)
open LJ.Process (Str Ev Env Trainer St AnomalyContext Stop)
open LJ.Report (Index Model Report ListErr Fail LogReport ReadErr World)
open LJ.Iterator.Spec (Blocks NoOverflow pieces)

section
variable {t : Texts} {N D E : Type} {S : Setup t N D E}

/-! ### One source -/

theorem get_none {c : State} (hs : Sound c) {n : LJ.Cache.Name} (h : LJ.Cache.get n c = none) : c.names n = none := by
  unfold LJ.Cache.get at h
  cases hn : c.names n with
  | none => rfl
  | some i =>
    rw [hn, Option.bind_some, List.getElem?_eq_none_iff] at h
    have := hs n i hn
    omega

theorem modify_last (l : List File) (d : Bytes) (f : Bool) (e : Bytes) :
    ((l ++ [File.gz d f]).modify l.length (LJ.Cache.append e)).modify l.length LJ.Cache.finish = l ++ [File.gz (d ++ e) true] := by
  induction l with
  | nil => rfl
  | cons a l ih => simpa [List.modify_succ_cons] using ih

/-- a body that is fetched, and consumed -/
theorem consume_new (hc : CutOk S) (base url : Url t) (resp : Response) (hst : Steady resp.body) (hsh : Short resp.body.rest) (c c1 : State) (hs : Sound c)
    (hg : LJ.Cache.remoteGet S.digest base url c = none) (ha : LJ.Cache.remoteAdd S.digest base url resp.body c = some c1)
    (json : Bool) (asked : List (Ev Unit) → Nat) (lines : List (Ev Unit)) (c2 : State)
    (h : S.consume json asked (.cached c.readers.length) c1 = (lines, c2)) :
    Sound c2 ∧ Ext c c2 ∧ ∃ d, LJ.Cache.get (LJ.Cache.httpName S.digest base url) c2 = some (.gz d true) ∧
      Agree (asked lines) lines (S.lines json (S.gzReads d true)) := by
  have hget : LJ.Cache.get (LJ.Cache.httpName S.digest base url) c = none := by
    unfold LJ.Cache.remoteGet at hg
    cases hx : LJ.Cache.get (LJ.Cache.httpName S.digest base url) c with
    | none => rfl
    | some x => rw [hx] at hg; cases hg
  have hname := get_none hs hget
  unfold LJ.Cache.remoteAdd LJ.Cache.create at ha
  rw [hname] at ha
  simp only [Option.map_some, Option.some.injEq] at ha
  subst ha
  obtain ⟨blocks, e1, e2, e3⟩ := reads_steady resp.body hst
  have hrd : (c.readers ++ [some (⟨resp.body, c.files.length⟩ : LJ.Cache.Reader)])[c.readers.length]? = some (some ⟨resp.body, c.files.length⟩) := by simp
  unfold Setup.consume at h
  simp only [hrd, Prod.mk.injEq] at h
  obtain ⟨rfl, rfl⟩ := h
  rw [e1]
  have hag := lines_agree hc json blocks e2 (by rw [e3]; exact hsh) (asked (S.lines json (LJ.Iterator.fromReads blocks)))
  generalize hm : S.readsMade json (LJ.Iterator.fromReads blocks) (asked (S.lines json (LJ.Iterator.fromReads blocks))) = m at hag
  have hmle : m ≤ blocks.length := by
    rw [← hm]
    unfold Setup.readsMade
    simp [LJ.Iterator.fromReads]
  obtain ⟨g1, g2, r', g3⟩ := readMany_spec c.readers.length c.files.length m _ resp.body blocks
    { names := fun n => if n = LJ.Cache.httpName S.digest base url then some c.files.length else c.names n, files := c.files ++ [.gz [] false],
      readers := c.readers ++ [some ⟨resp.body, c.files.length⟩] } hst e1 hmle hrd
  generalize readMany c.readers.length m _ = c3 at g1 g2 g3
  have hfin : LJ.Cache.readerClose c.readers.length c3 = { c3 with readers := c3.readers.set c.readers.length none, files := c3.files.modify c.files.length LJ.Cache.finish } := by
    unfold LJ.Cache.readerClose
    rw [g3]
  rw [hfin]
  have := ext_add (c := c) (n := LJ.Cache.httpName S.digest base url) (x := .gz (blocks.take m).flatten true)
    (c' := { c3 with readers := c3.readers.set c.readers.length none, files := c3.files.modify c.files.length LJ.Cache.finish }) hs hname g1 (by
      simp only [g2]
      exact modify_last _ _ _ _)
  exact ⟨this.1, this.2.1, _, this.2.2, hag⟩

theorem read_spec (hu : S.useCache = true) (hc : CutOk S) {net : Nat → Net t} (hg : Good net) (source : Source t) (json : Bool) (asked : List (Ev Unit) → Nat)
    (s s' : Sys) (hs : Sound s.cache) (lines : List (Ev Unit)) (h : S.read net source json asked s = (.ok lines, s')) :
    Sound s'.cache ∧ Ext s.cache s'.cache ∧ ∀ f, Ext s'.cache f →
      ∃ reader, (S.world f).openSource source = .ok reader ∧ Agree (asked lines) lines (reader json) := by
  cases source with
  | loc n path =>
    unfold Setup.read at h
    simp only at h
    cases ho : S.localOpen (.loc n path) with
    | error e => rw [ho] at h; cases h
    | ok reader =>
      rw [ho] at h
      simp only [Prod.mk.injEq, Outcome.ok.injEq] at h
      obtain ⟨rfl, rfl⟩ := h
      exact ⟨hs, Ext.refl _, fun f _ => ⟨reader, ho, Agree.refl _ _⟩⟩
  | remote pre url =>
    unfold Setup.read at h
    simp only at h
    cases hb : baseOf pre.toNat url with
    | panic => rw [hb] at h; cases h
    | error e => rw [hb] at h; cases h
    | ok base =>
      rw [hb] at h
      simp only at h
      have final : ∀ f d, LJ.Cache.get (LJ.Cache.httpName S.digest base url) f = some d →
          (S.world f).openSource (.remote pre url) = .ok fun json => S.lines json (S.gzReads (LJ.Cache.decompress d).1 (LJ.Cache.decompress d).2) := by
        intro f d hd
        have e : LJ.Cache.remoteGet S.digest base url f = some (LJ.Cache.decompress d) := by
          unfold LJ.Cache.remoteGet
          rw [hd]; rfl
        simp only [Setup.world, hb, e]
      cases hgt : LJ.Cache.get (LJ.Cache.httpName S.digest base url) s.cache with
      | some d =>
        have hrg : LJ.Cache.remoteGet S.digest base url s.cache = some (LJ.Cache.decompress d) := by
          unfold LJ.Cache.remoteGet
          rw [hgt]; rfl
        unfold Setup.fromUrl LJ.Cache.fromUrl at h
        simp only [hu, if_true, hrg, Setup.consume, Prod.mk.injEq, Outcome.ok.injEq] at h
        obtain ⟨rfl, rfl⟩ := h
        exact ⟨hs, Ext.refl _, fun f hf => ⟨_, final f d (hf.get hgt), Agree.refl _ _⟩⟩
      | none =>
        have hrg : LJ.Cache.remoteGet S.digest base url s.cache = none := by
          unfold LJ.Cache.remoteGet
          rw [hgt]; rfl
        unfold Setup.fromUrl LJ.Cache.fromUrl at h
        simp only [hu, if_true, hrg] at h
        cases hn : (net s.asked).get url with
        | none => simp only [hn] at h; cases h
        | some resp =>
          simp only [hn] at h
          obtain ⟨g1, g2⟩ := hg _ _ _ hn
          cases ha : LJ.Cache.remoteAdd S.digest base url resp.body s.cache with
          | none => simp only [ha] at h; cases h
          | some c1 =>
            simp only [ha] at h
            generalize hcs : S.consume json asked (.cached s.cache.readers.length) c1 = x at h
            obtain ⟨lines', c2⟩ := x
            simp only [Prod.mk.injEq, Outcome.ok.injEq] at h
            obtain ⟨rfl, rfl⟩ := h
            obtain ⟨k1, k2, d, k3, k4⟩ := consume_new hc base url resp g1 g2 s.cache c1 hs hrg ha json asked lines' c2 hcs
            exact ⟨k1, k2, fun f hf => ⟨_, final f _ (hf.get k3), k4⟩⟩

theorem read_cached (hu : S.useCache = true) (net : Nat → Net t) (source : Source t) (json : Bool) (asked : List (Ev Unit) → Nat)
    (s : Sys) (reader : Bool → List (Ev Unit)) (h : (S.world s.cache).openSource source = .ok reader) :
    S.read net source json asked s = (.ok (reader json), s) := by
  cases source with
  | loc n path =>
    have h' : S.localOpen (.loc n path) = .ok reader := h
    unfold Setup.read
    simp only [h']
  | remote pre url =>
    unfold Setup.read
    simp only [Setup.world] at h ⊢
    cases hb : baseOf pre.toNat url with
    | panic => rw [hb] at h; cases h
    | error e => rw [hb] at h; cases h
    | ok base =>
      rw [hb] at h
      simp only at h ⊢
      cases hr : LJ.Cache.remoteGet S.digest base url s.cache with
      | none => rw [hr] at h; cases h
      | some x =>
        obtain ⟨d, fin⟩ := x
        rw [hr] at h
        simp only [Except.ok.injEq] at h
        subst h
        unfold Setup.fromUrl LJ.Cache.fromUrl
        simp only [hu, if_true, hr, Setup.consume, Setup.asks, Option.isSome_some, Bool.and_self, Bool.not_true, Bool.false_eq_true, if_false]

/-! ### Listings -/

theorem httpdir_spec (net : Nat → Net t) (url : Url t) (s s' : Sys) (hs : Sound s.cache) (l : List (Except E (Source t)))
    (h : S.httpdir net url s = (l, s')) : Sound s'.cache ∧ Ext s.cache s'.cache ∧
      (l = [.error S.netError] ∨ ∀ f, Ext s'.cache f → S.cachedList f url = l) := by
  unfold Setup.httpdir LJ.Cache.httpdirIter at h
  cases hg : LJ.Cache.httpdirGet S.digest url s.cache with
  | some res =>
    simp only [hg, Option.isSome_some, if_true, Prod.mk.injEq] at h
    obtain ⟨h1, rfl⟩ := h
    refine ⟨hs, Ext.refl _, ?_⟩
    cases res with
    | none => exact .inl h1.symm
    | some urls =>
      right
      intro f hf
      unfold LJ.Cache.httpdirGet at hg
      cases hx : LJ.Cache.get (LJ.Cache.httpdirName S.digest url) s.cache with
      | none => rw [hx] at hg; cases hg
      | some x =>
        rw [hx] at hg
        unfold Setup.cachedList LJ.Cache.httpdirGet
        rw [hf.get hx, hg]
        exact h1
  | none =>
    have hget : LJ.Cache.get (LJ.Cache.httpdirName S.digest url) s.cache = none := by
      unfold LJ.Cache.httpdirGet at hg
      cases hx : LJ.Cache.get (LJ.Cache.httpdirName S.digest url) s.cache with
      | none => rfl
      | some x => rw [hx] at hg; cases hg
    have hname := get_none hs hget
    simp only [hg] at h
    cases hn : (net s.asked).list url with
    | none =>
      simp only [hn, Prod.mk.injEq] at h
      obtain ⟨h1, rfl⟩ := h
      exact ⟨hs, Ext.refl _, .inl h1.symm⟩
    | some urls =>
      simp only [hn] at h
      cases ha : LJ.Cache.httpdirAdd S.digest url urls s.cache with
      | none =>
        simp only [ha, Prod.mk.injEq] at h
        obtain ⟨h1, rfl⟩ := h
        exact ⟨hs, Ext.refl _, .inl h1.symm⟩
      | some c1 =>
        simp only [ha, Prod.mk.injEq] at h
        obtain ⟨h1, rfl⟩ := h
        unfold LJ.Cache.httpdirAdd at ha
        cases hb : (LJ.Codec.listing t).enc urls with
        | none => rw [hb] at ha; cases ha
        | some b =>
          rw [hb, Option.bind_some] at ha
          unfold LJ.Cache.create at ha
          rw [hname] at ha
          simp only [Option.some.injEq] at ha
          subst ha
          obtain ⟨k1, k2, k3⟩ := ext_add (c := s.cache) (n := LJ.Cache.httpdirName S.digest url) (x := .raw b)
            (c' := { s.cache with names := fun m => if m = LJ.Cache.httpdirName S.digest url then some s.cache.files.length else s.cache.names m,
                                  files := s.cache.files ++ [.raw b] }) hs hname rfl rfl
          refine ⟨k1, k2, .inr fun f hf => ?_⟩
          have hl := (LJ.Codec.C70_listing t hb []).2
          rw [List.append_nil] at hl
          unfold Setup.cachedList LJ.Cache.httpdirGet
          rw [hf.get k3]
          simp only [Option.map_some, hl]
          exact h1

theorem httpdir_cached (net : Nat → Net t) (url : Url t) (s : Sys) (h : LJ.Cache.httpdirGet S.digest url s.cache ≠ none) :
    S.httpdir net url s = (S.cachedList s.cache url, s) := by
  unfold Setup.httpdir LJ.Cache.httpdirIter Setup.cachedList
  cases hg : LJ.Cache.httpdirGet S.digest url s.cache with
  | none => exact absurd hg h
  | some res => cases res <;> simp

theorem list_spec (net : Nat → Net t) (c : Content t) (s s' : Sys) (hs : Sound s.cache) (l : List (Except E (Source t)))
    (h : S.list net c s = (l, s')) : Sound s'.cache ∧ Ext s.cache s'.cache ∧
      (l = [.error S.netError] ∨ ∀ f, Ext s'.cache f → (S.world f).list c = l) := by
  have same : ∀ x : List (Except E (Source t)), (x, s) = (l, s') → (∀ f, (S.world f).list c = x) →
      Sound s'.cache ∧ Ext s.cache s'.cache ∧ (l = [.error S.netError] ∨ ∀ f, Ext s'.cache f → (S.world f).list c = l) := by
    intro x hx hf
    simp only [Prod.mk.injEq] at hx
    obtain ⟨rfl, rfl⟩ := hx
    exact ⟨hs, Ext.refl _, .inr fun f _ => hf f⟩
  match c with
  | .file source => exact same _ h fun f => rfl
  | .directory (.loc n path) => exact same _ h fun f => rfl
  | .directory (.remote n url) => exact httpdir_spec net url s s' hs l h
  | .zuul b => exact httpdir_spec net b.logUrl s s' hs l h

/-- a listing which the cache does not have is an error -/
theorem cachedList_none {f : State} {url : Url t} (h : LJ.Cache.httpdirGet S.digest url f = none) : S.cachedList f url = [.error S.netError] := by
  unfold Setup.cachedList
  rw [h]

theorem list_cached (net : Nat → Net t) (c : Content t) (s : Sys) (h : (S.world s.cache).list c ≠ [.error S.netError]) :
    S.list net c s = ((S.world s.cache).list c, s) := by
  match c with
  | .file source => rfl
  | .directory (.loc n path) => rfl
  | .directory (.remote n url) => exact httpdir_cached net url s fun e => h (cachedList_none e)
  | .zuul b => exact httpdir_cached net b.logUrl s fun e => h (cachedList_none e)

theorem getSources_spec (net : Nat → Net t) (c : Content t) (s s' : Sys) (hs : Sound s.cache) (sources : List (Source t))
    (h : S.getSources net c s = (.ok sources, s')) : Sound s'.cache ∧ Ext s.cache s'.cache ∧
      ∀ f, Ext s'.cache f → LJ.Report.getSources (S.world f) c = .ok sources := by
  unfold Setup.getSources at h
  generalize hl : S.list net c s = x at h
  obtain ⟨l, s1⟩ := x
  obtain ⟨k1, k2, k3⟩ := list_spec net c s s1 hs l hl
  simp only [Prod.mk.injEq] at h
  obtain ⟨h1, rfl⟩ := h
  refine ⟨k1, k2, fun f hf => ?_⟩
  rcases k3 with rfl | k3
  · exact absurd h1 (by intro h; cases h)
  · have e : (S.world f).valid = S.valid := rfl
    unfold LJ.Report.getSources
    rw [k3 f hf, e]
    generalize LJ.Report.collectOk (l.filter (LJ.Report.keepSource S.valid)) = y at h1 ⊢
    rcases y with _ | (_ | _) <;> exact h1

theorem getSources_cached (net : Nat → Net t) (c : Content t) (s : Sys) (sources : List (Source t))
    (h : LJ.Report.getSources (S.world s.cache) c = .ok sources) : S.getSources net c s = (.ok sources, s) := by
  unfold LJ.Report.getSources at h
  unfold Setup.getSources
  have e : (S.world s.cache).valid = S.valid := rfl
  rw [list_cached net c s (fun e => by rw [e] at h; cases h)]
  simp only [Prod.mk.injEq, and_true]
  rw [e] at h
  generalize LJ.Report.collectOk (((S.world s.cache).list c).filter (LJ.Report.keepSource S.valid)) = y at h ⊢
  rcases y with _ | (_ | _) <;> exact h

variable [DecidableEq N]

theorem groupInto_spec (net : Nat → Net t) (cs : List (Content t)) (g g' : List (N × List (Source t))) (s s' : Sys) (hs : Sound s.cache)
    (h : S.groupInto net cs g s = (.ok g', s')) : Sound s'.cache ∧ Ext s.cache s'.cache ∧
      ∀ f, Ext s'.cache f → LJ.Report.groupInto (S.world f) cs g = .ok g' := by
  induction cs generalizing g s with
  | nil =>
    simp only [Setup.groupInto, Prod.mk.injEq, Except.ok.injEq] at h
    obtain ⟨rfl, rfl⟩ := h
    exact ⟨hs, Ext.refl _, fun f _ => rfl⟩
  | cons c cs ih =>
    unfold Setup.groupInto at h
    generalize hx : S.getSources net c s = x at h
    obtain ⟨r, s1⟩ := x
    cases r with
    | error e => cases h
    | ok sources =>
      simp only at h
      obtain ⟨k1, k2, k3⟩ := getSources_spec net c s s1 hs sources hx
      obtain ⟨j1, j2, j3⟩ := ih _ s1 k1 h
      refine ⟨j1, k2.trans j2, fun f hf => ?_⟩
      unfold LJ.Report.groupInto
      rw [k3 f (j2.trans hf)]
      exact j3 f hf

theorem groupInto_cached (net : Nat → Net t) (cs : List (Content t)) (g g' : List (N × List (Source t))) (s : Sys)
    (h : LJ.Report.groupInto (S.world s.cache) cs g = .ok g') : S.groupInto net cs g s = (.ok g', s) := by
  induction cs generalizing g with
  | nil =>
    simp only [LJ.Report.groupInto, Except.ok.injEq] at h
    rw [h]; rfl
  | cons c cs ih =>
    unfold LJ.Report.groupInto at h
    unfold Setup.groupInto
    cases hx : LJ.Report.getSources (S.world s.cache) c with
    | error e => rw [hx] at h; cases h
    | ok sources =>
      rw [hx] at h
      rw [getSources_cached net c s sources hx]
      exact ih _ h

end
end LJ.Remote

/-
On servers whose content does not change, the cache holds complete copies, and changes nothing.
-/
import Verif.Remote.Copy
import Verif.Cache.Lemmas
namespace LJ.Remote
open LJ.Codec (Bytes Texts Url Source Content)
open LJ.Cache (State Remote Response Opened File GoodDigest Key)
open LJ.Process (Str Ev Env Trainer St AnomalyContext Stop)
open LJ.Report (Index Model Report ListErr Fail LogReport ReadErr World)
open LJ.Iterator.Spec (Blocks NoOverflow pieces)

/-! ### The lines that are asked for -/

section
variable {D ε : Type} {env : Env D}

/-- lines of text, without the marker -/
def Plain (env : Env D) (r : List (Ev ε)) : Prop :=
  ∀ e ∈ r, ∃ line raw, e = .ok line ∧ env.decode line.1 = some raw ∧ LJ.Process.contains LJ.Process.MARKER raw = false

theorem trainAsked_plain (r : List (Ev ε)) (h : Plain env r) : trainAsked env r = r.length + 1 := by
  induction r with
  | nil => rfl
  | cons e r ih =>
    obtain ⟨line, raw, rfl, h1, _⟩ := h e (List.mem_cons_self ..)
    simp only [trainAsked, h1]
    rw [ih fun e he => h e (List.mem_cons_of_mem _ he), List.length_cons]
    omega

theorem readAsked_plain (r : List (Ev ε)) (s : St D) (h : Plain env r) (x : Except (LJ.Process.Err ε) Unit) (r' : List (Ev ε)) (s' : St D)
    (hr : LJ.Process.readAnomalies env r s = some (x, r', s')) :
    x = .ok () ∧ (readAsked env r s = r.length + 1 ∨ readAsked env r s ≤ r.length ∧ r' = r.drop (readAsked env r s) ∧ s'.anomalies ≠ []) := by
  induction r generalizing s with
  | nil =>
    simp only [LJ.Process.readAnomalies] at hr
    cases hf : s.finish env with
    | none => rw [hf] at hr; cases hr
    | some s1 =>
      rw [hf] at hr
      cases hr
      exact ⟨rfl, .inl rfl⟩
  | cons e r ih =>
    obtain ⟨line, raw, rfl, h1, h2⟩ := h e (List.mem_cons_self ..)
    have hrest : Plain env r := fun e he => h e (List.mem_cons_of_mem _ he)
    simp only [LJ.Process.readAnomalies, h1, h2, Bool.false_eq_true, if_false] at hr
    simp only [readAsked, h1, h2, Bool.false_eq_true, if_false]
    generalize hs1 : (s.count line).push env line raw = s1 at hr ⊢
    generalize (!decide (env.tokenize raw ∈ (s.count line).skipLines)) = isNew at hr ⊢
    have more : ∀ s2, LJ.Process.readAnomalies env r s2 = some (x, r', s') →
        x = .ok () ∧ (1 + readAsked env r s2 = (r.length + 1) + 1 ∨ 1 + readAsked env r s2 ≤ r.length + 1 ∧ r' = (.ok line :: r).drop (1 + readAsked env r s2) ∧ s'.anomalies ≠ []) := by
      intro s2 h2
      obtain ⟨a, b | ⟨b, c, d⟩⟩ := ih s2 hrest h2
      · exact ⟨a, .inl (by omega)⟩
      · refine ⟨a, .inr ⟨by omega, ?_, d⟩⟩
        rw [Nat.add_comm, List.drop_succ_cons]
        exact c
    rw [List.length_cons]
    by_cases hfull : s1.full isNew = true
    · rw [if_pos hfull] at hr ⊢
      cases hd : s1.doSearch env with
      | none => rw [hd] at hr; cases hr
      | some s2 =>
        rw [hd] at hr
        simp only [Option.bind_eq_bind, Option.bind_some] at hr
        simp only
        by_cases ha : s2.anomalies ≠ []
        · rw [if_pos ha] at hr ⊢
          cases hr
          exact ⟨rfl, .inr ⟨by omega, rfl, ha⟩⟩
        · rw [if_neg ha] at hr ⊢
          exact more s2 hr
    · rw [if_neg hfull] at hr ⊢
      exact more s1 hr

theorem collectAsked_plain (n : Nat) (r : List (Ev ε)) (s : St D) (h : Plain env r) (h1 : (LJ.Process.collect env n r s).2.1 ≠ .panicked)
    (h2 : (LJ.Process.collect env n r s).2.1 ≠ .timeout) : r.length < collectAsked env n r s := by
  induction n generalizing r s with
  | zero => exact absurd rfl h2
  | succ n ih =>
    unfold collectAsked
    unfold LJ.Process.collect at h1 h2
    unfold LJ.Process.next at h1 h2 ⊢
    unfold nextAsked
    cases ha : s.anomalies with
    | cons a as =>
      rw [ha] at h1 h2
      simp only at h1 h2 ⊢
      rw [Nat.zero_add]
      exact ih r _ h h1 h2
    | nil =>
      rw [ha] at h1 h2
      simp only at h1 h2 ⊢
      cases hr : LJ.Process.readAnomalies env r s with
      | none => rw [hr] at h1; exact absurd rfl h1
      | some y =>
        obtain ⟨x, r', s'⟩ := y
        rw [hr] at h1 h2
        obtain ⟨rfl, hh⟩ := readAsked_plain r s h x r' s' hr
        simp only [Option.bind_eq_bind, Option.bind_some] at h1 h2 ⊢
        rcases hh with hh | ⟨hh, rfl, hne⟩
        · omega
        · cases ha' : s'.anomalies with
          | nil => exact absurd ha' hne
          | cons a as =>
            rw [ha'] at h1 h2
            simp only at h1 h2 ⊢
            have := ih (r.drop (readAsked env r s)) _ (fun e he => h e (List.mem_of_mem_drop he)) h1 h2
            rw [List.length_drop] at this
            omega

theorem processAsked_plain {dist : Str → D} (hs : LJ.Process.Spec.Pointwise env.search dist) (skip : List Str) (r : List (Ev ε)) (h : Plain env r) :
    r.length < processAsked env skip r := by
  obtain ⟨outs, stop, m', mb', X, b', k', F', P', V', s', h1, h2, h3, h4, h5⟩ :=
    LJ.Process.collect_total hs (r.length + 2) r 0 0 [] [] 0 0 [] [] [] (St.new skip) (LJ.Process.Inv.start skip) (by simp [LJ.Process.pend, St.new])
  apply collectAsked_plain (r.length + 2) r (St.new skip) h <;> rw [h1]
  · exact h2
  · exact h3

end

section
variable {t : Texts} {N D E : Type} {S : Setup t N D E} {U V : String → Prop} {site : Site t}

/-! ### What a source gives -/

/-- the lines of the data -/
def textLines (json : Bool) (d : Bytes) : List (Ev Unit) := (LJ.Iterator.Spec.lines json 6000 d).map Except.ok

/-- the lines of a source, from what the servers hold -/
def Setup.content (S : Setup t N D E) (site : Site t) (source : Source t) (json : Bool) : Outcome E (List (Ev Unit)) :=
  match source with
  | .loc _ _ =>
    match S.localOpen source with
    | .error e => .error e
    | .ok reader => .ok (reader json)
  | .remote pre url =>
    match baseOf pre.toNat url with
    | .panic => .panic
    | .error () => .error S.netError
    | .ok _ =>
      match site.docs url with
      | none => .error S.netError
      | some d => .ok (textLines json d)

theorem lines_blocks (json : Bool) (blocks : List Bytes) (hb : Blocks blocks) (hs : Short blocks.flatten) :
    S.lines json (LJ.Iterator.fromReads blocks) = textLines json blocks.flatten := by
  unfold Setup.lines Setup.cfg textLines
  rw [LJ.Iterator.C02_lines_spec Unit S.checks json blocks hb (LJ.Iterator.noOverflow_of_short (hs json))]
  simp [LJ.Whole.events]

theorem lines_body (json : Bool) (r : Remote) (h : Steady r) (hs : Short r.rest) : S.lines json (reads r) = textLines json r.rest := by
  obtain ⟨blocks, e1, e2, e3⟩ := reads_steady r h
  rw [e1, lines_blocks json blocks e2 (by rw [e3]; exact hs), e3]

theorem lines_copy (hc : CutOk S) (json : Bool) (d : Bytes) (hs : Short d) : S.lines json (S.gzReads d true) = textLines json d := by
  obtain ⟨c1, c2⟩ := hc d
  unfold Setup.gzReads
  rw [if_pos rfl, List.append_nil, lines_blocks json (S.cut d) c1 (by rw [c2]; exact hs), c2]

theorem readsMade_all (json : Bool) (blocks : List Bytes) (hb : Blocks blocks) (hs : Short blocks.flatten) (n : Nat)
    (hn : (textLines json blocks.flatten).length < n) : S.readsMade json (LJ.Iterator.fromReads blocks) n = blocks.length := by
  have h := LJ.Iterator.C02_lines_spec Unit S.checks json blocks hb (LJ.Iterator.noOverflow_of_short (hs json))
  have := nexts_all S.cfg (by show 0 < 8192; decide) n (LJ.Iterator.BL.new (LJ.Iterator.fromReads (ε := Unit) blocks) json)
    ⟨by
      intro x hx
      have hx' : x ∈ LJ.Iterator.fromReads blocks := hx
      simp only [LJ.Iterator.fromReads, List.mem_map] at hx'
      obtain ⟨b, hb1, rfl⟩ := hx'
      cases b with
      | nil => exact absurd rfl (hb _ hb1).1
      | cons c cs => exact ⟨c, cs, rfl⟩,
     fun h => by cases h⟩
    (by show (LJ.Iterator.allLines _ _ _).2 = _; unfold Setup.cfg; rw [h])
    (by
      show (LJ.Iterator.allLines _ _ _).1.length < _
      unfold Setup.cfg
      rw [h]
      simpa [textLines] using hn)
  unfold Setup.readsMade
  rw [this]
  simp [LJ.Iterator.fromReads]

theorem plain_lines {d : Bytes} (h : Unmarked S d) (json : Bool) (chunks : List (List Str)) : Plain (S.env chunks) (textLines json d) := by
  intro e he
  simp only [textLines, List.mem_map] at he
  obtain ⟨p, hp, rfl⟩ := he
  have hp' : p ∈ pieces json d := by
    unfold LJ.Iterator.Spec.lines LJ.Iterator.Spec.keep at hp
    exact (List.mem_filter.1 hp).1
  obtain ⟨raw, h1, h2⟩ := h json p hp'
  exact ⟨p, raw, rfl, h1, h2⟩

/-! ### What the cache holds -/

/-- the cache has complete copies of what the servers hold -/
structure Holds (U : String → Prop) (S : Setup t N D E) (site : Site t) (f : State) : Prop where
  sound : Sound f
  files : ∀ base url : Url t, U base.val → U url.val → ∀ x, LJ.Cache.get (LJ.Cache.httpName S.digest base url) f = some x →
    ∃ d, site.docs url = some d ∧ x = .gz d true
  lists : ∀ url : Url t, U url.val → ∀ x, LJ.Cache.get (LJ.Cache.httpdirName S.digest url) f = some x →
    ∃ urls b, site.dirs url = some urls ∧ (LJ.Codec.listing t).enc urls = some b ∧ x = .raw b
  found : ∀ url : Url t, U url.val → LJ.Cache.get (LJ.Cache.headSuccessName S.digest url url) f ≠ none → site.heads url = some true
  missing : ∀ url : Url t, U url.val → LJ.Cache.get (LJ.Cache.headFailureName S.digest url url) f ≠ none → site.heads url = some false

theorem holds_empty : Holds V S site State.empty :=
  ⟨(fun _ _ h => by cases h), (fun _ _ _ _ _ h => by cases h), (fun _ _ _ h => by cases h), (fun _ _ h => absurd rfl h), (fun _ _ h => absurd rfl h)⟩

/-- another file -/
theorem get_other {c c' : State} {n m : LJ.Cache.Name} {x : File} (hs : Sound c)
    (hn' : c'.names = fun m => if m = n then some c.files.length else c.names m) (hf : c'.files = c.files ++ [x]) (hm : m ≠ n) :
    LJ.Cache.get m c' = LJ.Cache.get m c := by
  unfold LJ.Cache.get
  rw [hn', hf]
  simp only [hm, if_false]
  cases hc : c.names m with
  | none => rfl
  | some i =>
    simp only [Option.bind_some]
    rw [List.getElem?_append_left (hs m i hc)]

theorem holds_file (hd : GoodDigest S.digest V) {c c' : State} {base url : Url t} (hb : V base.val) (hu : V url.val) {d : Bytes} (h : Holds V S site c)
    (hn : c.names (LJ.Cache.httpName S.digest base url) = none) (hdoc : site.docs url = some d)
    (hn' : c'.names = fun m => if m = LJ.Cache.httpName S.digest base url then some c.files.length else c.names m) (hf : c'.files = c.files ++ [.gz d true]) :
    Holds V S site c' := by
  obtain ⟨k1, k2, k3⟩ := ext_add h.sound hn hn' hf
  have hk : ∀ u ∈ (Key.content base url).urls, V u.val := by simp [Key.urls, hb, hu]
  refine ⟨k1, ?_, ?_, ?_, ?_⟩
  · intro b u hb' hu' x hx
    by_cases he : LJ.Cache.httpName S.digest b u = LJ.Cache.httpName S.digest base url
    · have := LJ.Cache.name_inj hd (k := Key.content b u) (k' := Key.content base url) (by simp [Key.urls, hb', hu']) hk he
      cases this
      rw [k3] at hx
      cases hx
      exact ⟨d, hdoc, rfl⟩
    · rw [get_other h.sound hn' hf he] at hx
      exact h.files b u hb' hu' x hx
  · intro u hu' x hx
    have he : LJ.Cache.httpdirName S.digest u ≠ LJ.Cache.httpName S.digest base url := LJ.Cache.one_name
    rw [get_other h.sound hn' hf he] at hx
    exact h.lists u hu' x hx
  · intro u hu' hx
    have he : LJ.Cache.headSuccessName S.digest u u ≠ LJ.Cache.httpName S.digest base url := fun he => by
      have := LJ.Cache.name_inj hd (k := Key.headYes u u) (k' := Key.content base url) (by simp [Key.urls, hu']) hk he
      cases this
    rw [get_other h.sound hn' hf he] at hx
    exact h.found u hu' hx
  · intro u hu' hx
    have he : LJ.Cache.headFailureName S.digest u u ≠ LJ.Cache.httpName S.digest base url := fun he => by
      have := LJ.Cache.name_inj hd (k := Key.headNo u u) (k' := Key.content base url) (by simp [Key.urls, hu']) hk he
      cases this
    rw [get_other h.sound hn' hf he] at hx
    exact h.missing u hu' hx

theorem holds_list (hd : GoodDigest S.digest V) {c c' : State} {url : Url t} (hu : V url.val) {urls : List (Url t)} {b : Bytes} (h : Holds V S site c)
    (hn : c.names (LJ.Cache.httpdirName S.digest url) = none) (hdir : site.dirs url = some urls) (hb : (LJ.Codec.listing t).enc urls = some b)
    (hn' : c'.names = fun m => if m = LJ.Cache.httpdirName S.digest url then some c.files.length else c.names m) (hf : c'.files = c.files ++ [.raw b]) :
    Holds V S site c' := by
  obtain ⟨k1, k2, k3⟩ := ext_add h.sound hn hn' hf
  refine ⟨k1, ?_, ?_, ?_, ?_⟩
  · intro b' u hb' hu' x hx
    have he : LJ.Cache.httpName S.digest b' u ≠ LJ.Cache.httpdirName S.digest url := fun e => LJ.Cache.one_name e.symm
    rw [get_other h.sound hn' hf he] at hx
    exact h.files b' u hb' hu' x hx
  · intro u hu' x hx
    by_cases he : LJ.Cache.httpdirName S.digest u = LJ.Cache.httpdirName S.digest url
    · have := LJ.Cache.name_inj hd (k := Key.listing u) (k' := Key.listing url) (by simp [Key.urls, hu']) (by simp [Key.urls, hu]) he
      cases this
      rw [k3] at hx
      cases hx
      exact ⟨urls, b, hdir, hb, rfl⟩
    · rw [get_other h.sound hn' hf he] at hx
      exact h.lists u hu' x hx
  · intro u hu' hx
    have he : LJ.Cache.headSuccessName S.digest u u ≠ LJ.Cache.httpdirName S.digest url := fun e => LJ.Cache.one_name e.symm
    rw [get_other h.sound hn' hf he] at hx
    exact h.found u hu' hx
  · intro u hu' hx
    have he : LJ.Cache.headFailureName S.digest u u ≠ LJ.Cache.httpdirName S.digest url := fun e => LJ.Cache.one_name e.symm
    rw [get_other h.sound hn' hf he] at hx
    exact h.missing u hu' hx

/-! ### Reading -/

theorem read_same (hd : GoodDigest S.digest V) (hc : CutOk S) (hk : Known U V S site) (hcl : Clean U S site) (b : Bool) {net : Nat → Net t} (hs : Serves site net)
    (source : Source t) (hsrc : KnownSource U source) (json : Bool) (asked : List (Ev Unit) → Nat)
    (hask : ∀ d, Unmarked S d → (textLines json d).length < asked (textLines json d)) (s : Sys) (h : Holds V S site s.cache) :
    ((S.on b).read net source json asked s).1 = S.content site source json ∧ Holds V S site ((S.on b).read net source json asked s).2.cache := by
  cases source with
  | loc n path =>
    unfold Setup.read Setup.content
    simp only [Setup.on]
    cases S.localOpen (.loc n path) <;> exact ⟨rfl, h⟩
  | remote pre url =>
    unfold Setup.read Setup.content
    simp only
    cases hb : baseOf pre.toNat url with
    | panic => exact ⟨rfl, h⟩
    | error e => exact ⟨rfl, h⟩
    | ok base =>
      have hbase : V base.val := hk.base _ _ _ hsrc hb
      obtain ⟨s1, s2, _⟩ := hs s.asked url
      simp only
      unfold Setup.fromUrl LJ.Cache.fromUrl
      cases b with
      | false =>
        simp only [Setup.on, Bool.false_eq_true, if_false]
        cases hn : (net s.asked).get url with
        | none =>
          rw [hn] at s1
          simp only [Option.map_none] at s1
          rw [← s1]
          exact ⟨rfl, h⟩
        | some resp =>
          rw [hn] at s1
          simp only [Option.map_some] at s1
          rw [← s1]
          simp only [Setup.consume]
          refine ⟨?_, h⟩
          congr 1
          exact lines_body (S := S) json resp.body (s2 resp hn) (hcl url _ hsrc s1.symm).1
      | true =>
        simp only [Setup.on, if_true]
        cases hg : LJ.Cache.get (LJ.Cache.httpName S.digest base url) s.cache with
        | some x =>
          obtain ⟨d, hdoc, rfl⟩ := h.files base url hbase (hk.within _ hsrc) x hg
          have hrg : LJ.Cache.remoteGet S.digest base url s.cache = some (d, true) := by
            unfold LJ.Cache.remoteGet
            rw [hg]; rfl
          simp only [hrg, hdoc, Setup.consume]
          refine ⟨?_, h⟩
          congr 1
          exact lines_copy (S := S) hc json d (hcl url d hsrc hdoc).1
        | none =>
          have hrg : LJ.Cache.remoteGet S.digest base url s.cache = none := by
            unfold LJ.Cache.remoteGet
            rw [hg]; rfl
          simp only [hrg]
          have hname := get_none h.sound hg
          cases hn : (net s.asked).get url with
          | none =>
            rw [hn] at s1
            simp only [Option.map_none] at s1
            rw [← s1]
            exact ⟨rfl, h⟩
          | some resp =>
            rw [hn] at s1
            simp only [Option.map_some] at s1
            have hst := s2 resp hn
            obtain ⟨hsh, hun⟩ := hcl url _ hsrc s1.symm
            rw [← s1]
            simp only [LJ.Cache.remoteAdd, LJ.Cache.create, hname, Option.map_some]
            obtain ⟨blocks, e1, e2, e3⟩ := reads_steady resp.body hst
            have hrd : (s.cache.readers ++ [some (⟨resp.body, s.cache.files.length⟩ : LJ.Cache.Reader)])[s.cache.readers.length]? = some (some ⟨resp.body, s.cache.files.length⟩) := by simp
            have hl : S.lines json (reads resp.body) = textLines json resp.body.rest := lines_body json resp.body hst hsh
            have hm : S.readsMade json (reads resp.body) (asked (S.lines json (reads resp.body))) = blocks.length := by
              rw [hl, e1]
              refine readsMade_all json blocks e2 (by rw [e3]; exact hsh) _ ?_
              rw [e3]
              exact hask _ hun
            unfold Setup.consume
            simp only [hrd]
            refine ⟨congrArg _ hl, ?_⟩
            change Holds V S site (LJ.Cache.readerClose s.cache.readers.length (readMany s.cache.readers.length (S.readsMade json (reads resp.body) (asked (S.lines json (reads resp.body)))) _))
            rw [hm]
            obtain ⟨g1, g2, r', g3⟩ := readMany_spec s.cache.readers.length s.cache.files.length blocks.length _ resp.body blocks
              { names := fun n => if n = LJ.Cache.httpName S.digest base url then some s.cache.files.length else s.cache.names n, files := s.cache.files ++ [.gz [] false],
                readers := s.cache.readers ++ [some ⟨resp.body, s.cache.files.length⟩] } hst e1 (Nat.le_refl _) hrd
            generalize readMany s.cache.readers.length blocks.length _ = c3 at g1 g2 g3
            have hfin : LJ.Cache.readerClose s.cache.readers.length c3 = { c3 with readers := c3.readers.set s.cache.readers.length none, files := c3.files.modify s.cache.files.length LJ.Cache.finish } := by
              unfold LJ.Cache.readerClose
              rw [g3]
            rw [hfin]
            refine holds_file hd hbase (hk.within _ hsrc) h hname s1.symm (d := resp.body.rest) g1 ?_
            simp only [g2]
            rw [List.take_length, e3]
            exact modify_last _ _ _ _

/-! ### Listings -/

/-- the sources of an URL, from what the servers hold -/
def Setup.siteDir (S : Setup t N D E) (site : Site t) (url : Url t) : List (Except E (Source t)) :=
  match site.dirs url with
  | none => [.error S.netError]
  | some urls =>
    match (LJ.Codec.listing t).enc urls with
    | none => [.error S.netError]
    | some _ => urls.map fun u => .ok (.remote (UInt64.ofNat (baseLen url)) u)

/-- the sources of what is compared -/
def Setup.siteList (S : Setup t N D E) (site : Site t) : Content t → List (Except E (Source t))
  | .file source => [.ok source]
  | .directory (.loc n path) => S.localList (.loc n path)
  | .directory (.remote _ url) => S.siteDir site url
  | .zuul b => S.siteDir site b.logUrl

theorem httpdir_same (hd : GoodDigest S.digest V) (b : Bool) {net : Nat → Net t} (hs : Serves site net)
    (url : Url t) (hu : V url.val) (s : Sys) (h : Holds V S site s.cache) :
    ((S.on b).httpdir net url s).1 = S.siteDir site url ∧ Holds V S site ((S.on b).httpdir net url s).2.cache := by
  obtain ⟨_, _, s3⟩ := hs s.asked url
  unfold Setup.httpdir LJ.Cache.httpdirIter Setup.siteDir
  simp only [Setup.on]
  cases hg : LJ.Cache.get (LJ.Cache.httpdirName S.digest url) s.cache with
  | some x =>
    obtain ⟨urls, b, h1, h2, rfl⟩ := h.lists url hu x hg
    have hl := (LJ.Codec.C70_listing t h2 []).2
    rw [List.append_nil] at hl
    have hget : LJ.Cache.httpdirGet S.digest url s.cache = some (some urls) := by
      unfold LJ.Cache.httpdirGet
      rw [hg]
      simp only [Option.map_some, hl]
    simp only [hget, h1, h2]
    exact ⟨trivial, h⟩
  | none =>
    have hget : LJ.Cache.httpdirGet S.digest url s.cache = none := by
      unfold LJ.Cache.httpdirGet
      rw [hg]; rfl
    have hname := get_none h.sound hg
    simp only [hget, s3]
    cases hdir : site.dirs url with
    | none => exact ⟨rfl, h⟩
    | some urls =>
      simp only [LJ.Cache.httpdirAdd]
      cases hb : (LJ.Codec.listing t).enc urls with
      | none => exact ⟨rfl, h⟩
      | some b =>
        simp only [Option.bind_some, LJ.Cache.create, hname]
        exact ⟨trivial, holds_list hd hu h hname hdir hb rfl rfl⟩

theorem list_same (hd : GoodDigest S.digest V) (hk : Known U V S site) (b : Bool) {net : Nat → Net t} (hs : Serves site net)
    (c : Content t) (hc : KnownContent U c) (s : Sys) (h : Holds V S site s.cache) :
    ((S.on b).list net c s).1 = S.siteList site c ∧ Holds V S site ((S.on b).list net c s).2.cache := by
  match c, hc with
  | .file source, _ => exact ⟨rfl, h⟩
  | .directory (.loc n path), _ => exact ⟨rfl, h⟩
  | .directory (.remote n url), hc => exact httpdir_same hd b hs url (hk.within _ hc) s h
  | .zuul bu, hc => exact httpdir_same hd b hs bu.logUrl (hk.within _ hc) s h

theorem siteDir_known (hk : Known U V S site) (url : Url t) (x : Source t) (hx : .ok x ∈ S.siteDir site url) : KnownSource U x := by
  unfold Setup.siteDir at hx
  cases hdir : site.dirs url with
  | none => rw [hdir] at hx; simp at hx
  | some urls =>
    rw [hdir] at hx
    simp only at hx
    cases hb : (LJ.Codec.listing t).enc urls with
    | none => rw [hb] at hx; simp at hx
    | some b =>
      rw [hb] at hx
      simp only [List.mem_map, Except.ok.injEq] at hx
      obtain ⟨u, hu, rfl⟩ := hx
      exact hk.listed url urls hdir u hu

theorem siteList_known (hk : Known U V S site) (c : Content t) (hc : KnownContent U c) (x : Source t) (hx : .ok x ∈ S.siteList site c) : KnownSource U x := by
  match c, hc with
  | .file source, hc =>
    simp only [Setup.siteList, List.mem_singleton, Except.ok.injEq] at hx
    subst hx
    exact hc
  | .directory (.loc n path), _ => exact hk.local' _ x hx
  | .directory (.remote n url), _ => exact siteDir_known hk url x hx
  | .zuul bu, _ => exact siteDir_known hk bu.logUrl x hx

end
end LJ.Remote

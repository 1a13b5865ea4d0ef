/-
The comparison of a build, made again from the cache.
-/
import Verif.Remote.WebSame
import Verif.Remote.Props
namespace LJ.Remote
open LJ.Codec (Bytes Texts Url Source Content)
open LJ.Cache (State Remote Response Opened File)
open LJ.Process (Str)
open LJ.Report (Report Fail)
open LJ.Zuul (Target logsAvailable newContent)

section
variable {t : Texts} {N D E : Type} {S : Setup t N D E}

/-! ### The answers of the servers of logs -/

/-- The names which tell that a file is there are the same. -/
def SameFound (a b : State) : Prop := ∀ n : LJ.Cache.Name, n.reverse[64]? = some '3' → b.names n = a.names n

theorem SameFound.refl (a : State) : SameFound a a := fun _ _ => rfl
theorem SameFound.trans {a b c : State} (h1 : SameFound a b) (h2 : SameFound b c) : SameFound a c := fun n hn => (h2 n hn).trans (h1 n hn)
theorem SameFound.of_names {a b : State} (h : b.names = a.names) : SameFound a b := fun n _ => congrFun h n

theorem kind_pair (hd : ∀ s, (S.digest s).length = 64) (c : Char) (base url : Url t) :
    (LJ.Cache.newName S.digest '1' base ++ '/' :: LJ.Cache.newName S.digest c url).reverse[64]? = some c := by
  have hl : (S.digest url.val).reverse.length = 64 := by rw [List.length_reverse, hd]
  simp only [LJ.Cache.newName, List.reverse_append, List.reverse_cons, List.append_assoc]
  rw [List.getElem?_append_right (by omega), hl]
  rfl

theorem kind_listing (hd : ∀ s, (S.digest s).length = 64) (url : Url t) : (LJ.Cache.httpdirName S.digest url).reverse[64]? = some '0' := by
  have hl : (S.digest url.val).reverse.length = 64 := by rw [List.length_reverse, hd]
  simp only [LJ.Cache.httpdirName, LJ.Cache.newName, List.reverse_cons]
  rw [List.getElem?_append_right (by omega), hl]
  rfl

theorem sameFound_create {n : LJ.Cache.Name} {c : Char} (hn : n.reverse[64]? = some c) (hc : c ≠ '3') {f : File} {a b : State} (h : LJ.Cache.create n f a = some b) :
    SameFound a b := by
  unfold LJ.Cache.create at h
  split at h
  · cases h
  · cases h
    intro m hm
    simp only
    rw [if_neg]
    rintro rfl
    rw [hm] at hn
    exact hc (Option.some.inj hn).symm

theorem readerRead_names (id n : Nat) (s : State) : (LJ.Cache.readerRead id n s).2.names = s.names := by
  unfold LJ.Cache.readerRead
  split
  · split <;> rfl
  · rfl

theorem readMany_names (id m : Nat) (s : State) : (readMany id m s).names = s.names := by
  induction m generalizing s with
  | zero => rfl
  | succ m ih => exact (ih _).trans (readerRead_names ..)

theorem readerClose_names (id : Nat) (s : State) : (LJ.Cache.readerClose id s).names = s.names := by
  unfold LJ.Cache.readerClose
  split <;> rfl

theorem consume_names (json : Bool) (asked : List (LJ.Process.Ev Unit) → Nat) (o : Opened) (s : State) : (S.consume json asked o s).2.names = s.names := by
  unfold Setup.consume
  cases o with
  | gz d f => rfl
  | remote r => rfl
  | cached id =>
    simp only
    split
    · exact (readerClose_names ..).trans (readMany_names ..)
    · rfl

theorem sameFound_fromUrl (hd : ∀ s, (S.digest s).length = 64) (u : Bool) (base url : Url t) (answer : Option Response) (s : State) :
    SameFound s (LJ.Cache.fromUrl S.digest u base url answer s).2 := by
  unfold LJ.Cache.fromUrl
  split
  · cases LJ.Cache.remoteGet S.digest base url s with
    | some x => exact SameFound.refl _
    | none =>
      cases answer with
      | none => exact SameFound.refl _
      | some resp =>
        simp only
        cases ha : LJ.Cache.remoteAdd S.digest base url resp.body s with
        | none => exact SameFound.refl _
        | some c1 =>
          obtain ⟨c0, h0, rfl⟩ := Option.map_eq_some_iff.1 ha
          exact fun n hn => sameFound_create (kind_pair hd '2' base url) (by decide) h0 n hn
  · cases answer <;> exact SameFound.refl _

theorem sameFound_httpdir (hd : ∀ s, (S.digest s).length = 64) (net : Nat → Net t) (url : Url t) (s : Sys) : SameFound s.cache (S.httpdir net url s).2.cache := by
  unfold Setup.httpdir LJ.Cache.httpdirIter
  cases LJ.Cache.httpdirGet S.digest url s.cache with
  | some res => exact SameFound.refl _
  | none =>
    simp only
    cases (net s.asked).list url with
    | none => exact SameFound.refl _
    | some urls =>
      simp only
      cases ha : LJ.Cache.httpdirAdd S.digest url urls s.cache with
      | none => exact SameFound.refl _
      | some c =>
        obtain ⟨b, _, h0⟩ := Option.bind_eq_some_iff.1 ha
        exact sameFound_create (kind_listing hd url) (by decide) h0

theorem sameFound_steps (hd : ∀ s, (S.digest s).length = 64) : Steps S SameFound where
  refl := SameFound.refl
  trans := SameFound.trans
  read net source json asked s := by
    unfold Setup.read
    cases source with
    | loc n path =>
      simp only
      split <;> exact SameFound.refl _
    | remote pre url =>
      simp only
      cases baseOf pre.toNat url with
      | panic => exact SameFound.refl _
      | error e => exact SameFound.refl _
      | ok base =>
        simp only
        unfold Setup.fromUrl
        have h := sameFound_fromUrl hd S.useCache base url ((net s.asked).get url) s.cache
        generalize LJ.Cache.fromUrl S.digest S.useCache base url ((net s.asked).get url) s.cache = y at h ⊢
        obtain ⟨o, c⟩ := y
        cases o with
        | none => exact h
        | some o => exact h.trans (.of_names (consume_names json asked o c))
  list net c s := by
    match c with
    | .file source => exact SameFound.refl _
    | .directory (.loc n path) => exact SameFound.refl _
    | .directory (.remote n url) => exact sameFound_httpdir hd net url s
    | .zuul b => exact sameFound_httpdir hd net b.logUrl s

/-! ### What is kept -/

/-- `f` has all that `c` has, and the same answers. -/
structure Later (S : Setup t N D E) (c f : State) : Prop where
  ext : Ext c f
  heads : ∀ u : Url t, LJ.Cache.head S.digest u u c ≠ none → LJ.Cache.head S.digest u u f = LJ.Cache.head S.digest u u c

theorem Later.refl (c : State) : Later S c c := ⟨Ext.refl c, fun _ _ => rfl⟩
theorem Later.trans {a b c : State} (h1 : Later S a b) (h2 : Later S b c) : Later S a c :=
  ⟨h1.ext.trans h2.ext, fun u hu => (h2.heads u (by rw [h1.heads u hu]; exact hu)).trans (h1.heads u hu)⟩

theorem Later.of_found (hd : ∀ s, (S.digest s).length = 64) {c f : State} (hs : Sound c) (he : Ext c f) (hf : SameFound c f) : Later S c f := by
  refine ⟨he, fun u hu => ?_⟩
  unfold LJ.Cache.head at hu ⊢
  cases hy : LJ.Cache.get (LJ.Cache.headSuccessName S.digest u u) c with
  | some x => rw [he.get hy]
  | none =>
    have hn := get_none hs hy
    have hn' : f.names (LJ.Cache.headSuccessName S.digest u u) = none := (hf _ (kind_pair hd '3' u u)).trans hn
    have hy' : LJ.Cache.get (LJ.Cache.headSuccessName S.digest u u) f = none := by
      unfold LJ.Cache.get
      rw [hn']; rfl
    rw [hy] at hu
    rw [hy']
    simp only at hu ⊢
    cases hx : LJ.Cache.get (LJ.Cache.headFailureName S.digest u u) c with
    | none => rw [hx] at hu; exact absurd rfl hu
    | some x => rw [he.get hx]

variable [DecidableEq N] in
theorem uses_later (hd : ∀ s, (S.digest s).length = 64) (us : List (Use t N)) (s : Sys) (hs : Sound s.cache) : Later S s.cache (uses S us s).cache := by
  refine .of_found hd hs (uses_kept us s hs).2 ?_
  clear hs
  induction us generalizing s with
  | nil => exact SameFound.refl _
  | cons u us ih => exact (compare_rel (sameFound_steps hd) u.net u.order u.order' u.baselines u.target s).trans (ih _)

/-! ### Documents -/

theorem readerAll_ok (id n i : Nat) (d : Bytes) (s s' : State) (rd : Remote) (hr : s.readers[id]? = some (some ⟨rd, i⟩)) (h : LJ.Cache.readerAll id n s = (some d, s')) :
    s'.names = s.names ∧ s'.files = s.files.modify i (LJ.Cache.append d) ∧ ∃ r', s'.readers[id]? = some (some ⟨r', i⟩) := by
  induction n generalizing rd d s with
  | zero => cases h
  | succ n ih =>
    have hlen : id < s.readers.length := by
      by_contra hge
      rw [List.getElem?_eq_none (by omega)] at hr
      cases hr
    unfold LJ.Cache.readerAll at h
    cases hread : rd.read 1 with
    | mk o r' =>
      have est : LJ.Cache.readerRead id 1 s = match o with
          | some c => (some c, { s with readers := s.readers.set id (some ⟨r', i⟩), files := s.files.modify i (LJ.Cache.append c) })
          | none => (none, { s with readers := s.readers.set id (some ⟨r', i⟩) }) := by
        unfold LJ.Cache.readerRead
        rw [hr]
        simp only [hread]
        cases o <;> rfl
      rw [est] at h
      match o with
      | none => cases h
      | some [] =>
        simp only [Prod.mk.injEq, Option.some.injEq] at h
        obtain ⟨rfl, rfl⟩ := h
        exact ⟨rfl, rfl, r', by simp [hlen]⟩
      | some (c :: cs) =>
        simp only at h
        generalize hy : LJ.Cache.readerAll id n { s with readers := s.readers.set id (some ⟨r', i⟩), files := s.files.modify i (LJ.Cache.append (c :: cs)) } = y at h
        obtain ⟨o2, s2⟩ := y
        cases o2 with
        | none => cases h
        | some e =>
          simp only [Option.map_some, Prod.mk.injEq, Option.some.injEq] at h
          obtain ⟨rfl, rfl⟩ := h
          obtain ⟨g1, g2, g3⟩ := ih e _ r' (by simp [hlen]) hy
          refine ⟨g1, ?_, g3⟩
          rw [g2]
          simp only
          rw [List.modify_modify_eq]
          congr 1
          funext f
          simp [Function.comp, append_append]

theorem getDecoded_cached {α : Type} {decode : Bytes → Option α} (hu : S.useCache = true) (base url : Url t) {d : Bytes} {x : α} (hx : decode d = some x)
    {f : State} (hf : LJ.Cache.get (LJ.Cache.httpName S.digest base url) f = some (.gz d true)) (net : Nat → Net t) (n : Nat) :
    S.getDecoded decode net base url ⟨f, n⟩ = (some x, ⟨f, n⟩) := by
  have hrg : LJ.Cache.remoteGet S.digest base url f = some (d, true) := by
    unfold LJ.Cache.remoteGet
    rw [hf]; rfl
  unfold Setup.getDecoded LJ.Cache.getDecoded LJ.Cache.fromUrl Setup.asks
  simp only [hu, hrg, if_true, hx, Option.isSome_some, Bool.and_self, Bool.not_true, Bool.false_eq_true, if_false]

theorem getDecoded_spec {α : Type} {decode : Bytes → Option α} (hu : S.useCache = true) (hd : ∀ s, (S.digest s).length = 64) (net : Nat → Net t) (base url : Url t)
    (s s' : Sys) (hs : Sound s.cache) (x : α) (h : S.getDecoded decode net base url s = (some x, s')) :
    Sound s'.cache ∧ Later S s.cache s'.cache ∧ ∃ d, decode d = some x ∧ LJ.Cache.get (LJ.Cache.httpName S.digest base url) s'.cache = some (.gz d true) := by
  unfold Setup.getDecoded LJ.Cache.getDecoded LJ.Cache.fromUrl at h
  simp only [hu, if_true] at h
  cases hg : LJ.Cache.get (LJ.Cache.httpName S.digest base url) s.cache with
  | some f =>
    have hrg : LJ.Cache.remoteGet S.digest base url s.cache = some (LJ.Cache.decompress f) := by
      unfold LJ.Cache.remoteGet
      rw [hg]; rfl
    simp only [hrg] at h
    cases f with
    | raw b =>
      simp only [LJ.Cache.decompress, Bool.false_eq_true, if_false] at h
      cases h
    | gz d fin =>
      simp only [LJ.Cache.decompress] at h
      cases fin with
      | false => simp only [Bool.false_eq_true, if_false] at h; cases h
      | true =>
        simp only [if_true] at h
        cases hx : decode d with
        | none => rw [hx] at h; cases h
        | some y =>
          rw [hx] at h
          simp only [Prod.mk.injEq, Option.some.injEq] at h
          obtain ⟨rfl, rfl⟩ := h
          exact ⟨hs, Later.refl _, d, hx, hg⟩
  | none =>
    have hrg : LJ.Cache.remoteGet S.digest base url s.cache = none := by
      unfold LJ.Cache.remoteGet
      rw [hg]; rfl
    have hname := get_none hs hg
    simp only [hrg] at h
    cases hn : (net s.asked).api url with
    | none => rw [hn] at h; cases h
    | some resp =>
      rw [hn] at h
      simp only [LJ.Cache.remoteAdd, LJ.Cache.create, hname, Option.map_some, Option.getD_some] at h
      generalize hc0 : (⟨fun m => if m = LJ.Cache.httpName S.digest base url then some s.cache.files.length else s.cache.names m, s.cache.files ++ [.gz [] false],
            s.cache.readers ++ [some ⟨resp.body, s.cache.files.length⟩]⟩ : State) = c0 at h
      generalize hy : LJ.Cache.readerAll s.cache.readers.length resp.body.fuel c0 = y at h
      obtain ⟨o, c3⟩ := y
      cases o with
      | none => cases h
      | some d =>
        simp only [Option.bind_some] at h
        cases hx : decode d with
        | none => rw [hx] at h; cases h
        | some z =>
          rw [hx] at h
          simp only [Prod.mk.injEq, Option.some.injEq] at h
          obtain ⟨rfl, rfl⟩ := h
          obtain ⟨g1, g2, r', g3⟩ := readerAll_ok s.cache.readers.length resp.body.fuel s.cache.files.length d c0 c3 resp.body (by subst hc0; simp) hy
          have hfin : LJ.Cache.readerClose s.cache.readers.length c3 = { c3 with readers := c3.readers.set s.cache.readers.length none, files := c3.files.modify s.cache.files.length LJ.Cache.finish } := by
            unfold LJ.Cache.readerClose
            rw [g3]
          simp only
          rw [hfin]
          subst hc0
          obtain ⟨k1, k2, k3⟩ := ext_add (c := s.cache) (n := LJ.Cache.httpName S.digest base url) (x := .gz d true)
            (c' := { c3 with readers := c3.readers.set s.cache.readers.length none, files := c3.files.modify s.cache.files.length LJ.Cache.finish }) hs hname g1 (by
              simp only [g2]
              exact modify_last _ _ _ _)
          refine ⟨k1, .of_found hd hs k2 ?_, d, hx, k3⟩
          intro m hm
          simp only [g1]
          rw [if_neg]
          rintro rfl
          unfold LJ.Cache.httpName at hm
          rw [kind_pair hd] at hm
          exact absurd hm (by decide)

/-! ### Heads -/

theorem headUrl_cached (hu : S.useCache = true) (url : Url t) {f : State} {v : Bool} (hf : LJ.Cache.head S.digest url url f = some v) (net : Nat → Net t) (n : Nat) :
    S.headUrl net url ⟨f, n⟩ = (some v, ⟨f, n⟩) := by
  unfold Setup.headUrl LJ.Cache.headUrl
  simp only [hu, hf, if_true, Option.isSome_some, Bool.and_self]

theorem headUrl_spec (hu : S.useCache = true) (hd : ∀ s, (S.digest s).length = 64) (net : Nat → Net t) (hh : ∀ k url, (net k).head url ≠ none) (url : Url t) (s : Sys)
    (hs : Sound s.cache) : ∃ v s', S.headUrl net url s = (some v, s') ∧ Sound s'.cache ∧ Later S s.cache s'.cache ∧ LJ.Cache.head S.digest url url s'.cache = some v := by
  unfold Setup.headUrl LJ.Cache.headUrl
  simp only [hu, if_true]
  cases hx : LJ.Cache.head S.digest url url s.cache with
  | some v => exact ⟨v, _, rfl, hs, Later.refl _, hx⟩
  | none =>
    obtain ⟨k, hk⟩ := Option.ne_none_iff_exists'.1 (hh s.asked url)
    have hy : LJ.Cache.get (LJ.Cache.headSuccessName S.digest url url) s.cache = none := by
      unfold LJ.Cache.head at hx
      cases hy : LJ.Cache.get (LJ.Cache.headSuccessName S.digest url url) s.cache with
      | none => rfl
      | some x => rw [hy] at hx; cases hx
    have hz : LJ.Cache.get (LJ.Cache.headFailureName S.digest url url) s.cache = none := by
      unfold LJ.Cache.head at hx
      rw [hy] at hx
      simpa using hx
    have nx := get_none hs hy
    have nz := get_none hs hz
    rw [hk]
    simp only [LJ.Cache.remoteHead, Option.map_some]
    generalize decide (200 ≤ k ∧ k < 300) = v
    cases v with
    | false =>
      simp only [LJ.Cache.headSet, LJ.Cache.create, Bool.false_eq_true, if_false, nz]
      obtain ⟨k1, k2, k3⟩ := ext_add (c := s.cache) (n := LJ.Cache.headFailureName S.digest url url) (x := .raw [])
        (c' := { s.cache with names := fun m => if m = LJ.Cache.headFailureName S.digest url url then some s.cache.files.length else s.cache.names m, files := s.cache.files ++ [.raw []] })
        hs nz rfl rfl
      have hsf : SameFound s.cache { s.cache with names := fun m => if m = LJ.Cache.headFailureName S.digest url url then some s.cache.files.length else s.cache.names m, files := s.cache.files ++ [.raw []] } :=
        sameFound_create (kind_pair hd '4' url url) (by decide) (f := .raw []) (by unfold LJ.Cache.create; unfold LJ.Cache.headFailureName at nz; rw [nz]; rfl)
      refine ⟨_, _, rfl, k1, .of_found hd hs k2 hsf, ?_⟩
      unfold LJ.Cache.head
      have hn' := hsf _ (kind_pair hd '3' url url)
      have : LJ.Cache.get (LJ.Cache.headSuccessName S.digest url url) { s.cache with names := fun m => if m = LJ.Cache.headFailureName S.digest url url then some s.cache.files.length else s.cache.names m, files := s.cache.files ++ [.raw []] } = none := by
        unfold LJ.Cache.get
        rw [show LJ.Cache.headSuccessName S.digest url url = _ from rfl]
        unfold LJ.Cache.headSuccessName at nx ⊢
        rw [hn', nx]; rfl
      rw [this, k3]
      rfl
    | true =>
      simp only [LJ.Cache.headSet, LJ.Cache.create, if_true, nx]
      obtain ⟨k1, k2, k3⟩ := ext_add (c := s.cache) (n := LJ.Cache.headSuccessName S.digest url url) (x := .raw [])
        (c' := { s.cache with names := fun m => if m = LJ.Cache.headSuccessName S.digest url url then some s.cache.files.length else s.cache.names m, files := s.cache.files ++ [.raw []] })
        hs nx rfl rfl
      refine ⟨_, _, rfl, k1, ⟨k2, fun u hu' => ?_⟩, ?_⟩
      · unfold LJ.Cache.head at hu' ⊢
        cases hyu : LJ.Cache.get (LJ.Cache.headSuccessName S.digest u u) s.cache with
        | some x => rw [k2.get hyu]
        | none =>
          rw [hyu] at hu'
          simp only at hu'
          have hne : LJ.Cache.headSuccessName S.digest u u ≠ LJ.Cache.headSuccessName S.digest url url := by
            intro e
            have e2 : S.digest u.val = S.digest url.val := by
              have h := congrArg (List.take 65) e
              have hl : ∀ v : Url t, List.take 65 (LJ.Cache.headSuccessName S.digest v v) = '1' :: S.digest v.val := by
                intro v
                unfold LJ.Cache.headSuccessName LJ.Cache.newName
                rw [List.take_append_of_le_length (by simp [hd])]
                exact List.take_of_length_le (by simp [hd])
              rw [hl, hl] at h
              exact (List.cons.inj h).2
            have e3 : LJ.Cache.headFailureName S.digest u u = LJ.Cache.headFailureName S.digest url url := by
              unfold LJ.Cache.headFailureName LJ.Cache.newName
              rw [e2]
            rw [e3, hz] at hu'
            exact hu' rfl
          have : LJ.Cache.get (LJ.Cache.headSuccessName S.digest u u) { s.cache with names := fun m => if m = LJ.Cache.headSuccessName S.digest url url then some s.cache.files.length else s.cache.names m, files := s.cache.files ++ [.raw []] } = none := by
            unfold LJ.Cache.get
            simp only
            rw [if_neg hne, get_none hs hyu]; rfl
          rw [this]
          simp only
          cases hfu : LJ.Cache.get (LJ.Cache.headFailureName S.digest u u) s.cache with
          | none => rw [hfu] at hu'; exact absurd rfl hu'
          | some x => rw [k2.get hfu]
      · unfold LJ.Cache.head
        rw [k3]

/-! ### The lookup and the discovery -/

variable {W : Web t}

theorem firstAvailable_spec (hu : S.useCache = true) (hd : ∀ s, (S.digest s).length = 64) (net : Nat → Net t) (hh : ∀ k url, (net k).head url ≠ none)
    (bs : List (LJ.Zuul.Build W.env)) (s : Sys) (hs : Sound s.cache) : ∃ o s', S.firstAvailable net bs s = (o, s') ∧ Sound s'.cache ∧ Later S s.cache s'.cache ∧
      ∀ f, Later S s'.cache f → ∀ net' n, S.firstAvailable net' bs ⟨f, n⟩ = (o, ⟨f, n⟩) := by
  induction bs generalizing s with
  | nil => exact ⟨none, s, rfl, hs, Later.refl _, fun f _ net' n => rfl⟩
  | cons b bs ih =>
    simp only [Setup.firstAvailable]
    cases b.logUrl with
    | none => exact ih s hs
    | some url =>
      simp only
      obtain ⟨v, s1, e1, k1, k2, k3⟩ := headUrl_spec hu hd net hh (toUrl url) s hs
      rw [e1]
      have again : ∀ f, Later S s1.cache f → ∀ net' n, S.headUrl net' (toUrl url) ⟨f, n⟩ = (some v, ⟨f, n⟩) := fun f hf net' n =>
        headUrl_cached hu _ (by rw [hf.heads _ (by rw [k3]; simp), k3]) net' n
      cases v with
      | true => exact ⟨_, _, rfl, k1, k2, fun f hf net' n => by rw [again f hf]⟩
      | false =>
        obtain ⟨o, s2, e2, j1, j2, j3⟩ := ih s1 k1
        exact ⟨o, s2, e2, j1, k2.trans j2, fun f hf net' n => by rw [again f (j2.trans hf)]; exact j3 f hf net' n⟩

theorem getSamples_spec (hu : S.useCache = true) (hd : ∀ s, (S.digest s).length = 64) (net : Nat → Net t) (x : Target W.env) (s s' : Sys) (hs : Sound s.cache)
    (samples : List (LJ.Zuul.Build W.env)) (h : S.getSamples W net x s = (some samples, s')) : Sound s'.cache ∧ Later S s.cache s'.cache ∧
      (∃ url, ∀ f, Later S s'.cache f → ∀ net' n, S.getDecoded W.decodeBuilds net' (toUrl x.api) url ⟨f, n⟩ = (some samples, ⟨f, n⟩)) ∧
      ∀ f, Later S s'.cache f → ∀ net' n, S.getSamples W net' x ⟨f, n⟩ = (some samples, ⟨f, n⟩) := by
  unfold Setup.getSamples at h ⊢
  cases hurl : W.samplesUrl (toUrl x.api) x.jobName with
  | none => rw [hurl] at h; cases h
  | some url =>
    rw [hurl] at h
    obtain ⟨k1, k2, d, k3, k4⟩ := getDecoded_spec hu hd net _ url s s' hs samples h
    have again := fun (f : State) (hf : Later S s'.cache f) => getDecoded_cached hu (toUrl x.api) url k3 (hf.ext.get k4)
    exact ⟨k1, k2, ⟨url, again⟩, again⟩

theorem getBuild_spec (hu : S.useCache = true) (hd : ∀ s, (S.digest s).length = 64) (net : Nat → Net t) (api : Url t) (uid : Str) (s s' : Sys) (hs : Sound s.cache)
    (b : LJ.Zuul.Build W.env) (h : S.getBuild W net api uid s = (some b, s')) : Sound s'.cache ∧ Later S s.cache s'.cache ∧
      ∀ f, Later S s'.cache f → ∀ net' n, S.getBuild W net' api uid ⟨f, n⟩ = (some b, ⟨f, n⟩) := by
  unfold Setup.getBuild at h ⊢
  cases hurl : W.buildUrl api uid with
  | none => rw [hurl] at h; cases h
  | some url =>
    rw [hurl] at h
    obtain ⟨k1, k2, d, k3, k4⟩ := getDecoded_spec hu hd net _ url s s' hs b h
    exact ⟨k1, k2, fun f hf => getDecoded_cached hu api url k3 (hf.ext.get k4)⟩

/-- the day makes no difference to the order of builds which have ended -/
theorem ranked_later (x : Target W.env) {now now' : Int} (hn : now ≤ now') (samples : List (LJ.Zuul.Build W.env)) (h : ∀ b ∈ samples, b.endTime.date ≤ now) :
    ranked x now' samples = ranked x now samples := by
  have hscore : ∀ b ∈ samples, LJ.Zuul.baselineScore x now' b = (LJ.Zuul.baselineScore x now b).map (· - (now' - now)) := by
    intro b hb
    have := h b hb
    unfold LJ.Zuul.baselineScore
    cases LJ.Zuul.projectPoints x b with
    | none => rfl
    | some p =>
      have e : LJ.Zuul.elapsedDays now' b.endTime.date = LJ.Zuul.elapsedDays now b.endTime.date + (now' - now) := by
        unfold LJ.Zuul.elapsedDays
        rw [if_neg (by omega), if_neg (by omega)]
        omega
      simp only [e]
      cases hb : b.logUrl.isSome && b.refUrl.isSome with
      | false => simp
      | true => simp only [if_true, Option.map_some, Option.some.injEq]; omega
  have hpairs : (samples.map fun b => (LJ.Zuul.baselineScore x now' b, b)).filter (fun p => p.1.isSome && decide (x.uuid ≠ p.2.uuid)) =
      ((samples.map fun b => (LJ.Zuul.baselineScore x now b, b)).filter (fun p => p.1.isSome && decide (x.uuid ≠ p.2.uuid))).map fun p => (p.1.map (· - (now' - now)), p.2) := by
    clear h
    induction samples with
    | nil => rfl
    | cons b bs ih =>
      have hb := hscore b (List.mem_cons_self ..)
      have ih := ih fun c hc => hscore c (List.mem_cons_of_mem _ hc)
      simp only [List.map_cons, List.filter_cons, hb, Option.isSome_map]
      split
      · simp only [List.map_cons, ih]
      · exact ih
  have hmap : ∀ l : List (Option Int × LJ.Zuul.Build W.env), (l.map fun p => (p.1.map (· - (now' - now)), p.2)).mergeSort (fun x y => LJ.Zuul.scoreGe x.1 y.1) =
      (l.mergeSort fun x y => LJ.Zuul.scoreGe x.1 y.1).map fun p => (p.1.map (· - (now' - now)), p.2) := by
    intro l
    refine (List.map_mergeSort ?_).symm
    rintro ⟨a, _⟩ _ ⟨c, _⟩ _
    cases a <;> cases c <;> simp [LJ.Zuul.scoreGe]
  unfold ranked
  show List.map Prod.snd (List.mergeSort ((samples.map fun b => (LJ.Zuul.baselineScore x now' b, b)).filter (fun p => p.1.isSome && decide (x.uuid ≠ p.2.uuid))) _) = _
  rw [hpairs, hmap, List.map_map]
  rfl

theorem discover_spec (hu : S.useCache = true) (hd : ∀ s, (S.digest s).length = 64) (net : Nat → Net t) (hh : ∀ k url, (net k).head url ≠ none) (now : Int)
    (x y : Target W.env) (s s' : Sys) (hs : Sound s.cache) (h : S.discover W net now x s = (.ok y, s')) : Sound s'.cache ∧ Later S s.cache s'.cache ∧
      ∀ f, Later S s'.cache f → ∀ now', (now' = now ∨ now ≤ now' ∧ ∀ base url net' n bs, (S.getDecoded W.decodeBuilds net' base url ⟨f, n⟩) = (some bs, ⟨f, n⟩) → ∀ b ∈ bs, b.endTime.date ≤ now) →
        ∀ net' n, S.discover W net' now' x ⟨f, n⟩ = (.ok y, ⟨f, n⟩) := by
  unfold Setup.discover at h
  generalize hz : S.getSamples W net x s = z at h
  obtain ⟨o, s1⟩ := z
  cases o with
  | none => cases h
  | some samples =>
    obtain ⟨k1, k2, ⟨url, k3⟩, k4⟩ := getSamples_spec hu hd net x s s1 hs samples hz
    obtain ⟨o, s2, e, j1, j2, j3⟩ := firstAvailable_spec hu hd net hh (ranked x now samples) s1 k1
    simp only [e] at h
    cases o with
    | none => cases h
    | some b =>
      simp only at h
      cases hc : newContent x.api b with
      | none => rw [hc] at h; cases h
      | some y' =>
        rw [hc] at h
        simp only [Prod.mk.injEq, Outcome.ok.injEq] at h
        obtain ⟨rfl, rfl⟩ := h
        refine ⟨j1, k2.trans j2, fun f hf now' hnow net' n => ?_⟩
        have hr : ranked x now' samples = ranked x now samples := by
          rcases hnow with rfl | ⟨h1, h2⟩
          · rfl
          · exact ranked_later x h1 samples (h2 _ url net 0 samples (k3 f (j2.trans hf) net 0))
        unfold Setup.discover
        rw [k4 f (j2.trans hf)]
        simp only [hr, j3 f hf, hc]

theorem lookup_spec (hu : S.useCache = true) (hd : ∀ s, (S.digest s).length = 64) (net : Nat → Net t) (api : LJ.Zuul.Url W.env) (uid : Str)
    (x : Target W.env) (s s' : Sys) (hs : Sound s.cache) (h : S.lookup W net api uid s = (.ok x, s')) : Sound s'.cache ∧ Later S s.cache s'.cache ∧
      ∀ f, Later S s'.cache f → ∀ net' n, S.lookup W net' api uid ⟨f, n⟩ = (.ok x, ⟨f, n⟩) := by
  unfold Setup.lookup at h ⊢
  generalize hz : S.getBuild W net (toUrl api) uid s = z at h
  obtain ⟨o, s1⟩ := z
  cases o with
  | none => cases h
  | some b =>
    obtain ⟨k1, k2, k3⟩ := getBuild_spec hu hd net _ uid s s1 hs b hz
    simp only at h
    cases hc : newContent api b with
    | none => rw [hc] at h; cases h
    | some y' =>
      rw [hc] at h
      simp only [Prod.mk.injEq, Outcome.ok.injEq] at h
      obtain ⟨rfl, rfl⟩ := h
      exact ⟨k1, k2, fun f hf net' n => by simp only [k3 f hf, hc]⟩

/-! ### The comparison -/

variable [DecidableEq N]

theorem compareBuild_spec (hu : S.useCache = true) (hd : ∀ s, (S.digest s).length = 64) (hc : CutOk S) (hsr : SearchOk S) {net : Nat → Net t} (hg : Good net)
    (hh : ∀ k url, (net k).head url ≠ none) (o1 o2 : List (N × List (Source t)) → List (N × List (Source t))) (now : Int) (x : Target W.env)
    (r : Report (Content t) (Source t) N D E Unit) (s s' : Sys) (hs : Sound s.cache) (h : S.compareBuild W net o1 o2 now x s = (.ok r, s')) (ho : AllOpened r) :
    Sound s'.cache ∧ Later S s.cache s'.cache ∧ ∀ f, Later S s'.cache f → ∀ now', (now' = now ∨ now ≤ now' ∧ Ended W S f now) →
      ∀ net' n, S.compareBuild W net' o1 o2 now' x ⟨f, n⟩ = (.ok r, ⟨f, n⟩) ∧
        ((∀ g, (o1 g).Perm g) → (∀ g, (o2 g).Perm g) → ∀ o3 o4, (∀ g, (o3 g).Perm g) → (∀ g, (o4 g).Perm g) →
          ∃ r', S.compareBuild W net' o3 o4 now' x ⟨f, n⟩ = (.ok r', ⟨f, n⟩) ∧ SameReport r r') := by
  unfold Setup.compareBuild at h
  generalize hz : S.discover W net now x s = z at h
  obtain ⟨o, s1⟩ := z
  cases o with
  | panic => cases h
  | error e => cases h
  | ok y =>
    obtain ⟨k1, k2, k3⟩ := discover_spec hu hd net hh now x y s s1 hs hz
    simp only at h
    have hsame := compare_rel (sameFound_steps hd) net o1 o2 [.zuul (W.build y)] (.zuul (W.build x)) s1
    generalize hw : S.compare net o1 o2 [.zuul (W.build y)] (.zuul (W.build x)) s1 = w at h hsame
    obtain ⟨o, s2⟩ := w
    cases o with
    | panic => cases h
    | error e => cases h
    | ok r' =>
      simp only [Prod.mk.injEq, Outcome.ok.injEq] at h
      obtain ⟨rfl, rfl⟩ := h
      obtain ⟨j1, j2, j3⟩ := compare_spec hu hc hsr hg o1 o2 _ _ r' s1 s2 k1 hw ho
      have hl : Later S s1.cache s2.cache := .of_found hd k1 j2 hsame
      refine ⟨j1, k2.trans hl, fun f hf now' hnow net' n => ?_⟩
      obtain ⟨m, m1, m2⟩ := j3 f hf.ext
      unfold Setup.compareBuild
      rw [k3 f (hl.trans hf) now' hnow]
      refine ⟨by simp only [compare_cached hu net' o1 o2 _ _ m r' ⟨f, n⟩ m1 m2 ho], fun h1 h2 o3 o4 h3 h4 => ?_⟩
      obtain ⟨r2, e2, hsm⟩ := compare_again hu hsr net' o1 o2 o3 o4 h1 h2 h3 h4 _ _ r' ⟨f, n⟩ m m1 m2 ho
      exact ⟨r2, by simp only [e2], hsm⟩

theorem compareUrl_spec (hu : S.useCache = true) (hd : ∀ s, (S.digest s).length = 64) (hc : CutOk S) (hsr : SearchOk S) {net : Nat → Net t} (hg : Good net)
    (hh : ∀ k url, (net k).head url ≠ none) (o1 o2 : List (N × List (Source t)) → List (N × List (Source t))) (now : Int) (text : Str)
    (r : Report (Content t) (Source t) N D E Unit) (s s' : Sys) (hs : Sound s.cache) (h : S.compareUrl W net o1 o2 now text s = (.ok r, s')) (ho : AllOpened r) :
    Sound s'.cache ∧ Later S s.cache s'.cache ∧ ∀ f, Later S s'.cache f → ∀ now', (now' = now ∨ now ≤ now' ∧ Ended W S f now) →
      ∀ net' n, S.compareUrl W net' o1 o2 now' text ⟨f, n⟩ = (.ok r, ⟨f, n⟩) ∧
        ((∀ g, (o1 g).Perm g) → (∀ g, (o2 g).Perm g) → ∀ o3 o4, (∀ g, (o3 g).Perm g) → (∀ g, (o4 g).Perm g) →
          ∃ r', S.compareUrl W net' o3 o4 now' text ⟨f, n⟩ = (.ok r', ⟨f, n⟩) ∧ SameReport r r') := by
  simp only [Setup.compareUrl] at h ⊢
  cases hp : parseUrl (t := t) (String.ofList text) with
  | none => rw [hp] at h; cases h
  | some url =>
    rw [hp] at h
    simp only at h ⊢
    cases ha : W.hasAuthority url with
    | false => simp only [ha, Bool.not_false, if_true] at h; cases h
    | true =>
      simp only [ha, Bool.not_true, Bool.false_eq_true, if_false] at h ⊢
      cases hz : LJ.Zuul.getZuulApiUrl W.env (W.parts url) with
      | none => rw [hz] at h; cases h
      | some o =>
        cases o with
        | none => rw [hz] at h; cases h
        | some p =>
          obtain ⟨api, uid⟩ := p
          rw [hz] at h
          simp only at h ⊢
          generalize hl : S.lookup W net api uid s = y at h
          obtain ⟨o, s1⟩ := y
          cases o with
          | panic => cases h
          | error e => cases h
          | ok x =>
            obtain ⟨k1, k2, k3⟩ := lookup_spec hu hd net api uid x s s1 hs hl
            obtain ⟨j1, j2, j3⟩ := compareBuild_spec hu hd hc hsr hg hh o1 o2 now x r s1 s' k1 h ho
            refine ⟨j1, k2.trans j2, fun f hf now' hnow net' n => ?_⟩
            rw [k3 f (j2.trans hf)]
            exact j3 f hf now' hnow net' n

/-! ### Other runs -/

omit [DecidableEq N] in
theorem headUrl_later (hd : ∀ s, (S.digest s).length = 64) (net : Nat → Net t) (url : Url t) (s : Sys) (hs : Sound s.cache) :
    Sound (S.headUrl net url s).2.cache ∧ Later S s.cache (S.headUrl net url s).2.cache := by
  cases hu : S.useCache with
  | false =>
    unfold Setup.headUrl LJ.Cache.headUrl
    simp only [hu, Bool.false_eq_true, if_false]
    exact ⟨hs, Later.refl _⟩
  | true =>
    cases hk : (net s.asked).head url with
    | none =>
      unfold Setup.headUrl LJ.Cache.headUrl
      simp only [hu, if_true, hk, LJ.Cache.remoteHead, Option.map_none]
      cases LJ.Cache.head S.digest url url s.cache <;> exact ⟨hs, Later.refl _⟩
    | some k =>
      have e : S.headUrl net url s = S.headUrl (fun n => { net n with head := fun u => some (((net n).head u).getD 0) }) url s := by
        unfold Setup.headUrl
        simp only [hk, Option.getD_some]
      obtain ⟨v, s', e1, k1, k2, -⟩ := headUrl_spec (S := S) hu hd (fun n => { net n with head := fun u => some (((net n).head u).getD 0) }) (fun _ _ => by simp) url s hs
      rw [e, e1]
      exact ⟨k1, k2⟩

omit [DecidableEq N] in
theorem firstAvailable_later (hd : ∀ s, (S.digest s).length = 64) (net : Nat → Net t) (bs : List (LJ.Zuul.Build W.env)) (s : Sys) (hs : Sound s.cache) :
    Sound (S.firstAvailable net bs s).2.cache ∧ Later S s.cache (S.firstAvailable net bs s).2.cache := by
  induction bs generalizing s with
  | nil => exact ⟨hs, Later.refl _⟩
  | cons b bs ih =>
    simp only [Setup.firstAvailable]
    cases b.logUrl with
    | none => exact ih s hs
    | some url =>
      simp only
      obtain ⟨k1, k2⟩ := headUrl_later hd net (toUrl url) s hs
      generalize S.headUrl net (toUrl url) s = y at k1 k2
      obtain ⟨o, s1⟩ := y
      obtain ⟨j1, j2⟩ := ih s1 k1
      match o with
      | some true => exact ⟨k1, k2⟩
      | some false => exact ⟨j1, k2.trans j2⟩
      | none => exact ⟨j1, k2.trans j2⟩

omit [DecidableEq N] in
theorem getDecoded_later {α : Type} {decode : Bytes → Option α} (hd : ∀ s, (S.digest s).length = 64) (net : Nat → Net t) (base url : Url t)
    (s s' : Sys) (hs : Sound s.cache) (x : α) (h : S.getDecoded decode net base url s = (some x, s')) : Sound s'.cache ∧ Later S s.cache s'.cache := by
  cases hu : S.useCache with
  | true =>
    obtain ⟨k1, k2, -⟩ := getDecoded_spec hu hd net base url s s' hs x h
    exact ⟨k1, k2⟩
  | false =>
    unfold Setup.getDecoded LJ.Cache.getDecoded LJ.Cache.fromUrl at h
    simp only [hu, Bool.false_eq_true, if_false] at h
    cases hn : (net s.asked).api url with
    | none => rw [hn] at h; cases h
    | some resp =>
      rw [hn] at h
      simp only at h
      cases hx : (resp.body.all resp.body.fuel).bind decode with
      | none => rw [hx] at h; cases h
      | some y =>
        rw [hx] at h
        simp only [Prod.mk.injEq] at h
        obtain ⟨-, rfl⟩ := h
        exact ⟨hs, Later.refl _⟩

theorem compare_later (hd : ∀ s, (S.digest s).length = 64) (net : Nat → Net t) (o1 o2 : List (N × List (Source t)) → List (N × List (Source t)))
    (bs : List (Content t)) (c : Content t) (s : Sys) (hs : Sound s.cache) :
    Sound (S.compare net o1 o2 bs c s).2.cache ∧ Later S s.cache (S.compare net o1 o2 bs c s).2.cache := by
  obtain ⟨k1, k2⟩ := compare_kept (S := S) net o1 o2 bs c s hs
  exact ⟨k1, .of_found hd hs k2 (compare_rel (sameFound_steps hd) net o1 o2 bs c s)⟩

theorem compareUrl_later (hd : ∀ s, (S.digest s).length = 64) (net : Nat → Net t) (o1 o2 : List (N × List (Source t)) → List (N × List (Source t)))
    (now : Int) (text : Str) (s : Sys) (hs : Sound s.cache) (hr : Reached (S.compareUrl W net o1 o2 now text s).1) :
    Sound (S.compareUrl W net o1 o2 now text s).2.cache ∧ Later S s.cache (S.compareUrl W net o1 o2 now text s).2.cache := by
  simp only [Setup.compareUrl] at hr ⊢
  cases hp : parseUrl (t := t) (String.ofList text) with
  | none => rw [hp] at hr; exact hr.elim
  | some url =>
    rw [hp] at hr
    simp only at hr ⊢
    cases ha : W.hasAuthority url with
    | false => simp only [ha, Bool.not_false, if_true] at hr; exact hr.elim
    | true =>
      simp only [ha, Bool.not_true, Bool.false_eq_true, if_false] at hr ⊢
      cases hz : LJ.Zuul.getZuulApiUrl W.env (W.parts url) with
      | none => rw [hz] at hr; exact hr.elim
      | some o =>
        cases o with
        | none => rw [hz] at hr; exact hr.elim
        | some p =>
          obtain ⟨api, uid⟩ := p
          rw [hz] at hr
          simp only [Setup.lookup, Setup.getBuild] at hr ⊢
          cases hb : W.buildUrl (toUrl api) uid with
          | none => rw [hb] at hr; exact hr.elim
          | some u =>
            rw [hb] at hr
            simp only at hr ⊢
            generalize hy : S.getDecoded W.decodeBuild net (toUrl api) u s = y at hr
            obtain ⟨o, s1⟩ := y
            cases o with
            | none => exact hr.elim
            | some b =>
              obtain ⟨k1, k2⟩ := getDecoded_later hd net _ u s s1 hs b hy
              simp only at hr ⊢
              cases hc : newContent api b with
              | none => rw [hc] at hr; exact hr.elim
              | some x =>
                rw [hc] at hr
                simp only [Setup.compareBuild, Setup.discover, Setup.getSamples] at hr ⊢
                cases hb : W.samplesUrl (toUrl x.api) x.jobName with
                | none => rw [hb] at hr; exact hr.elim
                | some u2 =>
                  rw [hb] at hr
                  simp only at hr ⊢
                  generalize hy2 : S.getDecoded W.decodeBuilds net (toUrl x.api) u2 s1 = y2 at hr
                  obtain ⟨o, s2⟩ := y2
                  cases o with
                  | none => exact hr.elim
                  | some samples =>
                    obtain ⟨j1, j2⟩ := getDecoded_later hd net _ u2 s1 s2 k1 samples hy2
                    simp only at hr ⊢
                    obtain ⟨i1, i2⟩ := firstAvailable_later hd net (ranked x now samples) s2 j1
                    generalize S.firstAvailable net (ranked x now samples) s2 = y3 at i1 i2 hr
                    obtain ⟨o, s3⟩ := y3
                    cases o with
                    | none => exact hr.elim
                    | some b2 =>
                      simp only at hr ⊢
                      cases hc2 : newContent x.api b2 with
                      | none => rw [hc2] at hr; exact hr.elim
                      | some y =>
                        rw [hc2] at hr
                        simp only at hr ⊢
                        obtain ⟨l1, l2⟩ := compare_later hd net o1 o2 [.zuul (W.build y)] (.zuul (W.build x)) s3 i1
                        generalize S.compare net o1 o2 [.zuul (W.build y)] (.zuul (W.build x)) s3 = w at l1 l2
                        obtain ⟨o, s4⟩ := w
                        have hl := ((k2.trans j2).trans i2).trans l2
                        cases o <;> exact ⟨l1, hl⟩

theorem runs_later (hd : ∀ s, (S.digest s).length = 64) (us : List (Bool × Run t N)) (s : Sys) (hs : Sound s.cache) (hr : AllReached W S us s) :
    Later S s.cache (runs W S us s).cache := by
  induction us generalizing s with
  | nil => exact Later.refl _
  | cons u us ih =>
    obtain ⟨b, u⟩ := u
    cases u with
    | contents u =>
      obtain ⟨k1, k2⟩ := compare_later (S := S.on b) hd u.net u.order u.order' u.baselines u.target s hs
      exact Later.trans ⟨k2.ext, k2.heads⟩ (ih _ k1 hr)
    | build net o1 o2 now text =>
      obtain ⟨k1, k2⟩ := compareUrl_later (S := S.on b) (W := W) hd net o1 o2 now text s hs hr.1
      exact Later.trans ⟨k2.ext, k2.heads⟩ (ih _ k1 hr.2)

end
end LJ.Remote

/-
The lookup and the discovery of builds, on servers whose content does not change.
-/
import Verif.Remote.WebSpec
import Verif.Remote.SameLift
import Verif.Zuul.Lemmas
namespace LJ.Remote
open LJ.Codec (Bytes Texts Url Source Content)
open LJ.Cache (State Remote Response Opened File GoodDigest Key)
open LJ.Process (Str)
open LJ.Report (Report Fail)
open LJ.Zuul (Target WebUrl)

/-! ### The reads of a document -/

theorem all_steady (n : Nat) (r : Remote) (h : Steady r) (hn : r.rest.length < n) : r.all n = some r.rest := by
  induction n generalizing r with
  | zero => omega
  | succ n ih =>
    obtain ⟨c, r', e, h1, h2, h3, h4, h5⟩ := steady_read h 1
    unfold Remote.all
    rw [e]
    cases c with
    | nil =>
      simp only [Option.some.injEq]
      by_contra hne
      exact h4 (by omega) (fun h => hne h.symm) rfl
    | cons c cs =>
      simp only
      rw [ih r' h1 (by rw [← h2] at hn; simp at hn; omega), Option.map_some, h2]

theorem readerAll_steady (id i n : Nat) (r : Remote) (h : Steady r) (hn : r.rest.length < n) (s : State) (hs : s.readers[id]? = some (some ⟨r, i⟩)) :
    ∃ s' r', LJ.Cache.readerAll id n s = (some r.rest, s') ∧ s'.names = s.names ∧ s'.files = s.files.modify i (LJ.Cache.append r.rest) ∧
      s'.readers[id]? = some (some ⟨r', i⟩) := by
  induction n generalizing r s with
  | zero => omega
  | succ n ih =>
    obtain ⟨c, r', e, h1, h2, h3, h4, h5⟩ := steady_read h 1
    have hlen : id < s.readers.length := by
      by_contra hge
      rw [List.getElem?_eq_none (by omega)] at hs
      cases hs
    have est : LJ.Cache.readerRead id 1 s = (some c, { s with readers := s.readers.set id (some ⟨r', i⟩), files := s.files.modify i (LJ.Cache.append c) }) := by
      unfold LJ.Cache.readerRead
      rw [hs]
      simp only [e]
    unfold LJ.Cache.readerAll
    rw [est]
    cases c with
    | nil =>
      have hr : r.rest = [] := by
        by_contra hne
        exact h4 (by omega) hne rfl
      simp only
      rw [hr]
      exact ⟨_, r', rfl, rfl, rfl, by simp [hlen]⟩
    | cons c cs =>
      obtain ⟨s1, r1, g1, g2, g3, g4⟩ := ih r' h1 (by rw [← h2] at hn; simp at hn; omega)
        { s with readers := s.readers.set id (some ⟨r', i⟩), files := s.files.modify i (LJ.Cache.append (c :: cs)) } (by simp [hlen])
      simp only
      rw [g1]
      simp only [Option.map_some]
      refine ⟨s1, r1, by rw [h2], g2, ?_, g4⟩
      rw [g3]
      simp only
      rw [List.modify_modify_eq]
      congr 1
      funext f
      rw [← h2]
      simp [Function.comp, append_append]

section
variable {t : Texts} {N D E : Type} {S : Setup t N D E} {U V : String → Prop} {site : Site t}

/-! ### The cache -/

theorem holds_drop {c : State} (n : LJ.Cache.Name) (h : Holds V S site c) : Holds V S site (LJ.Cache.drop n c) := by
  have hget : ∀ m x, LJ.Cache.get m (LJ.Cache.drop n c) = some x → LJ.Cache.get m c = some x := by
    intro m x hx
    unfold LJ.Cache.get LJ.Cache.drop at hx
    simp only at hx
    split at hx
    · cases hx
    · exact hx
  have hne : ∀ m, LJ.Cache.get m (LJ.Cache.drop n c) ≠ none → LJ.Cache.get m c ≠ none := by
    intro m hm
    obtain ⟨x, hx⟩ := Option.ne_none_iff_exists'.1 hm
    rw [hget m x hx]
    simp
  refine ⟨?_, fun b u hb hu x hx => h.files b u hb hu x (hget _ _ hx), fun u hu x hx => h.lists u hu x (hget _ _ hx),
    fun u hu hx => h.found u hu (hne _ hx), fun u hu hx => h.missing u hu (hne _ hx)⟩
  intro m i hm
  unfold LJ.Cache.drop at hm ⊢
  simp only at hm
  split at hm
  · cases hm
  · exact h.sound m i hm

theorem holds_head (hd : GoodDigest S.digest V) {c c' : State} {url : Url t} (hu : V url.val) {r : Bool} (h : Holds V S site c)
    (hh : site.heads url = some r) (hc : LJ.Cache.headSet S.digest url url r c = some c') : Holds V S site c' := by
  generalize hk : (if r then Key.headYes url url else Key.headNo url url) = k
  have hku : ∀ u ∈ k.urls, V u.val := by subst hk; cases r <;> simp [Key.urls, hu]
  have hname : (if r then LJ.Cache.headSuccessName S.digest url url else LJ.Cache.headFailureName S.digest url url) = k.name S.digest := by
    subst hk; cases r <;> rfl
  unfold LJ.Cache.headSet LJ.Cache.create at hc
  rw [hname] at hc
  cases hn : c.names (k.name S.digest) with
  | some i => rw [hn] at hc; cases hc
  | none =>
    rw [hn] at hc
    simp only [Option.some.injEq] at hc
    subst hc
    obtain ⟨k1, k2, k3⟩ := ext_add (c := c) (n := k.name S.digest) (x := .raw []) (c' := { c with names := fun m => if m = k.name S.digest then some c.files.length else c.names m, files := c.files ++ [.raw []] })
      h.sound hn rfl rfl
    have hsame : ∀ (k' : Key t), (∀ u ∈ k'.urls, V u.val) → k' ≠ k →
        LJ.Cache.get (k'.name S.digest) { c with names := fun m => if m = k.name S.digest then some c.files.length else c.names m, files := c.files ++ [.raw []] } = LJ.Cache.get (k'.name S.digest) c :=
      fun k' hk' hne => get_other h.sound rfl rfl fun e => hne (LJ.Cache.name_inj hd hk' hku e)
    refine ⟨k1, ?_, ?_, ?_, ?_⟩
    · intro b u hb hu' x hx
      have := hsame (.content b u) (by simp [Key.urls, hb, hu']) (by subst hk; cases r <;> simp)
      exact h.files b u hb hu' x (this ▸ hx)
    · intro u hu' x hx
      have := hsame (.listing u) (by simp [Key.urls, hu']) (by subst hk; cases r <;> simp)
      exact h.lists u hu' x (this ▸ hx)
    · intro u hu' hx
      by_cases he : Key.headYes u u = k
      · subst hk
        cases r with
        | false => simp at he
        | true => simp only [if_true, Key.headYes.injEq, and_self] at he; rw [he]; exact hh
      · have := hsame (.headYes u u) (by simp [Key.urls, hu']) he
        exact h.found u hu' (this ▸ hx)
    · intro u hu' hx
      by_cases he : Key.headNo u u = k
      · subst hk
        cases r with
        | true => simp at he
        | false => simp only [Bool.false_eq_true, if_false, Key.headNo.injEq, and_self] at he; rw [he]; exact hh
      · have := hsame (.headNo u u) (by simp [Key.urls, hu']) he
        exact h.missing u hu' (this ▸ hx)

/-! ### Documents and heads -/

/-- without the cache -/
theorem getDecoded_off {α : Type} (decode : Bytes → Option α) (hu : S.useCache = false) {net : Nat → Net t} (hs : ServesApi site net) (base url : Url t) (s : Sys) :
    S.getDecoded decode net base url s = ((site.docs url).bind decode, ⟨s.cache, s.asked + 1⟩) := by
  obtain ⟨s1, s2, _⟩ := hs s.asked url
  unfold Setup.getDecoded LJ.Cache.getDecoded LJ.Cache.fromUrl Setup.asks LJ.Cache.dropUrl
  simp only [hu, Bool.false_eq_true, if_false, Bool.false_and, Bool.not_false, if_true]
  cases hn : (net s.asked).api url with
  | none =>
    rw [hn] at s1
    rw [← s1]
    rfl
  | some resp =>
    rw [hn] at s1
    rw [← s1]
    simp only [Option.map_some, Option.bind_some]
    rw [all_steady resp.body.fuel resp.body (s2 resp hn) (by unfold Remote.fuel; omega), Option.bind_some]
    cases decode resp.body.rest <;> rfl

theorem getDecoded_same {α : Type} (decode : Bytes → Option α) (hd : GoodDigest S.digest V) (b : Bool) {net : Nat → Net t} (hs : ServesApi site net)
    (base url : Url t) (hb : V base.val) (hv : V url.val) (s : Sys) (h : Holds V S site s.cache) :
    ((S.on b).getDecoded decode net base url s).1 = (site.docs url).bind decode ∧ Holds V S site ((S.on b).getDecoded decode net base url s).2.cache := by
  cases b with
  | false =>
    rw [getDecoded_off decode rfl hs]
    exact ⟨rfl, h⟩
  | true =>
    obtain ⟨s1, s2, _⟩ := hs s.asked url
    unfold Setup.getDecoded LJ.Cache.getDecoded LJ.Cache.fromUrl
    simp only [Setup.on, if_true]
    cases hg : LJ.Cache.get (LJ.Cache.httpName S.digest base url) s.cache with
    | some x =>
      obtain ⟨d, hdoc, rfl⟩ := h.files base url hb hv x hg
      have hrg : LJ.Cache.remoteGet S.digest base url s.cache = some (d, true) := by
        unfold LJ.Cache.remoteGet
        rw [hg]; rfl
      simp only [hrg, hdoc, if_true, Option.bind_some]
      cases decode d with
      | some x => exact ⟨rfl, h⟩
      | none => exact ⟨rfl, holds_drop _ h⟩
    | none =>
      have hrg : LJ.Cache.remoteGet S.digest base url s.cache = none := by
        unfold LJ.Cache.remoteGet
        rw [hg]; rfl
      have hname := get_none h.sound hg
      simp only [hrg]
      cases hn : (net s.asked).api url with
      | none =>
        rw [hn] at s1
        rw [← s1]
        exact ⟨rfl, h⟩
      | some resp =>
        rw [hn] at s1
        simp only [Option.map_some] at s1
        rw [← s1]
        simp only [LJ.Cache.remoteAdd, LJ.Cache.create, hname, Option.map_some, Option.getD_some, Option.bind_some]
        obtain ⟨c3, r', g0, g1, g2, g3⟩ := readerAll_steady s.cache.readers.length s.cache.files.length resp.body.fuel resp.body (s2 resp hn) (by unfold Remote.fuel; omega)
          { names := fun n => if n = LJ.Cache.httpName S.digest base url then some s.cache.files.length else s.cache.names n, files := s.cache.files ++ [.gz [] false],
            readers := s.cache.readers ++ [some ⟨resp.body, s.cache.files.length⟩] } (by simp)
        rw [g0]
        simp only [Option.bind_some]
        have hfin : LJ.Cache.readerClose s.cache.readers.length c3 = { c3 with readers := c3.readers.set s.cache.readers.length none, files := c3.files.modify s.cache.files.length LJ.Cache.finish } := by
          unfold LJ.Cache.readerClose
          rw [g3]
        have hh : Holds V S site (LJ.Cache.readerClose s.cache.readers.length c3) := by
          rw [hfin]
          refine holds_file hd hb hv h hname s1.symm g1 ?_
          simp only [g2]
          exact modify_last _ _ _ _
        cases decode resp.body.rest with
        | some x => exact ⟨rfl, hh⟩
        | none => exact ⟨rfl, holds_drop _ hh⟩

theorem headUrl_off (hu : S.useCache = false) {net : Nat → Net t} (hs : ServesApi site net) (url : Url t) (s : Sys) :
    S.headUrl net url s = (site.heads url, ⟨s.cache, s.asked + 1⟩) := by
  obtain ⟨_, _, s3⟩ := hs s.asked url
  unfold Setup.headUrl LJ.Cache.headUrl
  simp only [hu, Bool.false_eq_true, if_false, Bool.false_and, s3]

theorem headUrl_same (hd : GoodDigest S.digest V) (b : Bool) {net : Nat → Net t} (hs : ServesApi site net)
    (url : Url t) (hv : V url.val) (s : Sys) (h : Holds V S site s.cache) :
    ((S.on b).headUrl net url s).1 = site.heads url ∧ Holds V S site ((S.on b).headUrl net url s).2.cache := by
  cases b with
  | false =>
    rw [headUrl_off rfl hs]
    exact ⟨rfl, h⟩
  | true =>
    obtain ⟨_, _, s3⟩ := hs s.asked url
    unfold Setup.headUrl LJ.Cache.headUrl LJ.Cache.head
    simp only [Setup.on, if_true]
    cases hy : LJ.Cache.get (LJ.Cache.headSuccessName S.digest url url) s.cache with
    | some x => exact ⟨(h.found url hv (by rw [hy]; simp)).symm, h⟩
    | none =>
      cases hn : LJ.Cache.get (LJ.Cache.headFailureName S.digest url url) s.cache with
      | some x => exact ⟨(h.missing url hv (by rw [hn]; simp)).symm, h⟩
      | none =>
        simp only [Option.map_none]
        rw [s3]
        cases hr : site.heads url with
        | none => exact ⟨rfl, h⟩
        | some r =>
          simp only
          have hname : s.cache.names (if r then LJ.Cache.headSuccessName S.digest url url else LJ.Cache.headFailureName S.digest url url) = none := by
            cases r
            · exact get_none h.sound hn
            · exact get_none h.sound hy
          cases hc : LJ.Cache.headSet S.digest url url r s.cache with
          | none =>
            unfold LJ.Cache.headSet LJ.Cache.create at hc
            rw [hname] at hc
            cases hc
          | some c' => exact ⟨rfl, holds_head hd hv h hr hc⟩

end
end LJ.Remote

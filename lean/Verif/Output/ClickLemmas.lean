/-
Lemmas about the elements of a page in a browser.
-/
import Verif.Output.Clicks
import Verif.Output.Page
namespace LJ.Output
open LJ.Process (Str)
open Spec (Within)

/-! ### Nothing but classes and the display changes -/

mutual
/-- An element without its classes and its display. -/
def Dom.bare : Dom → Node
  | .text s => .text s
  | .elem tag attrs _ _ children => .elem tag attrs (bares children)
def bares : List Dom → List Node
  | [] => []
  | d :: ds => d.bare :: bares ds
end

theorem bares_map : ∀ ds : List Dom, bares ds = ds.map Dom.bare
  | [] => rfl
  | d :: ds => by rw [bares, bares_map ds]; rfl

/-- A change which keeps the tags, the attributes and the texts. -/
def Keeps (f : Dom → Dom) : Prop := ∀ d, (f d).bare = d.bare

theorem Keeps.comp {f g : Dom → Dom} (hf : Keeps f) (hg : Keeps g) : Keeps (fun d => f (g d)) := fun d => (hf _).trans (hg d)

theorem keeps_add (c : String) : Keeps (Dom.addClass c) := by
  intro d; cases d <;> simp only [Dom.addClass, Dom.bare]

theorem keeps_remove (c : String) : Keeps (Dom.removeClass c) := by
  intro d; cases d <;> simp only [Dom.removeClass, Dom.bare]

theorem keeps_toggleClass (c : String) : Keeps (Dom.toggleClass c) := by
  intro d
  unfold Dom.toggleClass
  split
  · exact keeps_remove c d
  · exact keeps_add c d

theorem keeps_toggle : Keeps Dom.toggle := by
  intro d; cases d <;> simp only [Dom.toggle, Dom.bare]

theorem map_modify {f : Dom → Dom} (hf : Keeps f) (ds : List Dom) (i : Nat) : (ds.modify i f).map Dom.bare = ds.map Dom.bare := by
  refine List.ext_getElem? fun j => ?_
  rw [List.getElem?_map, List.getElem?_map, List.getElem?_modify]
  cases ds[j]? with
  | none => rfl
  | some d =>
    simp only [Option.map_eq_map, Option.map_some, Option.some.injEq]
    split
    · exact hf d
    · rfl

theorem keeps_update {f : Dom → Dom} (hf : Keeps f) : ∀ p : List Nat, Keeps (Dom.update f p)
  | [], d => by unfold Dom.update; exact hf d
  | i :: p, .text s => by unfold Dom.update; rfl
  | i :: p, .elem t as ws sh cs => by
    unfold Dom.update
    rw [Dom.bare, Dom.bare, bares_map, bares_map, map_modify (keeps_update hf p)]

mutual
theorem keeps_inside {sel : Dom → Bool} {f : Dom → Dom} (hf : Keeps f) : Keeps (Dom.inside sel f)
  | .text s => by rw [Dom.inside]
  | .elem t as ws sh cs => by rw [Dom.inside, Dom.bare, Dom.bare, keeps_insides hf cs]
theorem keeps_insides {sel : Dom → Bool} {f : Dom → Dom} (hf : Keeps f) : ∀ ds : List Dom, bares (Dom.insides sel f ds) = bares ds
  | [] => by rw [Dom.insides]
  | d :: ds => by
    rw [Dom.insides, bares, bares, keeps_insides hf ds]
    simp only
    split
    · rw [hf, keeps_inside hf d]
    · rw [keeps_inside hf d]
end

theorem keeps_header (this target : List Nat) : Keeps (headerClick this target) := by
  intro d
  unfold headerClick
  split
  · rw [keeps_update (keeps_inside (keeps_toggleClass _)), keeps_update (keeps_toggleClass _), keeps_update (keeps_inside (keeps_toggleClass _))]
  · rfl

theorem keeps_close (this : List Nat) : Keeps (closeClick this) := by
  intro d
  unfold closeClick
  rw [keeps_update (keeps_inside (keeps_remove _)), keeps_update (keeps_remove _), keeps_update (keeps_add _)]

theorem keeps_debug : Keeps debugClick := keeps_inside keeps_toggle

theorem keeps_handle (target this : List Nat) : Keeps (fun d => handle target d this) := by
  intro d
  show (handle target d this).bare = d.bare
  unfold handle
  split
  · rfl
  · rename_i n _
    simp only
    split <;> split <;> split <;> simp only [keeps_debug _, keeps_close _ _, keeps_header _ _ _]

theorem keeps_click (target : List Nat) : Keeps (fun d => click d target) := by
  intro d
  have loop : ∀ (ps : List (List Nat)) (d : Dom), (ps.foldl (handle target) d).bare = d.bare := by
    intro ps
    induction ps with
    | nil => intro d; rfl
    | cons p ps ih => intro d; rw [List.foldl_cons, ih]; exact keeps_handle target p d
  show (click d target).bare = d.bare
  unfold click
  split
  · exact loop _ _
  · rfl

theorem keeps_clicks (targets : List (List Nat)) (d : Dom) : (targets.foldl click d).bare = d.bare := by
  induction targets generalizing d with
  | nil => rfl
  | cons q qs ih => rw [List.foldl_cons, ih]; exact keeps_click q d

/-! ### Places -/

/-- The element of a page at a place. -/
def Node.at? : Node → List Nat → Option Node
  | n, [] => some n
  | .text _, _ :: _ => none
  | .elem _ _ cs, i :: p => cs[i]?.bind fun c => c.at? p

theorem loads_map (x : Option Bool) : ∀ ns : List Node, loads x ns = ns.map (load x)
  | [] => by rw [loads]; rfl
  | n :: ns => by rw [loads, loads_map x ns]; rfl

theorem load_at (x : Option Bool) : ∀ (p : List Nat) (n : Node), (load x n).at? p = (n.at? p).map (load x)
  | [], n => by unfold Dom.at? Node.at?; rfl
  | i :: p, .text s => by rw [load]; unfold Dom.at? Node.at?; rfl
  | i :: p, .elem t as cs => by
    rw [load]
    unfold Dom.at? Node.at?
    rw [loads_map, List.getElem?_map]
    cases h : cs[i]? with
    | none => rfl
    | some c => exact load_at x p c

theorem bare_at : ∀ (p : List Nat) (d : Dom), (d.at? p).map Dom.bare = d.bare.at? p
  | [], d => by unfold Dom.at? Node.at?; rfl
  | i :: p, .text s => by rw [Dom.bare]; unfold Dom.at? Node.at?; rfl
  | i :: p, .elem t as ws sh cs => by
    rw [Dom.bare]
    unfold Dom.at? Node.at?
    rw [bares_map, List.getElem?_map]
    cases h : cs[i]? with
    | none => rfl
    | some c => exact bare_at p c

theorem update_append (f : Dom → Dom) (q : List Nat) : ∀ (p : List Nat) (d : Dom), d.update f (p ++ q) = d.update (Dom.update f q) p
  | [], d => by simp only [List.nil_append, Dom.update]
  | i :: p, .text s => by simp only [List.cons_append, Dom.update]
  | i :: p, .elem t as ws sh cs => by
    simp only [List.cons_append, Dom.update]
    rw [show Dom.update f (p ++ q) = Dom.update (Dom.update f q) p from funext fun d => update_append f q p d]

theorem update_update (f g : Dom → Dom) : ∀ (p : List Nat) (d : Dom), (d.update g p).update f p = d.update (fun d => f (g d)) p
  | [], d => by simp only [Dom.update]
  | i :: p, .text s => by simp only [Dom.update]
  | i :: p, .elem t as ws sh cs => by
    simp only [Dom.update, List.modify_modify_eq]
    rw [show Dom.update f p ∘ Dom.update g p = Dom.update (fun d => f (g d)) p from funext fun d => update_update f g p d]

/-! ### Elements without handlers -/

/-- The classes which the script looks for. -/
def keys : List Str := ["list-group-item-header".toList, "close".toList, "fa-angle-right".toList, "list-group-item-container".toList, "fa-ellipsis-v".toList]

/-- The attributes have none of the classes which the script looks for, nor the id of the button. -/
def quiet (attrs : List Str) : Bool := keys.all (fun k => !(classesOf attrs).contains k) && idOf attrs != some "debugbtn".toList

mutual
/-- All the elements are quiet. -/
def Quiet : Node → Prop
  | .text _ => True
  | .elem _ attrs children => quiet attrs = true ∧ Quiets children
def Quiets : List Node → Prop
  | [] => True
  | n :: ns => Quiet n ∧ Quiets ns
end

theorem quiets_iff : ∀ {ns : List Node}, Quiets ns ↔ ∀ n ∈ ns, Quiet n
  | [] => by simp [Quiets]
  | n :: ns => by rw [Quiets, quiets_iff, List.forall_mem_cons]

theorem quiets_append {ns ms : List Node} : Quiets (ns ++ ms) ↔ Quiets ns ∧ Quiets ms := by
  simp only [quiets_iff, List.forall_mem_append]

theorem quiet_elem {tag : String} {attrs : List Str} {children : List Node} (h1 : quiet attrs = true) (h2 : Quiets children) : Quiet (.elem tag attrs children) := by
  rw [Quiet]; exact ⟨h1, h2⟩

theorem quiet_text (s : Str) : Quiet (.text s) := by rw [Quiet]; trivial

theorem quiets_nil : Quiets [] := by rw [Quiets]; trivial

theorem quiets_cons {n : Node} {ns : List Node} (h1 : Quiet n) (h2 : Quiets ns) : Quiets (n :: ns) := by rw [Quiets]; exact ⟨h1, h2⟩

theorem quiets_textOne {s : Str} : Quiets [.text s] := quiets_cons (quiet_text s) quiets_nil

theorem quiet_class {attrs : List Str} (h : quiet attrs = true) {k : Str} (hk : k ∈ keys) : (classesOf attrs).contains k = false := by
  unfold quiet at h
  have := List.all_eq_true.1 ((Bool.and_eq_true _ _).mp h).1 k hk
  simpa using this

theorem quiet_id {attrs : List Str} (h : quiet attrs = true) : idOf attrs ≠ some "debugbtn".toList := by
  unfold quiet at h
  have := ((Bool.and_eq_true _ _).mp h).2
  intro e
  rw [e] at this
  exact absurd this (by decide +kernel)

theorem quiet_at : ∀ (p : List Nat) {n m : Node}, Quiet n → n.at? p = some m → Quiet m
  | [], n, m, h, e => by
    unfold Node.at? at e
    cases e
    exact h
  | i :: p, .text s, m, h, e => by
    unfold Node.at? at e
    cases e
  | i :: p, .elem t as cs, m, h, e => by
    unfold Node.at? at e
    obtain ⟨c, h1, h2⟩ := Option.bind_eq_some_iff.1 e
    rw [Quiet] at h
    exact quiet_at p (quiets_iff.1 h.2 c (List.mem_of_getElem? h1)) h2

theorem load_hasClass (x : Option Bool) {n : Node} (h : Quiet n) {k : String} (hk : k.toList ∈ keys) : (load x n).hasClass k = false := by
  cases n with
  | text s => rfl
  | elem t as cs =>
    rw [Quiet] at h
    rw [load]
    exact quiet_class h.1 hk

mutual
theorem inside_quiet (x : Option Bool) (f : Dom → Dom) {k : String} (hk : k.toList ∈ keys) : ∀ n : Node, Quiet n →
    Dom.inside (·.hasClass k) f (load x n) = load x n
  | .text s, _ => by rw [load, Dom.inside]
  | .elem t as cs, h => by
    rw [Quiet] at h
    rw [load, Dom.inside, insides_quiet x f hk cs h.2]
theorem insides_quiet (x : Option Bool) (f : Dom → Dom) {k : String} (hk : k.toList ∈ keys) : ∀ ns : List Node, Quiets ns →
    Dom.insides (·.hasClass k) f (loads x ns) = loads x ns
  | [], _ => by rw [loads, Dom.insides]
  | n :: ns, h => by
    rw [Quiets] at h
    rw [loads, Dom.insides, insides_quiet x f hk ns h.2, inside_quiet x f hk n h.1]
    simp only [load_hasClass x h.1 hk]
    simp
end

/-! ### The button -/

theorem id_filter (attrs : List Str) : idOf (attrs.filter fun a => (valueFor "class" a).isNone) = idOf attrs := by
  unfold idOf
  induction attrs with
  | nil => rfl
  | cons a as ih =>
    rw [List.filter_cons]
    cases h : valueFor "class" a with
    | none =>
      rw [if_pos (by rfl), List.findSome?_cons, List.findSome?_cons, ih]
    | some v =>
      have : valueFor "id" a = none := by
        unfold valueFor at h ⊢
        split at h
        · rename_i hp
          obtain ⟨t, rfl⟩ := List.isPrefixOf_iff_prefix.1 hp
          rfl
        · cases h
      simp only [Option.isNone_some, Bool.false_eq_true, if_false]
      rw [ih, List.findSome?_cons, this]

/-- the display of the elements `debuginfo` after a click on the button -/
def flipped (x : Option Bool) : Option Bool := if x = some true then some false else some true

theorem load_id (x : Option Bool) (n : Node) : (load x n).id? = match n with | .text _ => none | .elem _ as _ => idOf as := by
  cases n with
  | text s => rw [load]; rfl
  | elem t as cs => rw [load]; exact id_filter as

mutual
theorem inside_debug (x : Option Bool) : ∀ n : Node,
    (let d := Dom.inside (fun n => n.id? == some "debuginfo".toList) Dom.toggle (load x n)
     if (load x n).id? == some "debuginfo".toList then d.toggle else d) = load (flipped x) n
  | .text s => by
    simp only [load_id]
    rw [load, load, Dom.inside]
    rfl
  | .elem t as cs => by
    simp only [load_id]
    rw [load, load, Dom.inside, insides_debug x cs]
    by_cases h : idOf as = some "debuginfo".toList
    · simp only [h, beq_self_eq_true, if_true, Dom.toggle, flipped]
    · have hb : (idOf as == some "debuginfo".toList) = false := by simpa using h
      simp only [hb, Bool.false_eq_true, if_false, if_neg h]
theorem insides_debug (x : Option Bool) : ∀ ns : List Node,
    Dom.insides (fun n => n.id? == some "debuginfo".toList) Dom.toggle (loads x ns) = loads (flipped x) ns
  | [] => by rw [loads, loads, Dom.insides]
  | n :: ns => by
    rw [loads, loads, Dom.insides, insides_debug x ns]
    exact congrArg (· :: _) (inside_debug x n)
end

theorem debugClick_load (x : Option Bool) {n : Node} (h : (load x n).id? ≠ some "debuginfo".toList) : debugClick (load x n) = load (flipped x) n := by
  have := inside_debug x n
  have hb : ((load x n).id? == some "debuginfo".toList) = false := by simpa using h
  simp only [hb, Bool.false_eq_true, if_false] at this
  exact this

/-! ### The places around a place -/

theorem mem_around : ∀ {q p : List Nat}, p ∈ around q ↔ p <+: q
  | [], p => by simp [around]
  | i :: q, [] => by simp [around]
  | i :: q, j :: p => by
    simp only [around, List.mem_append, List.mem_map, List.mem_singleton, reduceCtorEq, or_false, List.cons_prefix_cons]
    constructor
    · rintro ⟨r, h1, h2⟩
      obtain ⟨rfl, rfl⟩ := List.cons.inj h2
      exact ⟨rfl, mem_around.1 h1⟩
    · rintro ⟨rfl, h⟩
      exact ⟨p, mem_around.2 h, rfl⟩

theorem around_nodup : ∀ q : List Nat, (around q).Nodup
  | [] => by simp [around]
  | i :: q => by
    rw [around, List.nodup_append]
    refine ⟨?_, by simp, ?_⟩
    · exact List.Nodup.map (fun a b h => (List.cons.inj h).2) (around_nodup q)
    · intro a ha b hb e
      rw [List.mem_singleton] at hb
      obtain ⟨r, _, rfl⟩ := List.mem_map.1 ha
      subst hb
      cases e

/-- a fold which changes something at one place only -/
theorem foldl_once {α β : Type} {f : β → α → β} {I : β → Prop} {p : α} (hI : ∀ b, I b → I (f b p)) : ∀ {ps : List α} {b : β}, ps.Nodup → I b →
    (∀ b, I b → ∀ q ∈ ps, q ≠ p → f b q = b) → (p ∈ ps → ps.foldl f b = f b p) ∧ (p ∉ ps → ps.foldl f b = b)
  | [], b, _, _, _ => ⟨fun h => by simp at h, fun _ => rfl⟩
  | q :: ps, b, hn, hb, h => by
    rw [List.nodup_cons] at hn
    have h' : ∀ b, I b → ∀ q ∈ ps, q ≠ p → f b q = b := fun b hb q hq => h b hb q (by simp [hq])
    rw [List.foldl_cons]
    constructor
    · intro hp
      rcases List.mem_cons.1 hp with rfl | hp
      · exact (foldl_once hI hn.2 (hI b hb) h').2 hn.1
      · have hq : q ≠ p := fun e => hn.1 (e ▸ hp)
        rw [h b hb q (by simp) hq]
        exact (foldl_once hI hn.2 hb h').1 hp
    · intro hp
      rw [List.mem_cons, not_or] at hp
      rw [h b hb q (by simp) (Ne.symm hp.1)]
      exact (foldl_once hI hn.2 hb h').2 hp.2

end LJ.Output

/-
Properties of the elements of the HTML document: C95 (what is in an attribute stays in it) and C96 (links inside the page).
-/
import Verif.Output.Document
import Verif.Output.Page
namespace LJ.Output
open LJ.Process (Str Anomaly AnomalyContext)
open LJ.Report (Report LogReport)
open Spec (Within)

namespace Spec
/-- One attribute of HTML with a quoted value: a name, then a value without the quote which ends it. -/
def OneAttribute (a : Str) : Prop :=
  ∃ name value : Str, ∃ q : Char, (q = '"' ∨ q = '\'') ∧ a = name ++ '=' :: q :: (value ++ [q]) ∧ q ∉ value ∧ name ≠ [] ∧ ∀ c ∈ name, c.isAlpha

/-- Every element in the page has attributes which satisfy `P`. -/
def AllAttributes (P : Str → Prop) (page : Node) : Prop := ∀ tag attrs children, Within (.elem tag attrs children) page → ∀ a ∈ attrs, P a

/-- A link to the place `x` of the page. -/
def LinkTo (page : Node) (x : Str) : Prop := ∃ attrs children, Within (.elem "a" attrs children) page ∧ "href=\"#".toList ++ x ++ "\"".toList ∈ attrs

/-- The place `x` of the page. -/
def Place (page : Node) (x : Str) : Prop :=
  ∃ tag attrs children, Within (.elem tag attrs children) page ∧ ("id=\"".toList ++ x ++ "\"".toList ∈ attrs ∨ "id='".toList ++ x ++ "'".toList ∈ attrs)
end Spec
open Spec (OneAttribute AllAttributes LinkTo Place)

/-! ### The attributes of the page -/

theorem all_text (P : Str → Prop) (s : Str) : AllAttributes P (.text s) := by
  intro tag attrs children h
  cases h

theorem all_elem {P : Str → Prop} {tag : String} {attrs : List Str} {children : List Node} (h1 : ∀ a ∈ attrs, P a)
    (h2 : ∀ c ∈ children, AllAttributes P c) : AllAttributes P (.elem tag attrs children) := by
  intro tag' attrs' children' h
  cases h with
  | here => exact h1
  | inside hc hw => exact h2 _ hc _ _ _ hw

theorem all_elem_iff {P : Str → Prop} {tag : String} {attrs : List Str} {children : List Node} :
    AllAttributes P (.elem tag attrs children) ↔ (∀ a ∈ attrs, P a) ∧ ∀ c ∈ children, AllAttributes P c :=
  ⟨fun h => ⟨h _ _ _ .here, fun _ hc _ _ _ hw => h _ _ _ (.inside hc hw)⟩, fun h => all_elem h.1 h.2⟩

theorem all_text_iff {P : Str → Prop} {s : Str} : AllAttributes P (.text s) ↔ True := ⟨fun _ => trivial, fun _ => all_text P s⟩

/-- The value of an attribute and the quote which ends it: the value, if the quote is the last character and is only there. -/
def valueOf (q : Char) : Str → Option Str
  | [] => none
  | c :: s => if c = q then (if s = [] then some [] else none) else (valueOf q s).map (c :: ·)

/-- The value of an attribute, with its quotes. -/
def quoted : Str → Option Str
  | '"' :: s => valueOf '"' s
  | '\'' :: s => valueOf '\'' s
  | _ => none

/-- The name and the value of an attribute. -/
def parse : Str → Option (Str × Str)
  | [] => none
  | c :: s => if c = '=' then (quoted s).map fun v => ([], v) else if c.isAlpha then (parse s).map fun p => (c :: p.1, p.2) else none

/-- The places of the pages. -/
def places : List Str := ["debugbtn".toList, "debuginfo".toList, "TODO".toList]

/-- An attribute which is not a handler of events, which is not a place, or is one of those of the pages, and which is not a link inside the page but to its top. -/
def fixed (a : Str) : Bool :=
  match parse a with
  | none => false
  | some (name, value) => (!name.isEmpty && name.take 2 != ['o', 'n']) && (name != ['i', 'd'] || places.contains value) &&
    (name != ['h', 'r', 'e', 'f'] || value == ['#'] || value.head? != some '#')

section
variable {C S N D E ε : Type} [DecidableEq N]

/-- The attributes of a page. -/
inductive Known (lb : Labels C S N) (r : Report C S N D E ε) : Str → Prop
  | const {a : Str} : fixed a = true → Known lb r a
  | colour (n : Nat) : Known lb r ("style=\"color: #".toList ++ padLeft ' ' 2 (upperHex n) ++ "0000\"".toList)
  | model {l : LogReport S N D} : l ∈ r.logReports → Known lb r (href (modelAnchor lb l.indexName))
  | file {l : LogReport S N D} : l ∈ r.logReports → Known lb r (href (lb.location l.source))
  | sample {l : LogReport S N D} {ss : List S} {s : S} : l ∈ r.logReports → r.indexReports.lookup l.indexName = some ss → s ∈ ss.take 3 →
      Known lb r (href (lb.location s))

variable {checks : Bool} {sc : Scale D} {lb : Labels C S N} {r : Report C S N D E ε}

theorem consts {as : List Str} (h : as.all fixed = true) : ∀ a ∈ as, Known lb r a := by
  intro a ha
  exact .const (List.all_eq_true.1 h a ha)

theorem all_nil {P : Str → Prop} : ∀ c ∈ ([] : List Node), AllAttributes P c := by simp

theorem all_cons {P : Str → Prop} {n : Node} {ns : List Node} (h1 : AllAttributes P n) (h2 : ∀ c ∈ ns, AllAttributes P c) :
    ∀ c ∈ n :: ns, AllAttributes P c := List.forall_mem_cons.2 ⟨h1, h2⟩

theorem all_one {P : Str → Prop} {n : Node} (h : AllAttributes P n) : ∀ c ∈ [n], AllAttributes P c := all_cons h all_nil

theorem all_textOne {P : Str → Prop} {s : Str} : ∀ c ∈ [Node.text s], AllAttributes P c := all_one (all_text P s)

theorem no_attrs {P : Str → Prop} : ∀ a ∈ ([] : List Str), P a := by simp

theorem one_attr {P : Str → Prop} {a : Str} (h : P a) : ∀ b ∈ [a], P b := by
  intro b hb
  rwa [List.mem_singleton.1 hb]

theorem all_context {P : Str → Prop} {pos : Nat} : ∀ (xs : List Str) (idx : Nat) {ns : List Node}, renderContextFrom checks pos idx xs = some ns →
    ∀ n ∈ ns, AllAttributes P n
  | [], _, _, h => by cases h; simp
  | line :: xs, idx, ns, h => by
    simp only [renderContextFrom, Option.bind_eq_bind, Option.bind_eq_some_iff] at h
    obtain ⟨p, _, n, _, rest, h1, h2⟩ := h
    cases h2
    intro m hm
    rcases List.mem_cons.1 hm with rfl | hm
    · exact all_elem no_attrs all_textOne
    · exact all_context xs (idx + 1) h1 m hm

theorem all_lines : ∀ (cs : List (AnomalyContext D)) (last : Option Nat) {ns : List Node}, renderFrom checks sc last cs = some ns →
    ∀ n ∈ ns, AllAttributes (Known lb r) n
  | [], _, _, h => by cases h; simp
  | c :: cs, last, ns, h => by
    simp only [renderFrom, Option.bind_eq_bind, Option.bind_eq_some_iff] at h
    obtain ⟨⟨nodes, last'⟩, h1, rest, h2, h3⟩ := h
    cases h3
    simp only [renderAnomaly, Option.bind_eq_bind, Option.bind_eq_some_iff] at h1
    obtain ⟨p, _, start, _, before, b1, after, b2, l, _, b3⟩ := h1
    cases b3
    intro n hn
    simp only [List.mem_append] at hn
    rcases hn with (((hn | hn) | hn) | hn) | hn
    · unfold separator at hn
      cases last with
      | none => cases hn
      | some l =>
        simp only at hn
        split at hn
        · rw [List.mem_singleton.1 hn]
          exact all_elem (consts (by decide +kernel)) all_nil
        · cases hn
    · exact all_context _ _ b1 n hn
    · rw [List.mem_singleton.1 hn]
      exact all_elem (one_attr (.colour _)) all_textOne
    · exact all_context _ _ b2 n hn
    · exact all_lines cs _ h2 n hn

theorem all_infoTable : AllAttributes (Known lb r) (infoTable lb r) := by
  unfold infoTable table
  refine all_elem (consts (by decide +kernel)) (all_one (all_elem (consts (by decide +kernel)) (all_one (all_elem no_attrs ?_))))
  intro c hm
  obtain ⟨row, _, rfl⟩ := List.mem_map.1 hm
  refine all_elem no_attrs ?_
  intro c hm
  obtain ⟨cell, _, rfl⟩ := List.mem_map.1 hm
  exact all_elem no_attrs all_textOne

theorem all_header {l : LogReport S N D} (hl : l ∈ r.logReports) (expand : Bool) : AllAttributes (Known lb r) (itemHeader lb l expand) := by
  have h1 : AllAttributes (Known lb r) (heading lb l) :=
    all_elem (consts (by decide +kernel)) (all_one (all_elem (consts (by decide +kernel)) all_textOne))
  have h2 : AllAttributes (Known lb r) (modelInfo lb l) :=
    all_elem (consts (by decide +kernel)) (all_cons (all_elem (consts (by decide +kernel)) all_nil)
      (all_cons (all_elem (one_attr (.model hl)) all_textOne) all_textOne))
  have h3 : AllAttributes (Known lb r) (fileInfo lb l) :=
    all_elem (consts (by decide +kernel)) (all_cons (all_elem (consts (by decide +kernel)) all_nil)
      (all_one (all_elem (one_attr (.file hl)) all_textOne)))
  have h4 : AllAttributes (Known lb r) (countInfo l) :=
    all_elem (consts (by decide +kernel)) (all_cons (all_elem (consts (by decide +kernel)) all_nil) (all_one (all_elem no_attrs all_textOne)))
  unfold itemHeader
  refine all_elem (consts (by decide +kernel)) (all_cons (all_elem (consts (by decide +kernel)) (all_one (all_elem (consts ?_) all_nil)))
    (all_one (all_elem (consts (by decide +kernel)) (all_cons (all_elem (consts (by decide +kernel)) (all_one (all_elem (consts (by decide +kernel)) all_nil)))
      (all_one (all_elem (consts (by decide +kernel)) (all_cons h1 (all_cons h2 (all_cons h3 (all_one h4))))))))))
  cases expand <;> decide +kernel

theorem all_samples {l : LogReport S N D} (hl : l ∈ r.logReports) :
    ∀ n ∈ samples lb (r.indexReports.lookup l.indexName), AllAttributes (Known lb r) n := by
  cases h : r.indexReports.lookup l.indexName with
  | none => exact all_nil
  | some ss =>
    refine all_one (all_elem (consts (by decide +kernel)) (all_cons (all_text _ _) (all_one (all_elem no_attrs ?_))))
    intro c hc
    obtain ⟨s, hs, rfl⟩ := List.mem_map.1 hc
    exact all_elem no_attrs (all_one (all_elem (one_attr (.sample hl h hs)) all_textOne))

theorem all_item {l : LogReport S N D} (hl : l ∈ r.logReports) {expand : Bool} {item : Node}
    (h : renderContentReport checks sc lb l (r.indexReports.lookup l.indexName) expand = some item) : AllAttributes (Known lb r) item := by
  obtain ⟨lines, h1, rfl⟩ := renderContentReport_some h
  refine all_elem (consts ?_) (all_cons (all_header hl expand) (all_one (all_elem (consts ?_) ?_)))
  · cases expand <;> decide +kernel
  · cases expand <;> decide +kernel
  · intro c hm
    rcases List.mem_append.1 hm with hm | hm
    · refine all_cons ?_ (all_samples hl) c hm
      exact all_elem (consts (by decide +kernel)) (all_one (all_elem (consts (by decide +kernel)) all_nil))
    · exact all_one (all_elem (consts (by decide +kernel)) (all_lines _ _ h1)) c hm

theorem all_items : ∀ (ls : List (LogReport S N D)) (expand : Bool) {items : List Node}, (∀ l ∈ ls, l ∈ r.logReports) →
    renderReports checks sc lb r.indexReports expand ls = some items → ∀ n ∈ items, AllAttributes (Known lb r) n
  | [], _, _, _, h => by cases h; simp
  | l :: ls, expand, items, hl, h => by
    simp only [renderReports, Option.bind_eq_bind, Option.bind_eq_some_iff] at h
    obtain ⟨item, h1, rest, h2, h3⟩ := h
    cases h3
    exact all_cons (all_item (hl l (by simp)) h1) (all_items ls false (fun l hm => hl l (by simp [hm])) h2)

theorem all_container {page : Node} (h : container checks sc lb r = some page) : AllAttributes (Known lb r) page := by
  simp only [container, Option.bind_eq_bind, Option.bind_eq_some_iff] at h
  obtain ⟨items, h1, h2⟩ := h
  cases h2
  exact all_elem (consts (by decide +kernel)) (all_cons all_infoTable (all_one (all_elem (consts (by decide +kernel)) (all_items _ _ (fun _ h => h) h1))))

theorem all_head (css title : Str) : AllAttributes (Known lb r) (head css title) := by
  refine all_elem no_attrs ?_
  intro c hc
  rcases List.mem_append.1 hc with hc | hc
  · rcases List.mem_append.1 hc with hc | hc
    · exact all_cons (all_elem no_attrs all_textOne) (all_one (all_elem (consts (by decide +kernel)) all_nil)) c hc
    · obtain ⟨x, hx, rfl⟩ := List.mem_map.1 hc
      clear * - hx
      refine all_elem (consts ?_) all_nil
      revert x
      decide +kernel
  · exact all_one (all_elem no_attrs all_textOne) c hc

theorem all_nav (version : Str) : AllAttributes (Known lb r) (nav version) := by
  have h1 : AllAttributes (Known lb r) (utility version) :=
    all_elem (consts (by decide +kernel)) (all_cons (all_elem no_attrs (all_one (all_elem (consts (by decide +kernel)) all_textOne)))
      (all_cons (all_elem no_attrs (all_one (all_elem (consts (by decide +kernel)) all_textOne)))
        (all_one (all_elem no_attrs (all_one (all_elem (consts (by decide +kernel)) (all_cons (all_elem no_attrs all_textOne) all_textOne)))))))
  have h2 : AllAttributes (Known lb r) primary :=
    all_elem (consts (by decide +kernel)) (all_cons (all_elem (consts (by decide +kernel)) (all_one (all_elem (consts (by decide +kernel)) all_textOne)))
      (all_one (all_elem no_attrs (all_one (all_elem (consts (by decide +kernel)) all_textOne)))))
  exact all_elem (consts (by decide +kernel)) (all_cons (all_elem (consts (by decide +kernel)) (all_one (all_elem (consts (by decide +kernel)) all_nil)))
    (all_one (all_elem (consts (by decide +kernel)) (all_cons h1 (all_one h2)))))

/-- The attributes of the document. -/
theorem all_document {css version : Str} {page : Node} (h : document checks sc css version lb r = some page) : AllAttributes (Known lb r) page := by
  simp only [document, body, Option.bind_eq_bind, Option.bind_eq_some_iff] at h
  obtain ⟨b, ⟨c, h1, h2⟩, h3⟩ := h
  cases h2
  cases h3
  refine all_elem (consts (by decide +kernel)) (all_cons (all_head _ _) (all_one (all_elem no_attrs ?_)))
  intro c hc
  rcases List.mem_append.1 hc with hc | hc
  · rcases List.mem_append.1 hc with hc | hc
    · exact all_cons (all_nav _) (all_one (all_container h1)) c hc
    · obtain ⟨x, hx, rfl⟩ := List.mem_map.1 hc
      clear * - hx
      refine all_elem (consts ?_) all_nil
      revert x
      decide +kernel
  · exact all_one (all_elem no_attrs all_textOne) c hc

end

/-! ### C95: what is in an attribute stays in it -/

theorem valueOf_some {q : Char} : ∀ {s v : Str}, valueOf q s = some v → s = v ++ [q] ∧ q ∉ v
  | [], _, h => by cases h
  | c :: s, v, h => by
    rw [valueOf] at h
    split at h
    · rename_i hc
      split at h
      · rename_i hs
        cases h
        subst hc hs
        exact ⟨rfl, by simp⟩
      · cases h
    · rename_i hc
      rw [Option.map_eq_some_iff] at h
      obtain ⟨w, h1, rfl⟩ := h
      obtain ⟨e, hw⟩ := valueOf_some h1
      refine ⟨by rw [e]; rfl, ?_⟩
      rw [List.mem_cons]
      rintro (h | h)
      · exact hc h.symm
      · exact hw h

theorem quoted_some {s v : Str} (h : quoted s = some v) : ∃ q, (q = '"' ∨ q = '\'') ∧ s = q :: (v ++ [q]) ∧ q ∉ v := by
  unfold quoted at h
  split at h
  · obtain ⟨h1, h2⟩ := valueOf_some h
    exact ⟨'"', .inl rfl, by rw [h1], h2⟩
  · obtain ⟨h1, h2⟩ := valueOf_some h
    exact ⟨'\'', .inr rfl, by rw [h1], h2⟩
  · cases h

theorem parse_some : ∀ {a : Str} {p : Str × Str}, parse a = some p →
    ∃ q, (q = '"' ∨ q = '\'') ∧ a = p.1 ++ '=' :: q :: (p.2 ++ [q]) ∧ q ∉ p.2 ∧ ∀ c ∈ p.1, c.isAlpha
  | [], _, h => by cases h
  | c :: s, p, h => by
    rw [parse] at h
    split at h
    · rename_i hc
      rw [Option.map_eq_some_iff] at h
      obtain ⟨v, h1, rfl⟩ := h
      obtain ⟨q, h2, h3, h4⟩ := quoted_some h1
      exact ⟨q, h2, by rw [hc, h3]; rfl, h4, by simp⟩
    · split at h
      · rename_i hc
        rw [Option.map_eq_some_iff] at h
        obtain ⟨v, h1, rfl⟩ := h
        obtain ⟨q, h2, h3, h4, h5⟩ := parse_some h1
        refine ⟨q, h2, by rw [h3]; rfl, h4, ?_⟩
        intro x hx
        rcases List.mem_cons.1 hx with rfl | hx
        · exact hc
        · exact h5 x hx
      · cases h

theorem fixed_one {a : Str} (h : fixed a = true) : OneAttribute a := by
  unfold fixed at h
  split at h
  · cases h
  · rename_i name value hp
    obtain ⟨q, h1, h2, h3, h4⟩ := parse_some hp
    refine ⟨name, value, q, h1, h2, h3, ?_, h4⟩
    rintro rfl
    simp at h

/-- the name of an attribute ends at the first `=` -/
theorem name_unique {n m x y : Str} (hn : ∀ c ∈ n, c.isAlpha) (hm : ∀ c ∈ m, c.isAlpha) (h : n ++ '=' :: x = m ++ '=' :: y) : n = m ∧ x = y := by
  induction n generalizing m with
  | nil =>
    cases m with
    | nil => exact ⟨rfl, (List.cons.inj h).2⟩
    | cons c m =>
      have e : '=' = c := (List.cons.inj h).1
      have := hm c (by simp)
      rw [← e] at this
      exact absurd this (by decide)
  | cons c n ih =>
    cases m with
    | nil =>
      have e : c = '=' := (List.cons.inj h).1
      have := hn c (by simp)
      rw [e] at this
      exact absurd this (by decide)
    | cons d m =>
      obtain ⟨e1, e2⟩ := List.cons.inj h
      obtain ⟨h1, h2⟩ := ih (fun c hc => hn c (by simp [hc])) (fun c hc => hm c (by simp [hc])) e2
      exact ⟨by rw [e1, h1], h2⟩

theorem value_unique {q r : Char} {v w : Str} (h : q :: (v ++ [q]) = r :: (w ++ [r])) : q = r ∧ v = w := by
  obtain ⟨rfl, h⟩ := List.cons.inj h
  exact ⟨rfl, List.append_cancel_right h⟩

theorem href_parts (u : Str) : href u = ['h', 'r', 'e', 'f'] ++ '=' :: '"' :: (u ++ ['"']) := rfl

theorem href_one (u : Str) : OneAttribute (href u) ↔ '"' ∉ u := by
  constructor
  · rintro ⟨n, v, q, h1, h2, h3, h4, h5⟩
    rw [href_parts] at h2
    obtain ⟨_, e⟩ := name_unique (by decide) h5 h2
    obtain ⟨rfl, rfl⟩ := value_unique e
    exact h3
  · intro h
    exact ⟨['h', 'r', 'e', 'f'], u, '"', .inl rfl, href_parts u, h, by decide, by decide⟩

theorem digits_of (n : Nat) : ∀ c ∈ Nat.toDigits 16 n, ∃ d < 16, c = Nat.digitChar d := by
  induction n using Nat.strongRecOn with
  | _ n ih =>
    intro c hc
    rw [Nat.toDigits_eq_if (by decide)] at hc
    split at hc
    · rename_i hn
      exact ⟨n, hn, List.mem_singleton.1 hc⟩
    · rename_i hn
      rcases List.mem_append.1 hc with hc | hc
      · exact ih (n / 16) (by omega) c hc
      · exact ⟨n % 16, Nat.mod_lt _ (by decide), List.mem_singleton.1 hc⟩

theorem upperHex_quote (n : Nat) : '"' ∉ upperHex n := by
  unfold upperHex
  intro h
  obtain ⟨c, hc, e⟩ := List.mem_map.1 h
  obtain ⟨d, hd, rfl⟩ := digits_of n c hc
  have : ∀ d < 16, (Nat.digitChar d).toUpper ≠ '"' := by decide
  exact this d hd e

theorem colour_one (n : Nat) : OneAttribute ("style=\"color: #".toList ++ padLeft ' ' 2 (upperHex n) ++ "0000\"".toList) := by
  refine ⟨['s', 't', 'y', 'l', 'e'], "color: #".toList ++ padLeft ' ' 2 (upperHex n) ++ "0000".toList, '"', .inl rfl, ?_, ?_, by decide, by decide⟩
  · have e1 : "style=\"color: #".toList = ['s', 't', 'y', 'l', 'e'] ++ '=' :: '"' :: "color: #".toList := by decide +kernel
    have e2 : "0000\"".toList = "0000".toList ++ ['"'] := by decide +kernel
    rw [e1, e2]
    simp only [List.append_assoc, List.cons_append]
  · simp only [List.mem_append]
    rintro ((h | h) | h)
    · revert h; decide +kernel
    · unfold padLeft at h
      rcases List.mem_append.1 h with h | h
      · exact absurd (List.eq_of_mem_replicate h) (by decide)
      · exact upperHex_quote n h
    · revert h; decide +kernel

section
variable {C S N D E ε : Type} [DecidableEq N] {checks : Bool} {sc : Scale D} {css version : Str} {lb : Labels C S N} {r : Report C S N D E ε}
  {page : Node}

/-- the container is in the document -/
theorem document_container (h : document checks sc css version lb r = some page) : ∃ c, container checks sc lb r = some c ∧ Within c page := by
  simp only [document, body, Option.bind_eq_bind, Option.bind_eq_some_iff] at h
  obtain ⟨b, ⟨c, h1, h2⟩, h3⟩ := h
  cases h2
  cases h3
  exact ⟨c, h1, .inside (.tail _ (.head _)) (.inside (List.mem_append_left _ (List.mem_append_left _ (.tail _ (.head _)))) .here)⟩

/-- the links of the document -/
theorem document_links (h : document checks sc css version lb r = some page) {l : LogReport S N D} (hl : l ∈ r.logReports) :
    Spec.Links page ("#model_".toList ++ lb.name l.indexName) (lb.name l.indexName) ∧ Spec.Links page (lb.location l.source) "file".toList ∧
    ∀ ss, r.indexReports.lookup l.indexName = some ss → ∀ s ∈ ss.take 3, Spec.Links page (lb.location s) (lb.location s) := by
  obtain ⟨c, h1, h2⟩ := document_container h
  obtain ⟨items, ⟨info, rfl⟩, _, h3⟩ := C83_items h1
  obtain ⟨i, hi⟩ := List.mem_iff_getElem?.1 hl
  obtain ⟨item, lines, a1, _, _, a2, _, a3, _, a4⟩ := h3 i l hi
  have hin : Within item page := by
    refine Within.trans ?_ h2
    exact .inside (.tail _ (.head _)) (.inside (List.mem_of_getElem? a1) .here)
  exact ⟨Within.trans a3 hin, Within.trans a2 hin, fun ss hss s hs => Within.trans (a4 ss hss s hs) hin⟩

/-- Every attribute of the page is one attribute exactly when the quote is not in the locations and in the names of the models shown in
the page: the locations of the reported files, and of the first three baselines of each index. -/
theorem C95_partial (h : document checks sc css version lb r = some page):
    AllAttributes OneAttribute page ↔
      ∀ l ∈ r.logReports, '"' ∉ lb.name l.indexName ∧ '"' ∉ lb.location l.source ∧
        ∀ ss, r.indexReports.lookup l.indexName = some ss → ∀ s ∈ ss.take 3, '"' ∉ lb.location s := by
  constructor
  · intro hall
    have key : ∀ u t, Spec.Links page u t → '"' ∉ u := by
      intro u t hu
      exact (href_one u).1 (hall _ _ _ hu (href u) (List.mem_singleton.2 rfl))
    intro l hl
    obtain ⟨h1, h2, h3⟩ := document_links h hl
    exact ⟨fun hq => key _ _ h1 (List.mem_append_right _ hq), key _ _ h2, fun ss e s hs => key _ _ (h3 ss e s hs)⟩
  · rintro h1 tag attrs children hw a ha
    cases all_document h tag attrs children hw a ha with
    | const hf => exact fixed_one hf
    | colour n => exact colour_one n
    | model hl =>
      refine (href_one _).2 fun hq => ?_
      unfold modelAnchor at hq
      rcases List.mem_append.1 hq with hq | hq
      · revert hq; decide
      · exact (h1 _ hl).1 hq
    | file hl => exact (href_one _).2 (h1 _ hl).2.1
    | sample hl e hs => exact (href_one _).2 ((h1 _ hl).2.2 _ e _ hs)

/-- The document is made when the container is. -/
theorem document_made : (∃ page, document checks sc css version lb r = some page) ↔ ∃ c, container checks sc lb r = some c := by
  unfold document body
  cases container checks sc lb r <;> simp

/-! ### C96: links inside the page -/

/-- The places of a page do not depend on the report. -/
theorem C96_places (h : document checks sc css version lb r = some page) {x : Str} (hx : Place page x) :
    x = "debugbtn".toList ∨ x = "debuginfo".toList ∨ x = "TODO".toList := by
  obtain ⟨tag, attrs, children, hw, ha⟩ := hx
  obtain ⟨a, q, ham, hq⟩ : ∃ a q, a ∈ attrs ∧ a = ['i', 'd'] ++ '=' :: q :: (x ++ [q]) := by
    rcases ha with ha | ha
    · exact ⟨_, '"', ha, rfl⟩
    · exact ⟨_, '\'', ha, rfl⟩
  have no : ∀ u, href u ≠ ['i', 'd'] ++ '=' :: q :: (x ++ [q]) := by
    intro u e
    rw [href_parts] at e
    exact absurd (List.cons.inj e).1 (by decide)
  have hk := all_document h tag attrs children hw a ham
  cases hk with
  | const hf =>
    unfold fixed at hf
    split at hf
    · cases hf
    · rename_i name value hp
      obtain ⟨q', _, e, _, hal⟩ := parse_some hp
      rw [hq] at e
      obtain ⟨e1, e2⟩ := name_unique (by decide) hal e
      obtain ⟨_, e3⟩ := value_unique e2
      simp only at e1 e3
      subst e1 e3
      have : places.contains x = true := by
        rw [Bool.and_eq_true, Bool.and_eq_true, Bool.or_eq_true] at hf
        rcases hf.1.2 with h | h
        · exact absurd h (by decide)
        · exact h
      have := List.contains_iff_mem.1 this
      simpa [places] using this
  | colour n =>
    exfalso
    have e1 : "style=\"color: #".toList = 's' :: "tyle=\"color: #".toList := by decide +kernel
    rw [e1] at hq
    exact absurd (List.cons.inj hq).1 (by decide)
  | model hl => exact absurd hq (no _)
  | file hl => exact absurd hq (no _)
  | sample hl e hs => exact absurd hq (no _)

/-- The link to the model of a reported file leads nowhere: for every report, no element of the page is its place. -/
theorem C96_dangling (h : document checks sc css version lb r = some page) {l : LogReport S N D} (hl : l ∈ r.logReports) :
    LinkTo page ("model_".toList ++ lb.name l.indexName) ∧ ¬ Place page ("model_".toList ++ lb.name l.indexName) := by
  constructor
  · refine ⟨_, _, (document_links h hl).1, List.mem_singleton.2 ?_⟩
    rfl
  · intro hp
    have e : "model_".toList = 'm' :: "odel_".toList := by decide +kernel
    rw [e] at hp
    rcases C96_places h hp with h | h | h
    all_goals
      have h2 := congrArg List.head? h
      have h3 : some 'm' = _ := h2
      revert h3
      decide +kernel

/-- Except for those, and for the files whose location starts with `#`, the links inside the page lead to its top. -/
theorem C96_partial (h : document checks sc css version lb r = some page)
    (hloc : ∀ s x, lb.location s ≠ '#' :: x) {x : Str} (hx : LinkTo page x) : x = [] ∨ ∃ l ∈ r.logReports, x = "model_".toList ++ lb.name l.indexName := by
  obtain ⟨attrs, children, hw, ha⟩ := hx
  obtain ⟨a, hq⟩ : ∃ a, a = ['h', 'r', 'e', 'f'] ++ '=' :: '"' :: (('#' :: x) ++ ['"']) := ⟨_, rfl⟩
  have hk : Known lb r a := by
    rw [hq]
    exact all_document h _ attrs children hw _ ha
  have of : ∀ u, href u = a → u = '#' :: x := by
    intro u e
    rw [href_parts, hq] at e
    exact (value_unique (name_unique (by decide) (by decide) e).2).2
  cases hk with
  | const hf =>
    unfold fixed at hf
    split at hf
    · cases hf
    · rename_i name value hp
      obtain ⟨q', _, e, _, hal⟩ := parse_some hp
      rw [hq] at e
      obtain ⟨e1, e2⟩ := name_unique (by decide) hal e
      obtain ⟨_, e3⟩ := value_unique e2
      simp only at e1 e3
      subst e1 e3
      rw [Bool.and_eq_true, Bool.or_eq_true, Bool.or_eq_true] at hf
      rcases hf.2 with (h | h) | h
      · exact absurd h (by decide)
      · left; simpa using h
      · exact absurd h (by simp)
  | colour n =>
    exfalso
    have e1 : "style=\"color: #".toList = 's' :: "tyle=\"color: #".toList := by decide +kernel
    rw [e1] at hq
    exact absurd (List.cons.inj hq).1 (by decide)
  | @model l hl =>
    refine .inr ⟨l, hl, ?_⟩
    have := of _ rfl
    have e : "#model_".toList = '#' :: "model_".toList := by decide +kernel
    unfold modelAnchor at this
    rw [e] at this
    exact (List.cons.inj this).2.symm
  | file hl => exact absurd (of _ rfl) (hloc _ _)
  | sample hl e hs => exact absurd (of _ rfl) (hloc _ _)

end

end LJ.Output

/-
The attributes which a browser reads in the tags of the page.

The page is made of texts of attributes (`html_builder` writes them in the tags as they are).  A browser reads one attribute in most of them, but a quote in
the name of a file ends the value, and what follows is read as other attributes.
-/
import Verif.Output.ClickProps
import Verif.Output.Attributes
namespace LJ.Output
open LJ.Process (Str)
open LJ.Report (Report LogReport)
open Spec (OneAttribute AllAttributes itemAt opened presses Shows)

/-- Where a browser is in the text of a tag: between the attributes, in a name, after the `=`, in a value with quotes or in a value without. -/
inductive Reading where
  | between
  | name (n : Str)
  | equals (n : Str)
  | value (n : Str) (q : Char) (v : Str)
  | bare (n : Str) (v : Str)

/-- The attributes in the text of a tag, each as `name="value"` or `name='value'` (the states "attribute name" and "attribute value" of the HTML standard, 13.2.5).
Simplified: an attribute without a value is left out, the spaces around `=` are not skipped, and nothing is read after a `>` out of the quotes, which ends the
tag. -/
def readFrom : Reading → Str → List Str
  | .between, [] => []
  | .between, c :: s => if c = '>' then [] else if c = ' ' then readFrom .between s else readFrom (.name [c]) s
  | .name _, [] => []
  | .name n, c :: s =>
    if c = '=' then readFrom (.equals n) s else if c = '>' then [] else if c = ' ' then readFrom .between s else readFrom (.name (n ++ [c])) s
  | .equals _, [] => []
  | .equals n, c :: s => if c = '"' ∨ c = '\'' then readFrom (.value n c []) s else if c = '>' then [] else readFrom (.bare n [c]) s
  | .value _ _ _, [] => []
  | .value n q v, c :: s => if c = q then (n ++ '=' :: q :: (v ++ [q])) :: readFrom .between s else readFrom (.value n q (v ++ [c])) s
  | .bare n v, [] => [n ++ '=' :: '"' :: (v ++ ['"'])]
  | .bare n v, c :: s =>
    if c = '>' then [n ++ '=' :: '"' :: (v ++ ['"'])]
    else if c = ' ' then (n ++ '=' :: '"' :: (v ++ ['"'])) :: readFrom .between s else readFrom (.bare n (v ++ [c])) s

def readAttributes (a : Str) : List Str := readFrom .between a

mutual
/-- The page which a browser reads: each text of an attribute gives the attributes in it. -/
def browser : Node → Node
  | .text s => .text s
  | .elem tag attrs children => .elem tag (attrs.flatMap readAttributes) (browsers children)
def browsers : List Node → List Node
  | [] => []
  | n :: ns => browser n :: browsers ns
end

theorem browsers_map : ∀ ns : List Node, browsers ns = ns.map browser
  | [] => by rw [browsers]; rfl
  | n :: ns => by rw [browsers, browsers_map ns]; rfl

theorem browser_at : ∀ (p : List Nat) (n : Node), (browser n).at? p = (n.at? p).map browser
  | [], n => by unfold Node.at?; rfl
  | i :: p, .text s => by rw [browser]; unfold Node.at?; rfl
  | i :: p, .elem t as cs => by
    rw [browser]
    unfold Node.at?
    rw [browsers_map, List.getElem?_map]
    cases cs[i]? with
    | none => rfl
    | some c => exact browser_at p c

/-! ### A page of single attributes is read as it is -/

theorem read_value (n : Str) (q : Char) : ∀ (w v : Str), q ∉ w → readFrom (.value n q v) (w ++ [q]) = [n ++ '=' :: q :: (v ++ w ++ [q])]
  | [], v, _ => by simp [readFrom]
  | c :: w, v, h => by
    have hc : ¬ c = q := fun e => h (by rw [e]; exact .head _)
    rw [List.cons_append, readFrom, if_neg hc, read_value n q w (v ++ [c]) fun hm => h (.tail _ hm)]
    simp

theorem alpha_ne {c : Char} (h : c.isAlpha = true) : c ≠ '=' ∧ c ≠ '>' ∧ c ≠ ' ' :=
  ⟨by rintro rfl; revert h; decide, by rintro rfl; revert h; decide, by rintro rfl; revert h; decide⟩

theorem read_name (s : Str) : ∀ (m n : Str), (∀ c ∈ m, c.isAlpha) → readFrom (.name n) (m ++ '=' :: s) = readFrom (.equals (n ++ m)) s
  | [], n, _ => by simp [readFrom]
  | c :: m, n, h => by
    obtain ⟨h1, h2, h3⟩ := alpha_ne (h c (.head _))
    rw [List.cons_append, readFrom, if_neg h1, if_neg h2, if_neg h3, read_name s m (n ++ [c]) fun d hd => h d (.tail _ hd)]
    simp

theorem read_one {a : Str} (h : OneAttribute a) : readAttributes a = [a] := by
  obtain ⟨name, value, q, hq, rfl, hv, hn, ha⟩ := h
  cases name with
  | nil => exact absurd rfl hn
  | cons c m =>
    obtain ⟨h1, h2, h3⟩ := alpha_ne (ha c (.head _))
    rw [readAttributes, List.cons_append, readFrom, if_neg h2, if_neg h3, read_name _ m [c] fun d hd => ha d (.tail _ hd), readFrom, if_pos hq,
      read_value _ q value [] hv]
    simp

mutual
theorem browser_one : ∀ {n : Node}, AllAttributes OneAttribute n → browser n = n
  | .text s, _ => by rw [browser]
  | .elem tag attrs children, h => by
    rw [all_elem_iff] at h
    rw [browser, browsers_one h.2]
    congr 1
    have : ∀ as : List Str, (∀ a ∈ as, OneAttribute a) → as.flatMap readAttributes = as := by
      intro as
      induction as with
      | nil => intro _; rfl
      | cons a as ih =>
        intro h
        rw [List.flatMap_cons, read_one (h a (.head _)), ih fun b hb => h b (.tail _ hb)]
        rfl
    exact this _ h.1
theorem browsers_one : ∀ {ns : List Node}, (∀ n ∈ ns, AllAttributes OneAttribute n) → browsers ns = ns
  | [], _ => by rw [browsers]
  | n :: ns, h => by rw [browsers, browser_one (h n (.head _)), browsers_one fun m hm => h m (.tail _ hm)]
end

/-! ### The link to a file -/

namespace Spec
/-- The place of the link to the file of the item `i`. -/
def fileAt (i : Nat) : List Nat := [1, 1, 1, i, 0, 1, 1, 2, 1]

/-- What a user sees of a page with `count` reported files, after any clicks.  Each item is open or closed in all its parts, and changed only by the clicks on its
own header and icon.  The elements of the debug information are all shown after an odd number of clicks on the button and all hidden otherwise, and no style
hides another element.  The texts and links are not changed.  The link to the file of an item is not in the debug information. -/
def Behaves (page : Node) (count : Nat) : Prop := ∀ qs : List (List Nat),
  (∀ i < count, ∃ item, (clicks page qs).at? (itemAt i) = some item ∧ Shows item (opened page i qs)) ∧
  (∀ p n, (clicks page qs).at? p = some n → (n.id? = some "debuginfo".toList → (display n = some true ↔ presses page qs % 2 = 1)) ∧
    (n.id? ≠ some "debuginfo".toList → display n = none)) ∧
  (clicks page qs).bare = (load none page).bare ∧
  ∀ i < count, (∃ attrs, page.at? (fileAt i) = some (.elem "a" attrs [.text "file".toList])) ∧
    ∀ p d, p <+: fileAt i → (clicks page qs).at? p = some d → d.id? ≠ some "debuginfo".toList
end Spec
open Spec (fileAt Behaves)

section
variable {C S N D E ε : Type} {checks : Bool} {sc : Scale D} {lb : Labels C S N} {css version : Str}

/-- the items of the page are those of the reported files -/
theorem document_files [DecidableEq N] {r : Report C S N D E ε} {page : Node} (h : document checks sc css version lb r = some page) :
    ∃ xs : List (LogReport S N D × List Node × Option (List S)), xs.map (·.1) = r.logReports ∧ (∀ x ∈ xs, Quiets x.2.1) ∧
      page = pageWith css version ("Logreduce of ".toList ++ lb.content r.target) (infoTable lb r) lb xs (· == 0) := by
  simp only [document, body, container, Option.bind_eq_bind, Option.bind_eq_some_iff] at h
  obtain ⟨b, ⟨c, ⟨items, h1, h2⟩, h3⟩, h4⟩ := h
  cases h2
  cases h3
  cases h4
  obtain ⟨xs, e1, e2, e3⟩ := items_with _ _ h1
  refine ⟨xs, e1, fun x hx => quiet_lines _ _ (e2 x hx), ?_⟩
  rw [e3]
  unfold pageWith
  simp only [Bool.and_true]

theorem link_place [DecidableEq N] {r : Report C S N D E ε} {page : Node} (h : document checks sc css version lb r = some page) {i : Nat} {l : LogReport S N D}
    (hl : r.logReports[i]? = some l) : page.at? (fileAt i) = some (.elem "a" [href (lb.location l.source)] [.text "file".toList]) := by
  obtain ⟨xs, e, _, rfl⟩ := document_files h
  rw [← e, List.getElem?_map] at hl
  obtain ⟨x, hx, rfl⟩ := Option.map_eq_some_iff.1 hl
  rw [fileAt, at_item, hx]
  rfl

/-- an element of a page whose id is not that of the debug information -/
def Plain (n : Node) : Prop := match n with | .text _ => True | .elem _ as _ => idOf as ≠ some "debuginfo".toList

theorem class_plain (s : String) : idOf [classAttr s] ≠ some "debuginfo".toList := by
  have e : classAttr s = 'c' :: ("lass=\"".toList ++ s.toList ++ "\"".toList) := rfl
  have : valueFor "id" (classAttr s) = none := by
    unfold valueFor
    rw [e]
    rfl
  unfold idOf
  rw [List.findSome?_cons, this]
  simp

theorem href_plain (u : Str) : idOf [href u] ≠ some "debuginfo".toList := by
  have : valueFor "id" (href u) = none := rfl
  unfold idOf
  rw [List.findSome?_cons, this]
  simp

theorem item_plain (lb : Labels C S N) (x : LogReport S N D × List Node × Option (List S)) (o : Bool) {p : List Nat} {n : Node} (hp : p <+: [0, 1, 1, 2, 1])
    (hn : (itemNode lb x o).at? p = some n) : Plain n := by
  obtain ⟨t, ht⟩ := hp
  rcases p with _ | ⟨a, _ | ⟨b, _ | ⟨c, _ | ⟨d, _ | ⟨e, p⟩⟩⟩⟩⟩
  · cases hn
    show idOf _ ≠ _
    cases o <;> decide +kernel
  all_goals simp only [List.cons_append, List.nil_append, List.cons.injEq] at ht
  · obtain ⟨rfl, _⟩ := ht
    cases hn
    exact class_plain _
  · obtain ⟨rfl, rfl, _⟩ := ht
    cases hn
    exact class_plain _
  · obtain ⟨rfl, rfl, rfl, _⟩ := ht
    cases hn
    exact class_plain _
  · obtain ⟨rfl, rfl, rfl, rfl, _⟩ := ht
    cases hn
    exact class_plain _
  · obtain ⟨rfl, rfl, rfl, rfl, rfl, h⟩ := ht
    obtain ⟨rfl, _⟩ := List.append_eq_nil_iff.1 h
    cases hn
    exact href_plain _

theorem page_plain {title : Str} {info : Node} {xs : List (LogReport S N D × List Node × Option (List S))} {o : Nat → Bool} {i : Nat} {p : List Nat} {n : Node}
    (hp : p <+: fileAt i) (hn : (pageWith css version title info lb xs o).at? p = some n) : Plain n := by
  obtain ⟨t, ht⟩ := hp
  unfold fileAt at ht
  rcases p with _ | ⟨a, _ | ⟨b, _ | ⟨c, _ | ⟨j, p⟩⟩⟩⟩
  · cases hn
    show idOf _ ≠ _
    decide +kernel
  all_goals simp only [List.cons_append, List.nil_append, List.cons.injEq] at ht
  · obtain ⟨rfl, _⟩ := ht
    cases hn
    show idOf _ ≠ _
    decide +kernel
  · obtain ⟨rfl, rfl, _⟩ := ht
    cases hn
    show idOf _ ≠ _
    decide +kernel
  · obtain ⟨rfl, rfl, rfl, _⟩ := ht
    cases hn
    exact class_plain _
  · obtain ⟨rfl, rfl, rfl, rfl, h⟩ := ht
    rw [at_item] at hn
    obtain ⟨x, _, hn⟩ := Option.bind_eq_some_iff.1 hn
    exact item_plain lb x _ ⟨t, h⟩ hn

/-- C123 for a page each attribute of which is one attribute. -/
theorem behaves [DecidableEq N] {r : Report C S N D E ε} {page : Node} (h : document checks sc css version lb r = some page) (ha : AllAttributes OneAttribute page) :
    Behaves (browser page) r.logReports.length := by
  rw [browser_one ha]
  intro qs
  refine ⟨fun i hi => C123_items h qs hi, fun p n hn => C123_debug h qs hn, C123_content page qs, fun i hi => ⟨⟨_, link_place h (List.getElem?_eq_getElem hi)⟩, ?_⟩⟩
  intro p d hp hd
  obtain ⟨xs, hl, hq, hpage⟩ := document_with h
  obtain ⟨o, h1, _⟩ := clicks_page (quiet_info r) hq hpage qs
  rw [h1, load_at] at hd
  obtain ⟨m, h3, rfl⟩ := Option.map_eq_some_iff.1 hd
  rw [load_id]
  have := page_plain hp h3
  cases m with
  | text s => intro h; cases h
  | elem t as cs => exact this

end

/-- What is read in the name of a file. -/
example : readAttributes "href=\"x\" id=\"debuginfo\"".toList = ["href=\"x\"".toList, "id=\"debuginfo\"".toList] ∧
    readAttributes "class='a b'".toList = ["class='a b'".toList] ∧ readAttributes "href=\"x\"onclick=a b c='d".toList = ["href=\"x\"".toList, "onclick=\"a\"".toList] := by
  decide +kernel

end LJ.Output

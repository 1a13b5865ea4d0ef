/-
C122: what the page loads and runs does not depend on the report.
-/
import Verif.Output.Attributes
namespace LJ.Output
open LJ.Process (Str Anomaly AnomalyContext)
open LJ.Report (Report LogReport)
open Spec (Within OneAttribute AllAttributes)

namespace Spec

/-- The elements of HTML which only lay out their content, and the links, which are followed on a click. -/
def plain : List String := ["html", "head", "title", "body", "nav", "div", "ul", "li", "a", "span", "strong", "table", "tbody", "tr", "td", "pre", "hr"]

mutual
/-- The other elements of a page, in the order of the document: those which may load or run something. -/
def active : Node → List Node
  | .text _ => []
  | .elem tag attrs children => (if tag ∈ plain then [] else [.elem tag attrs children]) ++ actives children
def actives : List Node → List Node
  | [] => []
  | n :: ns => active n ++ actives ns
end

/-- The hosts from which a page loads something. -/
def hosts : List String := ["https://code.jquery.com/", "https://maxcdn.bootstrapcdn.com/", "https://cdnjs.cloudflare.com/"]

/-- A URL of one of the hosts. -/
def Hosted (u : String) : Prop := ∃ h ∈ hosts, h.toList <+: u.toList

/-- A script or a style sheet which is loaded from one of the hosts, and only if it is the one with the given digest. -/
inductive Checked : Node → Prop
  | script (u d : String) : Hosted u → "sha384-".toList <+: d.toList → d.length = 71 →
      Checked (.elem "script" [("src=\"" ++ u ++ "\"").toList, ("integrity=\"" ++ d ++ "\"").toList, "crossorigin=\"anonymous\"".toList] [])
  | sheet (u d : String) : Hosted u → "sha384-".toList <+: d.toList → d.length = 71 →
      Checked (.elem "link" [("href=\"" ++ u ++ "\"").toList, "rel=\"stylesheet\"".toList, ("integrity=\"" ++ d ++ "\"").toList,
        "crossorigin=\"anonymous\"".toList] [])

/-- An element which loads nothing: the encoding, the style sheet and the script of the page, and an image which is in its attribute. -/
inductive Inline (css js : Str) : Node → Prop
  | encoding : Inline css js (.elem "meta" ["charset='utf-8'".toList] [])
  | style : Inline css js (.elem "style" [] [.text css])
  | image (data : Str) : Inline css js (.elem "img" ["src=\"data:image/".toList ++ data, "alt=\"LogReduce\"".toList] [])
  | script : Inline css js (.elem "script" [] [.text js])

/-- A text given as an attribute makes a handler of events when a browser reads it: it starts with one, or has one after an attribute with a quoted
value. -/
inductive Runs : Str → Prop
  | here (t : Str) : Runs ('o' :: 'n' :: t)
  | after {name value t : Str} {q : Char} : (∀ c ∈ name, c.isAlpha) → (q = '"' ∨ q = '\'') → q ∉ value → Runs t →
      Runs (name ++ '=' :: q :: (value ++ q :: ' ' :: t))

end Spec
open Spec (Runs)
open Spec (plain active actives Checked Inline Hosted hosts)

/-! ### The container has only plain elements -/

theorem actives_nil : ∀ {ns : List Node}, actives ns = [] ↔ ∀ n ∈ ns, active n = []
  | [] => by simp [actives]
  | n :: ns => by rw [actives, List.append_eq_nil_iff, actives_nil, List.forall_mem_cons]

theorem actives_append : ∀ (ns ms : List Node), actives (ns ++ ms) = actives ns ++ actives ms
  | [], _ => rfl
  | n :: ns, ms => by rw [List.cons_append, actives, actives, actives_append ns ms, List.append_assoc]

theorem active_elem {tag : String} {attrs : List Str} {children : List Node} (h : tag ∈ plain) : active (.elem tag attrs children) = actives children := by
  rw [active, if_pos h, List.nil_append]

theorem active_text (s : Str) : active (.text s) = [] := by rw [active]

section
variable {C S N D E ε : Type} {checks : Bool} {sc : Scale D} {lb : Labels C S N} {r : Report C S N D E ε}

/-- for the elements made of literal tags -/
macro "plain_tags" : tactic => `(tactic| simp (decide := true) only [active_elem, actives, active_text, List.append_nil, List.map_cons, List.map_nil])

theorem plain_context {pos : Nat} : ∀ (xs : List Str) (idx : Nat) {ns : List Node}, renderContextFrom checks pos idx xs = some ns → actives ns = []
  | [], _, _, h => by cases h; rfl
  | line :: xs, idx, ns, h => by
    simp only [renderContextFrom, Option.bind_eq_bind, Option.bind_eq_some_iff] at h
    obtain ⟨p, _, n, _, rest, h1, h2⟩ := h
    cases h2
    rw [actives, plain_context xs (idx + 1) h1]
    unfold contextNode
    plain_tags

theorem plain_lines : ∀ (cs : List (AnomalyContext D)) (last : Option Nat) {ns : List Node}, renderFrom checks sc last cs = some ns → actives ns = []
  | [], _, _, h => by cases h; rfl
  | c :: cs, last, ns, h => by
    simp only [renderFrom, Option.bind_eq_bind, Option.bind_eq_some_iff] at h
    obtain ⟨⟨nodes, last'⟩, h1, rest, h2, h3⟩ := h
    cases h3
    simp only [renderAnomaly, Option.bind_eq_bind, Option.bind_eq_some_iff] at h1
    obtain ⟨p, _, start, _, before, b1, after, b2, l, _, b3⟩ := h1
    cases b3
    have e1 : actives (separator last start) = [] := by
      unfold separator
      cases last with
      | none => rfl
      | some l =>
        simp only
        split
        · unfold hr; plain_tags
        · rfl
    have e2 : actives [anomalyNode sc c.anomaly] = [] := by
      unfold anomalyNode
      plain_tags
    simp only [actives_append, e1, e2, plain_context _ _ b1, plain_context _ _ b2, plain_lines cs _ h2, List.append_nil]

theorem plain_infoTable : active (infoTable lb r) = [] := by
  unfold infoTable table
  simp (decide := true) only [active_elem, actives, active_text, List.append_nil, List.map_cons, List.map_nil]

theorem plain_header (l : LogReport S N D) (expand : Bool) : active (itemHeader lb l expand) = [] := by
  unfold itemHeader heading modelInfo fileInfo countInfo
  plain_tags

theorem plain_samples (x : Option (List S)) : actives (samples lb x) = [] := by
  cases x with
  | none => rfl
  | some ss =>
    unfold samples
    have : actives ((ss.take 3).map fun s => Node.elem "li" [] [.elem "a" [href (lb.location s)] [.text (lb.location s)]]) = [] := by
      rw [actives_nil]
      intro n hn
      obtain ⟨s, _, rfl⟩ := List.mem_map.1 hn
      plain_tags
    simp (decide := true) only [active_elem, actives, active_text, List.append_nil, this]

theorem plain_item {l : LogReport S N D} {x : Option (List S)} {expand : Bool} {item : Node}
    (h : renderContentReport checks sc lb l x expand = some item) : active item = [] := by
  obtain ⟨lines, h1, rfl⟩ := renderContentReport_some h
  have e1 := plain_lines _ _ h1
  have e2 := plain_samples (lb := lb) x
  have e3 := plain_header (lb := lb) l expand
  have e4 : active closeIcon = [] := by unfold closeIcon; plain_tags
  simp (decide := true) only [active_elem, actives, actives_append, e1, e2, e3, e4, List.append_nil]

variable [DecidableEq N]

theorem plain_items : ∀ (ls : List (LogReport S N D)) (expand : Bool) {items : List Node},
    renderReports checks sc lb r.indexReports expand ls = some items → actives items = []
  | [], _, _, h => by cases h; rfl
  | l :: ls, expand, items, h => by
    simp only [renderReports, Option.bind_eq_bind, Option.bind_eq_some_iff] at h
    obtain ⟨item, h1, rest, h2, h3⟩ := h
    cases h3
    rw [actives, plain_item h1, plain_items ls false h2]
    rfl

/-- What the report says is in plain elements. -/
theorem plain_container {page : Node} (h : container checks sc lb r = some page) : active page = [] := by
  simp only [container, Option.bind_eq_bind, Option.bind_eq_some_iff] at h
  obtain ⟨items, h1, h2⟩ := h
  cases h2
  rw [active_elem (by decide), actives, plain_infoTable, actives, active_elem (by decide), plain_items _ _ h1]
  rfl

/-- what every page loads or runs -/
def resources (css : Str) : List Node :=
  [.elem "meta" ["charset='utf-8'".toList] []] ++ styles.map link ++ [.elem "style" [] [.text css]] ++
    [.elem "img" [logo.toList, "alt=\"LogReduce\"".toList] []] ++ scripts.map script ++ [.elem "script" [] [.text js.toList]]

theorem active_script (x : String × String) : active (script x) = [script x] := by
  unfold script
  rw [active, if_neg (by decide)]
  rfl

theorem active_link (x : String × String) : active (link x) = [link x] := by
  unfold link
  rw [active, if_neg (by decide)]
  rfl

theorem actives_map {f : String × String → Node} (h : ∀ x, active (f x) = [f x]) : ∀ xs : List (String × String), actives (xs.map f) = xs.map f
  | [] => rfl
  | x :: xs => by rw [List.map_cons, actives, h, actives_map h xs]; rfl

variable {css version : Str} {page : Node}

theorem active_document (h : document checks sc css version lb r = some page) : active page = resources css := by
  simp only [document, body, Option.bind_eq_bind, Option.bind_eq_some_iff] at h
  obtain ⟨b, ⟨c, h1, h2⟩, h3⟩ := h
  cases h2
  cases h3
  have e1 : active (head css ("Logreduce of ".toList ++ lb.content r.target)) =
      [.elem "meta" ["charset='utf-8'".toList] []] ++ styles.map link ++ [.elem "style" [] [.text css]] := by
    unfold head
    rw [active_elem (by decide), actives_append, actives_append, actives_map active_link]
    simp (decide := true) only [active, actives, if_true, if_false, List.append_nil, List.nil_append, List.cons_append]
  have e2 : active (nav version) = [.elem "img" [logo.toList, "alt=\"LogReduce\"".toList] []] := by
    unfold nav utility primary
    simp (decide := true) only [active, actives, if_true, if_false, List.append_nil, List.nil_append]
  have e3 : active (.elem "script" [] [.text js.toList]) = [.elem "script" [] [.text js.toList]] := by
    simp (decide := true) only [active, actives, if_false, List.append_nil]
  simp (decide := true) only [active_elem, actives, actives_append, e1, e2, e3, plain_container h1, actives_map active_script, resources, List.append_nil,
    List.append_assoc]

/-! ### C122 -/

/-- Whatever the reports, and whatever the texts in them, two pages load and run the same things, in the same order. -/
theorem C122_same {C' S' N' D' E' ε' : Type} [DecidableEq N'] {checks' : Bool} {sc' : Scale D'} {lb' : Labels C' S' N'} {r' : Report C' S' N' D' E' ε'}
    {version' : Str} {page' : Node} (h : document checks sc css version lb r = some page) (h' : document checks' sc' css version' lb' r' = some page') :
    active page = active page' := by
  rw [active_document h, active_document h']

theorem resources_checked {css : Str} : ∀ n ∈ resources css, Checked n ∨ Inline css js.toList n := by
  intro n hn
  have hs : ∀ x ∈ styles, (∃ h ∈ hosts, h.toList <+: x.1.toList) ∧ "sha384-".toList <+: x.2.toList ∧ x.2.length = 71 := by decide +kernel
  have hj : ∀ x ∈ scripts, (∃ h ∈ hosts, h.toList <+: x.1.toList) ∧ "sha384-".toList <+: x.2.toList ∧ x.2.length = 71 := by decide +kernel
  have ha : ∀ (name x : String), attr name x.toList = (name ++ "=\"" ++ x ++ "\"").toList := by
    intro name x
    simp [attr]
  simp only [resources, List.mem_append, List.mem_singleton, List.mem_map] at hn
  rcases hn with ((((rfl | ⟨x, hx, rfl⟩) | rfl) | rfl) | ⟨x, hx, rfl⟩) | rfl
  · exact .inr .encoding
  · left
    unfold link
    rw [ha, ha]
    exact .sheet _ _ (hs x hx).1 (hs x hx).2.1 (hs x hx).2.2
  · exact .inr .style
  · right
    have : logo.toList = "src=\"data:image/".toList ++ logo.toList.drop 16 := by decide +kernel
    rw [this]
    exact .image _
  · left
    unfold script
    rw [ha, ha]
    exact .script _ _ (hj x hx).1 (hj x hx).2.1 (hj x hx).2.2
  · exact .inr .script

/-- Each of them is a script or a style sheet of one of the hosts, loaded with its digest, or is in the page itself. -/
theorem C122_checked : ∃ js : Str, ∀ {checks : Bool} {sc : Scale D} {css version : Str} {lb : Labels C S N} {r : Report C S N D E ε} {page : Node},
    document checks sc css version lb r = some page → ∀ n ∈ active page, Checked n ∨ Inline css js n := by
  refine ⟨js.toList, ?_⟩
  intro checks sc css version lb r page h n hn
  rw [active_document h] at hn
  exact resources_checked n hn

/-- No attribute given to an element is a handler of events. -/
theorem C122_handlers (h : document checks sc css version lb r = some page) : AllAttributes (fun a => ¬ "on".toList <+: a) page := by
  intro tag attrs children hw a ha hon
  obtain ⟨t, rfl⟩ := hon
  have e0 : "on".toList ++ t = 'o' :: 'n' :: t := rfl
  rw [e0] at ha
  generalize hx : 'o' :: 'n' :: t = x at ha
  cases all_document h tag attrs children hw x ha with
  | const hf =>
    unfold fixed at hf
    split at hf
    · cases hf
    · rename_i name value hp
      obtain ⟨q, _, e, _, hal⟩ := parse_some hp
      rw [Bool.and_eq_true, Bool.and_eq_true, Bool.and_eq_true] at hf
      have h1 := hf.1.1.1
      have h2 := hf.1.1.2
      rw [← hx] at e
      match name with
      | [] => cases h1
      | [c] =>
        obtain ⟨_, e⟩ := List.cons.inj e
        exact absurd (List.cons.inj e).1 (by decide)
      | c :: d :: m =>
        obtain ⟨rfl, e⟩ := List.cons.inj e
        obtain ⟨rfl, e⟩ := List.cons.inj e
        cases h2
  | colour n =>
    have e1 : "style=\"color: #".toList = 's' :: "tyle=\"color: #".toList := by decide +kernel
    rw [e1] at hx
    exact absurd (List.cons.inj hx).1 (by decide)
  | model hl => exact absurd (List.cons.inj hx).1 (by decide)
  | file hl => exact absurd (List.cons.inj hx).1 (by decide)
  | sample hl e hs => exact absurd (List.cons.inj hx).1 (by decide)

/-- A text which is one attribute has a handler only if it starts with it. -/
theorem one_runs {a : Str} (h : OneAttribute a) (hr : Runs a) : "on".toList <+: a := by
  cases hr with
  | here t => exact ⟨t, rfl⟩
  | @after name value t q h1 h2 h3 h4 =>
    obtain ⟨n, v, q', _, e, hv, _, hal⟩ := h
    obtain ⟨_, e⟩ := name_unique h1 hal e
    obtain ⟨rfl, e⟩ := List.cons.inj e
    exfalso
    have hl := congrArg List.getLast? e
    have he : (value ++ q :: ' ' :: t) = (value ++ [q]) ++ (' ' :: t) := by simp
    rw [he] at e
    rcases List.eq_nil_or_concat (' ' :: t) with h0 | ⟨i, l, h0⟩
    · cases h0
    · rw [h0, List.concat_eq_append, ← List.append_assoc] at e
      have := (List.append_inj' e rfl).1
      exact hv (this ▸ by simp)

/-- When the quote is neither in the names of the models nor in the locations shown in the page, the page has no handler of events. -/
theorem C122_handlers_partial (h : document checks sc css version lb r = some page)
    (hq : ∀ l ∈ r.logReports, '"' ∉ lb.name l.indexName ∧ '"' ∉ lb.location l.source ∧
      ∀ ss, r.indexReports.lookup l.indexName = some ss → ∀ s ∈ ss.take 3, '"' ∉ lb.location s) :
    AllAttributes (fun a => ¬ Runs a) page := by
  intro tag attrs children hw a ha hr
  exact C122_handlers h tag attrs children hw a ha (one_runs ((C95_partial h).2 hq tag attrs children hw a ha) hr)

end
end LJ.Output

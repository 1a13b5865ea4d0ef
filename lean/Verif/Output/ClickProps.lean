/-
C123: what a user sees in the page after any clicks.
-/
import Verif.Output.ClickLemmas
namespace LJ.Output
open LJ.Process (Str Anomaly AnomalyContext)
open LJ.Report (Report LogReport)

namespace Spec

/-- The place of the item `i` of the page: in the body, in the container, in the list. -/
def itemAt (i : Nat) : List Nat := [1, 1, 1, i]
/-- The place of the header of the item. -/
def headerAt (i : Nat) : List Nat := [1, 1, 1, i, 0]
/-- The place of the icon which closes the item. -/
def closeAt (i : Nat) : List Nat := [1, 1, 1, i, 1, 0]
/-- The place of the button "Show Debug". -/
def buttonAt : List Nat := [1, 0, 1, 0, 0, 0]

/-- The tag of the element of the page at a place; there is none when there is no element there. -/
def tagAt (page : Node) (p : List Nat) : Option String :=
  match page.at? p with
  | some (.elem tag _ _) => some tag
  | _ => none

/-- Whether an item is open after a click: a click on its header, but not on a link, a button or an input in it, changes it; a click on its icon closes it. -/
def opens (page : Node) (i : Nat) (o : Bool) (target : List Nat) : Bool :=
  match tagAt page target with
  | none => o
  | some tag => if headerAt i <+: target then (if tag ∈ ["a", "button", "input"] then o else !o) else if closeAt i <+: target then false else o

/-- Whether the item `i` is open after some clicks: at first, the item 0 is. -/
def opened (page : Node) (i : Nat) (targets : List (List Nat)) : Bool := targets.foldl (opens page i) (i == 0)

/-- The number of clicks on the button. -/
def presses (page : Node) (targets : List (List Nat)) : Nat := (targets.filter fun t => (tagAt page t).isSome && buttonAt.isPrefixOf t).length

/-- The item is shown as open or as closed: it has the style of an open item, each arrow in it is down, and each container in it is not hidden; there is an
arrow and a container. -/
def Shows (item : Dom) (o : Bool) : Prop :=
  item.hasClass "list-view-pf-expand-active" = o ∧
  (∀ p n, item.at? p = some n → n.hasClass "fa-angle-right" = true → n.hasClass "fa-angle-down" = o) ∧
  (∀ p n, item.at? p = some n → n.hasClass "list-group-item-container" = true → n.hasClass "hidden" = !o) ∧
  (∃ p n, item.at? p = some n ∧ n.hasClass "fa-angle-right" = true) ∧
  (∃ n, item.at? [1] = some n ∧ n.hasClass "list-group-item-container" = true)

/-- What `style.display` is for an element. -/
def display : Dom → Option Bool
  | .text _ => none
  | .elem _ _ _ d _ => d

end Spec
open Spec (itemAt headerAt closeAt buttonAt tagAt opens opened presses Shows)

section
variable {C S N D E ε : Type} {checks : Bool} {sc : Scale D} {lb : Labels C S N}

/-! ### The page with some items open -/

/-- the item of a log report whose lines are given -/
def itemNode (lb : Labels C S N) (x : LogReport S N D × List Node × Option (List S)) (open' : Bool) : Node :=
  .elem "div" [classAttr (if open' then "list-group-item list-view-pf-expand-active" else "list-group-item"), "id=\"TODO\"".toList]
    [itemHeader lb x.1 open',
     .elem "div" [classAttr (if open' then "list-group-item-container container-fluid" else "list-group-item-container container-fluid hidden")]
      (closeIcon :: samples lb x.2.2 ++ [.elem "div" [classAttr "loglines"] x.2.1])]

/-- the page with some items open -/
def pageWith (css version title : Str) (info : Node) (lb : Labels C S N) (xs : List (LogReport S N D × List Node × Option (List S))) (o : Nat → Bool) : Node :=
  .elem "html" ["lang='en'".toList] [head css title,
    .elem "body" [] ([nav version, .elem "div" [classAttr "container", "style='width: 100%'".toList]
      [info, .elem "div" [classAttr "list-group list-view-pf list-view-pf-view"] (xs.mapIdx fun i x => itemNode lb x (o i))]] ++
      scripts.map script ++ [.elem "script" [] [.text js.toList]])]

theorem items_with [DecidableEq N] {rs : List (N × List S)} : ∀ (ls : List (LogReport S N D)) (expand : Bool) {items : List Node},
    renderReports checks sc lb rs expand ls = some items →
    ∃ xs : List (LogReport S N D × List Node × Option (List S)), xs.map (·.1) = ls ∧ (∀ x ∈ xs, renderLines checks sc x.1.anomalies = some x.2.1) ∧
      items = xs.mapIdx fun i x => itemNode lb x (i == 0 && expand)
  | [], _, _, h => by cases h; exact ⟨[], rfl, by simp, rfl⟩
  | l :: ls, expand, items, h => by
    simp only [renderReports, Option.bind_eq_bind, Option.bind_eq_some_iff] at h
    obtain ⟨item, h1, rest, h2, h3⟩ := h
    cases h3
    obtain ⟨lines, h4, rfl⟩ := renderContentReport_some h1
    obtain ⟨xs, e1, e2, e3⟩ := items_with ls false h2
    refine ⟨(l, lines, rs.lookup l.indexName) :: xs, by rw [List.map_cons, e1], ?_, ?_⟩
    · intro x hx
      rcases List.mem_cons.1 hx with rfl | hx
      · exact h4
      · exact e2 x hx
    · rw [List.mapIdx_cons, e3]
      simp only [itemNode, Bool.and_false, beq_self_eq_true, Bool.true_and]
      rfl

/-! ### The quiet parts of the page -/

theorem quiet_href (u : Str) : quiet [href u] = true := by
  have e1 : classesOf [href u] = [] := rfl
  have e2 : idOf [href u] = none := rfl
  unfold quiet
  rw [e1, e2]
  decide +kernel

theorem quiet_colour (u : Str) : quiet ["style=\"color: #".toList ++ u ++ "0000\"".toList] = true := by
  have e1 : classesOf ["style=\"color: #".toList ++ u ++ "0000\"".toList] = [] := rfl
  have e2 : idOf ["style=\"color: #".toList ++ u ++ "0000\"".toList] = none := rfl
  unfold quiet
  rw [e1, e2]
  decide +kernel

theorem quiet_context {pos : Nat} : ∀ (xs : List Str) (idx : Nat) {ns : List Node}, renderContextFrom checks pos idx xs = some ns → Quiets ns
  | [], _, _, h => by cases h; exact quiets_nil
  | line :: xs, idx, ns, h => by
    simp only [renderContextFrom, Option.bind_eq_bind, Option.bind_eq_some_iff] at h
    obtain ⟨p, _, n, _, rest, h1, h2⟩ := h
    cases h2
    exact quiets_cons (quiet_elem (by decide +kernel) quiets_textOne) (quiet_context xs (idx + 1) h1)

theorem quiet_lines : ∀ (cs : List (AnomalyContext D)) (last : Option Nat) {ns : List Node}, renderFrom checks sc last cs = some ns → Quiets ns
  | [], _, _, h => by cases h; exact quiets_nil
  | c :: cs, last, ns, h => by
    simp only [renderFrom, Option.bind_eq_bind, Option.bind_eq_some_iff] at h
    obtain ⟨⟨nodes, last'⟩, h1, rest, h2, h3⟩ := h
    cases h3
    simp only [renderAnomaly, Option.bind_eq_bind, Option.bind_eq_some_iff] at h1
    obtain ⟨p, _, start, _, before, b1, after, b2, l, _, b3⟩ := h1
    cases b3
    have e1 : Quiets (separator last start) := by
      unfold separator
      cases last with
      | none => exact quiets_nil
      | some l =>
        simp only
        split
        · exact quiets_cons (quiet_elem (by decide +kernel) quiets_nil) quiets_nil
        · exact quiets_nil
    have e2 : Quiets [anomalyNode sc c.anomaly] := quiets_cons (quiet_elem (quiet_colour _) quiets_textOne) quiets_nil
    exact quiets_append.2 ⟨quiets_append.2 ⟨quiets_append.2 ⟨quiets_append.2 ⟨e1, quiet_context _ _ b1⟩, e2⟩, quiet_context _ _ b2⟩, quiet_lines cs _ h2⟩

theorem quiet_info (r : Report C S N D E ε) : Quiet (infoTable lb r) := by
  unfold infoTable table
  refine quiet_elem (by decide +kernel) (quiets_cons (quiet_elem (by decide +kernel) (quiets_cons (quiet_elem (by decide +kernel) ?_) quiets_nil)) quiets_nil)
  rw [quiets_iff]
  intro c hm
  obtain ⟨row, _, rfl⟩ := List.mem_map.1 hm
  refine quiet_elem (by decide +kernel) (quiets_iff.2 ?_)
  intro c hm
  obtain ⟨cell, _, rfl⟩ := List.mem_map.1 hm
  exact quiet_elem (by decide +kernel) quiets_textOne

/-- the right part of the header of an item -/
def mainInfo (lb : Labels C S N) (l : LogReport S N D) : Node :=
  .elem "div" [classAttr "list-view-pf-main-info"]
      [.elem "div" [classAttr "list-view-pf-left"] [.elem "span" [classAttr "fa pficon-degraded list-view-pf-icon-sm"] []],
       .elem "div" [classAttr "list-view-pf-body"] [heading lb l, modelInfo lb l, fileInfo lb l, countInfo l]]

theorem quiet_main (l : LogReport S N D) : Quiet (mainInfo lb l) := by
  have h1 : Quiet (heading lb l) := quiet_elem (by decide +kernel) (quiets_cons (quiet_elem (by decide +kernel) quiets_textOne) quiets_nil)
  have h2 : Quiet (modelInfo lb l) := quiet_elem (by decide +kernel) (quiets_cons (quiet_elem (by decide +kernel) quiets_nil)
    (quiets_cons (quiet_elem (quiet_href _) quiets_textOne) quiets_textOne))
  have h3 : Quiet (fileInfo lb l) := quiet_elem (by decide +kernel) (quiets_cons (quiet_elem (by decide +kernel) quiets_nil)
    (quiets_cons (quiet_elem (quiet_href _) quiets_textOne) quiets_nil))
  have h4 : Quiet (countInfo l) := quiet_elem (by decide +kernel) (quiets_cons (quiet_elem (by decide +kernel) quiets_nil)
    (quiets_cons (quiet_elem (by decide +kernel) quiets_textOne) quiets_nil))
  exact quiet_elem (by decide +kernel) (quiets_cons (quiet_elem (by decide +kernel) (quiets_cons (quiet_elem (by decide +kernel) quiets_nil) quiets_nil))
    (quiets_cons (quiet_elem (by decide +kernel) (quiets_cons h1 (quiets_cons h2 (quiets_cons h3 (quiets_cons h4 quiets_nil))))) quiets_nil))

theorem quiet_samples (x : Option (List S)) : Quiets (samples lb x) := by
  cases x with
  | none => exact quiets_nil
  | some ss =>
    refine quiets_cons (quiet_elem (by decide +kernel) (quiets_cons (quiet_text _) (quiets_cons (quiet_elem (by decide +kernel) ?_) quiets_nil))) quiets_nil
    rw [quiets_iff]
    intro c hc
    obtain ⟨s, _, rfl⟩ := List.mem_map.1 hc
    exact quiet_elem (by decide +kernel) (quiets_cons (quiet_elem (quiet_href _) quiets_textOne) quiets_nil)

theorem quiet_head (css title : Str) : Quiet (head css title) := by
  refine quiet_elem (by decide +kernel) (quiets_append.2 ⟨quiets_append.2 ⟨?_, ?_⟩, ?_⟩)
  · exact quiets_cons (quiet_elem (by decide +kernel) quiets_textOne) (quiets_cons (quiet_elem (by decide +kernel) quiets_nil) quiets_nil)
  · rw [quiets_iff]
    intro c hc
    obtain ⟨x, hx, rfl⟩ := List.mem_map.1 hc
    clear hc
    refine quiet_elem ?_ quiets_nil
    revert x
    decide +kernel
  · exact quiets_cons (quiet_elem (by decide +kernel) quiets_textOne) quiets_nil

theorem quiet_scripts : Quiets (scripts.map script ++ [.elem "script" [] [.text js.toList]]) := by
  refine quiets_append.2 ⟨?_, quiets_cons (quiet_elem (by decide +kernel) quiets_textOne) quiets_nil⟩
  rw [quiets_iff]
  intro c hc
  obtain ⟨x, hx, rfl⟩ := List.mem_map.1 hc
  clear hc
  refine quiet_elem ?_ quiets_nil
  revert x
  decide +kernel

theorem quiet_primary : Quiet primary :=
  quiet_elem (by decide +kernel) (quiets_cons (quiet_elem (by decide +kernel) (quiets_cons (quiet_elem (by decide +kernel) quiets_textOne) quiets_nil))
      (quiets_cons (quiet_elem (by decide +kernel) (quiets_cons (quiet_elem (by decide +kernel) quiets_textOne) quiets_nil)) quiets_nil))

/-! ### What a click does to an item -/

/-- the classes of an item which is open or closed -/
def itemClasses (o : Bool) : List Str := if o then ["list-group-item".toList, "list-view-pf-expand-active".toList] else ["list-group-item".toList]
def arrowClasses (o : Bool) : List Str :=
  if o then ["fa".toList, "fa-angle-right".toList, "fa-angle-down".toList] else ["fa".toList, "fa-angle-right".toList]
def boxClasses (o : Bool) : List Str :=
  if o then ["list-group-item-container".toList, "container-fluid".toList] else ["list-group-item-container".toList, "container-fluid".toList, "hidden".toList]

/-- the item in the browser -/
def itemDom (o : Bool) (main : Dom) (inner : List Dom) : Dom :=
  .elem "div" ["id=\"TODO\"".toList] (itemClasses o) none
    [.elem "div" [] ["list-group-item-header".toList] none
      [.elem "div" [] ["list-view-pf-expand".toList] none [.elem "span" [] (arrowClasses o) none []], main],
     .elem "div" [] (boxClasses o) none inner]

/-- what is in the container of an item -/
def innerNodes (lb : Labels C S N) (x : LogReport S N D × List Node × Option (List S)) : List Node :=
  closeIcon :: samples lb x.2.2 ++ [.elem "div" [classAttr "loglines"] x.2.1]

theorem load_item (d : Option Bool) (x : LogReport S N D × List Node × Option (List S)) (o : Bool) :
    load d (itemNode lb x o) = itemDom o (load d (mainInfo lb x.1)) (loads d (innerNodes lb x)) := by
  have c1 : classesOf [classAttr (if o then "list-group-item list-view-pf-expand-active" else "list-group-item"), "id=\"TODO\"".toList] = itemClasses o := by
    cases o <;> decide +kernel
  have c2 : classesOf [classAttr (if o then "fa fa-angle-right fa-angle-down" else "fa fa-angle-right")] = arrowClasses o := by
    cases o <;> decide +kernel
  have c3 : classesOf [classAttr (if o then "list-group-item-container container-fluid" else "list-group-item-container container-fluid hidden")] = boxClasses o := by
    cases o <;> decide +kernel
  have c4 : classesOf [classAttr "list-group-item-header"] = ["list-group-item-header".toList] := by decide +kernel
  have c5 : classesOf [classAttr "list-view-pf-expand"] = ["list-view-pf-expand".toList] := by decide +kernel
  have f1 : [classAttr (if o then "list-group-item list-view-pf-expand-active" else "list-group-item"), "id=\"TODO\"".toList].filter
      (fun a => (valueFor "class" a).isNone) = ["id=\"TODO\"".toList] := by cases o <;> decide +kernel
  have f2 : ∀ s : String, [classAttr s].filter (fun a => (valueFor "class" a).isNone) = [] := fun s => rfl
  have i1 : ¬ idOf [classAttr (if o then "list-group-item list-view-pf-expand-active" else "list-group-item"), "id=\"TODO\"".toList] = some "debuginfo".toList := by
    cases o <;> decide +kernel
  have i2 : ∀ s : String, ¬ idOf [classAttr s] = some "debuginfo".toList := by
    intro s
    have : idOf [classAttr s] = none := rfl
    rw [this]
    exact fun h => by cases h
  unfold itemNode itemHeader itemDom
  simp only [load, loads, c1, c2, c3, c4, c5, f1, f2, if_neg i1, if_neg (i2 _)]
  simp only [innerNodes, List.cons_append, loads, mainInfo, load, f2, if_neg (i2 _)]

/-- what is in the container of an item has neither arrow nor container -/
theorem inner_inside (d : Option Bool) (f : Dom → Dom) (x : LogReport S N D × List Node × Option (List S)) (hx : Quiets x.2.1) {k : String}
    (hk : k = "fa-angle-right" ∨ k = "list-group-item-container") :
    Dom.insides (·.hasClass k) f (loads d (innerNodes lb x)) = loads d (innerNodes lb x) := by
  have hkeys : k.toList ∈ keys := by rcases hk with rfl | rfl <;> decide +kernel
  have hq : Quiets (samples lb x.2.2 ++ [.elem "div" [classAttr "loglines"] x.2.1]) :=
    quiets_append.2 ⟨quiet_samples _, quiets_cons (quiet_elem (by decide +kernel) hx) quiets_nil⟩
  have hc : (load d closeIcon).hasClass k = false := by
    unfold closeIcon
    rw [load]
    show (classesOf [classAttr "close"]).contains k.toList = false
    rcases hk with rfl | rfl <;> decide +kernel
  have hi : Dom.inside (·.hasClass k) f (load d closeIcon) = load d closeIcon := by
    unfold closeIcon
    rw [load, Dom.inside, insides_quiet d f hkeys _ (quiets_cons (quiet_elem (by decide +kernel) quiets_nil) quiets_nil)]
  unfold innerNodes
  rw [List.cons_append, loads, Dom.insides, insides_quiet d f hkeys _ hq, hi]
  simp only [hc, Bool.false_eq_true, if_false]

/-- the effect of a click on the header -/
def headF (d : Dom) : Dom :=
  Dom.inside (·.hasClass "list-group-item-container") (Dom.toggleClass "hidden") (Dom.toggleClass "list-view-pf-expand-active"
    (d.update (Dom.inside (·.hasClass "fa-angle-right") (Dom.toggleClass "fa-angle-down")) [0]))

/-- the effect of a click on the icon -/
def closeF (d : Dom) : Dom :=
  Dom.inside (·.hasClass "fa-angle-right") (Dom.removeClass "fa-angle-down") (Dom.removeClass "list-view-pf-expand-active"
    (d.update (Dom.addClass "hidden") [1]))

theorem hasClass_elem (k : String) (t : String) (as ws : List Str) (sh : Option Bool) (cs : List Dom) : (Dom.elem t as ws sh cs).hasClass k = ws.contains k.toList := rfl

theorem toggle_elem (k : String) (t : String) (as ws : List Str) (sh : Option Bool) (cs : List Dom) : Dom.toggleClass k (.elem t as ws sh cs) =
    .elem t as (if ws.contains k.toList then ws.filter (· != k.toList) else ws ++ [k.toList]) sh cs := by
  unfold Dom.toggleClass
  rw [hasClass_elem]
  cases h : ws.contains k.toList
  · simp only [Bool.false_eq_true, if_false, Dom.addClass, h]
  · simp only [if_true, Dom.removeClass]

theorem headF_item (o : Bool) {main : Dom} {inner : List Dom} (h1 : ∀ k : String, k.toList ∈ keys → ∀ f, Dom.inside (·.hasClass k) f main = main)
    (h2 : ∀ k : String, k.toList ∈ keys → main.hasClass k = false)
    (h3 : ∀ k, k = "fa-angle-right" ∨ k = "list-group-item-container" → ∀ f, Dom.insides (·.hasClass k) f inner = inner) :
    headF (itemDom o main inner) = itemDom (!o) main inner := by
  have k1 : "fa-angle-right".toList ∈ keys := by decide +kernel
  have k2 : "list-group-item-container".toList ∈ keys := by decide +kernel
  have a1 : (["list-view-pf-expand".toList].contains "fa-angle-right".toList) = false := by decide +kernel
  have a2 : ((arrowClasses o).contains "fa-angle-right".toList) = true := by cases o <;> decide +kernel
  have a3 : (if (arrowClasses o).contains "fa-angle-down".toList then (arrowClasses o).filter (· != "fa-angle-down".toList)
      else arrowClasses o ++ ["fa-angle-down".toList]) = arrowClasses (!o) := by cases o <;> decide +kernel
  have a4 : (if (itemClasses o).contains "list-view-pf-expand-active".toList then (itemClasses o).filter (· != "list-view-pf-expand-active".toList)
      else itemClasses o ++ ["list-view-pf-expand-active".toList]) = itemClasses (!o) := by cases o <;> decide +kernel
  have a5 : (["list-group-item-header".toList].contains "list-group-item-container".toList) = false := by decide +kernel
  have a6 : (["list-view-pf-expand".toList].contains "list-group-item-container".toList) = false := by decide +kernel
  have a7 : ((arrowClasses (!o)).contains "list-group-item-container".toList) = false := by cases o <;> decide +kernel
  have a8 : ((boxClasses o).contains "list-group-item-container".toList) = true := by cases o <;> decide +kernel
  have a9 : (if (boxClasses o).contains "hidden".toList then (boxClasses o).filter (· != "hidden".toList)
      else boxClasses o ++ ["hidden".toList]) = boxClasses (!o) := by cases o <;> decide +kernel
  unfold headF itemDom
  simp only [Dom.update, List.modify_zero_cons, Dom.inside, Dom.insides, hasClass_elem, a1, a2, h1 _ k1, h2 _ k1, if_true, if_false, Bool.false_eq_true,
    toggle_elem, a3, a4, a5, a6, a7, a8, a9, h1 _ k2, h2 _ k2, h3 _ (.inr rfl)]

theorem closeF_item (o : Bool) {main : Dom} {inner : List Dom} (h1 : ∀ k : String, k.toList ∈ keys → ∀ f, Dom.inside (·.hasClass k) f main = main)
    (h2 : ∀ k : String, k.toList ∈ keys → main.hasClass k = false)
    (h3 : ∀ k, k = "fa-angle-right" ∨ k = "list-group-item-container" → ∀ f, Dom.insides (·.hasClass k) f inner = inner) :
    closeF (itemDom o main inner) = itemDom false main inner := by
  have k1 : "fa-angle-right".toList ∈ keys := by decide +kernel
  have a0 : (["list-group-item-header".toList].contains "fa-angle-right".toList) = false := by decide +kernel
  have a1 : (["list-view-pf-expand".toList].contains "fa-angle-right".toList) = false := by decide +kernel
  have a2 : ((arrowClasses o).contains "fa-angle-right".toList) = true := by cases o <;> decide +kernel
  have a3 : (arrowClasses o).filter (· != "fa-angle-down".toList) = arrowClasses false := by cases o <;> decide +kernel
  have a4 : (itemClasses o).filter (· != "list-view-pf-expand-active".toList) = itemClasses false := by cases o <;> decide +kernel
  have a5 : (if (boxClasses o).contains "hidden".toList then boxClasses o else boxClasses o ++ ["hidden".toList]) = boxClasses false := by
    cases o <;> decide +kernel
  have a6 : (boxClasses false).contains "fa-angle-right".toList = false := by decide +kernel
  unfold closeF itemDom
  simp only [Dom.update, List.modify_succ_cons, List.modify_zero_cons, Dom.addClass, Dom.removeClass, Dom.inside, Dom.insides, hasClass_elem, a0, a1, a2,
    h1 _ k1, h2 _ k1, if_true, if_false, Bool.false_eq_true, a3, a4, a5, a6, h3 _ (.inl rfl)]

/-! ### The places of the handlers -/

/-- the attributes of an element with a handler -/
def loud (attrs : List Str) : Bool :=
  (classesOf attrs).contains "list-group-item-header".toList || (classesOf attrs).contains "close".toList || idOf attrs == some "debugbtn".toList

/-- The element at a place has a handler. -/
def Loud (n : Node) (p : List Nat) : Prop := ∃ t as cs, n.at? p = some (.elem t as cs) ∧ loud as = true

theorem quiet_loud {attrs : List Str} (h : quiet attrs = true) : loud attrs = false := by
  have e : (idOf attrs == some "debugbtn".toList) = false := by simpa using quiet_id h
  unfold loud
  rw [quiet_class h (by decide +kernel), quiet_class h (by decide +kernel), e]
  rfl

theorem not_loud {n : Node} (h : Quiet n) (p : List Nat) : ¬ Loud n p := by
  rintro ⟨t, as, cs, h1, h2⟩
  have := quiet_at p h h1
  rw [Quiet] at this
  rw [quiet_loud this.1] at h2
  cases h2

theorem loud_nil {t : String} {as : List Str} {cs : List Node} : Loud (.elem t as cs) [] ↔ loud as = true := by
  unfold Loud
  simp only [Node.at?]
  constructor
  · rintro ⟨_, _, _, h, e⟩
    cases h
    exact e
  · intro h
    exact ⟨_, _, _, rfl, h⟩

theorem loud_cons {t : String} {as : List Str} {cs : List Node} {i : Nat} {p : List Nat} :
    Loud (.elem t as cs) (i :: p) ↔ ∃ c, cs[i]? = some c ∧ Loud c p := by
  unfold Loud
  simp only [Node.at?, Option.bind_eq_some_iff]
  constructor
  · rintro ⟨t, as, cs, ⟨c, h1, h2⟩, h3⟩
    exact ⟨c, h1, t, as, cs, h2, h3⟩
  · rintro ⟨c, h1, t, as, cs, h2, h3⟩
    exact ⟨t, as, cs, ⟨c, h1, h2⟩, h3⟩

theorem loud_quiets {t : String} {as : List Str} {cs : List Node} (h : Quiets cs) {i : Nat} {p : List Nat} : ¬ Loud (.elem t as cs) (i :: p) := by
  rw [loud_cons]
  rintro ⟨c, h1, h2⟩
  exact not_loud (quiets_iff.1 h c (List.mem_of_getElem? h1)) p h2

theorem loud_nav {version : Str} : ∀ {p : List Nat}, Loud (nav version) p → p = [1, 0, 0, 0]
  | [], h => by
    rw [nav, loud_nil] at h
    exact absurd h (by decide +kernel)
  | 0 :: p, h => by
    rw [nav, loud_cons] at h
    obtain ⟨c, h1, h2⟩ := h
    cases h1
    exact absurd h2 (not_loud (quiet_elem (by decide +kernel) (quiets_cons (quiet_elem (by decide +kernel) quiets_nil) quiets_nil)) p)
  | [1], h => by
    rw [nav, loud_cons] at h
    obtain ⟨c, h1, h2⟩ := h
    cases h1
    rw [loud_nil] at h2
    exact absurd h2 (by decide +kernel)
  | 1 :: 1 :: p, h => by
    rw [nav, loud_cons] at h
    obtain ⟨c, h1, h2⟩ := h
    cases h1
    rw [loud_cons] at h2
    obtain ⟨c, h1, h2⟩ := h2
    cases h1
    exact absurd h2 (not_loud quiet_primary p)
  | 1 :: 0 :: p, h => by
    rw [nav, loud_cons] at h
    obtain ⟨c, h1, h2⟩ := h
    cases h1
    rw [loud_cons] at h2
    obtain ⟨c, h1, h2⟩ := h2
    cases h1
    match p with
    | [] =>
      rw [utility, loud_nil] at h2
      exact absurd h2 (by decide +kernel)
    | 1 :: p =>
      rw [utility, loud_cons] at h2
      obtain ⟨c, h1, h2⟩ := h2
      cases h1
      exact absurd h2 (not_loud (quiet_elem (by decide +kernel) (quiets_cons (quiet_elem (by decide +kernel) quiets_textOne) quiets_nil)) p)
    | 2 :: p =>
      rw [utility, loud_cons] at h2
      obtain ⟨c, h1, h2⟩ := h2
      cases h1
      exact absurd h2 (not_loud (quiet_elem (by decide +kernel) (quiets_cons (quiet_elem (by decide +kernel)
        (quiets_cons (quiet_elem (by decide +kernel) quiets_textOne) quiets_textOne)) quiets_nil)) p)
    | (n + 3) :: p =>
      rw [utility, loud_cons] at h2
      obtain ⟨c, h1, h2⟩ := h2
      cases h1
    | 0 :: p =>
      rw [utility, loud_cons] at h2
      obtain ⟨c, h1, h2⟩ := h2
      cases h1
      match p with
      | [] =>
        rw [loud_nil] at h2
        exact absurd h2 (by decide +kernel)
      | (n + 1) :: p =>
        rw [loud_cons] at h2
        obtain ⟨c, h1, h2⟩ := h2
        cases h1
      | 0 :: p =>
        rw [loud_cons] at h2
        obtain ⟨c, h1, h2⟩ := h2
        cases h1
        match p with
        | [] => rfl
        | n :: p => exact absurd h2 (loud_quiets quiets_textOne)
  | 1 :: (n + 2) :: p, h => by
    rw [nav, loud_cons] at h
    obtain ⟨c, h1, h2⟩ := h
    cases h1
    rw [loud_cons] at h2
    obtain ⟨c, h1, h2⟩ := h2
    cases h1
  | (n + 2) :: p, h => by
    rw [nav, loud_cons] at h
    obtain ⟨c, h1, h2⟩ := h
    cases h1

theorem loud_item {x : LogReport S N D × List Node × Option (List S)} (hx : Quiets x.2.1) {o : Bool} : ∀ {p : List Nat}, Loud (itemNode lb x o) p → p = [0] ∨ p = [1, 0]
  | [], h => by
    rw [itemNode, loud_nil] at h
    cases o <;> exact absurd h (by decide +kernel)
  | [0], _ => .inl rfl
  | 0 :: 0 :: p, h => by
    rw [itemNode, loud_cons] at h
    obtain ⟨c, h1, h2⟩ := h
    cases h1
    rw [itemHeader, loud_cons] at h2
    obtain ⟨c, h1, h2⟩ := h2
    cases h1
    match p with
    | [] =>
      rw [loud_nil] at h2
      exact absurd h2 (by decide +kernel)
    | (n + 1) :: p =>
      rw [loud_cons] at h2
      obtain ⟨c, h1, h2⟩ := h2
      cases h1
    | [0] =>
      rw [loud_cons] at h2
      obtain ⟨c, h1, h2⟩ := h2
      cases h1
      rw [loud_nil] at h2
      cases o <;> exact absurd h2 (by decide +kernel)
    | 0 :: n :: p =>
      rw [loud_cons] at h2
      obtain ⟨c, h1, h2⟩ := h2
      cases h1
      exact absurd h2 (loud_quiets quiets_nil)
  | 0 :: 1 :: p, h => by
    rw [itemNode, loud_cons] at h
    obtain ⟨c, h1, h2⟩ := h
    cases h1
    rw [itemHeader, loud_cons] at h2
    obtain ⟨c, h1, h2⟩ := h2
    cases h1
    exact absurd h2 (not_loud (quiet_main x.1) p)
  | 0 :: (n + 2) :: p, h => by
    rw [itemNode, loud_cons] at h
    obtain ⟨c, h1, h2⟩ := h
    cases h1
    rw [itemHeader, loud_cons] at h2
    obtain ⟨c, h1, h2⟩ := h2
    cases h1
  | [1], h => by
    rw [itemNode, loud_cons] at h
    obtain ⟨c, h1, h2⟩ := h
    cases h1
    rw [loud_nil] at h2
    cases o <;> exact absurd h2 (by decide +kernel)
  | [1, 0], _ => .inr rfl
  | 1 :: 0 :: n :: p, h => by
    rw [itemNode, loud_cons] at h
    obtain ⟨c, h1, h2⟩ := h
    cases h1
    rw [loud_cons] at h2
    obtain ⟨c, h1, h2⟩ := h2
    cases h1
    exact absurd h2 (loud_quiets (quiets_cons (quiet_elem (by decide +kernel) quiets_nil) quiets_nil))
  | 1 :: (n + 1) :: p, h => by
    rw [itemNode, loud_cons] at h
    obtain ⟨c, h1, h2⟩ := h
    cases h1
    rw [loud_cons] at h2
    obtain ⟨c, h1, h2⟩ := h2
    rw [List.cons_append, List.getElem?_cons_succ] at h1
    have hq : Quiets (samples lb x.2.2 ++ [.elem "div" [classAttr "loglines"] x.2.1]) :=
      quiets_append.2 ⟨quiet_samples _, quiets_cons (quiet_elem (by decide +kernel) hx) quiets_nil⟩
    exact absurd h2 (not_loud (quiets_iff.1 hq c (List.mem_of_getElem? h1)) p)
  | (n + 2) :: p, h => by
    rw [itemNode, loud_cons] at h
    obtain ⟨c, h1, h2⟩ := h
    cases h1

variable {css version title : Str} {info : Node} {xs : List (LogReport S N D × List Node × Option (List S))} {o : Nat → Bool}

theorem at_item (i : Nat) (p : List Nat) : (pageWith css version title info lb xs o).at? (1 :: 1 :: 1 :: i :: p) =
    xs[i]?.bind fun x => (itemNode lb x (o i)).at? p := by
  unfold pageWith
  simp only [Node.at?, List.getElem?_cons_succ, List.getElem?_cons_zero, Option.bind_some, List.cons_append, List.getElem?_mapIdx]
  cases xs[i]? <;> rfl

theorem loud_page (hi : Quiet info) (hx : ∀ x ∈ xs, Quiets x.2.1) : ∀ {p : List Nat}, Loud (pageWith css version title info lb xs o) p →
    (∃ i, i < xs.length ∧ (p = headerAt i ∨ p = closeAt i)) ∨ p = buttonAt
  | [], h => by
    rw [pageWith, loud_nil] at h
    exact absurd h (by decide +kernel)
  | 0 :: p, h => by
    rw [pageWith, loud_cons] at h
    obtain ⟨c, h1, h2⟩ := h
    cases h1
    exact absurd h2 (not_loud (quiet_head css title) p)
  | (n + 2) :: p, h => by
    rw [pageWith, loud_cons] at h
    obtain ⟨c, h1, h2⟩ := h
    cases h1
  | 1 :: p, h => by
    rw [pageWith, loud_cons] at h
    obtain ⟨c, h1, h2⟩ := h
    cases h1
    match p with
    | [] =>
      rw [loud_nil] at h2
      exact absurd h2 (by decide +kernel)
    | 0 :: p =>
      rw [loud_cons] at h2
      obtain ⟨c, h1, h2⟩ := h2
      cases h1
      rw [loud_nav h2]
      exact .inr rfl
    | (n + 2) :: p =>
      rw [loud_cons] at h2
      obtain ⟨c, h1, h2⟩ := h2
      rw [List.append_assoc, List.cons_append, List.cons_append, List.nil_append, List.getElem?_cons_succ, List.getElem?_cons_succ] at h1
      exact absurd h2 (not_loud (quiets_iff.1 quiet_scripts c (List.mem_of_getElem? h1)) p)
    | 1 :: p =>
      rw [loud_cons] at h2
      obtain ⟨c, h1, h2⟩ := h2
      cases h1
      match p with
      | [] =>
        rw [loud_nil] at h2
        exact absurd h2 (by decide +kernel)
      | 0 :: p =>
        rw [loud_cons] at h2
        obtain ⟨c, h1, h2⟩ := h2
        cases h1
        exact absurd h2 (not_loud hi p)
      | (n + 2) :: p =>
        rw [loud_cons] at h2
        obtain ⟨c, h1, h2⟩ := h2
        cases h1
      | [1] =>
        rw [loud_cons] at h2
        obtain ⟨c, h1, h2⟩ := h2
        cases h1
        rw [loud_nil] at h2
        exact absurd h2 (by decide +kernel)
      | 1 :: i :: p =>
        rw [loud_cons] at h2
        obtain ⟨c, h1, h2⟩ := h2
        cases h1
        rw [loud_cons] at h2
        obtain ⟨c, h1, h2⟩ := h2
        rw [List.getElem?_mapIdx] at h1
        obtain ⟨x, h3, rfl⟩ := Option.map_eq_some_iff.1 h1
        left
        refine ⟨i, (List.getElem?_eq_some_iff.1 h3).1, ?_⟩
        rcases loud_item (hx x (List.mem_of_getElem? h3)) h2 with rfl | rfl
        · exact .inl rfl
        · exact .inr rfl

/-- a change of an item -/
theorem update_item (d : Option Bool) {F : Dom → Dom} {i : Nat} {b : Bool}
    (h : ∀ x, xs[i]? = some x → F (load d (itemNode lb x (o i))) = load d (itemNode lb x b)) :
    (load d (pageWith css version title info lb xs o)).update F (itemAt i) =
      load d (pageWith css version title info lb xs fun j => if j = i then b else o j) := by
  have key : (loads d (xs.mapIdx fun i x => itemNode lb x (o i))).modify i F = loads d (xs.mapIdx fun j x => itemNode lb x (if j = i then b else o j)) := by
    rw [loads_map, loads_map]
    refine List.ext_getElem? fun j => ?_
    rw [List.getElem?_modify, List.getElem?_map, List.getElem?_map, List.getElem?_mapIdx, List.getElem?_mapIdx]
    cases hj : xs[j]? with
    | none => rfl
    | some x =>
      simp only [Option.map_eq_map, Option.map_some, Option.some.injEq]
      by_cases hij : i = j
      · subst hij
        rw [if_pos rfl, if_pos rfl, h x hj]
      · rw [if_neg hij, if_neg (Ne.symm hij)]
  unfold pageWith itemAt
  simp only [load, loads, List.cons_append, Dom.update, List.modify_succ_cons, List.modify_zero_cons, key]

/-! ### What the elements of an item are -/

theorem load_class (d : Option Bool) {n : Node} {m : Dom} {p : List Nat} (h : Quiet n) (e : (load d n).at? p = some m) {k : String} (hk : k.toList ∈ keys) :
    m.hasClass k = false := by
  rw [load_at] at e
  obtain ⟨n', h1, rfl⟩ := Option.map_eq_some_iff.1 e
  exact load_hasClass d (quiet_at p h h1) hk

/-- the places of an item where the classes of the script are -/
theorem item_at (d : Option Bool) {x : LogReport S N D × List Node × Option (List S)} (hx : Quiets x.2.1) {o : Bool} {n : Dom} : ∀ {p : List Nat},
    (itemDom o (load d (mainInfo lb x.1)) (loads d (innerNodes lb x))).at? p = some n →
    (n.hasClass "fa-angle-right" = true → n.classes = arrowClasses o) ∧ (n.hasClass "list-group-item-container" = true → n.classes = boxClasses o) ∧
    n.hasClass "fa-ellipsis-v" = false
  | [], h => by
    simp only [itemDom, Dom.at?, Option.some.injEq] at h
    subst h
    simp only [hasClass_elem]
    cases o <;> exact ⟨fun h => absurd h (by decide +kernel), fun h => absurd h (by decide +kernel), by decide +kernel⟩
  | [0], h => by
    simp only [itemDom, Dom.at?, List.getElem?_cons_zero, Option.bind_some, Option.some.injEq] at h
    subst h
    simp only [hasClass_elem]
    exact ⟨fun h => absurd h (by decide +kernel), fun h => absurd h (by decide +kernel), by decide +kernel⟩
  | [0, 0], h => by
    simp only [itemDom, Dom.at?, List.getElem?_cons_zero, Option.bind_some, Option.some.injEq] at h
    subst h
    simp only [hasClass_elem]
    exact ⟨fun h => absurd h (by decide +kernel), fun h => absurd h (by decide +kernel), by decide +kernel⟩
  | [0, 0, 0], h => by
    simp only [itemDom, Dom.at?, List.getElem?_cons_zero, Option.bind_some, Option.some.injEq] at h
    subst h
    refine ⟨fun _ => rfl, ?_, ?_⟩
    · intro h
      simp only [hasClass_elem] at h
      cases o <;> exact absurd h (by decide +kernel)
    · simp only [hasClass_elem]
      cases o <;> decide +kernel
  | 0 :: 0 :: 0 :: i :: p, h => by
    simp only [itemDom, Dom.at?, List.getElem?_cons_zero, Option.bind_some, List.getElem?_nil, Option.bind_none, reduceCtorEq] at h
  | 0 :: 0 :: (i + 1) :: p, h => by
    simp only [itemDom, Dom.at?, List.getElem?_cons_zero, List.getElem?_cons_succ, Option.bind_some, List.getElem?_nil, Option.bind_none, reduceCtorEq] at h
  | 0 :: 1 :: p, h => by
    simp only [itemDom, Dom.at?, List.getElem?_cons_zero, List.getElem?_cons_succ, Option.bind_some] at h
    have e := fun {k : String} => load_class (k := k) d (quiet_main x.1) h
    refine ⟨fun h => ?_, fun h => ?_, e (by decide +kernel)⟩
    · rw [e (by decide +kernel)] at h; cases h
    · rw [e (by decide +kernel)] at h; cases h
  | 0 :: (i + 2) :: p, h => by
    simp only [itemDom, Dom.at?, List.getElem?_cons_zero, List.getElem?_cons_succ, Option.bind_some, List.getElem?_nil, Option.bind_none, reduceCtorEq] at h
  | [1], h => by
    simp only [itemDom, Dom.at?, List.getElem?_cons_zero, List.getElem?_cons_succ, Option.bind_some, Option.some.injEq] at h
    subst h
    refine ⟨?_, fun _ => rfl, ?_⟩
    · intro h
      simp only [hasClass_elem] at h
      cases o <;> exact absurd h (by decide +kernel)
    · simp only [hasClass_elem]
      cases o <;> decide +kernel
  | 1 :: 0 :: p, h => by
    simp only [itemDom, Dom.at?, List.getElem?_cons_zero, List.getElem?_cons_succ, Option.bind_some, innerNodes, List.cons_append, loads, closeIcon] at h
    cases p with
    | nil =>
      rw [load] at h
      simp only [Dom.at?, Option.some.injEq] at h
      subst h
      simp only [hasClass_elem]
      exact ⟨fun h => absurd h (by decide +kernel), fun h => absurd h (by decide +kernel), by decide +kernel⟩
    | cons i p =>
      rw [load, loads_map] at h
      simp only [Dom.at?, List.getElem?_map] at h
      obtain ⟨c, h1, h2⟩ := Option.bind_eq_some_iff.1 h
      obtain ⟨n', h3, rfl⟩ := Option.map_eq_some_iff.1 h1
      have hq : Quiet n' := by
        have : Quiets [Node.elem "span" [classAttr "pficon pficon-close"] []] := quiets_cons (quiet_elem (by decide +kernel) quiets_nil) quiets_nil
        exact quiets_iff.1 this n' (List.mem_of_getElem? h3)
      have e := fun {k : String} => load_class (k := k) d hq h2
      refine ⟨fun h => ?_, fun h => ?_, e (by decide +kernel)⟩
      · rw [e (by decide +kernel)] at h; cases h
      · rw [e (by decide +kernel)] at h; cases h
  | 1 :: (i + 1) :: p, h => by
    simp only [itemDom, Dom.at?, List.getElem?_cons_zero, List.getElem?_cons_succ, Option.bind_some, innerNodes, List.cons_append, loads] at h
    rw [loads_map, List.getElem?_map] at h
    obtain ⟨c, h1, h2⟩ := Option.bind_eq_some_iff.1 h
    obtain ⟨n', h3, rfl⟩ := Option.map_eq_some_iff.1 h1
    have hq : Quiet n' := by
      have : Quiets (samples lb x.2.2 ++ [.elem "div" [classAttr "loglines"] x.2.1]) :=
        quiets_append.2 ⟨quiet_samples _, quiets_cons (quiet_elem (by decide +kernel) hx) quiets_nil⟩
      exact quiets_iff.1 this n' (List.mem_of_getElem? h3)
    have e := fun {k : String} => load_class (k := k) d hq h2
    refine ⟨fun h => ?_, fun h => ?_, e (by decide +kernel)⟩
    · rw [e (by decide +kernel)] at h; cases h
    · rw [e (by decide +kernel)] at h; cases h
  | (i + 2) :: p, h => by
    simp only [itemDom, Dom.at?, List.getElem?_cons_succ, List.getElem?_nil, Option.bind_none, reduceCtorEq] at h

theorem hasClass_of {n : Dom} {ws : List Str} (h : n.classes = ws) (k : String) : n.hasClass k = ws.contains k.toList := by
  unfold Dom.hasClass
  rw [h]

theorem shows_item (d : Option Bool) {x : LogReport S N D × List Node × Option (List S)} (hx : Quiets x.2.1) (o : Bool) :
    Shows (load d (itemNode lb x o)) o := by
  rw [load_item]
  refine ⟨?_, ?_, ?_, ⟨[0, 0, 0], _, rfl, ?_⟩, ⟨_, rfl, ?_⟩⟩
  · show (itemClasses o).contains _ = o
    cases o <;> decide +kernel
  · intro p n h hc
    rw [hasClass_of ((item_at d hx h).1 hc)]
    cases o <;> decide +kernel
  · intro p n h hc
    rw [hasClass_of ((item_at d hx h).2.1 hc)]
    cases o <;> decide +kernel
  · show (arrowClasses o).contains _ = true
    cases o <;> decide +kernel
  · show (boxClasses o).contains _ = true
    cases o <;> decide +kernel

theorem head_item (d : Option Bool) {x : LogReport S N D × List Node × Option (List S)} (hx : Quiets x.2.1) (o : Bool) :
    headF (load d (itemNode lb x o)) = load d (itemNode lb x !o) := by
  rw [load_item, load_item]
  exact headF_item o (fun k hk f => inside_quiet d f hk _ (quiet_main _)) (fun k hk => load_hasClass d (quiet_main _) hk) (fun k hk f => inner_inside d f x hx hk)

theorem close_item (d : Option Bool) {x : LogReport S N D × List Node × Option (List S)} (hx : Quiets x.2.1) (o : Bool) :
    closeF (load d (itemNode lb x o)) = load d (itemNode lb x false) := by
  rw [load_item, load_item]
  exact closeF_item o (fun k hk f => inside_quiet d f hk _ (quiet_main _)) (fun k hk => load_hasClass d (quiet_main _) hk) (fun k hk f => inner_inside d f x hx hk)

/-! ### A click on the page -/

/-- the tag of an element in the browser -/
def domTag : Option Dom → Option String
  | some (.elem tag ..) => some tag
  | _ => none

theorem domTag_bare (x : Option Dom) : domTag x = match x.map Dom.bare with | some (.elem tag _ _) => some tag | _ => none := by
  cases x with
  | none => rfl
  | some d => cases d <;> simp [domTag, Dom.bare]

theorem domTag_load (d : Option Bool) (n : Node) (q : List Nat) : domTag ((load d n).at? q) = tagAt n q := by
  rw [load_at]
  unfold tagAt
  cases n.at? q with
  | none => rfl
  | some m =>
    rw [Option.map_some]
    cases m <;> rw [load] <;> rfl

theorem domTag_eq {page : Node} {D : Dom} (h : D.bare = (load none page).bare) (q : List Nat) : domTag (D.at? q) = tagAt page q := by
  rw [← domTag_load none, domTag_bare, domTag_bare, bare_at, bare_at, h]

theorem handle_quiet {d : Option Bool} {n : Node} {q p : List Nat} (h : ¬ Loud n p) : handle q (load d n) p = load d n := by
  unfold handle
  rw [load_at]
  cases e : n.at? p with
  | none => rfl
  | some m =>
    cases m with
    | text s => rfl
    | elem t as cs =>
      have hl : loud as = false := by
        cases hl : loud as with
        | false => rfl
        | true => exact absurd ⟨t, as, cs, e, hl⟩ h
      unfold loud at hl
      rw [Bool.or_eq_false_iff, Bool.or_eq_false_iff] at hl
      have h1 : (load d (.elem t as cs)).hasClass "list-group-item-header" = false := by rw [load]; exact hl.1.1
      have h2 : (load d (.elem t as cs)).hasClass "close" = false := by rw [load]; exact hl.1.2
      have h3 : ¬ (load d (.elem t as cs)).id? = some "debugbtn".toList := by
        rw [load_id]
        simpa using hl.2
      simp only [Option.map_some, h1, h2, Bool.false_and, Bool.false_eq_true, if_false, h3]

theorem handle_header (d : Option Bool) (hx : ∀ x ∈ xs, Quiets x.2.1) {i : Nat} (hi : i < xs.length) {q : List Nat} (hq : headerAt i <+: q) {tag : String}
    (ht : domTag ((load d (pageWith css version title info lb xs o)).at? q) = some tag) :
    handle q (load d (pageWith css version title info lb xs o)) (headerAt i) =
      load d (pageWith css version title info lb xs fun j => if j = i then (if tag ∈ ["a", "button", "input"] then o i else !o i) else o j) := by
  obtain ⟨x, hxi⟩ : ∃ x, xs[i]? = some x := ⟨xs[i], List.getElem?_eq_getElem hi⟩
  have hqx := hx x (List.mem_of_getElem? hxi)
  have hat : (load d (pageWith css version title info lb xs o)).at? (headerAt i) = some (load d (itemHeader lb x.1 (o i))) := by
    rw [load_at, headerAt, at_item, hxi]
    rfl
  have c1 : (load d (itemHeader lb x.1 (o i))).hasClass "list-group-item-header" = true := by
    unfold itemHeader
    rw [load, hasClass_elem]
    decide +kernel
  have c2 : (load d (itemHeader lb x.1 (o i))).hasClass "close" = false := by
    unfold itemHeader
    rw [load, hasClass_elem]
    decide +kernel
  have c3 : ¬ (load d (itemHeader lb x.1 (o i))).id? = some "debugbtn".toList := by
    rw [load_id]
    show ¬ idOf [classAttr "list-group-item-header"] = some "debugbtn".toList
    decide +kernel
  have hlink : ((load d (pageWith css version title info lb xs o)).at? q).all (!·.isLink) = !decide (tag ∈ ["a", "button", "input"]) := by
    obtain ⟨p, rfl⟩ := hq
    have hat : (load d (pageWith css version title info lb xs o)).at? (headerAt i ++ p) = (load d (itemNode lb x (o i))).at? (0 :: p) := by
      rw [load_at, load_at]
      show ((pageWith css version title info lb xs o).at? (1 :: 1 :: 1 :: i :: (0 :: p))).map _ = _
      rw [at_item, hxi]
      rfl
    rw [hat] at ht ⊢
    rw [load_item] at ht ⊢
    cases e : (itemDom (o i) (load d (mainInfo lb x.1)) (loads d (innerNodes lb x))).at? (0 :: p) with
    | none => rw [e] at ht; cases ht
    | some n =>
      have hell := (item_at d hqx e).2.2
      rw [e] at ht
      cases n with
      | text s => cases ht
      | elem t as ws sh cs =>
        cases ht
        rw [hasClass_elem] at hell
        simp only [Option.all_some, Dom.isLink, hell, Bool.or_false]
        congr 1
        rw [Bool.eq_iff_iff]
        simp only [Bool.or_eq_true, beq_iff_eq, decide_eq_true_eq, List.mem_cons, List.not_mem_nil, or_false]
        constructor
        · rintro ((h | h) | h)
          · exact .inr (.inl h)
          · exact .inl h
          · exact .inr (.inr h)
        · rintro (h | h | h)
          · exact .inl (.inr h)
          · exact .inl (.inl h)
          · exact .inr h
  unfold handle
  rw [hat]
  simp only [c1, c2, c3, if_true, if_false, Bool.false_and, Bool.false_eq_true]
  unfold headerClick
  rw [hlink]
  by_cases hl : tag ∈ ["a", "button", "input"]
  · simp only [hl, decide_true, Bool.not_true, Bool.false_eq_true, if_false, if_true]
    congr 2
    funext j
    split
    · rename_i h; rw [h]
    · rfl
  · simp only [hl, decide_false, Bool.not_false, if_true, if_false]
    have e1 : headerAt i = itemAt i ++ [0] := rfl
    rw [e1, List.dropLast_concat, update_append, update_update, update_update]
    exact update_item d (b := !o i) fun x hxi => head_item d (hx x (List.mem_of_getElem? hxi)) (o i)

theorem handle_close (d : Option Bool) (hx : ∀ x ∈ xs, Quiets x.2.1) {i : Nat} (hi : i < xs.length) {q : List Nat} :
    handle q (load d (pageWith css version title info lb xs o)) (closeAt i) =
      load d (pageWith css version title info lb xs fun j => if j = i then false else o j) := by
  obtain ⟨x, hxi⟩ : ∃ x, xs[i]? = some x := ⟨xs[i], List.getElem?_eq_getElem hi⟩
  have hat : (load d (pageWith css version title info lb xs o)).at? (closeAt i) = some (load d closeIcon) := by
    rw [load_at, closeAt, at_item, hxi]
    rfl
  have c1 : (load d closeIcon).hasClass "list-group-item-header" = false := by
    unfold closeIcon
    rw [load, hasClass_elem]
    decide +kernel
  have c2 : (load d closeIcon).hasClass "close" = true := by
    unfold closeIcon
    rw [load, hasClass_elem]
    decide +kernel
  have c3 : ¬ (load d closeIcon).id? = some "debugbtn".toList := by
    rw [load_id]
    unfold closeIcon
    decide +kernel
  have c4 : inContainer (load d (pageWith css version title info lb xs o)) (closeAt i) = true := by
    unfold inContainer
    rw [List.any_eq_true]
    refine ⟨[1, 1, 1, i, 1], mem_around.2 ⟨[], rfl⟩, ?_⟩
    rw [load_at, at_item, hxi]
    show (classesOf [classAttr (if o i then "list-group-item-container container-fluid" else "list-group-item-container container-fluid hidden")]).contains
      "list-group-item-container".toList = true
    cases o i <;> decide +kernel
  unfold handle
  rw [hat]
  simp only [c1, c2, c3, c4, if_true, if_false, Bool.and_self, Bool.false_eq_true]
  unfold closeClick
  have e1 : (closeAt i).dropLast = itemAt i ++ [1] := rfl
  rw [e1, List.dropLast_concat, update_append, update_update, update_update]
  exact update_item d (b := false) fun x hxi => close_item d (hx x (List.mem_of_getElem? hxi)) (o i)

theorem handle_button (d : Option Bool) {q : List Nat} :
    handle q (load d (pageWith css version title info lb xs o)) buttonAt = load (flipped d) (pageWith css version title info lb xs o) := by
  have hat : (load d (pageWith css version title info lb xs o)).at? buttonAt =
      some (load d (.elem "a" ["href=\"#\"".toList, "id='debugbtn'".toList] [.text "Show Debug".toList])) := by
    rw [load_at]
    rfl
  have c1 : (load d (.elem "a" ["href=\"#\"".toList, "id='debugbtn'".toList] [.text "Show Debug".toList])).hasClass "list-group-item-header" = false := by
    rw [load, hasClass_elem]
    decide +kernel
  have c2 : (load d (.elem "a" ["href=\"#\"".toList, "id='debugbtn'".toList] [.text "Show Debug".toList])).hasClass "close" = false := by
    rw [load, hasClass_elem]
    decide +kernel
  have c3 : (load d (.elem "a" ["href=\"#\"".toList, "id='debugbtn'".toList] [.text "Show Debug".toList])).id? = some "debugbtn".toList := by
    rw [load_id]
    decide +kernel
  unfold handle
  rw [hat]
  simp only [c1, c2, c3, if_true, if_false, Bool.false_and, Bool.false_eq_true]
  refine debugClick_load d ?_
  rw [load_id]
  show idOf ["lang='en'".toList] ≠ some "debuginfo".toList
  decide +kernel

theorem prefix_same {a b q : List Nat} (h1 : a <+: q) (h2 : b <+: q) (h : a.length = b.length) : a = b :=
  (List.prefix_of_prefix_length_le h1 h2 (Nat.le_of_eq h)).eq_of_length h

theorem prefix_long {a b q : List Nat} (h1 : a <+: q) (h2 : b <+: q) (h : a.length ≤ b.length) : a <+: b := List.prefix_of_prefix_length_le h1 h2 h

theorem header_header {i j : Nat} {q : List Nat} (h1 : headerAt i <+: q) (h2 : headerAt j <+: q) : i = j := by
  have := prefix_same h1 h2 rfl
  simpa [headerAt] using this

theorem close_close {i j : Nat} {q : List Nat} (h1 : closeAt i <+: q) (h2 : closeAt j <+: q) : i = j := by
  have := prefix_same h1 h2 rfl
  simpa [closeAt] using this

theorem header_close {i j : Nat} {q : List Nat} (h1 : headerAt i <+: q) (h2 : closeAt j <+: q) : False := by
  have := prefix_long h1 h2 (by simp [headerAt, closeAt])
  simp [headerAt, closeAt, List.cons_prefix_cons] at this

theorem header_button {i : Nat} {q : List Nat} (h1 : headerAt i <+: q) (h2 : buttonAt <+: q) : False := by
  have := prefix_long h1 h2 (by simp [headerAt, buttonAt])
  simp [headerAt, buttonAt, List.cons_prefix_cons] at this

theorem close_button {i : Nat} {q : List Nat} (h1 : closeAt i <+: q) (h2 : buttonAt <+: q) : False := by
  have := prefix_same h1 h2 rfl
  simp [closeAt, buttonAt] at this

variable (css version title info lb xs) in
/-- the pages in a browser, with the tags of a page -/
def IsView (page : Node) (D : Dom) : Prop := (∃ d o, D = load d (pageWith css version title info lb xs o)) ∧ D.bare = (load none page).bare

theorem click_page {page : Node} (hi : Quiet info) (hx : ∀ x ∈ xs, Quiets x.2.1) {d : Option Bool}
    (hb : (load d (pageWith css version title info lb xs o)).bare = (load none page).bare) (q : List Nat) :
    ∃ o', click (load d (pageWith css version title info lb xs o)) q =
        load (if (tagAt page q).isSome && buttonAt.isPrefixOf q then flipped d else d) (pageWith css version title info lb xs o') ∧
      ∀ i < xs.length, o' i = opens page i (o i) q := by
  have htag := domTag_eq hb q
  cases e : (load d (pageWith css version title info lb xs o)).at? q with
  | none =>
    rw [e] at htag
    have h0 : tagAt page q = none := htag.symm
    refine ⟨o, ?_, fun i _ => ?_⟩
    · unfold click
      rw [e, h0]
      rfl
    · unfold opens
      rw [h0]
  | some n =>
  cases n with
  | text s =>
    rw [e] at htag
    have h0 : tagAt page q = none := htag.symm
    refine ⟨o, ?_, fun i _ => ?_⟩
    · unfold click
      rw [e, h0]
      rfl
    · unfold opens
      rw [h0]
  | elem tag as ws sh cs =>
    rw [e] at htag
    have h0 : tagAt page q = some tag := htag.symm
    have hc : click (load d (pageWith css version title info lb xs o)) q =
        (around q).foldl (handle q) (load d (pageWith css version title info lb xs o)) := by
      unfold click
      rw [e]
    rw [hc, h0]
    have hI : ∀ p, (∃ i < xs.length, p = headerAt i ∧ headerAt i <+: q ∨ p = closeAt i) ∨ p = buttonAt → ∀ D, IsView lb css version title info xs page D →
        IsView lb css version title info xs page (handle q D p) := by
      rintro p hp D ⟨⟨d, o, rfl⟩, hb⟩
      refine ⟨?_, (keeps_handle q p _).trans hb⟩
      have ht : domTag ((load d (pageWith css version title info lb xs o)).at? q) = some tag := by rw [domTag_eq hb, h0]
      rcases hp with ⟨i, hi, ⟨rfl, hq⟩ | rfl⟩ | rfl
      · exact ⟨_, _, handle_header d hx hi hq ht⟩
      · exact ⟨_, _, handle_close d hx hi⟩
      · exact ⟨_, _, handle_button d⟩
    have hD : IsView lb css version title info xs page (load d (pageWith css version title info lb xs o)) := ⟨⟨d, o, rfl⟩, hb⟩
    have hno : ∀ p0, (∀ p ∈ around q, p ≠ p0 → (∀ i < xs.length, p ≠ headerAt i ∧ p ≠ closeAt i) ∧ p ≠ buttonAt) →
        ∀ D, IsView lb css version title info xs page D → ∀ p ∈ around q, p ≠ p0 → handle q D p = D := by
      rintro p0 h D ⟨⟨d, o, rfl⟩, _⟩ p hp hne
      refine handle_quiet fun hl => ?_
      obtain ⟨h1, h2⟩ := h p hp hne
      rcases loud_page hi hx hl with ⟨i, hi, e | e⟩ | e
      · exact (h1 i hi).1 e
      · exact (h1 i hi).2 e
      · exact h2 e
    by_cases hh : ∃ i < xs.length, headerAt i <+: q
    · obtain ⟨i, hil, hq⟩ := hh
      have hbtn : buttonAt.isPrefixOf q = false := by
        cases hp : buttonAt.isPrefixOf q with
        | false => rfl
        | true => exact (header_button hq (List.isPrefixOf_iff_prefix.1 hp)).elim
      have h1 := (foldl_once (hI (headerAt i) (.inl ⟨i, hil, .inl ⟨rfl, hq⟩⟩)) (around_nodup q) hD (hno _ (by
        intro p hp hne
        have hp := mem_around.1 hp
        refine ⟨fun j _ => ⟨?_, ?_⟩, ?_⟩
        · rintro rfl; exact hne (by rw [header_header hp hq])
        · rintro rfl; exact header_close hq hp
        · rintro rfl; exact header_button hq hp))).1 (mem_around.2 hq)
      rw [h1, handle_header d hx hil hq (by rw [domTag_eq hb, h0]), hbtn, Bool.and_false]
      refine ⟨_, rfl, fun j _ => ?_⟩
      unfold opens
      rw [h0]
      simp only
      by_cases hj : j = i
      · subst hj
        rw [if_pos rfl, if_pos hq]
      · rw [if_neg hj, if_neg (fun h => hj (header_header h hq)), if_neg (fun h => header_close hq h)]
    · by_cases hk : ∃ i < xs.length, closeAt i <+: q
      · obtain ⟨i, hil, hq⟩ := hk
        have hbtn : buttonAt.isPrefixOf q = false := by
          cases hp : buttonAt.isPrefixOf q with
          | false => rfl
          | true => exact (close_button hq (List.isPrefixOf_iff_prefix.1 hp)).elim
        have h1 := (foldl_once (hI (closeAt i) (.inl ⟨i, hil, .inr rfl⟩)) (around_nodup q) hD (hno _ (by
          intro p hp hne
          have hp := mem_around.1 hp
          refine ⟨fun j _ => ⟨?_, ?_⟩, ?_⟩
          · rintro rfl; exact header_close hp hq
          · rintro rfl; exact hne (by rw [close_close hp hq])
          · rintro rfl; exact close_button hq hp))).1 (mem_around.2 hq)
        rw [h1, handle_close d hx hil, hbtn, Bool.and_false]
        refine ⟨_, rfl, fun j _ => ?_⟩
        unfold opens
        rw [h0]
        simp only
        by_cases hj : j = i
        · subst hj
          rw [if_pos rfl, if_neg (fun h => header_close h hq), if_pos hq]
        · rw [if_neg hj, if_neg (fun h => header_close h hq), if_neg (fun h => hj (close_close h hq))]
      · have hstay : ∀ j < xs.length, o j = opens page j (o j) q := by
          intro j hj
          unfold opens
          rw [h0]
          simp only
          rw [if_neg (fun h => hh ⟨j, hj, h⟩), if_neg (fun h => hk ⟨j, hj, h⟩)]
        have hfold := foldl_once (hI buttonAt (.inr rfl)) (around_nodup q) hD (hno _ (by
          intro p hp hne
          have hp := mem_around.1 hp
          refine ⟨fun j hj => ⟨?_, ?_⟩, hne⟩
          · rintro rfl; exact hh ⟨j, hj, hp⟩
          · rintro rfl; exact hk ⟨j, hj, hp⟩))
        by_cases hbq : buttonAt <+: q
        · rw [hfold.1 (mem_around.2 hbq), handle_button, List.isPrefixOf_iff_prefix.2 hbq]
          exact ⟨o, rfl, hstay⟩
        · have hbtn : buttonAt.isPrefixOf q = false := by
            cases hp : buttonAt.isPrefixOf q with
            | false => rfl
            | true => exact absurd (List.isPrefixOf_iff_prefix.1 hp) hbq
          rw [hfold.2 (fun h => hbq (mem_around.1 h)), hbtn, Bool.and_false]
          exact ⟨o, rfl, hstay⟩

/-- the display of the elements `debuginfo` after some clicks on the button -/
def after (n : Nat) : Option Bool := if n = 0 then none else some (n % 2 == 1)

theorem flipped_after (n : Nat) : flipped (after n) = after (n + 1) := by
  unfold flipped after
  rcases Nat.mod_two_eq_zero_or_one n with h | h
  · have : (n + 1) % 2 = 1 := by omega
    by_cases hn : n = 0
    · simp [hn]
    · simp [hn, h, this]
  · have h2 : (n + 1) % 2 = 0 := by omega
    have hn : n ≠ 0 := by omega
    simp [hn, h, h2]

theorem clicks_page {page : Node} (hi : Quiet info) (hx : ∀ x ∈ xs, Quiets x.2.1) (hp : page = pageWith css version title info lb xs (· == 0)) (qs : List (List Nat)) :
    ∃ o, clicks page qs = load (after (presses page qs)) (pageWith css version title info lb xs o) ∧ ∀ i < xs.length, o i = opened page i qs := by
  have hb : ∀ qs, (clicks page qs).bare = (load none page).bare := fun qs => keeps_clicks qs _
  induction qs using List.reverseRecOn with
  | nil => exact ⟨(· == 0), by rw [← hp]; rfl, fun i _ => rfl⟩
  | append_singleton qs q ih =>
    obtain ⟨o, h1, h2⟩ := ih
    have hc : clicks page (qs ++ [q]) = click (clicks page qs) q := by
      unfold clicks
      rw [List.foldl_append]
      rfl
    obtain ⟨o', h3, h4⟩ := click_page hi hx (by rw [← h1]; exact hb qs) q
    refine ⟨o', ?_, ?_⟩
    · rw [hc, h1, h3]
      congr 1
      unfold presses
      rw [List.filter_append, List.length_append]
      split
      · rename_i hpr
        rw [List.filter_cons, if_pos hpr, flipped_after]
        rfl
      · rename_i hpr
        rw [List.filter_cons, if_neg hpr]
        rfl
    · intro i hl
      rw [h4 i hl, h2 i hl]
      unfold opened
      rw [List.foldl_append]
      rfl

/-- a page is a page with its first item open -/
theorem document_with [DecidableEq N] {r : Report C S N D E ε} {page : Node} (h : document checks sc css version lb r = some page) :
    ∃ xs : List (LogReport S N D × List Node × Option (List S)), xs.length = r.logReports.length ∧ (∀ x ∈ xs, Quiets x.2.1) ∧
      page = pageWith css version ("Logreduce of ".toList ++ lb.content r.target) (infoTable lb r) lb xs (· == 0) := by
  simp only [document, body, container, Option.bind_eq_bind, Option.bind_eq_some_iff] at h
  obtain ⟨b, ⟨c, ⟨items, h1, h2⟩, h3⟩, h4⟩ := h
  cases h2
  cases h3
  cases h4
  obtain ⟨xs, e1, e2, e3⟩ := items_with _ _ h1
  refine ⟨xs, by rw [← e1, List.length_map], fun x hx => quiet_lines _ _ (e2 x hx), ?_⟩
  rw [e3]
  unfold pageWith
  simp only [Bool.and_true]

/-! ### C123 -/

/-- After any clicks, each item is either shown as open or as closed, in all its parts: it is open when it is the first one and nothing was done to it, and
then after the clicks on its own header and on its own icon. -/
theorem C123_items [DecidableEq N] {r : Report C S N D E ε} {page : Node} (h : document checks sc css version lb r = some page) (qs : List (List Nat)) {i : Nat}
    (hi : i < r.logReports.length) : ∃ item, (clicks page qs).at? (itemAt i) = some item ∧ Shows item (opened page i qs) := by
  obtain ⟨xs, hl, hq, hp⟩ := document_with h
  obtain ⟨o, h1, h2⟩ := clicks_page (quiet_info r) hq hp qs
  rw [← hl] at hi
  rw [← h2 i hi, h1, itemAt, load_at, at_item, List.getElem?_eq_getElem hi]
  exact ⟨_, rfl, shows_item _ (hq _ (List.getElem_mem hi)) _⟩

/-- After any clicks, the elements of debug are all shown, if the number of clicks on the button is odd, or all hidden; the script shows or hides
no other element by its style. -/
theorem C123_debug [DecidableEq N] {r : Report C S N D E ε} {page : Node} (h : document checks sc css version lb r = some page) (qs : List (List Nat))
    {p : List Nat} {n : Dom} (hn : (clicks page qs).at? p = some n) :
    (n.id? = some "debuginfo".toList → (Spec.display n = some true ↔ presses page qs % 2 = 1)) ∧ (n.id? ≠ some "debuginfo".toList → Spec.display n = none) := by
  obtain ⟨xs, hl, hq, hp⟩ := document_with h
  obtain ⟨o, h1, h2⟩ := clicks_page (quiet_info r) hq hp qs
  rw [h1, load_at] at hn
  obtain ⟨m, h3, rfl⟩ := Option.map_eq_some_iff.1 hn
  rw [load_id]
  cases m with
  | text s =>
    constructor
    · intro h
      cases h
    · intro _
      rw [load]
      rfl
  | elem t as cs =>
    rw [load]
    show (idOf as = _ → ((if idOf as = some "debuginfo".toList then after (presses page qs) else none) = some true ↔ _)) ∧
      (idOf as ≠ _ → (if idOf as = some "debuginfo".toList then after (presses page qs) else none) = none)
    constructor
    · intro e
      rw [if_pos e]
      unfold after
      split
      · rename_i h0
        rw [h0]
        simp
      · simp
    · intro e
      rw [if_neg e]

/-- No click changes the texts, the links or the elements of the page. -/
theorem C123_content (page : Node) (qs : List (List Nat)) : (clicks page qs).bare = (load none page).bare := keeps_clicks qs _

end

/-- A report of two files. -/
def clickReport : Report Nat String String Nat Unit Unit where
  target := 0
  baselines := [1]
  logReports := [⟨3, 30, [⟨[], ⟨1, 1, "X".toList⟩, ["a".toList]⟩], "f1", "a"⟩, ⟨3, 30, [⟨[], ⟨1, 1, "Y".toList⟩, []⟩], "f2", "b"⟩]
  indexReports := [("a", ["old"])]
  indexErrors := []
  readErrors := []
  totalLineCount := 6
  totalAnomalyCount := 2

/-- Its page: the second item is opened, then with a click in its header, on the path, closed, and opened again by a click on the arrow; a click on the link to the
file does nothing; the first item is closed by its icon.  Two clicks on the button hide what the first one shows. -/
example : ∃ page, document true toyScale [] [] pageLabels clickReport = some page ∧
    opened page 1 [headerAt 1] = true ∧ opened page 1 [headerAt 1, [1, 1, 1, 1, 0, 1, 1, 0, 0]] = false ∧
    opened page 1 [headerAt 1, [1, 1, 1, 1, 0, 1, 1, 0, 0], [1, 1, 1, 1, 0, 0, 0]] = true ∧
    tagAt page [1, 1, 1, 1, 0, 1, 1, 2, 1] = some "a" ∧ opened page 1 [headerAt 1, [1, 1, 1, 1, 0, 1, 1, 2, 1]] = true ∧
    opened page 0 [] = true ∧ opened page 0 [headerAt 1, closeAt 0] = false ∧ opened page 0 [closeAt 0 ++ [0], headerAt 0] = true ∧
    presses page [buttonAt] = 1 ∧ presses page [buttonAt, headerAt 1, buttonAt] = 2 := by
  refine ⟨_, rfl, ?_⟩
  decide +kernel

end LJ.Output

/-
The page in a browser: the script of the page (`JS` in `report/src/report.rs`) and the clicks of a user.

The elements of the page are those of `Document`, each attribute of which is taken as one attribute (`Browser` has what a browser reads, see C95 and C123).  Of the style sheets, the model has the
rule of `style.css` for `debuginfo`; a class `hidden` hides an element in those of the page.  The scripts which the page loads are not modelled,
but for the functions of jQuery which `JS` calls.
-/
import Verif.Output.Document
namespace LJ.Output
open LJ.Process (Str)

/-- The elements in a browser: the tag, the attributes other than `class`, the classes, and what `style.display` is: not set, shown or `none`. -/
inductive Dom where
  | text (s : Str)
  | elem (tag : String) (attrs : List Str) (classes : List Str) (display : Option Bool) (children : List Dom)

/-- The words of the value of a `class` attribute. -/
def classWords : Str → List Str
  | [] => [[]]
  | c :: s =>
    if c = ' ' then [] :: classWords s
    else match classWords s with
      | [] => [[c]]
      | w :: ws => (c :: w) :: ws

/-- `name="value"` or `name='value'`: the value of the attribute `name`. -/
def valueFor (name : String) (a : Str) : Option Str :=
  if (name ++ "=").toList.isPrefixOf a then some ((a.drop (name.length + 2)).dropLast) else none

/-- The classes of an element when the page is loaded. -/
def classesOf (attrs : List Str) : List Str := ((attrs.findSome? (valueFor "class")).map classWords).getD []

/-- The id of an element. -/
def idOf (attrs : List Str) : Option Str := attrs.findSome? (valueFor "id")

mutual
/-- The page when it is loaded, with `display` for the elements `debuginfo`. -/
def load (display : Option Bool) : Node → Dom
  | .text s => .text s
  | .elem tag attrs children =>
    .elem tag (attrs.filter fun a => (valueFor "class" a).isNone) (classesOf attrs)
      (if idOf attrs = some "debuginfo".toList then display else none) (loads display children)
def loads (display : Option Bool) : List Node → List Dom
  | [] => []
  | n :: ns => load display n :: loads display ns
end

namespace Dom

def classes : Dom → List Str
  | .text _ => []
  | .elem _ _ cs _ _ => cs

def hasClass (c : String) (d : Dom) : Bool := d.classes.contains c.toList

def id? : Dom → Option Str
  | .text _ => none
  | .elem _ attrs _ _ _ => idOf attrs

/-- The element at a place: the indexes of the children which lead to it. -/
def at? : Dom → List Nat → Option Dom
  | d, [] => some d
  | .text _, _ :: _ => none
  | .elem _ _ _ _ cs, i :: p => cs[i]?.bind fun c => c.at? p

/-- Change the element at a place. -/
def update (f : Dom → Dom) : List Nat → Dom → Dom
  | [], d => f d
  | _ :: _, .text s => .text s
  | i :: p, .elem t as ws sh cs => .elem t as ws sh (cs.modify i (update f p))

/-- jQuery `addClass` -/
def addClass (c : String) : Dom → Dom
  | .text s => .text s
  | .elem t as ws sh cs => .elem t as (if ws.contains c.toList then ws else ws ++ [c.toList]) sh cs

/-- jQuery `removeClass` -/
def removeClass (c : String) : Dom → Dom
  | .text s => .text s
  | .elem t as ws sh cs => .elem t as (ws.filter (· != c.toList)) sh cs

/-- jQuery `toggleClass` -/
def toggleClass (c : String) (d : Dom) : Dom := if d.hasClass c then removeClass c d else addClass c d

mutual
/-- jQuery `find`, and a change of what is found: the elements inside `d` for which `sel` holds. -/
def inside (sel : Dom → Bool) (f : Dom → Dom) : Dom → Dom
  | .text s => .text s
  | .elem t as ws sh cs => .elem t as ws sh (insides sel f cs)
def insides (sel : Dom → Bool) (f : Dom → Dom) : List Dom → List Dom
  | [] => []
  | d :: ds => (let d' := inside sel f d; if sel d then f d' else d') :: insides sel f ds
end

/-- jQuery `toggle` of an element `debuginfo`, which is hidden by its id (style.css:4) when `style.display` is not set. -/
def toggle : Dom → Dom
  | .text s => .text s
  | .elem t as ws sh cs => .elem t as ws (if sh = some true then some false else some true) cs

/-- `$(event.target).is("button, a, input, .fa-ellipsis-v")` (report.rs:414) -/
def isLink : Dom → Bool
  | .text _ => false
  | .elem tag _ ws _ _ => tag == "button" || tag == "a" || tag == "input" || ws.contains "fa-ellipsis-v".toList

end Dom

/-- report.rs:413-419, a click on a header, which is at the place `this`; the click is at `target`. -/
def headerClick (this target : List Nat) (d : Dom) : Dom :=
  if (d.at? target).all (!·.isLink) then
    ((d.update (Dom.inside (·.hasClass "fa-angle-right") (Dom.toggleClass "fa-angle-down")) this).update
      (Dom.toggleClass "list-view-pf-expand-active") this.dropLast).update
      (Dom.inside (·.hasClass "list-group-item-container") (Dom.toggleClass "hidden")) this.dropLast
  else d

/-- report.rs:420-424, a click on the icon which closes, at the place `this`. -/
def closeClick (this : List Nat) (d : Dom) : Dom :=
  ((d.update (Dom.addClass "hidden") this.dropLast).update (Dom.removeClass "list-view-pf-expand-active") this.dropLast.dropLast).update
    (Dom.inside (·.hasClass "fa-angle-right") (Dom.removeClass "fa-angle-down")) this.dropLast.dropLast

/-- report.rs:411, a click on the button. -/
def debugClick (d : Dom) : Dom := d.inside (fun n => n.id? == some "debuginfo".toList) Dom.toggle

/-- The places around a place, from the place itself to the whole page. -/
def around : List Nat → List (List Nat)
  | [] => [[]]
  | i :: p => (around p).map (i :: ·) ++ [[]]

/-- The element is in a `list-group-item-container`. -/
def inContainer (d : Dom) (p : List Nat) : Bool := (around p.dropLast).any fun q => (d.at? q).any (·.hasClass "list-group-item-container")

/-- The handlers of the element at `this` for a click at `target`.  The script gives the handlers when the page is loaded; the classes and the id which
select their elements do not change. -/
def handle (target : List Nat) (d : Dom) (this : List Nat) : Dom :=
  match d.at? this with
  | none => d
  | some n =>
    let d1 := if n.hasClass "list-group-item-header" then headerClick this target d else d
    let d2 := if n.hasClass "close" && inContainer d1 this then closeClick this d1 else d1
    if n.id? = some "debugbtn".toList then debugClick d2 else d2

/-- A click at a place: the handlers of the element, then of those around it.  A click is on an element. -/
def click (d : Dom) (target : List Nat) : Dom :=
  match d.at? target with
  | some (.elem ..) => (around target).foldl (handle target) d
  | _ => d

/-- What a user does with the page. -/
def clicks (page : Node) (targets : List (List Nat)) : Dom := targets.foldl click (load none page)

end LJ.Output

/-
C123: what is in the debug information of the page, and what is outside of it.
-/
import Verif.Output.Page
namespace LJ.Output
open LJ.Process (Str AnomalyContext)
open LJ.Report (Report LogReport)
open Spec (Within ItemsOf Says Links)

namespace Spec

/-- An element of the debug information (style.css:4 and report.rs:411 hide and show those). -/
def Debug (d : Node) : Prop := ∃ tag attrs children, d = .elem tag attrs children ∧ "id='debuginfo'".toList ∈ attrs

/-- A node of a tree which is in no element of the debug information. -/
inductive Shown (x : Node) : Node → Prop
  | here : Shown x x
  | inside {tag : String} {attrs : List Str} {children : List Node} {c : Node} :
      "id='debuginfo'".toList ∉ attrs → c ∈ children → Shown x c → Shown x (.elem tag attrs children)

end Spec
open Spec (Debug Shown)

variable {D : Type}

/-- all the links outside of the debug information are `x` -/
def Only (x : Node) (n : Node) : Prop := ∀ attrs children, Shown (.elem "a" attrs children) n → Node.elem "a" attrs children = x

theorem only_text (x : Node) (s : Str) : Only x (.text s) := by
  intro attrs children h
  cases h

theorem only_elem {x : Node} {tag : String} {attrs : List Str} {children : List Node} (ht : tag ≠ "a") (h : ∀ c ∈ children, Only x c) :
    Only x (.elem tag attrs children) := by
  intro as cs hs
  cases hs with
  | here => exact absurd rfl ht
  | inside _ hc hs => exact h _ hc as cs hs

theorem only_debug {x : Node} {tag : String} {attrs : List Str} {children : List Node} (ht : tag ≠ "a") (h : "id='debuginfo'".toList ∈ attrs) :
    Only x (.elem tag attrs children) := by
  intro as cs hs
  cases hs with
  | here => exact absurd rfl ht
  | inside hn _ _ => exact absurd h hn

theorem only_nil {x : Node} : ∀ c ∈ ([] : List Node), Only x c := by simp

theorem only_cons {x c : Node} {cs : List Node} (h : Only x c) (hs : ∀ d ∈ cs, Only x d) : ∀ d ∈ c :: cs, Only x d :=
  List.forall_mem_cons.2 ⟨h, hs⟩

theorem only_link (attrs : List Str) (s : Str) : Only (.elem "a" attrs [.text s]) (.elem "a" attrs [.text s]) := by
  intro as cs hs
  cases hs with
  | here => rfl
  | inside _ hc hs =>
    rw [List.mem_singleton] at hc
    subst hc
    cases hs

variable {checks : Bool} {sc : Scale D} {x : Node}

theorem only_context {pos : Nat} : ∀ (xs : List Str) (idx : Nat) {ns : List Node}, renderContextFrom checks pos idx xs = some ns → ∀ n ∈ ns, Only x n
  | [], _, _, h => by cases h; exact only_nil
  | line :: xs, idx, ns, h => by
    simp only [renderContextFrom, Option.bind_eq_bind, Option.bind_eq_some_iff] at h
    obtain ⟨p, _, n, _, rest, h1, h2⟩ := h
    cases h2
    exact only_cons (only_elem (by decide) (only_cons (only_text _ _) only_nil)) (only_context xs (idx + 1) h1)

theorem only_lines : ∀ (cs : List (AnomalyContext D)) (last : Option Nat) {ns : List Node}, renderFrom checks sc last cs = some ns → ∀ n ∈ ns, Only x n
  | [], _, _, h => by cases h; exact only_nil
  | c :: cs, last, ns, h => by
    simp only [renderFrom, Option.bind_eq_bind, Option.bind_eq_some_iff] at h
    obtain ⟨⟨nodes, last'⟩, h1, rest, h2, h3⟩ := h
    cases h3
    simp only [renderAnomaly, Option.bind_eq_bind, Option.bind_eq_some_iff] at h1
    obtain ⟨p, _, start, _, before, b1, after, b2, l, _, b3⟩ := h1
    cases b3
    intro n hn
    simp only [List.mem_append] at hn
    rcases hn with (((hn | hn) | hn) | hn) | hn
    · unfold separator at hn
      cases last with
      | none => cases hn
      | some l =>
        simp only at hn
        split at hn
        · rw [List.mem_singleton.1 hn]
          exact only_elem (by decide) only_nil
        · cases hn
    · exact only_context _ _ b1 n hn
    · rw [List.mem_singleton.1 hn]
      exact only_elem (by decide) (only_cons (only_text _ _) only_nil)
    · exact only_context _ _ b2 n hn
    · exact only_lines cs _ h2 n hn

variable {C S N E ε : Type} [DecidableEq N]

/-- C123: the table with the target, the baselines and the totals, the names of the models and the samples of the baselines are debug information; the path of each
file, its link, its number of anomalies and its lines are not.  The link to the file is the only link of an item outside of the debug information. -/
theorem C123_hidden {lb : Labels C S N} {r : Report C S N D E ε} {page : Node} (h : container checks sc lb r = some page) :
    (∃ d, Debug d ∧ Within d page ∧ Says d (lb.content r.target)) ∧
    ∃ items, ItemsOf page items ∧ items.length = r.logReports.length ∧
      ∀ (i : Nat) (l : LogReport S N D), r.logReports[i]? = some l → ∃ item lines, items[i]? = some item ∧ renderLines checks sc l.anomalies = some lines ∧
        Shown (.text (lb.relative l.source)) item ∧ Shown (.elem "strong" [] [.text (Nat.toDigits 10 l.anomalies.length)]) item ∧
        Shown (.elem "div" ["class=\"loglines\"".toList] lines) item ∧ (∀ line ∈ lines, Shown line item) ∧
        (∀ attrs children, Shown (.elem "a" attrs children) item ↔
          Node.elem "a" attrs children = .elem "a" ["href=\"".toList ++ lb.location l.source ++ "\"".toList] [.text "file".toList]) ∧
        (∃ d, Debug d ∧ Within d item ∧ Links d ("#model_".toList ++ lb.name l.indexName) (lb.name l.indexName)) ∧
        ∀ sources, r.indexReports.lookup l.indexName = some sources → ∃ d, Debug d ∧ Within d item ∧ ∀ s ∈ sources.take 3, Links d (lb.location s) (lb.location s) := by
  unfold container at h
  cases h1 : renderReports checks sc lb r.indexReports true r.logReports with
  | none => simp only [h1, Option.bind_eq_bind, Option.bind_none] at h; cases h
  | some items =>
    simp only [h1, Option.bind_eq_bind, Option.bind_some, Option.some.injEq] at h
    subst h
    obtain ⟨e1, e2⟩ := renderReports_items checks sc lb r.indexReports r.logReports true h1
    refine ⟨⟨infoTable lb r, ⟨_, _, _, rfl, .head _⟩, .inside (.head _) .here, ?_⟩, items, ⟨infoTable lb r, rfl⟩, e1, ?_⟩
    · exact .inside (.head _) (.inside (.head _) (.inside (.head _) (.inside (.tail _ (.head _)) (.inside (.head _) .here))))
    intro i l hl
    obtain ⟨item, a1, a2⟩ := e2 i l hl
    rw [Bool.true_and] at a2
    obtain ⟨lines, b1, rfl⟩ := renderContentReport_some a2
    generalize (i == 0) = o at a1 a2 ⊢
    have hcl : classAttr "loglines" = "class=\"loglines\"".toList := by decide +kernel
    have nid : ∀ s : String, "id='debuginfo'".toList ∉ [classAttr s] := by
      intro s hs
      rw [List.mem_singleton] at hs
      have := congrArg List.head? hs
      rw [show "id='debuginfo'".toList.head? = some 'i' by decide +kernel,
        show classAttr s = 'c' :: ("lass=\"".toList ++ s.toList ++ "\"".toList) from rfl] at this
      cases this
    have nitem : "id='debuginfo'".toList ∉ [classAttr (if o then "list-group-item list-view-pf-expand-active" else "list-group-item"), "id=\"TODO\"".toList] := by
      cases o <;> decide +kernel
    have up : ∀ {x y : Node}, Shown x y → y ∈ [heading lb l, modelInfo lb l, fileInfo lb l, countInfo l] → Shown x (itemHeader lb l o) :=
      fun h hy => .inside (nid _) (.tail _ (.head _)) (.inside (nid _) (.tail _ (.head _)) (.inside (nid _) hy h))
    have upw : ∀ {x y : Node}, Within x y → y ∈ [heading lb l, modelInfo lb l, fileInfo lb l, countInfo l] → Within x (itemHeader lb l o) :=
      fun h hy => .inside (.tail _ (.head _)) (.inside (.tail _ (.head _)) (.inside hy h))
    have noid : "id='debuginfo'".toList ∉ ([] : List Str) := by simp
    refine ⟨_, lines, a1, b1, .inside nitem (.head _) (up (y := heading lb l) (.inside (nid _) (.head _) (.inside (nid _) (.head _) .here)) (.head _)),
      .inside nitem (.head _) (up (y := countInfo l) (.inside (nid _) (.tail _ (.head _)) .here) (.tail _ (.tail _ (.tail _ (.head _))))), ?_, ?_, ?_, ?_, ?_⟩
    · rw [← hcl]
      exact .inside nitem (.tail _ (.head _)) (.inside (nid _) (List.mem_append_right _ (.head _)) .here)
    · intro line hline
      exact .inside nitem (.tail _ (.head _)) (.inside (nid _) (List.mem_append_right _ (.head _)) (.inside (nid _) hline .here))
    · intro attrs children
      constructor
      · have honly : Only (.elem "a" [href (lb.location l.source)] [.text "file".toList])
            (.elem "div" [classAttr (if o then "list-group-item list-view-pf-expand-active" else "list-group-item"), "id=\"TODO\"".toList]
              [itemHeader lb l o, .elem "div" [classAttr (if o then "list-group-item-container container-fluid" else "list-group-item-container container-fluid hidden")]
                (closeIcon :: samples lb (r.indexReports.lookup l.indexName) ++ [.elem "div" [classAttr "loglines"] lines])]) := by
          refine only_elem (by decide) (only_cons ?_ (only_cons (only_elem (by decide) ?_) only_nil))
          · unfold itemHeader
            refine only_elem (by decide) (only_cons (only_elem (by decide) (only_cons (only_elem (by decide) only_nil) only_nil)) (only_cons (only_elem (by decide)
              (only_cons (only_elem (by decide) (only_cons (only_elem (by decide) only_nil) only_nil)) (only_cons (only_elem (by decide)
                (only_cons ?_ (only_cons ?_ (only_cons ?_ (only_cons ?_ only_nil))))) only_nil))) only_nil))
            · exact only_elem (by decide) (only_cons (only_elem (by decide) (only_cons (only_text _ _) only_nil)) only_nil)
            · exact only_debug (by decide) (.tail _ (.head _))
            · exact only_elem (by decide) (only_cons (only_elem (by decide) only_nil) (only_cons (only_link _ _) only_nil))
            · exact only_elem (by decide) (only_cons (only_elem (by decide) only_nil) (only_cons (only_elem (by decide) (only_cons (only_text _ _) only_nil)) only_nil))
          · intro c hc
            rcases List.mem_append.1 hc with hc | hc
            · rcases List.mem_cons.1 hc with rfl | hc
              · exact only_elem (by decide) (only_cons (only_elem (by decide) only_nil) only_nil)
              · cases hix : r.indexReports.lookup l.indexName with
                | none => rw [hix] at hc; cases hc
                | some ss =>
                  rw [hix] at hc
                  rw [List.mem_singleton.1 hc]
                  exact only_debug (by decide) (.head _)
            · rw [List.mem_singleton.1 hc]
              exact only_elem (by decide) (only_lines _ _ b1)
        exact honly attrs children
      · intro e
        rw [e]
        exact .inside nitem (.head _) (up (y := fileInfo lb l) (.inside (nid _) (.tail _ (.head _)) .here) (.tail _ (.tail _ (.head _))))
    · exact ⟨modelInfo lb l, ⟨_, _, _, rfl, .tail _ (.head _)⟩, .inside (.head _) (upw .here (.tail _ (.head _))), .inside (.tail _ (.head _)) .here⟩
    · intro sources hss
      rw [hss]
      refine ⟨_, ⟨_, _, _, rfl, .head _⟩, .inside (.tail _ (.head _)) (.inside (List.mem_append_left _ (.tail _ (.head _))) .here), ?_⟩
      intro s hs
      exact .inside (.tail _ (.head _)) (.inside (List.mem_map.2 ⟨s, hs, rfl⟩) (.inside (.head _) .here))

/-- the page of the report on the target of `Verif/Report/Witness.lean` -/
example : (match LJ.Report.report LJ.Report.world1 LJ.Report.model1 List.reverse 1 with
    | some (.ok r) => (container true toyScale pageLabels r).isSome && r.logReports.length == 2 && r.indexReports.lookup "a" == some ["a1"]
    | _ => false) = true := by decide +kernel

end LJ.Output

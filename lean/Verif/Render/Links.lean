/-
C110: the page of a report links to the logs.
-/
import Verif.Render.Toy
namespace LJ.Render
open LJ.Process (Str)
open LJ.Codec (Texts Source Content bytesString stringBytes demoTexts)
open LJ.Output (Node)
open LJ.Output.Spec (Links)

namespace Spec

/-- The text is the location of the source: the bytes of its path, or its URL. -/
def LocationOf {t : Texts} (s : Source t) (u : Str) : Prop :=
  match s with
  | .loc _ path => stringBytes (String.ofList u) = path
  | .remote _ url => String.ofList u = url.val

end Spec
open Spec (LocationOf)

variable {t : Texts} {checks : Bool} {fl : ℝ → ℝ} {css version : Str} {fm : Formats}

/-- C110: the page links to each reported file and to the first three baselines of its model, wherever they are. -/
def C110 : Prop := ∀ (t : Texts) (checks : Bool) (fl : ℝ → ℝ) (css version : Str) (fm : Formats) (x : LJ.Codec.Report t) (n : Node),
  page checks fl css version fm x = some n → ∀ l ∈ x.logReports, (∃ u, LocationOf l.source u ∧ Links n u "file".toList) ∧
    ∀ i, x.indexReports.pairs.lookup l.indexName = some i → ∀ s ∈ i.sources.take 3, ∃ u, LocationOf s u ∧ Links n u u

theorem asStr_location {s : Source t} (h : ∀ n p, s = .loc n p → ∃ str, bytesString p = some str) : LocationOf s (asStr s) := by
  cases s with
  | loc n p =>
    obtain ⟨str, e⟩ := h n p rfl
    show stringBytes (String.ofList (((bytesString p).map String.toList).getD [])) = p
    rw [e, Option.map_some, Option.getD_some, String.ofList_toList]
    exact LJ.Codec.stringBytes_bytesString e
  | remote n u => exact String.ofList_toList

theorem page_links {x : LJ.Codec.Report t} {n : Node} (h : page checks fl css version fm x = some n) {l : LJ.Codec.LogReport t} (hl : l ∈ x.logReports) :
    Links n (asStr l.source) "file".toList ∧
      ∀ i, x.indexReports.pairs.lookup l.indexName = some i → ∀ s ∈ i.sources.take 3, Links n (asStr s) (asStr s) := by
  obtain ⟨r, h1, h2⟩ := page_some h
  obtain ⟨h3, h4⟩ := reportOf_some h1
  have hm : (l.source, l.indexName) ∈ r.logReports.map fun l => (l.source, l.indexName) := by
    rw [h3]; exact List.mem_map.2 ⟨l, hl, rfl⟩
  obtain ⟨k, hk, e⟩ := List.mem_map.1 hm
  obtain ⟨e1, e2⟩ := Prod.mk.inj e
  obtain ⟨_, g1, g2⟩ := LJ.Output.document_links h2 hk
  rw [e1] at g1
  rw [e2, h4] at g2
  refine ⟨g1, fun i hi s hs => g2 i.sources ?_ s hs⟩
  have hlook : ∀ (ps : List (String × LJ.Codec.IndexReport t)) k, (ps.map fun p => (p.1, p.2.sources)).lookup k = (ps.lookup k).map (·.sources) := by
    intro ps k
    induction ps with
    | nil => rfl
    | cons p ps ih =>
      rw [List.map_cons, List.lookup_cons, List.lookup_cons]
      cases k == p.1 <;> simp [ih]
  rw [hlook, hi]
  rfl

/-- What holds: all the links of the files whose path is UTF-8, and of the URLs.  Missing: the other paths. -/
theorem C110_partial {x : LJ.Codec.Report t} {n : Node} (h : page checks fl css version fm x = some n) {l : LJ.Codec.LogReport t} (hl : l ∈ x.logReports) :
    ((∀ k p, l.source = .loc k p → ∃ s, bytesString p = some s) → ∃ u, LocationOf l.source u ∧ Links n u "file".toList) ∧
      ∀ i, x.indexReports.pairs.lookup l.indexName = some i → ∀ s ∈ i.sources.take 3, (∀ k p, s = .loc k p → ∃ s, bytesString p = some s) →
        ∃ u, LocationOf s u ∧ Links n u u := by
  obtain ⟨h1, h2⟩ := page_links h hl
  exact ⟨fun hu => ⟨_, asStr_location hu, h1⟩, fun i hi s hs hu => ⟨_, asStr_location hu, h2 i hi s hs⟩⟩

/-- The link of a path which is not UTF-8 is empty: it leads to the page itself. -/
theorem C110_empty {x : LJ.Codec.Report t} {n : Node} (h : page checks fl css version fm x = some n) {l : LJ.Codec.LogReport t} (hl : l ∈ x.logReports)
    {k : UInt64} {p : List UInt8} (hs : l.source = .loc k p) (hp : bytesString p = none) : Links n [] "file".toList := by
  have := (page_links h hl).1
  rw [hs] at this
  have e : asStr (t := t) (.loc k p) = [] := by simp [asStr, hp]
  rw [e] at this
  exact this

/-- C110 is false for paths which are not UTF-8: no text is such a path. -/
theorem C110_false : ¬ C110 := by
  intro h
  have hb : bytesString [255] = none := by decide +kernel
  obtain ⟨n, hn⟩ := toyPageBytes [255] (by simp only [relative, hb]; rfl) id [] [] toyFormats
  obtain ⟨⟨u, hu, _⟩, _⟩ := h _ _ _ _ _ _ _ n hn _ (List.mem_singleton.2 rfl)
  have hu : stringBytes (String.ofList u) = [255] := hu
  have := LJ.Codec.bytesString_stringBytes (String.ofList u)
  rw [hu, hb] at this
  cases this

/-- Non-vacuity: the page of a report has the link to the file and to the baseline. -/
example : ∃ n, page false id [] [] toyFormats (toyReport "new") = some n ∧ Links n "new".toList "file".toList ∧ Links n "old".toList "old".toList := by
  obtain ⟨n, hn⟩ := toyPage "new" (by decide +kernel) id [] [] toyFormats
  obtain ⟨h1, h2⟩ := page_links hn (List.mem_singleton.2 rfl)
  have e : ∀ s : String, asStr (t := demoTexts) (.loc 0 (stringBytes s)) = s.toList := by
    intro s
    simp [asStr, LJ.Codec.bytesString_stringBytes]
  refine ⟨n, hn, by rw [← e]; exact h1, ?_⟩
  have := h2 ⟨⟨1, 1⟩, [.loc 0 (stringBytes "old")]⟩ (by simp [toyReport, toyBytes]) (.loc 0 (stringBytes "old")) (by simp)
  rw [e] at this
  exact this

end LJ.Render

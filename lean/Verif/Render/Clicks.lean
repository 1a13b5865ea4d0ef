/-
C123 for the pages of reports, as a browser reads them, and a page whose link to a file is hidden.
-/
import Verif.Render.Toy
import Verif.Output.Browser
namespace LJ.Render
open LJ.Process (Str)
open LJ.Codec (Texts Source Content stringBytes demoTexts)
open LJ.Output (Node browser)
open LJ.Output.Spec (Behaves fileAt)

/-- C123: what a user sees of the page of a report after any clicks, whatever the report. -/
def C123 : Prop := ∀ (t : Texts) (checks : Bool) (fl : ℝ → ℝ) (css version : Str) (fm : Formats) (x : LJ.Codec.Report t) (n : Node),
  page checks fl css version fm x = some n → Behaves (browser n) x.logReports.length

/-- It holds of the pages without a quote in the names of the indexes of the reported files, in their paths and URLs, and in those of the first three
baselines of their indexes. -/
theorem C123_partial (t : Texts) (checks : Bool) (fl : ℝ → ℝ) (css version : Str) (fm : Formats) (x : LJ.Codec.Report t) (n : Node)
    (h : page checks fl css version fm x = some n)
    (hq : ∀ l ∈ x.logReports, '"' ∉ l.indexName.toList ∧ '"' ∉ asStr l.source ∧
      ∀ i, x.indexReports.pairs.lookup l.indexName = some i → ∀ s ∈ i.sources.take 3, '"' ∉ asStr s) : Behaves (browser n) x.logReports.length := by
  obtain ⟨r, h1, h2⟩ := page_some h
  have := LJ.Output.behaves h2 ((C95_report h).2 hq)
  have e := congrArg List.length (reportOf_some h1).1
  rw [List.length_map, List.length_map] at e
  rwa [e] at this

/-- a name of a file with a quote, after which is the id of the debug information -/
def hidingName : String := "x\" id=\"debuginfo"

/-- The link to a file with a quote in its name can be debug information, which is hidden: C123 does not hold. -/
theorem C123_false : ¬ C123 := by
  intro h
  obtain ⟨n, hn⟩ := toyPage hidingName (by decide +kernel) id [] [] toyFormats
  obtain ⟨_, _, _, h2⟩ := h _ _ _ _ _ _ _ _ hn []
  obtain ⟨_, h2⟩ := h2 0 (by decide)
  obtain ⟨r, h3, h4⟩ := page_some hn
  obtain ⟨e, _⟩ := reportOf_some h3
  have : ∃ l, r.logReports[0]? = some l ∧ l.source = .loc 0 (stringBytes hidingName) := by
    have e' := congrArg (·[0]?) e
    simp only [List.getElem?_map] at e'
    have e2 : (toyReport hidingName).logReports[0]?.map (fun l => (l.source, l.indexName)) = some (.loc 0 (stringBytes hidingName), "n") := rfl
    rw [e2] at e'
    obtain ⟨l, hl, e3⟩ := Option.map_eq_some_iff.1 e'
    exact ⟨l, hl, (Prod.mk.inj e3).1⟩
  obtain ⟨l, hl, hs⟩ := this
  have hp := LJ.Output.link_place h4 hl
  rw [hs] at hp
  have hb := LJ.Output.load_at none (fileAt 0) (browser n)
  rw [LJ.Output.browser_at, hp, Option.map_some, Option.map_some] at hb
  refine h2 _ _ ⟨[], List.append_nil _⟩ hb ?_
  rw [LJ.Output.load_id, browser]
  decide +kernel

/-- A page without quotes. -/
example : ∃ n, page false id [] [] toyFormats (toyReport "new") = some n ∧ Behaves (browser n) 1 := by
  obtain ⟨n, hn⟩ := toyPage "new" (by decide +kernel) id [] [] toyFormats
  refine ⟨n, hn, C123_partial _ _ _ _ _ _ _ _ hn ?_⟩
  intro l hl
  obtain rfl := List.mem_singleton.1 hl
  refine ⟨by decide +kernel, by decide +kernel, fun i hi s hs => ?_⟩
  have e : (toyReport "new").indexReports.pairs.lookup "n" = some ⟨⟨1, 1⟩, [.loc 0 (stringBytes "old")]⟩ := by
    simp [toyReport, toyBytes]
  have hi : (toyReport "new").indexReports.pairs.lookup "n" = some i := hi
  rw [e] at hi
  cases hi
  obtain rfl : s = .loc 0 (stringBytes "old") := by simpa using hs
  decide +kernel

end LJ.Render

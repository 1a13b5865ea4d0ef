/-
C122 for the pages of reports: what they load and run, and a page which runs what is in the name of a file.
-/
import Verif.Render.Toy
import Verif.Output.Resources
namespace LJ.Render
open LJ.Process (Str)
open LJ.Codec (Texts Source Content stringBytes demoTexts)
open LJ.Output (Node)
open LJ.Output.Spec (AllAttributes Within Runs Checked Inline active)

/-- C122: the pages of all reports load and run the same things, which are scripts and style sheets of known hosts, checked with their digests, or in the
page itself; and no attribute runs anything. -/
def C122 : Prop := ∃ js : Str, ∀ (css : Str), ∃ things : List Node, (∀ n ∈ things, Checked n ∨ Inline css js n) ∧
  ∀ (t : Texts) (checks : Bool) (fl : ℝ → ℝ) (version : Str) (fm : Formats) (x : LJ.Codec.Report t) (n : Node),
    page checks fl css version fm x = some n → active n = things ∧ AllAttributes (fun a => ¬ Runs a) n

/-- It holds of the pages without a quote in the names of the indexes of the reported files, in their paths and URLs, and in those of the first three
baselines of their indexes; what the elements of the page load and run is the same for every report. -/
theorem C122_partial : ∃ js : Str, ∀ (css : Str), ∃ things : List Node, (∀ n ∈ things, Checked n ∨ Inline css js n) ∧
    ∀ (t : Texts) (checks : Bool) (fl : ℝ → ℝ) (version : Str) (fm : Formats) (x : LJ.Codec.Report t) (n : Node),
      page checks fl css version fm x = some n → active n = things ∧
        ((∀ l ∈ x.logReports, '"' ∉ l.indexName.toList ∧ '"' ∉ asStr l.source ∧
          ∀ i, x.indexReports.pairs.lookup l.indexName = some i → ∀ s ∈ i.sources.take 3, '"' ∉ asStr s) → AllAttributes (fun a => ¬ Runs a) n) := by
  refine ⟨LJ.Output.js.toList, fun css => ⟨LJ.Output.resources css, LJ.Output.resources_checked, ?_⟩⟩
  intro t checks fl version fm x n h
  obtain ⟨r, h1, h2⟩ := page_some h
  refine ⟨LJ.Output.active_document h2, fun hq => ?_⟩
  intro tag attrs children hw a ha hr
  exact LJ.Output.C122_handlers h2 tag attrs children hw a ha (LJ.Output.one_runs ((C95_report h).2 hq tag attrs children hw a ha) hr)

/-- The page of a file with a quote in its name runs what follows it: C122 does not hold. -/
theorem C122_false : ¬ C122 := by
  rintro ⟨js, h⟩
  obtain ⟨things, _, h⟩ := h []
  obtain ⟨n, hn⟩ := toyPage quoted (by decide +kernel) id [] [] toyFormats
  obtain ⟨_, h2⟩ := h _ _ _ _ _ _ _ hn
  obtain ⟨r, h3, h4⟩ := page_some hn
  obtain ⟨e, _⟩ := reportOf_some h3
  have : ∃ l ∈ r.logReports, l.source = .loc 0 (stringBytes quoted) := by
    have : (Source.loc (t := demoTexts) 0 (stringBytes quoted), "n") ∈ r.logReports.map (fun l => (l.source, l.indexName)) := by
      rw [e]
      exact .head _
    obtain ⟨l, hl, e⟩ := List.mem_map.1 this
    exact ⟨l, hl, (Prod.mk.inj e).1⟩
  obtain ⟨l, hl, hs⟩ := this
  have hw := (LJ.Output.document_links h4 hl).2.1
  rw [hs] at hw
  refine h2 _ _ _ hw _ (.head _) ?_
  have e : LJ.Output.href ((labels (t := demoTexts) toyFormats (toyReport quoted).createdAt (toyReport quoted).runTime).location (.loc 0 (stringBytes quoted))) =
      ['h', 'r', 'e', 'f'] ++ '=' :: '"' :: (['x'] ++ '"' :: ' ' :: 'o' :: 'n' :: "click=\"alert(1)\"".toList) := by decide +kernel
  show Runs (LJ.Output.href _)
  rw [e]
  exact .after (by decide) (.inl rfl) (by decide) (.here _)

/-- A page without quotes. -/
example : ∃ n, page false id [] [] toyFormats (toyReport "new") = some n ∧ AllAttributes (fun a => ¬ Runs a) n ∧ (active n).length = 9 := by
  obtain ⟨n, hn⟩ := toyPage "new" (by decide +kernel) id [] [] toyFormats
  obtain ⟨r, h3, h4⟩ := page_some hn
  have ha := LJ.Output.active_document h4
  refine ⟨n, hn, ?_, by rw [ha]; rfl⟩
  obtain ⟨_, h⟩ := C122_partial
  obtain ⟨_, _, h⟩ := h []
  refine (h _ _ _ _ _ _ _ hn).2 ?_
  intro l hl
  obtain rfl := List.mem_singleton.1 hl
  refine ⟨by decide +kernel, by decide +kernel, fun i hi s hs => ?_⟩
  have e : (toyReport "new").indexReports.pairs.lookup "n" = some ⟨⟨1, 1⟩, [.loc 0 (stringBytes "old")]⟩ := by
    simp [toyReport, toyBytes]
  have hi : (toyReport "new").indexReports.pairs.lookup "n" = some i := hi
  rw [e] at hi
  cases hi
  obtain rfl : s = .loc 0 (stringBytes "old") := by simpa using hs
  decide +kernel

end LJ.Render

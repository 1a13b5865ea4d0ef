/-
C111: the page of a report says what was compared.
-/
import Verif.Render.Links
namespace LJ.Render
open LJ.Process (Str)
open LJ.Codec (Texts Source Content bytesString stringBytes demoTexts)
open LJ.Output (Node)
open LJ.Output.Spec (Within)

namespace Spec

/-- The text names the content: its kind, and its path, URL, or build. -/
inductive Names {t : Texts} : Content t → Str → Prop
  | localFile (p : List UInt8) (s : Str) : stringBytes (String.ofList s) = p → Names (.file (.loc 0 p)) ("File(local: ".toList ++ s ++ ")".toList)
  | remoteFile (u : LJ.Codec.Url t) : Names (.file (.remote 0 u)) ("File(remote: ".toList ++ u.val.toList ++ ")".toList)
  | localDirectory (p : List UInt8) (s : Str) : stringBytes (String.ofList s) = p →
      Names (.directory (.loc 0 p)) ("Directory(local: ".toList ++ s ++ ")".toList)
  | remoteDirectory (u : LJ.Codec.Url t) : Names (.directory (.remote 0 u)) ("Directory(remote: ".toList ++ u.val.toList ++ ")".toList)
  | build (b : LJ.Codec.Build t) : Names (.zuul b) ("Zuul(".toList ++ b.api.val.toList ++ "build/".toList ++ b.uuid.toList ++ ")".toList)

/-- The same file, the same directory, or the same build of the same server. -/
def SameLogs {t : Texts} : Content t → Content t → Prop
  | .file s, .file s' => s = s'
  | .directory s, .directory s' => s = s'
  | .zuul b, .zuul b' => b.api = b'.api ∧ b.uuid = b'.uuid
  | _, _ => False

/-- The title of a document: the text in the first element of its head. -/
def titleOf : Node → Option Str
  | .elem "html" _ (.elem "head" _ (.elem "title" _ [.text s] :: _) :: _) => some s
  | _ => none

/-- The page has a table row with these two cells. -/
def Row (page : Node) (x y : Str) : Prop := Within (.elem "tr" [] [.elem "td" [] [.text x], .elem "td" [] [.text y]]) page

end Spec
open Spec

variable {t : Texts} {checks : Bool} {fl : ℝ → ℝ} {css version : Str} {fm : Formats}

/-- C111: the title of the page of a report tells its target: pages of other files, directories or builds have other titles. -/
def C111 : Prop := ∀ (t : Texts) (checks : Bool) (fl : ℝ → ℝ) (css version : Str) (fm : Formats) (x x' : LJ.Codec.Report t) (n n' : Node),
  page checks fl css version fm x = some n → page checks fl css version fm x' = some n' → titleOf n = titleOf n' → SameLogs x.target x'.target

theorem sliceFrom_zero (s : Str) : LJ.Paths.sliceFrom s 0 = some s := by
  cases s <;> rfl

/-- the text of a content with a name -/
theorem contentText_names {c : Content t} {s : Str} (h : Names c s) : contentText c = some s := by
  have hl : ∀ (s : Str) (p : List UInt8), stringBytes (String.ofList s) = p → relative (t := t) (.loc 0 p) = some s := by
    rintro s p rfl
    show LJ.Paths.sliceFrom (((bytesString (stringBytes (String.ofList s))).map String.toList).getD []) 0 = some s
    rw [LJ.Codec.bytesString_stringBytes]
    simp [sliceFrom_zero]
  have hr : ∀ u : LJ.Codec.Url t, relative (t := t) (.remote 0 u) = some u.val.toList := fun u => sliceFrom_zero _
  cases h with
  | localFile p s e => simp [contentText, sourceText, hl s p e]
  | remoteFile u => simp [contentText, sourceText, hr u]
  | localDirectory p s e => simp [contentText, sourceText, hl s p e]
  | remoteDirectory u => simp [contentText, sourceText, hr u]
  | build b => simp [contentText]

theorem joinComma_intercalate (ts : List Str) : LJ.Output.joinComma ts = ", ".toList.intercalate ts := by
  induction ts with
  | nil => rfl
  | cons x ts ih =>
    cases ts with
    | nil => simp [LJ.Output.joinComma, List.intercalate]
    | cons y ts =>
      show x ++ ", ".toList ++ LJ.Output.joinComma (y :: ts) = _
      rw [ih]
      simp [List.intercalate, List.intersperse]

/-- the frame of a page -/
theorem page_frame {x : LJ.Codec.Report t} {n : Node} (h : page checks fl css version fm x = some n) :
    titleOf n = some ("Logreduce of ".toList ++ (contentText x.target).getD []) ∧
      Row n "Target".toList ((contentText x.target).getD []) ∧
      Row n "Baselines".toList (", ".toList.intercalate (x.baselines.map fun c => (contentText c).getD [])) ∧
      Row n "Created at".toList (fm.time x.createdAt) ∧ Row n "Run time".toList (fm.seconds x.runTime) ∧
      Row n "Result".toList (fm.reduction x.totalAnomalyCount.toNat x.totalLineCount.toNat ++ "% reduction (from ".toList ++
        LJ.Output.decimal x.totalLineCount.toNat ++ " to ".toList ++ LJ.Output.decimal x.totalAnomalyCount.toNat ++ ")".toList) := by
  obtain ⟨r, h1, h2⟩ := page_some h
  have ht : titleOf n = some ("Logreduce of ".toList ++ (labels (t := t) fm x.createdAt x.runTime).content r.target) := by
    unfold LJ.Output.document at h2
    obtain ⟨b, _, e⟩ := Option.bind_eq_some_iff.1 h2
    cases e
    rfl
  obtain ⟨c, hc, hw⟩ := LJ.Output.document_container h2
  unfold LJ.Output.container at hc
  obtain ⟨items, _, e⟩ := Option.bind_eq_some_iff.1 hc
  cases e
  unfold reportOf at h1
  obtain ⟨ls, _, rfl⟩ := Option.map_eq_some_iff.1 h1
  have key : ∀ a b, [a, b] ∈ [
    ["Target".toList, (labels (t := t) fm x.createdAt x.runTime).content x.target],
    ["Baselines".toList, LJ.Output.joinComma (x.baselines.map (labels (t := t) fm x.createdAt x.runTime).content)],
    ["Created at".toList, (labels (t := t) fm x.createdAt x.runTime).createdAt],
    ["Run time".toList, (labels (t := t) fm x.createdAt x.runTime).runTime],
    ["Result".toList, (labels (t := t) fm x.createdAt x.runTime).reduction x.totalAnomalyCount.toNat x.totalLineCount.toNat ++ "% reduction (from ".toList ++
      LJ.Output.decimal x.totalLineCount.toNat ++ " to ".toList ++ LJ.Output.decimal x.totalAnomalyCount.toNat ++ ")".toList]] → Row n a b := by
    intro a b hm
    refine LJ.Output.Within.trans ?_ hw
    refine .inside (.head _) (.inside (.head _) (.inside (.head _) (.inside (List.mem_map.2 ⟨[a, b], hm, rfl⟩) .here)))
  refine ⟨ht, key _ _ (.head _), ?_, key _ _ (.tail _ (.tail _ (.head _))), key _ _ (.tail _ (.tail _ (.tail _ (.head _)))),
    key _ _ (.tail _ (.tail _ (.tail _ (.tail _ (.head _)))))⟩
  rw [← joinComma_intercalate]
  exact key _ _ (.tail _ (.head _))

/-- The page of a report says its target in its title and in its table, its baselines, and the totals.  The contents are named as in
`Names`: the paths are UTF-8. -/
theorem C111_table {x : LJ.Codec.Report t} {n : Node} (h : page checks fl css version fm x = some n) {s : Str} (hs : Names x.target s) :
    titleOf n = some ("Logreduce of ".toList ++ s) ∧ Row n "Target".toList s ∧
      (∀ ts, List.Forall₂ Names x.baselines ts → Row n "Baselines".toList (", ".toList.intercalate ts)) ∧
      ∃ p, Row n "Result".toList (p ++ "% reduction (from ".toList ++ LJ.Output.decimal x.totalLineCount.toNat ++ " to ".toList ++
        LJ.Output.decimal x.totalAnomalyCount.toNat ++ ")".toList) := by
  obtain ⟨h1, h2, h3, _, _, h6⟩ := page_frame h
  rw [contentText_names hs] at h1 h2
  refine ⟨h1, h2, fun ts hts => ?_, _, h6⟩
  have : x.baselines.map (fun c => (contentText c).getD []) = ts := by
    clear h1 h2 h3 h6
    generalize x.baselines = bs at hts ⊢
    induction hts with
    | nil => rfl
    | cons hc _ ih => rw [List.map_cons, ih, contentText_names hc]; rfl
  rw [this] at h3
  exact h3

/-- the last slash splits a text in one way -/
theorem slash_split {a b u v : Str} (hu : '/' ∉ u) (hv : '/' ∉ v) (h : a ++ '/' :: u = b ++ '/' :: v) : a = b ∧ u = v := by
  have hr := congrArg List.reverse h
  simp only [List.reverse_append, List.reverse_cons, List.append_assoc, List.singleton_append] at hr
  have key : ∀ (u v a b : Str), '/' ∉ u → '/' ∉ v → u ++ '/' :: a = v ++ '/' :: b → u = v ∧ a = b := by
    intro u
    induction u with
    | nil =>
      intro v a b _ hv e
      cases v with
      | nil => simp at e; exact ⟨rfl, e⟩
      | cons y v => simp at e; exact absurd (e.1 ▸ List.mem_cons_self) hv
    | cons x u ih =>
      intro v a b hu hv e
      cases v with
      | nil => simp at e; exact absurd (e.1 ▸ List.mem_cons_self) hu
      | cons y v =>
        simp only [List.cons_append, List.cons.injEq] at e
        obtain ⟨i1, i2⟩ := ih v a b (fun hm => hu (.tail _ hm)) (fun hm => hv (.tail _ hm)) e.2
        exact ⟨by rw [e.1, i1], i2⟩
  obtain ⟨e1, e2⟩ := key u.reverse v.reverse a.reverse b.reverse (by simpa using hu) (by simpa using hv) hr
  exact ⟨List.reverse_injective e2, List.reverse_injective e1⟩

/-- a name names one content -/
theorem names_same {c c' : Content t} {s : Str} (h : Names c s) (h' : Names c' s)
    (hb : ∀ b, c = .zuul b → '/' ∉ b.uuid.toList) (hb' : ∀ b, c' = .zuul b → '/' ∉ b.uuid.toList) : SameLogs c c' := by
  have hs : ∀ {u v : Str}, String.ofList u = String.ofList v → u = v := fun e => by
    simpa using congrArg String.toList e
  have hc : ∀ (u v w : Str), w ++ u ++ ")".toList = w ++ v ++ ")".toList → u = v := by
    intro u v w e
    simpa using e
  cases h with
  | localFile p s e =>
    generalize hx : "File(local: ".toList ++ s ++ ")".toList = x at h'
    cases h' with
    | localFile p' s' e' => rw [hc _ _ _ hx] at e; exact congrArg _ (e.symm.trans e')
    | remoteFile u => simp at hx
    | localDirectory p' s' e' => simp at hx
    | remoteDirectory u => simp at hx
    | build b => simp at hx
  | remoteFile u =>
    generalize hx : "File(remote: ".toList ++ u.val.toList ++ ")".toList = x at h'
    cases h' with
    | localFile p' s' e' => simp at hx
    | remoteFile u' => exact congrArg _ (Subtype.ext (String.toList_injective (hc _ _ _ hx)))
    | localDirectory p' s' e' => simp at hx
    | remoteDirectory u => simp at hx
    | build b => simp at hx
  | localDirectory p s e =>
    generalize hx : "Directory(local: ".toList ++ s ++ ")".toList = x at h'
    cases h' with
    | localFile p' s' e' => simp at hx
    | remoteFile u => simp at hx
    | localDirectory p' s' e' => rw [hc _ _ _ hx] at e; exact congrArg _ (e.symm.trans e')
    | remoteDirectory u => simp at hx
    | build b => simp at hx
  | remoteDirectory u =>
    generalize hx : "Directory(remote: ".toList ++ u.val.toList ++ ")".toList = x at h'
    cases h' with
    | localFile p' s' e' => simp at hx
    | remoteFile u => simp at hx
    | localDirectory p' s' e' => simp at hx
    | remoteDirectory u' => exact congrArg _ (Subtype.ext (String.toList_injective (hc _ _ _ hx)))
    | build b => simp at hx
  | build b =>
    generalize hx : "Zuul(".toList ++ b.api.val.toList ++ "build/".toList ++ b.uuid.toList ++ ")".toList = x at h'
    cases h' with
    | localFile p' s' e' => simp at hx
    | remoteFile u => simp at hx
    | localDirectory p' s' e' => simp at hx
    | remoteDirectory u => simp at hx
    | build b' =>
      have e : (b.api.val.toList ++ "build".toList) ++ '/' :: b.uuid.toList = (b'.api.val.toList ++ "build".toList) ++ '/' :: b'.uuid.toList := by
        have := hc (b.api.val.toList ++ ("build/".toList ++ b.uuid.toList)) (b'.api.val.toList ++ ("build/".toList ++ b'.uuid.toList)) "Zuul(".toList
          (by simpa [List.append_assoc] using hx)
        simpa using this
      obtain ⟨e1, e2⟩ := slash_split (hb b rfl) (hb' b' rfl) e
      exact ⟨Subtype.ext (String.toList_injective (List.append_cancel_right e1)), String.toList_injective e2⟩

/-- What holds: the title tells the target when the paths are UTF-8 and the identifiers of the builds have no slash.  Missing: the
other paths, whose text is empty. -/
theorem C111_partial {x x' : LJ.Codec.Report t} {n n' : Node} (h : page checks fl css version fm x = some n)
    (h' : page checks fl css version fm x' = some n') (he : titleOf n = titleOf n') (hx : ∃ s, Names x.target s) (hx' : ∃ s, Names x'.target s)
    (hb : ∀ b, x.target = .zuul b → '/' ∉ b.uuid.toList) (hb' : ∀ b, x'.target = .zuul b → '/' ∉ b.uuid.toList) : SameLogs x.target x'.target := by
  obtain ⟨s, hs⟩ := hx
  obtain ⟨s', hs'⟩ := hx'
  rw [(C111_table h hs).1, (C111_table h' hs').1] at he
  have e : s = s' := by simpa using he
  subst e
  exact names_same hs hs' hb hb'

/-- C111 is false: the pages of two files whose paths are not UTF-8 have the same title. -/
theorem C111_false : ¬ C111 := by
  intro h
  have hb : ∀ k : UInt8, 128 ≤ k.toNat → k = 255 ∨ k = 254 → bytesString [k] = none := by
    rintro k - (rfl | rfl) <;> decide +kernel
  have b1 := hb 255 (by decide) (.inl rfl)
  have b2 := hb 254 (by decide) (.inr rfl)
  obtain ⟨n, hn⟩ := toyPageBytes [255] (by simp only [relative, b1]; rfl) id [] [] toyFormats
  obtain ⟨n', hn'⟩ := toyPageBytes [254] (by simp only [relative, b2]; rfl) id [] [] toyFormats
  have e1 : contentText (toyBytes [255]).target = contentText (toyBytes [254]).target := by
    show contentText (.file (.loc 0 [255])) = contentText (.file (.loc 0 [254]))
    simp [contentText, sourceText, relative, b1, b2]
  have := h _ _ _ _ _ _ _ _ n n' hn hn' (by rw [(page_frame hn).1, (page_frame hn').1, e1])
  have : Source.loc (t := demoTexts) 0 [255] = .loc 0 [254] := this
  simp at this

/-- Non-vacuity: a page, its title, and its rows. -/
example : ∃ n, page false id [] [] toyFormats (toyReport "new") = some n ∧ titleOf n = some "Logreduce of File(local: new)".toList ∧
    Row n "Baselines".toList "File(local: old)".toList ∧ Row n "Result".toList "% reduction (from 2 to 1)".toList := by
  obtain ⟨n, hn⟩ := toyPage "new" (by decide +kernel) id [] [] toyFormats
  have h1 : Names (toyReport "new").target "File(local: new)".toList := by
    have := Names.localFile (t := demoTexts) _ "new".toList rfl
    simpa [toyReport, toyBytes] using this
  have h2 : Names (t := demoTexts) (.file (.loc 0 (stringBytes "old"))) "File(local: old)".toList := by
    have := Names.localFile (t := demoTexts) _ "old".toList rfl
    simpa using this
  obtain ⟨a1, _, a3, _⟩ := C111_table hn h1
  refine ⟨n, hn, a1, a3 ["File(local: old)".toList] (.cons h2 .nil), ?_⟩
  have := (page_frame hn).2.2.2.2.2
  have e : ("% reduction (from 2 to 1)".toList : Str) = toyFormats.reduction 1 2 ++ "% reduction (from ".toList ++
    LJ.Output.decimal 2 ++ " to ".toList ++ LJ.Output.decimal 1 ++ ")".toList := by decide +kernel
  rw [e]
  exact this

end LJ.Render

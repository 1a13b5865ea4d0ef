/-
C88 for any two texts, with blank lines, backslashes and an unterminated last line.
-/
import Verif.Whole.Props
namespace LJ.Whole.Spec
open LJ.Process (Str Bytes)

/-- `l` is the line number `i` of the text, and is not empty. -/
def IsLine (t : Str) (i : Nat) (l : Str) : Prop := l ≠ [] ∧ 1 ≤ i ∧ (t.splitOn '\n')[i - 1]? = some l

/-- A text whose lines have less than 6000 bytes, without a backslash followed by `n` or by a line return. -/
structure PlainText (t : Str) : Prop where
  newline : ¬ ['\\', 'n'] <:+: t
  continued : ¬ ['\\', '\n'] <:+: t
  short : ∀ l ∈ t.splitOn '\n', (utf8 l).length < 6000

end LJ.Whole.Spec

namespace LJ.Whole
open LJ.Process (Str Bytes Ev)
open LJ.Process.Spec (Line firsts)
open LJ.Paths (Source)
open LJ.Report (train report lookupOrSingle)
open Spec (utf8 Ordinary HasLines HasTexts reported Near baseFor IsLine PlainText)
open LJ.Iterator.Spec (split pieces)

/-! ### The pieces of a text -/

/-- bytes which are neither a backslash nor a line return are read -/
theorem split_run (bs cur r : Bytes) (ln : Nat) (h : ∀ b ∈ bs, b ≠ '\\'.toUInt8 ∧ b ≠ '\n'.toUInt8) :
    split false false false cur ln (bs ++ r) = split false false false (cur ++ bs) ln r := by
  induction bs generalizing cur with
  | nil => simp
  | cons b bs ih =>
    obtain ⟨h1, h2⟩ := h b (by simp)
    rw [List.cons_append, split.eq_2, if_neg (by simp), if_neg h1, if_neg h2, if_neg (by simp), if_neg (by simp),
      ih _ fun x hx => h x (by simp [hx])]
    simp

theorem encode_no {c : Char} {d : Char} (hd : d.toNat < 128) (h : c ≠ d) : ∀ b ∈ String.utf8EncodeChar c, b ≠ d.toUInt8 := by
  have := utf8_no hd (l := [c]) (by simpa using Ne.symm h)
  rw [utf8_eq] at this
  intro b hb e
  exact this (by simpa [← e] using hb)

theorem splitOn_cons (c : Char) (t : Str) : (c :: t).splitOn '\n' =
    if c = '\n' then [] :: t.splitOn '\n' else (t.splitOn '\n').modifyHead (List.cons c) := by
  unfold List.splitOn
  rw [List.splitOnP_cons_eq_if_modifyHead]
  by_cases h : c = '\n'
  · simp [h]
  · simp [h]

theorem splitOn_ne (t : Str) : t.splitOn '\n' ≠ [] := List.splitOnP_ne_nil _ _

theorem encode_tail {c : Char} {b : UInt8} {bs : Bytes} (h : String.utf8EncodeChar c = b :: bs) : ∀ x ∈ bs, 128 ≤ x.toNat := by
  intro x hx
  by_contra hlt
  have h1 := encode_ascii (c := c) (b := x) (by rw [h]; simp [hx]) (by omega)
  have h2 : (String.utf8EncodeChar c).length = 1 := by
    have : c.toNat < 128 := by omega
    unfold String.utf8EncodeChar
    have h3 : c.toNat ≤ 127 := by omega
    simp [h3]
  rw [h] at h2
  have : bs = [] := by simpa using h2
  rw [this] at hx
  cases hx

theorem split_text (esc : Bool) (cur : Bytes) (ln : Nat) (t : Str) (h1 : ¬ ['\\', 'n'] <:+: t) (h2 : ¬ ['\\', '\n'] <:+: t)
    (he : esc = true → t.head? ≠ some 'n' ∧ t.head? ≠ some '\n') {l : Str} {ls : List Str} (hl : t.splitOn '\n' = l :: ls) :
    split false esc false cur ln (utf8 t) = (cur ++ utf8 l, ln) :: (ls.map utf8).zipIdx (ln + 1) := by
  induction t generalizing esc cur ln l ls with
  | nil =>
    cases hl
    simp [utf8_eq, split]
  | cons c t ih =>
    have g1 : ¬ ['\\', 'n'] <:+: t := fun h' => h1 (h'.trans (List.suffix_cons c t).isInfix)
    have g2 : ¬ ['\\', '\n'] <:+: t := fun h' => h2 (h'.trans (List.suffix_cons c t).isInfix)
    have hu : utf8 (c :: t) = String.utf8EncodeChar c ++ utf8 t := by rw [utf8_eq, utf8_eq, List.flatMap_cons]
    obtain ⟨m, ms, hm⟩ := List.exists_cons_of_ne_nil (splitOn_ne t)
    rw [splitOn_cons, hm] at hl
    -- the first characters of the line
    have go : c ≠ '\n' → ∀ esc', (esc' = true → t.head? ≠ some 'n' ∧ t.head? ≠ some '\n') →
        split false esc' false (cur ++ String.utf8EncodeChar c) ln (utf8 t) = (cur ++ utf8 l, ln) :: (ls.map utf8).zipIdx (ln + 1) := by
      intro hc esc' he'
      rw [if_neg hc] at hl
      cases hl
      rw [ih esc' (cur ++ String.utf8EncodeChar c) ln g1 g2 he' hm, utf8_eq (c :: m), List.flatMap_cons, ← utf8_eq, List.append_assoc]
    rw [hu]
    by_cases hesc : esc = true
    · subst hesc
      obtain ⟨e1, e2⟩ := he rfl
      have hcn : c ≠ 'n' := fun e => e1 (by rw [e]; rfl)
      have hcl : c ≠ '\n' := fun e => e2 (by rw [e]; rfl)
      rw [← go hcl false (by simp)]
      obtain ⟨b, bs, hb⟩ := List.exists_cons_of_ne_nil (String.utf8EncodeChar_ne_nil (c := c))
      have hbn : b ≠ 'n'.toUInt8 := encode_no (by decide) hcn b (by rw [hb]; simp)
      rw [hb, List.cons_append, split.eq_2, if_pos rfl, if_neg hbn, split_run]
      · simp
      · intro x hx
        have := encode_tail hb x hx
        exact ⟨fun e => by rw [e] at this; exact absurd this (by decide), fun e => by rw [e] at this; exact absurd this (by decide)⟩
    · have : esc = false := by simpa using hesc
      subst this
      by_cases hb : c = '\\'
      · subst hb
        have e : String.utf8EncodeChar '\\' = ['\\'.toUInt8] := by decide
        have := go (by decide) true (by
          intro _
          cases t with
          | nil => simp
          | cons d t =>
            refine ⟨fun h => ?_, fun h => ?_⟩
            · cases h; exact h1 ⟨[], t, rfl⟩
            · cases h; exact h2 ⟨[], t, rfl⟩)
        rw [← this, e, List.singleton_append, split.eq_2, if_neg (by simp), if_pos rfl]
      · by_cases hc : c = '\n'
        · subst hc
          have e : String.utf8EncodeChar '\n' = ['\n'.toUInt8] := by decide
          rw [if_pos rfl] at hl
          cases hl
          rw [e, List.singleton_append, split.eq_2, if_neg (by simp), if_neg (by decide), if_pos rfl, ih false [] (ln + 1) g1 g2 (by simp) hm]
          simp [utf8_eq, List.zipIdx_cons]
        · rw [← go hc false (by simp), split_run]
          intro b hb'
          exact ⟨encode_no (by decide) hb b hb', encode_no (by decide) hc b hb'⟩

theorem text_pieces {t : Str} (h : PlainText t) : pieces false (utf8 t) = ((t.splitOn '\n').map utf8).zipIdx 1 := by
  obtain ⟨l, ls, hl⟩ := List.exists_cons_of_ne_nil (splitOn_ne t)
  rw [pieces, split_text false [] 1 t h.newline h.continued (by simp) hl, hl]
  simp [List.zipIdx_cons]

/-- the lines of a text which are not empty -/
def textLines (t : Str) : List Line := (((t.splitOn '\n').zipIdx 1).filter fun x => decide (x.1 ≠ [])).map fun x => ⟨x.1, x.2⟩

theorem mem_textLines {t : Str} {x : Line} : x ∈ textLines t ↔ IsLine t x.num x.text := by
  unfold textLines IsLine
  simp only [List.mem_map, List.mem_filter, decide_eq_true_eq, Prod.exists]
  constructor
  · rintro ⟨l, i, ⟨h1, h2⟩, rfl⟩
    obtain ⟨k, hk⟩ := List.mem_iff_getElem?.1 h1
    rw [List.getElem?_zipIdx, Option.map_eq_some_iff] at hk
    obtain ⟨y, hy, e⟩ := hk
    cases e
    exact ⟨h2, by simp, by simpa using hy⟩
  · rintro ⟨h1, h2, h3⟩
    refine ⟨x.text, x.num, ⟨?_, h1⟩, rfl⟩
    rw [List.mem_iff_getElem?]
    refine ⟨x.num - 1, ?_⟩
    rw [List.getElem?_zipIdx, h3]
    simp only [Option.map_some, Option.some.injEq, Prod.mk.injEq, true_and]
    omega

theorem textLines_sorted (t : Str) : (textLines t).Pairwise fun a b => a.num < b.num := by
  unfold textLines
  rw [List.pairwise_map]
  refine List.Pairwise.filter _ ?_
  have : ((t.splitOn '\n').zipIdx 1).Pairwise fun a b => a.2 < b.2 := by
    have h : (((t.splitOn '\n').zipIdx 1).map Prod.snd).Pairwise (· < ·) := by
      rw [List.zipIdx_map_snd]
      exact List.pairwise_lt_range'
    exact List.pairwise_map.1 h
  exact this

theorem text_hasLines {M : Machine} {path t : Str} (hf : M.files path = some (utf8 t)) (ht : PlainText t)
    (hj : ¬ ".json".toList <:+ path) : HasLines M (.loc 0 (some path)) (textLines t) where
  data := by
    refine ⟨0, path, utf8 t, rfl, hf, ?_, ?_⟩
    · rw [text_pieces ht]
      intro p hp
      obtain ⟨l, hl, e⟩ := List.mem_map.1 (List.fst_mem_of_mem_zipIdx hp)
      rw [← e]
      exact ht.short l hl
    · have hs := ht.short
      rw [LJ.Iterator.Spec.lines, text_pieces ht, LJ.Iterator.Spec.keep]
      unfold textLines
      generalize t.splitOn '\n' = ls at hs
      generalize 1 = n
      clear hf ht
      induction ls generalizing n with
      | nil => exact .nil
      | cons l ls ih =>
        have ih := ih (fun x hx => hs x (by simp [hx])) (n + 1)
        have h6 := hs l (by simp)
        rw [List.map_cons, List.zipIdx_cons, List.zipIdx_cons, List.filter_cons, List.filter_cons]
        by_cases he : l = []
        · subst he
          have : (utf8 []).length = 0 := by simp [utf8_eq]
          simpa [this] using ih
        · have := utf8_ne_nil he
          have hd : (decide (0 < (utf8 l).length) && decide ((utf8 l).length ≤ 6000)) = true := by simp; omega
          simp only [hd, if_true, decide_eq_true he, ne_eq, List.map_cons]
          exact .cons ⟨rfl, rfl⟩ ih
  relative := ⟨path, by show LJ.Paths.sliceFrom path 0 = some path; cases path <;> rfl, hj⟩

theorem firsts_sorted {key : Line → Str} {xs : List Line} (h : xs.Pairwise fun a b => a.num < b.num) (x : Line) :
    x ∈ firsts key [] xs ↔ x ∈ xs ∧ ∀ y ∈ xs, y.num < x.num → key y ≠ key x := by
  rw [firsts_mem]
  rw [List.pairwise_iff_getElem] at h
  constructor
  · rintro ⟨i, h1, _, h3⟩
    refine ⟨List.mem_of_getElem? h1, fun y hy hlt => ?_⟩
    obtain ⟨j, hj⟩ := List.mem_iff_getElem?.1 hy
    refine h3 j ?_ y hj
    by_contra hge
    obtain ⟨hi, ei⟩ := List.getElem?_eq_some_iff.1 h1
    obtain ⟨hj', ej⟩ := List.getElem?_eq_some_iff.1 hj
    rcases Nat.lt_or_ge i j with hlt' | hle
    · have := h i j hi hj' hlt'
      rw [ei, ej] at this
      omega
    · have : i = j := by omega
      subst this
      rw [ei] at ej
      subst ej
      omega
  · rintro ⟨h1, h2⟩
    obtain ⟨i, hi⟩ := List.mem_iff_getElem?.1 h1
    refine ⟨i, hi, by simp, fun j hj y hy => h2 y (List.mem_of_getElem? hy) ?_⟩
    obtain ⟨hi', ei⟩ := List.getElem?_eq_some_iff.1 hi
    obtain ⟨hj', ej⟩ := List.getElem?_eq_some_iff.1 hy
    have := h j i hj' hi' hj
    rwa [ei, ej] at this

/-! ### Two texts -/

theorem utf8_inj {a b : Str} (h : utf8 a = utf8 b) : a = b := by
  have := congrArg decode h
  rw [decode_utf8, decode_utf8] at this
  exact Option.some.inj this

/-- Comparing two text files, for all texts: which lines are reported.  The line number `i` is reported exactly when it
is not empty, no line before it has the same tokens, and its distance to the lines of the baseline is over the
threshold; the reported lines are in order; the lines which are not empty are counted; there is no error. -/
theorem C88_texts {M : Machine} (hM : Ordinary M) {o1 o2 : List (Str × List Source) → List (Str × List Source)} (h1 : ∀ g, (o1 g).Perm g)
    (h2 : ∀ g, (o2 g).Perm g) {a b ta tb : Str} (ha : M.files a = some (utf8 ta)) (hb : M.files b = some (utf8 tb))
    (hpa : PlainText ta) (hpb : PlainText tb) (hva : LJ.Paths.isValid a = true) (hvb : LJ.Paths.isValid b = true)
    (hja : ¬ ".json".toList <:+ a) (hjb : ¬ ".json".toList <:+ b) (hmark : ∀ i l, IsLine tb i l → ¬ "TASK [log-classify".toList <:+: l) :
    ∃ m r dist, train M.world o1 [.file a] = .ok m ∧ report M.world m o2 (.file b) = some (.ok r) ∧ r.readErrors = [] ∧ r.indexErrors = [] ∧
      r.totalLineCount = ((tb.splitOn '\n').filter fun l => decide (l ≠ [])).length ∧
      Near M.hash (((ta.splitOn '\n').filter fun l => decide (l ≠ [])).map M.tok) dist ∧
      (∀ i l, (i, l) ∈ reported r ↔ IsLine tb i l ∧ (∀ j l', j < i → IsLine tb j l' → M.tok l' ≠ M.tok l) ∧
        dist (M.tok l) > LJ.Process.THRESHOLD) ∧
      ((reported r).map Prod.fst).Pairwise (· < ·) := by
  classical
  have fa := text_hasLines ha hpa hja
  have fb := text_hasLines hb hpb hjb
  -- the lines of the sources
  let text : Source → List Line := fun s => if s = .loc 0 (some b) then textLines tb else textLines ta
  have tb' : text (.loc 0 (some b)) = textLines tb := if_pos rfl
  have ta' : text (.loc 0 (some a)) = textLines ta := by
    by_cases e : a = b
    · subst e
      rw [ha] at hb
      rw [tb', utf8_inj (Option.some.inj hb)]
    · exact if_neg (by simpa using e)
  let src : Local → List Source := fun c => match c with | .file p => [.loc 0 (some p)] | .directory p => [.loc 0 (some p)]
  have hidx : ∀ p : Str, Source.indexName (.loc 0 (some p)) = some (LJ.Paths.indexName p) := by
    intro p
    have : Source.getRelative (.loc 0 (some p)) = some p := by show LJ.Paths.sliceFrom p 0 = some p; cases p <;> rfl
    unfold Source.indexName
    rw [this]; rfl
  have hbase : ∀ n, baseFor [.loc 0 (some a)] n = [.loc 0 (some a)] := by
    intro n
    unfold baseFor
    simp only
    split
    · rename_i h
      by_cases e : Source.indexName (.loc 0 (some a)) = some n
      · simp [e]
      · simp [e] at h
    · rw [if_pos]
      intro x hx y hy
      rw [List.mem_singleton] at hx hy
      rw [hx, hy]
  obtain ⟨m, r, g1, g2, g3, g4, g5, g6, g7⟩ := C88_tree hM h1 h2 (cs := [.file a]) (target := .file b) text src
    (by intro c hc; rw [List.mem_singleton] at hc; subst hc; exact file_hasTexts hva (by rw [ta']; exact fa))
    (file_hasTexts hvb (by rw [tb']; exact fb))
    (by
      intro s hs l hl
      rw [List.mem_singleton] at hs
      subst hs
      rw [tb'] at hl
      exact hmark _ _ (mem_textLines.1 hl))
    (by intro s _ n _; show baseFor [.loc 0 (some a)] n ≠ []; rw [hbase]; simp)
  have hsrc : [Local.file a].flatMap src = [.loc 0 (some a)] := rfl
  obtain ⟨dist, d1, d2⟩ := g7 (LJ.Paths.indexName b) ⟨.loc 0 (some b), by simp [src], hidx b⟩
  have hall : (r.logReports.filter fun l => l.indexName = LJ.Paths.indexName b) = r.logReports := by
    rw [List.filter_eq_self]
    intro l hl
    obtain ⟨e1, e2⟩ := g6 l hl
    rw [List.mem_singleton.1 e1, hidx] at e2
    simpa using (Option.some.inj e2).symm
  have hfil : (src (.file b)).filter (fun s => decide (s.indexName = some (LJ.Paths.indexName b))) = [.loc 0 (some b)] := by
    rw [List.filter_eq_self.2]
    intro s hs
    rw [List.mem_singleton.1 hs, hidx]; simp
  rw [hall, hfil] at d2
  rw [hsrc, hbase] at d1
  simp only [List.flatMap_cons, List.flatMap_nil, List.append_nil, ta', tb'] at d1 d2
  have htexts : ∀ t : Str, (textLines t).map (·.text) = (t.splitOn '\n').filter fun l => decide (l ≠ []) := by
    intro t
    unfold textLines
    rw [List.map_map]
    generalize t.splitOn '\n' = ls
    generalize 1 = n
    induction ls generalizing n with
    | nil => rfl
    | cons l ls ih =>
      rw [List.zipIdx_cons, List.filter_cons, List.filter_cons]
      have ih := ih (n + 1)
      by_cases he : l = []
      · simpa [he] using ih
      · simp only [ne_eq, he, not_false_eq_true, decide_true, if_true, List.map_cons]
        rw [← ih]
        rfl
  have hk : (textLines ta).map (fun l => M.tok l.text) = ((ta.splitOn '\n').filter fun l => decide (l ≠ [])).map M.tok := by
    rw [← htexts, List.map_map]
    rfl
  rw [hk] at d1
  have hrep : reported r = ((firsts (fun l => M.tok l.text) [] (textLines tb)).filter
      fun l => decide (dist (M.tok l.text) > LJ.Process.THRESHOLD)).map fun l => (l.num, l.text) := by
    unfold reported
    rw [d2, LJ.Process.Spec.anomalies, List.map_map]
    rfl
  refine ⟨m, r, dist, g1, g2, g3, g4, ?_, d1, ?_, ?_⟩
  · rw [g5, ← htexts]
    simp [src, tb']
  · intro i l
    rw [hrep, List.mem_map]
    constructor
    · rintro ⟨x, hx, e⟩
      rw [List.mem_filter, decide_eq_true_eq, firsts_sorted (textLines_sorted tb)] at hx
      obtain ⟨⟨k1, k2⟩, hd⟩ := hx
      cases e
      exact ⟨mem_textLines.1 k1, fun j l' hj hl' => k2 ⟨l', j⟩ (mem_textLines.2 hl') hj, hd⟩
    · rintro ⟨k1, k2, hd⟩
      refine ⟨⟨l, i⟩, ?_, rfl⟩
      rw [List.mem_filter, decide_eq_true_eq, firsts_sorted (textLines_sorted tb)]
      exact ⟨⟨mem_textLines.2 k1, fun y hy hlt => k2 y.num y.text hlt (mem_textLines.1 hy)⟩, hd⟩
  · rw [hrep, List.map_map]
    have hsub : (((firsts (fun l => M.tok l.text) [] (textLines tb)).filter
        fun l => decide (dist (M.tok l.text) > LJ.Process.THRESHOLD)).map (Prod.fst ∘ fun l => (l.num, l.text))).Sublist
        ((textLines tb).map (·.num)) :=
      List.Sublist.map (fun l : Line => l.num) (List.filter_sublist.trans (LJ.Process.firsts_sublist _ _))
    exact List.Pairwise.sublist hsub (List.pairwise_map.2 (textLines_sorted tb))

end LJ.Whole

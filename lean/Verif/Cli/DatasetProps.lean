/-
C68: the evaluation of datasets.
-/
import Verif.Cli.DatasetSpec
import Verif.Tokenizer.Lemmas
import Verif.Report.Props
namespace LJ.Dataset
open LJ.Process (Str Ev Err AnomalyContext)
open LJ.Report (World Index)
open Spec (Found Passes FirstWith)
variable {C S N D E ε Y : Type}

theorem contains_iff (sub s : Str) : LJ.Tokenizer.contains sub s = true ↔ sub <:+: s := by
  induction s with
  | nil => simp [LJ.Tokenizer.contains]
  | cons c cs ih =>
    rw [LJ.Tokenizer.contains, Bool.or_eq_true, ih, List.isPrefixOf_iff_prefix, List.infix_cons_iff]

/-- the lines of the anomalies -/
def linesOf (as : List (AnomalyContext D)) : List Str := as.map fun a => a.anomaly.line

theorem includes_iff (text : Str) (a : AnomalyContext D) :
    includes (C := C) (E := E) (ε := ε) (Y := Y) text a = .ok () ↔ Found text a.anomaly.line := by
  unfold includes
  constructor
  · intro h
    split at h
    · rename_i h'
      exact ⟨_, LJ.Tokenizer.trim_iff.2 rfl, (contains_iff _ _).1 h'⟩
    · cases h
  · rintro ⟨t, ht, h⟩
    rw [LJ.Tokenizer.trim_iff] at ht
    subst ht
    rw [if_pos ((contains_iff _ _).2 h)]

/-! ### The verdict -/

theorem checkAll_ok (l : List (Str × AnomalyContext D)) :
    checkAll (C := C) (E := E) (ε := ε) (Y := Y) l = .ok () ↔ ∀ p ∈ l, Found p.1 p.2.anomaly.line := by
  induction l with
  | nil => simp [checkAll]
  | cons p l ih =>
    obtain ⟨text, a⟩ := p
    simp only [checkAll, List.forall_mem_cons, ← ih, ← includes_iff (C := C) (E := E) (ε := ε) (Y := Y) text a]
    cases includes (C := C) (E := E) (ε := ε) (Y := Y) text a with
    | error e => simp
    | ok u => simp

theorem checkAll_error {l : List (Str × AnomalyContext D)} {e : Bad C E ε Y} (h : checkAll l = .error e) :
    ∃ before text a after, l = before ++ (text, a) :: after ∧ (∀ p ∈ before, Found p.1 p.2.anomaly.line) ∧ ¬ Found text a.anomaly.line ∧
      e = .expected text a.anomaly.line := by
  induction l with
  | nil => cases h
  | cons p l ih =>
    obtain ⟨text, a⟩ := p
    have hi := includes_iff (C := C) (E := E) (ε := ε) (Y := Y) text a
    simp only [checkAll] at h
    cases hx : includes (C := C) (E := E) (ε := ε) (Y := Y) text a with
    | ok u =>
      simp only [hx] at h
      obtain ⟨before, text', a', after, h1, h2, h3⟩ := ih h
      refine ⟨(text, a) :: before, text', a', after, by rw [h1]; rfl, ?_, h3⟩
      rintro p (_ | ⟨_, hp⟩)
      · exact hi.1 hx
      · exact h2 p hp
    | error e' =>
      simp only [hx] at h
      cases h
      refine ⟨[], text, a, l, rfl, by simp, ?_, ?_⟩
      · intro hf
        rw [hi.2 hf] at hx
        cases hx
      · unfold includes at hx
        split at hx
        · cases hx
        · cases hx; rfl

theorem zip_all (expected : List Str) (as : List (AnomalyContext D)) :
    (∀ p ∈ expected.zip as, Found p.1 p.2.anomaly.line) ↔
      ∀ i (h : i < expected.length) (h' : i < (linesOf as).length), Found expected[i] (linesOf as)[i] := by
  constructor
  · intro h i h1 h2
    have h2' : i < as.length := by simpa [linesOf] using h2
    have := h (expected[i], as[i]) (by
      rw [List.mem_iff_getElem]
      exact ⟨i, by simp [h1, h2'], by simp⟩)
    simpa [linesOf] using this
  · intro h p hp
    obtain ⟨i, hi, rfl⟩ := List.mem_iff_getElem.1 hp
    simp only [List.length_zip, Nat.lt_min] at hi
    have := h i hi.1 (by simpa [linesOf] using hi.2)
    simpa [linesOf] using this

/-- The verdict is positive exactly when the anomalies are the expected ones. -/
theorem C68_verdict (expected : List Str) (as : List (AnomalyContext D)) :
    verdict (C := C) (E := E) (ε := ε) (Y := Y) expected as = .ok () ↔ Passes expected (linesOf as) := by
  unfold verdict Passes
  rw [← zip_all, ← checkAll_ok (C := C) (E := E) (ε := ε) (Y := Y)]
  have hl : (linesOf as).length = as.length := by simp [linesOf]
  rw [hl]
  cases checkAll (C := C) (E := E) (ε := ε) (Y := Y) (expected.zip as) with
  | error e => simp
  | ok u =>
    by_cases h : as.length = expected.length <;> simp [h]

/-- A negative verdict says what is wrong: the first of the texts which is not found, or the two counts. -/
theorem C68_reason (expected : List Str) (as : List (AnomalyContext D)) (e : Bad C E ε Y) (h : verdict expected as = .error e) :
    (∃ i, ∃ (h : i < expected.length) (h' : i < (linesOf as).length), ¬ Found expected[i] (linesOf as)[i] ∧
      (∀ j (_ : j < i), Found expected[j] (linesOf as)[j]) ∧ e = .expected expected[i] (linesOf as)[i]) ∨
    (as.length ≠ expected.length ∧ (∀ i (h : i < expected.length) (h' : i < (linesOf as).length), Found expected[i] (linesOf as)[i]) ∧
      e = .mismatch expected.length as.length) := by
  unfold verdict at h
  cases hx : checkAll (C := C) (E := E) (ε := ε) (Y := Y) (expected.zip as) with
  | error e' =>
    simp only [hx] at h
    cases h
    obtain ⟨before, text, a, after, h1, h2, h3, h4⟩ := checkAll_error hx
    have hlen : before.length < (expected.zip as).length := by rw [h1]; simp
    have hi := hlen
    simp only [List.length_zip, Nat.lt_min] at hi
    have hg : (expected.zip as)[before.length] = (text, a) := by simp [h1]
    rw [List.getElem_zip] at hg
    have hg1 : expected[before.length] = text := congrArg Prod.fst hg
    have hg2 : as[before.length] = a := congrArg Prod.snd hg
    have hl2 : before.length < (linesOf as).length := by simpa [linesOf] using hi.2
    have hg3 : (linesOf as)[before.length] = a.anomaly.line := by simp [linesOf, hg2]
    refine .inl ⟨before.length, hi.1, hl2, ?_, ?_, ?_⟩
    · rw [hg1, hg3]; exact h3
    · intro j hj
      have hz : (expected.zip as)[j]'(by omega) = before[j] := by
        simp only [h1]
        rw [List.getElem_append_left hj]
      rw [List.getElem_zip] at hz
      have := h2 _ (List.getElem_mem hj)
      rw [← hz] at this
      simpa [linesOf] using this
    · rw [hg1, hg3]; exact h4
  | ok u =>
    simp only [hx] at h
    have ha := (zip_all expected as).1 ((checkAll_ok (C := C) (E := E) (ε := ε) (Y := Y) _).1 hx)
    by_cases hl : as.length = expected.length
    · simp [hl] at h
    · rw [if_pos hl] at h
      cases h
      exact .inr ⟨hl, ha, rfl⟩

/-! ### The files and the model -/

theorem unwrapAll_some (entries : List (Except Y Str)) (paths : List Str) :
    unwrapAll entries = some paths ↔ entries = paths.map .ok := by
  induction entries generalizing paths with
  | nil => cases paths <;> simp [unwrapAll]
  | cons e r ih =>
    cases e with
    | error e => cases paths <;> simp [unwrapAll]
    | ok p =>
      simp only [unwrapAll, Option.map_eq_some_iff]
      constructor
      · rintro ⟨a, h, rfl⟩
        rw [(ih a).1 h]; rfl
      · intro h
        cases paths with
        | nil => cases h
        | cons q qs =>
          rw [List.map_cons, List.cons.injEq] at h
          cases h.1
          exact ⟨qs, (ih qs).2 h.2, rfl⟩

theorem findExt_some (ext : Str) (paths : List Str) (p : Str) : findExt ext paths = some p ↔ FirstWith ext paths p := by
  unfold findExt FirstWith
  rw [List.find?_eq_some_iff_append]
  constructor
  · rintro ⟨h1, before, after, h2, h3⟩
    exact ⟨before, after, h2, by simpa using h1, fun q hq => by simpa using h3 q hq⟩
  · rintro ⟨before, after, h2, h1, h3⟩
    exact ⟨by simpa using h1, before, after, h2, fun q hq => by simpa using h3 q hq⟩

theorem findExt_none (ext : Str) (paths : List Str) : findExt ext paths = none ↔ ∀ p ∈ paths, LJ.Paths.extension p ≠ some ext := by
  simp [findExt]

variable [DecidableEq N] {w : World C S N D E ε} {order : List (N × List S) → List (N × List S)}

/-- A model of one file has exactly one index: `get_index` gives it, whatever the name. -/
theorem train_file (ho : ∀ g, (order g).Perm g) {c : C} {s : S} (hf : w.list c = [.ok s]) (name : N) :
    (∃ e, LJ.Report.train w order [c] = .error e ∧ ∀ index, w.valid s = true → LJ.Report.trainIndex w [s] ≠ .ok index) ∨
    ∃ m index, LJ.Report.train w order [c] = .ok m ∧ LJ.Report.lookupOrSingle m.indexes name = some index ∧
      w.valid s = true ∧ LJ.Report.trainIndex w [s] = .ok index := by
  have hp : ∀ g : N × List S, order [g] = [g] := fun g => by
    have := ho [g]
    exact List.perm_singleton.1 this
  cases hv : w.valid s with
  | false =>
    refine .inl ⟨.sources (.empty c), ?_, by simp⟩
    simp [LJ.Report.train, LJ.Report.groupSources, LJ.Report.groupInto, LJ.Report.getSources, hf, LJ.Report.keepSource, hv, LJ.Report.collectOk]
  | true =>
    have hg : LJ.Report.groupSources w [c] = .ok [(w.nameOf s, [s])] := by
      simp [LJ.Report.groupSources, LJ.Report.groupInto, LJ.Report.getSources, hf, LJ.Report.keepSource, hv, LJ.Report.collectOk, LJ.Report.push]
    unfold LJ.Report.train
    rw [hg]
    simp only [hp, LJ.Report.trainGroups]
    cases ht : LJ.Report.trainIndex w [s] with
    | error e => exact .inl ⟨_, rfl, by simp⟩
    | ok index =>
      refine .inr ⟨_, index, rfl, ?_, trivial, rfl⟩
      unfold LJ.Report.lookupOrSingle
      cases hn : name == w.nameOf s <;> simp [List.lookup, hn]

theorem inspectFile_eq (hs : LJ.Report.SearchOk w) (index : Index S) (s : S) :
    (∃ e, w.openSource s = .error e ∧ inspectFile w index s = some (.error (.opening e))) ∨
    ∃ reader, w.openSource s = .ok reader ∧
      let run := LJ.Process.process (LJ.Report.envOf w index.chunks) [] (reader (w.isJson s))
      (run.2.1 = .finished ∧ inspectFile w index s = some (.ok run.1)) ∨
      ∃ e, run.2.1 = .failed e ∧ inspectFile w index s = some (.error (.reading e)) := by
  unfold inspectFile
  cases ho : w.openSource s with
  | error e => exact .inl ⟨e, rfl, rfl⟩
  | ok reader =>
    refine .inr ⟨reader, rfl, ?_⟩
    simp only [LJ.Report.inspect_some hs]
    obtain ⟨dist, hd⟩ := hs index.chunks
    rcases LJ.Process.C30_no_panic (env := LJ.Report.envOf w index.chunks) hd [] (reader (w.isJson s)) with h | ⟨e, h⟩
    · exact .inl ⟨h, by simp only [h, LJ.Report.stopErr]⟩
    · exact .inr ⟨e, h, by simp only [h, LJ.Report.stopErr]⟩

theorem unwrapAll_none (entries : List (Except Y Str)) : unwrapAll entries = none ↔ ∃ e, .error e ∈ entries := by
  induction entries with
  | nil => simp [unwrapAll]
  | cons e r ih => cases e <;> simp [unwrapAll, ih]

theorem firstWith_unique {ext : Str} {paths : List Str} {p q : Str} (hp : FirstWith ext paths p) (hq : FirstWith ext paths q) : p = q := by
  rw [← findExt_some] at hp hq
  exact Option.some.inj (hp.symm.trans hq)

/-- The dataset passes exactly when both files are there, the model of the good one can be made, the failed one can
be read to its end, and its anomalies are the expected ones. -/
theorem C68_process (ho : ∀ g, (order g).Perm g) (hs : LJ.Report.SearchOk w) (file : Str → C) (source : Str → S)
    (hf : ∀ p, w.list (file p) = [.ok (source p)]) (empty : N) (dir : Except Y (List (Except Y Str))) (expected : List Str) :
    process w order file source empty dir expected = some (.ok ()) ↔
      ∃ paths good fail index reader, dir = .ok (paths.map .ok) ∧ FirstWith "good".toList paths good ∧ FirstWith "fail".toList paths fail ∧
        w.valid (source good) = true ∧ LJ.Report.trainIndex w [source good] = .ok index ∧ w.openSource (source fail) = .ok reader ∧
        let run := LJ.Process.process (LJ.Report.envOf w index.chunks) [] (reader (w.isJson (source fail)))
        run.2.1 = .finished ∧ Passes expected (linesOf run.1) := by
  unfold process
  constructor
  · intro h
    cases dir with
    | error e => simp at h
    | ok entries =>
      simp only at h
      cases hu : unwrapAll entries with
      | none => simp [hu] at h
      | some paths =>
        simp only [hu] at h
        cases hg : findExt "good".toList paths with
        | none => simp only [hg] at h; cases h
        | some good =>
          cases hb : findExt "fail".toList paths with
          | none => simp only [hg, hb] at h; cases h
          | some fail =>
            simp only [hg, hb] at h
            rcases train_file (name := empty) ho (hf good) with ⟨e, he, hn⟩ | ⟨m, index, hm, hi, hv, ht⟩
            · simp [he] at h
            · simp only [hm, hi] at h
              rcases inspectFile_eq hs index (source fail) with ⟨e, _, he⟩ | ⟨reader, hr, ⟨hfin, he⟩ | ⟨e, _, he⟩⟩
              · simp [he] at h
              · simp only [he, Option.some.injEq] at h
                exact ⟨paths, good, fail, index, reader, by rw [(unwrapAll_some _ _).1 hu], (findExt_some _ _ _).1 hg, (findExt_some _ _ _).1 hb, hv, ht, hr,
                  hfin, (C68_verdict _ _).1 h⟩
              · simp [he] at h
  · rintro ⟨paths, good, fail, index, reader, rfl, hg, hb, hv, ht, hr, hfin, hp⟩
    rw [← findExt_some] at hg hb
    simp only [(unwrapAll_some _ _).2 rfl, hg, hb]
    rcases train_file (name := empty) ho (hf good) with ⟨e, he, hn⟩ | ⟨m, index', hm, hi, hv, ht'⟩
    · exact absurd ht (hn index hv)
    · rw [ht] at ht'
      cases ht'
      simp only [hm, hi]
      rcases inspectFile_eq hs index (source fail) with ⟨e, hr', _⟩ | ⟨reader', hr', ⟨hfin', he⟩ | ⟨e, hfail, he⟩⟩
      · rw [hr] at hr'; cases hr'
      · rw [hr] at hr'; cases hr'
        simp only [he]
        rw [(C68_verdict _ _).2 hp]
      · rw [hr] at hr'; cases hr'
        rw [hfin] at hfail; cases hfail

/-- It panics exactly when an entry of the directory can't be read: there is always an index to inspect with. -/
theorem C68_panic (ho : ∀ g, (order g).Perm g) (hs : LJ.Report.SearchOk w) (file : Str → C) (source : Str → S)
    (hf : ∀ p, w.list (file p) = [.ok (source p)]) (empty : N) (dir : Except Y (List (Except Y Str))) (expected : List Str) :
    process w order file source empty dir expected = none ↔ ∃ entries e, dir = .ok entries ∧ .error e ∈ entries := by
  unfold process
  cases dir with
  | error e => simp
  | ok entries =>
    simp only [Except.ok.injEq]
    cases hu : unwrapAll entries with
    | none =>
      simp only [true_iff]
      obtain ⟨e, he⟩ := (unwrapAll_none _).1 hu
      exact ⟨entries, e, rfl, he⟩
    | some paths =>
      refine iff_of_false ?_ ?_
      · simp only
        cases hg : findExt "good".toList paths with
        | none => simp
        | some good =>
          cases hb : findExt "fail".toList paths with
          | none => simp
          | some fail =>
            simp only
            rcases train_file (name := empty) ho (hf good) with ⟨e, he, hn⟩ | ⟨m, index, hm, hi, hv, ht⟩
            · simp [he]
            · simp only [hm, hi]
              rcases inspectFile_eq hs index (source fail) with ⟨e, _, he⟩ | ⟨reader, hr, ⟨hfin, he⟩ | ⟨e, _, he⟩⟩ <;> simp [he]
      · rintro ⟨entries', e, rfl, he⟩
        have := (unwrapAll_none entries).2 ⟨e, he⟩
        rw [hu] at this
        cases this

/-- All the datasets pass, or the first one which doesn't decides the result, and the next ones are not looked at. -/
theorem C68_datasets (file : Str → C) (source : Str → S) (empty : N) (sets : List (Files Y)) :
    (testDatasets w order file source empty sets = some (.ok ()) ↔
      ∀ f ∈ sets, ∃ expected, f.inf = .ok expected ∧ process w order file source empty f.dir expected = some (.ok ())) ∧
    ∀ before f after, sets = before ++ f :: after →
      (∀ g ∈ before, ∃ expected, g.inf = .ok expected ∧ process w order file source empty g.dir expected = some (.ok ())) →
      (∀ e, f.inf = .error e → testDatasets w order file source empty sets = some (.error (.inf e))) ∧
      ∀ expected r, f.inf = .ok expected → process w order file source empty f.dir expected = r → r ≠ some (.ok ()) →
        testDatasets w order file source empty sets = r := by
  induction sets with
  | nil => simp [testDatasets]
  | cons f fs ih =>
    constructor
    · simp only [testDatasets, List.forall_mem_cons, ← ih.1]
      cases f.inf with
      | error e => simp
      | ok expected =>
        simp only [Except.ok.injEq, exists_eq_left']
        split
        · rename_i h; simp only [h, true_and]
        · rename_i h
          constructor
          · intro h'; exact absurd h' h
          · rintro ⟨h', _⟩; exact absurd h' h
    · intro before g after h hb
      cases before with
      | nil =>
        rw [List.nil_append, List.cons.injEq] at h
        obtain ⟨rfl, rfl⟩ := h
        constructor
        · intro e he; simp [testDatasets, he]
        · intro expected r he hr hne
          simp only [testDatasets, he, hr]
      | cons b bs =>
        rw [List.cons_append, List.cons.injEq] at h
        obtain ⟨rfl, rfl⟩ := h
        obtain ⟨expected, he, hp⟩ := hb f (List.mem_cons_self ..)
        have := ih.2 bs g after rfl (fun x hx => hb x (List.mem_cons_of_mem _ hx))
        simpa only [testDatasets, he, hp] using this

/-! ### Examples -/

/-- two files: the line `p` is known, the line ` out of memory` is not -/
def toyWorld : World Str Str Str Nat Unit Unit where
  list c := [.ok c]
  valid _ := true
  nameOf s := s
  isJson _ := false
  openSource s :=
    if s = "d/a.good".toList then .ok fun _ => [.ok (LJ.Process.toyL "p" 1)]
    else if s = "d/a.fail".toList then .ok fun _ => [.ok (LJ.Process.toyL "p" 1), .ok (LJ.Process.toyL "out of memory" 2)]
    else .error ()
  decode := LJ.Process.toy.decode
  tokenize := id
  search chunks ts := ts.map fun t => if t ∈ chunks.flatten then 0 else 1
  over d := d == 1

theorem toyWorld_search : LJ.Report.SearchOk toyWorld := fun chunks => ⟨fun t => if t ∈ chunks.flatten then 0 else 1, fun _ => rfl⟩

def toyDir : List (Except Unit Str) := [.ok "d/inf.yaml".toList, .ok "d/a.fail".toList, .ok "d/a.good".toList]

/-- passes, with the white space around the text left out -/
example : process toyWorld id id id [] (.ok toyDir) [" of mem\n".toList] = some (.ok ()) := by decide +kernel
/-- an other text, no text, and one text too many -/
example : process toyWorld id id id [] (.ok toyDir) ["disk".toList] = some (.error (.expected "disk".toList "out of memory".toList)) := by decide +kernel
example : process toyWorld id id id [] (.ok toyDir) [] = some (.error (.mismatch 0 1)) := by decide +kernel
example : process toyWorld id id id [] (.ok toyDir) ["out".toList, "p".toList] = some (.error (.mismatch 2 1)) := by decide +kernel
/-- a file is missing; an entry can't be read -/
example : process toyWorld id id id [] (.ok (toyDir.take 2)) ["out".toList] = some (.error .noFiles) := by decide +kernel
example : process toyWorld id id id [] (.ok (.error () :: toyDir)) ["out".toList] = none := by decide +kernel
/-- the hypotheses of `C68_process` -/
example : (∀ g : List (Str × List Str), (id g).Perm g) ∧ LJ.Report.SearchOk toyWorld ∧ ∀ p, toyWorld.list (id p) = [.ok (id p)] :=
  ⟨fun _ => .rfl, toyWorld_search, fun _ => rfl⟩
/-- the second dataset fails -/
example : testDatasets toyWorld id id id [] [⟨.ok ["memory".toList], .ok toyDir⟩, ⟨.ok [], .ok toyDir⟩, ⟨.error (), .ok toyDir⟩] =
    some (.error (.mismatch 0 1)) := by decide +kernel

/-- An expected text which is blank is found in every line. -/
theorem C68_blank (text line : Str) (h : ∀ c ∈ text, LJ.Tokenizer.Spec.Ws c) : Found text line :=
  ⟨[], ⟨text, [], by simp, h, fun _ h => absurd h List.not_mem_nil, by simp, by simp⟩, List.nil_infix⟩

end LJ.Dataset

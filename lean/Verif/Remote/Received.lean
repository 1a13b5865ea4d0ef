import Verif.Remote.Requests
import Verif.Report.Props

/-! # What was received

Whatever the servers answer at each time, and when they answer nothing, a comparison is exact for what they sent: it is the
comparison (`Verif/Report`) of files which hold what was received. -/
namespace LJ.Remote

open LJ.Codec LJ.Process
open LJ.Report (Index Model Report ListErr Fail World)

section
variable {t : Texts} {N D E : Type} {S : Setup t N D E} {net : Nat → Net t}

namespace Spec

/-- The result of opening a source between the requests `lo` and `hi`: a local file is opened, a server is asked for the others and
either sends a response, whose body is read, or not. -/
inductive Answer (S : Setup t N D E) (net : Nat → Net t) (lo hi : Nat) : Source t → Except E (Bool → List (Ev Unit)) → Prop
  | disk (n : UInt64) (path : LJ.Codec.Bytes) : Answer S net lo hi (.loc n path) (S.localOpen (.loc n path))
  | sent (pre : UInt64) (url : Url t) (k : Nat) (resp : LJ.Cache.Response) : lo ≤ k → k < hi → (net k).get url = some resp →
      Answer S net lo hi (.remote pre url) (.ok fun json => S.lines json (reads resp.body))
  | silent (pre : UInt64) (url : Url t) (k : Nat) : lo ≤ k → k < hi → (net k).get url = none →
      Answer S net lo hi (.remote pre url) (.error S.netError)
  | base (pre : UInt64) (url : Url t) : baseOf pre.toNat url = .error () → Answer S net lo hi (.remote pre url) (.error S.netError)

/-- The machine where the contents have these lists, and opening the sources gives these results. -/
def seen (S : Setup t N D E) (lists : Content t → List (Except E (Source t))) (answers : Source t → Except E (Bool → List (Ev Unit))) :
    World (Content t) (Source t) N D E Unit where
  list := lists
  valid := S.valid
  nameOf := S.nameOf
  isJson := S.isJson
  openSource := answers
  decode := S.decode
  tokenize := S.tokenize
  search := S.search
  over := S.over

end Spec

open Spec (Answer seen)

theorem Spec.Answer.mono {lo hi lo' hi' : Nat} {x : Source t} {a : Except E (Bool → List (Ev Unit))} (h : Answer S net lo hi x a) (hl : lo' ≤ lo)
    (hh : hi ≤ hi') : Answer S net lo' hi' x a := by
  cases h with
  | disk n p => exact .disk n p
  | sent pre url k resp h1 h2 h3 => exact .sent pre url k resp (by omega) (by omega) h3
  | silent pre url k h1 h2 h3 => exact .silent pre url k (by omega) (by omega) h3
  | base pre url h => exact .base pre url h

/-! ### Reading -/

theorem read_answer (hu : S.useCache = false) (x : Source t) (json : Bool) (asked : List (Ev Unit) → Nat) (s : Sys) :
    match S.read net x json asked s with
    | (.ok lines, s') => ∃ reader, Answer S net s.asked s'.asked x (.ok reader) ∧ reader json = lines
    | (.error e, s') => Answer S net s.asked s'.asked x (.error e)
    | (.panic, _) => True := by
  cases x with
  | loc n p =>
    unfold Setup.read
    simp only
    cases h : S.localOpen (.loc n p) with
    | error e => simp only; rw [← h]; exact .disk n p
    | ok reader => simp only; exact ⟨reader, h ▸ .disk n p, rfl⟩
  | remote pre url =>
    unfold Setup.read
    simp only
    cases hb : baseOf pre.toNat url with
    | panic => trivial
    | error e => exact .base pre url hb
    | ok base =>
      simp only [Setup.fromUrl, Setup.asks, hu, LJ.Cache.fromUrl, Bool.false_and, Bool.not_false, if_true]
      cases hn : (net s.asked).get url with
      | none => exact .silent pre url s.asked (Nat.le_refl _) (Nat.lt_succ_self _) hn
      | some resp => exact ⟨_, .sent pre url s.asked resp (Nat.le_refl _) (Nat.lt_succ_self _) hn, rfl⟩

/-- the answers of the first, then the answers of the others -/
theorem merge {α β : Type} (xs ys : List α) (f g : α → β) (h : ∀ x ∈ xs, x ∉ ys) :
    ∃ k : α → β, (∀ x ∈ xs, k x = f x) ∧ ∀ y ∈ ys, k y = g y := by
  classical
  refine ⟨fun x => if x ∈ xs then f x else g x, fun x hx => by simp [hx], fun y hy => ?_⟩
  have : y ∉ xs := fun hx => h y hx hy
  simp [this]

/-! ### What was sent -/

/-- a connection which is lost after some reads -/
theorem bodyReads_cut (ks : List Nat) (post : List LJ.Cache.Grant) (d : LJ.Codec.Bytes) (n : Nat)
    (hd : (ks.map fun k => min 8192 (k + 1)).sum ≤ d.length) (hn : ks.length < n) :
    ∃ blocks more, bodyReads n ⟨d, ks.map LJ.Cache.Grant.short ++ LJ.Cache.Grant.fail :: post⟩ = LJ.Iterator.fromReads blocks ++ .err () :: more ∧
      LJ.Iterator.Spec.Blocks blocks ∧ blocks.flatten = d.take (ks.map fun k => min 8192 (k + 1)).sum := by
  induction ks generalizing d n with
  | nil =>
    cases n with
    | zero => simp at hn
    | succ n => exact ⟨[], _, rfl, by intro b hb; simp at hb, by simp⟩
  | cons k ks ih =>
    cases n with
    | zero => simp at hn
    | succ n =>
      simp only [List.map_cons, List.sum_cons] at hd ⊢
      obtain ⟨j, hj⟩ : ∃ j, min 8192 (k + 1) = j + 1 := ⟨min 8192 (k + 1) - 1, by omega⟩
      obtain ⟨blocks, more, h1, h2, h3⟩ := ih (d.drop (min 8192 (k + 1))) n (by rw [List.length_drop]; omega) (by simpa using hn)
      refine ⟨d.take (min 8192 (k + 1)) :: blocks, more, ?_, ?_, ?_⟩
      · unfold bodyReads
        simp only [LJ.Cache.Remote.read, List.cons_append]
        cases d with
        | nil => simp only [List.length_nil] at hd; omega
        | cons c cs =>
          rw [hj] at h1 ⊢
          simp only [List.take_succ_cons]
          rw [h1]
          rfl
      · intro b hb
        rcases List.mem_cons.1 hb with rfl | hb
        · refine ⟨?_, by rw [List.length_take]; omega⟩
          cases d with
          | nil => simp only [List.length_nil] at hd; omega
          | cons c cs => rw [hj]; simp
        · exact h2 b hb
      · rw [List.flatten_cons, h3, List.take_add]

/-- C150: the lines of a response, read in a JSON file or not: those of its body, however it comes, when the connection is not lost; and when
it is lost, those which were ended in what had come, then an error: for lines below the 6000 bytes above which they are
dropped. -/
theorem C150_sent (S : Setup t N D E) (json : Bool) (d : LJ.Codec.Bytes) :
    (∀ grants, LJ.Cache.Grant.fail ∉ grants → Short d →
      S.lines json (reads ⟨d, grants⟩) = (LJ.Iterator.Spec.lines json 6000 d).map Except.ok) ∧
    ∀ (ks : List Nat) (post : List LJ.Cache.Grant) (n : Nat), n = (ks.map fun k => min 8192 (k + 1)).sum → n ≤ d.length → Short (d.take n) →
      S.lines json (reads ⟨d, ks.map LJ.Cache.Grant.short ++ LJ.Cache.Grant.fail :: post⟩) =
        (LJ.Iterator.Spec.keep 6000 (LJ.Iterator.Spec.pieces json (d.take n)).dropLast).map Except.ok ++ [.error ()] := by
  refine ⟨fun grants hg hs => ?_, fun ks post n hn hl hs => ?_⟩
  · exact lines_body json ⟨d, grants⟩ hg hs
  · obtain ⟨blocks, more, h1, h2, h3⟩ := bodyReads_cut ks post d (d.length + (ks.map LJ.Cache.Grant.short ++ LJ.Cache.Grant.fail :: post).length + 1)
      (by omega) (by simp; omega)
    have h1 : reads ⟨d, ks.map LJ.Cache.Grant.short ++ LJ.Cache.Grant.fail :: post⟩ = LJ.Iterator.fromReads blocks ++ .err () :: more := h1
    rw [← hn] at h3
    unfold Setup.lines Setup.cfg
    rw [h1, LJ.Iterator.C07_error_position_partial S.checks json blocks h2
      (LJ.Iterator.noOverflow_of_short (by rw [h3]; exact hs json)) () more, h3]
    rfl

/-- Non-vacuity: the connection is lost in the second line. -/
example : Short ((ascii "a\nzz\n").take 3) ∧ ([1, 0].map fun k => min 8192 (k + 1)).sum = 3 ∧
    (LJ.Iterator.Spec.keep 6000 (LJ.Iterator.Spec.pieces false ((ascii "a\nzz\n").take 3)).dropLast) = [(ascii "a", 1)] := by
  refine ⟨fun json => by cases json <;> decide +kernel, rfl, by decide +kernel⟩

/-! ### The model -/

theorem trainSources_answers (hu : S.useCache = false) (json : Bool) (xs : List (Source t)) (hx : xs.Nodup) (tr tr' : Trainer) (s s' : Sys)
    (h : S.trainSources net json xs tr s = (.ok tr', s')) :
    s.asked ≤ s'.asked ∧ ∃ answers : Source t → Except E (Bool → List (Ev Unit)), (∀ x ∈ xs, Answer S net s.asked s'.asked x (answers x)) ∧
      ∀ lists answers', (∀ x ∈ xs, answers' x = answers x) → LJ.Report.trainSources (seen S lists answers') json xs tr = .ok tr' := by
  induction xs generalizing tr s with
  | nil =>
    simp only [Setup.trainSources, Prod.mk.injEq, Outcome.ok.injEq] at h
    obtain ⟨rfl, rfl⟩ := h
    exact ⟨Nat.le_refl _, fun _ => .error S.netError, by simp, fun _ _ _ => rfl⟩
  | cons x xs ih =>
    unfold Setup.trainSources at h
    have ha := (read_asked (S := S) (net := net) x json (trainAsked (S.env [])) s).1
    have hr := read_answer (net := net) hu x json (trainAsked (S.env [])) s
    generalize S.read net x json (trainAsked (S.env [])) s = y at h ha hr
    obtain ⟨o, s1⟩ := y
    cases o with
    | panic => cases h
    | error e => cases h
    | ok lines =>
      simp only at h hr ha
      obtain ⟨reader, h1, h2⟩ := hr
      rw [List.nodup_cons] at hx
      obtain ⟨k1, answers, k2, k3⟩ := ih hx.2 _ s1 h
      obtain ⟨f, f1, f2⟩ := merge [x] xs (fun _ => (.ok reader : Except E _)) answers (by simpa using hx.1)
      refine ⟨Nat.le_trans ha k1, f, ?_, ?_⟩
      · intro y hy
        rcases List.mem_cons.1 hy with rfl | hy
        · rw [f1 y (by simp)]; exact h1.mono (Nat.le_refl _) k1
        · rw [f2 y hy]; exact (k2 y hy).mono ha (Nat.le_refl _)
      · intro lists answers' he
        unfold LJ.Report.trainSources
        have e1 : (seen S lists answers').openSource x = .ok reader := (he x (by simp)).trans (f1 x (by simp))
        rw [e1]
        simp only
        rw [h2]
        exact k3 lists answers' fun y hy => (he y (by simp [hy])).trans (f2 y hy)

theorem trainIndex_answers (hu : S.useCache = false) (xs : List (Source t)) (index : Index (Source t)) (s s' : Sys)
    (hx : index.sources.Nodup) (h : S.trainIndex net xs s = (.ok index, s')) :
    index.sources = xs ∧ s.asked ≤ s'.asked ∧ ∃ answers : Source t → Except E (Bool → List (Ev Unit)), (∀ x ∈ xs, Answer S net s.asked s'.asked x (answers x)) ∧
      ∀ lists answers', (∀ x ∈ xs, answers' x = answers x) → LJ.Report.trainIndex (seen S lists answers') xs = .ok index := by
  unfold Setup.trainIndex at h
  generalize hr : S.trainSources net (S.firstJson xs) xs Trainer.new s = y at h
  obtain ⟨o, s1⟩ := y
  cases o with
  | panic => cases h
  | error e => cases h
  | ok tr =>
    simp only [Prod.mk.injEq, Outcome.ok.injEq] at h
    obtain ⟨rfl, rfl⟩ := h
    obtain ⟨k1, answers, k2, k3⟩ := trainSources_answers hu _ xs hx _ tr s s1 hr
    refine ⟨rfl, k1, answers, k2, fun lists answers' he => ?_⟩
    have e := k3 lists answers' he
    unfold LJ.Report.trainIndex
    cases xs with
    | nil => simp only [Setup.firstJson] at e; simp only; rw [e]
    | cons x xs =>
      simp only [Setup.firstJson] at e
      have : (seen S lists answers').isJson x = S.isJson x := rfl
      simp only [this]
      rw [e]

variable [DecidableEq N]

omit [DecidableEq N] in
theorem trainGroups_answers (hu : S.useCache = false) (g : List (N × List (Source t))) (indexes : List (N × Index (Source t))) (s s' : Sys)
    (hx : (indexes.flatMap fun i => i.2.sources).Nodup) (h : S.trainGroups net g s = (.ok indexes, s')) :
    s.asked ≤ s'.asked ∧ (g.flatMap Prod.snd) = (indexes.flatMap fun i => i.2.sources) ∧
      ∃ answers : Source t → Except E (Bool → List (Ev Unit)), (∀ x ∈ g.flatMap Prod.snd, Answer S net s.asked s'.asked x (answers x)) ∧
      ∀ lists answers', (∀ x ∈ g.flatMap Prod.snd, answers' x = answers x) → LJ.Report.trainGroups (seen S lists answers') g = .ok indexes := by
  induction g generalizing s indexes with
  | nil =>
    simp only [Setup.trainGroups, Prod.mk.injEq, Outcome.ok.injEq] at h
    obtain ⟨rfl, rfl⟩ := h
    exact ⟨Nat.le_refl _, rfl, fun _ => .error S.netError, by simp, fun _ _ _ => rfl⟩
  | cons p g ih =>
    obtain ⟨n, xs⟩ := p
    unfold Setup.trainGroups at h
    generalize h1 : S.trainIndex net xs s = y at h
    obtain ⟨o, s1⟩ := y
    cases o with
    | panic => cases h
    | error e => cases h
    | ok index =>
      simp only at h
      generalize h2 : S.trainGroups net g s1 = y at h
      obtain ⟨o, s2⟩ := y
      cases o with
      | panic => cases h
      | error e => cases h
      | ok rest =>
        simp only [Prod.mk.injEq, Outcome.ok.injEq] at h
        obtain ⟨rfl, rfl⟩ := h
        rw [List.flatMap_cons, List.nodup_append] at hx
        obtain ⟨a1, a2, ans1, a3, a4⟩ := trainIndex_answers hu xs index s s1 hx.1 h1
        obtain ⟨b1, b2, ans2, b3, b4⟩ := ih rest s1 hx.2.1 h2
        obtain ⟨f, f1, f2⟩ := merge xs (g.flatMap Prod.snd) ans1 ans2 (by
          intro x hx1 hx2
          rw [b2] at hx2
          exact hx.2.2 x (a1 ▸ hx1) x hx2 rfl)
        refine ⟨Nat.le_trans a2 b1, by simp only [List.flatMap_cons]; rw [a1, b2], f, ?_, ?_⟩
        · intro x hm
          rw [List.flatMap_cons] at hm
          rcases List.mem_append.1 hm with hm | hm
          · rw [f1 x hm]; exact (a3 x hm).mono (Nat.le_refl _) b1
          · rw [f2 x hm]; exact (b3 x hm).mono a2 (Nat.le_refl _)
        · intro lists answers' he
          unfold LJ.Report.trainGroups
          rw [a4 lists answers' fun x hm => (he x (by rw [List.flatMap_cons]; exact List.mem_append_left _ hm)).trans (f1 x hm)]
          simp only
          rw [b4 lists answers' fun x hm => (he x (by rw [List.flatMap_cons]; exact List.mem_append_right _ hm)).trans (f2 x hm)]

omit [DecidableEq N] in
theorem getSources_seen (c : Content t) (s : Sys) (lists : Content t → List (Except E (Source t)))
    (answers : Source t → Except E (Bool → List (Ev Unit))) (h : lists c = (S.list net c s).1) :
    LJ.Report.getSources (seen S lists answers) c = (S.getSources net c s).1 := by
  unfold LJ.Report.getSources Setup.getSources
  have : (seen S lists answers).list c = (S.list net c s).1 := h
  rw [this]
  generalize S.list net c s = y
  obtain ⟨l, s1⟩ := y
  have e : (seen S lists answers).valid = S.valid := rfl
  rw [e]
  simp only
  cases LJ.Report.collectOk (l.filter (LJ.Report.keepSource S.valid)) with
  | error e => rfl
  | ok xs => cases xs <;> rfl

/-- the lists of the contents, each when those before it had been listed -/
theorem groupInto_answers (cs : List (Content t)) (hc : cs.Nodup) (g g' : List (N × List (Source t))) (s s' : Sys)
    (h : S.groupInto net cs g s = (.ok g', s')) :
    ∃ lists : Content t → List (Except E (Source t)),
      (∀ pre c post, cs = pre ++ c :: post → lists c = (S.list net c (S.groupInto net pre g s).2).1) ∧
      ∀ lists' answers, (∀ c ∈ cs, lists' c = lists c) → LJ.Report.groupInto (seen S lists' answers) cs g = .ok g' := by
  induction cs generalizing g s with
  | nil =>
    simp only [Setup.groupInto, Prod.mk.injEq, Except.ok.injEq] at h
    obtain ⟨rfl, rfl⟩ := h
    exact ⟨fun _ => [], by simp, fun _ _ _ => rfl⟩
  | cons c cs ih =>
    rw [List.nodup_cons] at hc
    unfold Setup.groupInto at h
    generalize h1 : S.getSources net c s = y at h
    obtain ⟨o, s1⟩ := y
    cases o with
    | error e => cases h
    | ok xs =>
      simp only at h
      obtain ⟨lists, l1, l2⟩ := ih hc.2 _ s1 h
      obtain ⟨f, f1, f2⟩ := merge [c] cs (fun c => (S.list net c s).1) lists (by simpa using hc.1)
      refine ⟨f, ?_, ?_⟩
      · intro pre b post he
        cases pre with
        | nil =>
          simp only [List.nil_append, List.cons.injEq] at he
          obtain ⟨rfl, rfl⟩ := he
          exact f1 c (by simp)
        | cons p pre =>
          simp only [List.cons_append, List.cons.injEq] at he
          obtain ⟨rfl, rfl⟩ := he
          rw [f2 b (by simp), l1 pre b post rfl]
          conv => rhs; unfold Setup.groupInto
          rw [h1]
      · intro lists' answers he
        unfold LJ.Report.groupInto
        rw [getSources_seen c s lists' answers ((he c (by simp)).trans (f1 c (by simp))), h1]
        exact l2 lists' answers fun b hb => (he b (by simp [hb])).trans (f2 b hb)

/-- C150: without the cache, whatever the servers answer at each time, a model is the model of files which hold what was received for the
sources of the baselines: each opened between the first and the last request of the training, each list got when those before it
were. -/
theorem C150_train (hu : S.useCache = false) {order : List (N × List (Source t)) → List (N × List (Source t))}
    {baselines : List (Content t)} {s s' : Sys} {m : Model (Content t) (Source t) N} (h : S.train net order baselines s = (.ok m, s'))
    (hb : baselines.Nodup) (hm : (m.indexes.flatMap fun i => i.2.sources).Nodup) :
    ∃ (lists : Content t → List (Except E (Source t))) (answers : Source t → Except E (Bool → List (Ev Unit))),
      (∀ pre c post, baselines = pre ++ c :: post → lists c = (S.list net c (S.groupInto net pre [] s).2).1) ∧
      (∀ i ∈ m.indexes, ∀ x ∈ i.2.sources, Answer S net s.asked s'.asked x (answers x)) ∧
      ∀ lists' answers', (∀ c ∈ baselines, lists' c = lists c) → (∀ i ∈ m.indexes, ∀ x ∈ i.2.sources, answers' x = answers x) →
        LJ.Report.train (seen S lists' answers') order baselines = .ok m := by
  unfold Setup.train at h
  have ha := (groupInto_asked (S := S) (net := net) baselines [] s).1
  generalize h1 : S.groupInto net baselines [] s = y at h ha
  obtain ⟨o, s1⟩ := y
  cases o with
  | error e => cases h
  | ok g =>
    simp only at h ha
    generalize h2 : S.trainGroups net (order g) s1 = y at h
    obtain ⟨o, s2⟩ := y
    cases o with
    | panic => cases h
    | error e => cases h
    | ok indexes =>
      simp only [Prod.mk.injEq, Outcome.ok.injEq] at h
      obtain ⟨rfl, rfl⟩ := h
      obtain ⟨lists, l1, l2⟩ := groupInto_answers baselines hb [] g s s1 h1
      obtain ⟨k1, k2, answers, k3, k4⟩ := trainGroups_answers hu (order g) indexes s1 s2 hm h2
      refine ⟨lists, answers, l1, ?_, ?_⟩
      · intro i hi x hx
        exact (k3 x (by rw [k2]; exact List.mem_flatMap.2 ⟨i, hi, hx⟩)).mono ha (Nat.le_refl _)
      · intro lists' answers' e1 e2
        unfold LJ.Report.train LJ.Report.groupSources
        rw [l2 lists' answers' e1]
        simp only
        rw [k4 lists' answers' (by
          intro x hx
          rw [k2] at hx
          obtain ⟨i, hi, hx⟩ := List.mem_flatMap.1 hx
          exact e2 i hi x hx)]

/-! ### The report -/

omit [DecidableEq N] in
theorem inspect_seen (lists : Content t → List (Except E (Source t))) (answers : Source t → Except E (Bool → List (Ev Unit)))
    (index : Index (Source t)) (x : Source t) (reader : Bool → List (Ev Unit)) (lines : List (Ev Unit)) (skip : List Str)
    (h : reader (S.isJson x) = lines) :
    LJ.Report.inspect (seen S lists answers) index x reader skip = S.inspect index lines skip := by
  subst h
  unfold LJ.Report.inspect Setup.inspect
  have e : LJ.Report.envOf (seen S lists answers) index.chunks = S.env index.chunks := rfl
  have e2 : (seen S lists answers).isJson x = S.isJson x := rfl
  rw [e, e2]
  generalize LJ.Process.process (S.env index.chunks) skip (reader (S.isJson x)) = y
  obtain ⟨a, st, z⟩ := y
  cases st <;> rfl

/-- the sources of a group which are opened: all, or those before the first which can't be, and it -/
theorem reportSources_answers (hu : S.useCache = false) (name : N) (index : Index (Source t)) (xs : List (Source t)) (hx : xs.Nodup)
    (skip : List Str) (r r' : Report (Content t) (Source t) N D E Unit) (s s' : Sys)
    (h : S.reportSources net name index xs skip r s = (some r', s')) :
    s.asked ≤ s'.asked ∧ ∃ (opened : List (Source t)) (answers : Source t → Except E (Bool → List (Ev Unit))), (∃ rest, xs = opened ++ rest) ∧ (∀ x ∈ opened, Answer S net s.asked s'.asked x (answers x)) ∧
      ∀ lists answers', (∀ x ∈ opened, answers' x = answers x) →
        LJ.Report.reportSources (seen S lists answers') name index xs skip r = some r' := by
  induction xs generalizing skip r s with
  | nil =>
    simp only [Setup.reportSources, Prod.mk.injEq, Option.some.injEq] at h
    obtain ⟨rfl, rfl⟩ := h
    exact ⟨Nat.le_refl _, [], fun _ => .error S.netError, ⟨[], rfl⟩, by simp, fun _ _ _ => rfl⟩
  | cons x xs ih =>
    unfold Setup.reportSources at h
    have ha := (read_asked (S := S) (net := net) x (S.isJson x) (processAsked (S.env index.chunks) skip) s).1
    have hr := read_answer (net := net) hu x (S.isJson x) (processAsked (S.env index.chunks) skip) s
    generalize S.read net x (S.isJson x) (processAsked (S.env index.chunks) skip) s = y at h ha hr
    obtain ⟨o, s1⟩ := y
    cases o with
    | panic => cases h
    | error e =>
      simp only [Prod.mk.injEq, Option.some.injEq] at h
      obtain ⟨rfl, rfl⟩ := h
      refine ⟨ha, [x], fun _ => .error e, ⟨xs, rfl⟩, ?_, ?_⟩
      · intro y hy
        cases List.mem_singleton.1 hy
        exact hr
      · intro lists answers' he
        unfold LJ.Report.reportSources
        have e1 : (seen S lists answers').openSource x = .error e := he x (by simp)
        rw [e1]
    | ok lines =>
      simp only at h hr ha
      obtain ⟨reader, h1, h2⟩ := hr
      cases hi : S.inspect index lines skip with
      | none => rw [hi] at h; cases h
      | some q =>
        obtain ⟨anomalies, err, st⟩ := q
        rw [hi] at h
        simp only at h
        rw [List.nodup_cons] at hx
        obtain ⟨k1, opened, answers, ⟨rest, hrest⟩, k2, k3⟩ := ih hx.2 _ _ s1 h
        obtain ⟨f, f1, f2⟩ := merge [x] opened (fun _ => (.ok reader : Except E _)) answers (by
          intro y hy hm
          cases List.mem_singleton.1 hy
          exact hx.1 (hrest ▸ List.mem_append_left _ hm))
        refine ⟨Nat.le_trans ha k1, x :: opened, f, ⟨rest, by rw [hrest]; rfl⟩, ?_, ?_⟩
        · intro y hy
          rcases List.mem_cons.1 hy with rfl | hy
          · rw [f1 y (by simp)]; exact h1.mono (Nat.le_refl _) k1
          · rw [f2 y hy]; exact (k2 y hy).mono ha (Nat.le_refl _)
        · intro lists answers' he
          unfold LJ.Report.reportSources
          have e1 : (seen S lists answers').openSource x = .ok reader := (he x (by simp)).trans (f1 x (by simp))
          rw [e1]
          simp only
          rw [inspect_seen lists answers' index x reader lines skip h2, hi]
          exact k3 lists answers' fun y hy => (he y (by simp [hy])).trans (f2 y hy)

theorem reportGroup_answers (hu : S.useCache = false) (m : Model (Content t) (Source t) N) (p : N × List (Source t)) (hx : p.2.Nodup)
    (r r' : Report (Content t) (Source t) N D E Unit) (s s' : Sys) (h : S.reportGroup net m p r s = (some r', s')) :
    s.asked ≤ s'.asked ∧ ∃ (opened : List (Source t)) (answers : Source t → Except E (Bool → List (Ev Unit))), (∀ x ∈ opened, x ∈ p.2) ∧ (∀ x ∈ opened, Answer S net s.asked s'.asked x (answers x)) ∧
      ∀ lists answers', (∀ x ∈ opened, answers' x = answers x) → LJ.Report.reportGroup (seen S lists answers') m p r = some r' := by
  unfold Setup.reportGroup at h
  cases hi : LJ.Report.lookupOrSingle m.indexes p.1 with
  | none =>
    rw [hi] at h
    simp only [Prod.mk.injEq, Option.some.injEq] at h
    obtain ⟨rfl, rfl⟩ := h
    refine ⟨Nat.le_refl _, [], fun _ => .error S.netError, by simp, by simp, fun _ _ _ => ?_⟩
    unfold LJ.Report.reportGroup
    rw [hi]
  | some index =>
    rw [hi] at h
    obtain ⟨k1, opened, answers, ⟨rest, hrest⟩, k2, k3⟩ := reportSources_answers hu p.1 index p.2 hx [] r r' s s' h
    refine ⟨k1, opened, answers, fun x hm => hrest ▸ List.mem_append_left _ hm, k2, fun lists answers' he => ?_⟩
    unfold LJ.Report.reportGroup
    rw [hi]
    exact k3 lists answers' he

theorem reportGroups_answers (hu : S.useCache = false) (m : Model (Content t) (Source t) N) (g : List (N × List (Source t)))
    (hx : (g.flatMap Prod.snd).Nodup) (r r' : Report (Content t) (Source t) N D E Unit) (s s' : Sys)
    (h : S.reportGroups net m g r s = (some r', s')) :
    s.asked ≤ s'.asked ∧ ∃ (opened : List (Source t)) (answers : Source t → Except E (Bool → List (Ev Unit))), (∀ x ∈ opened, x ∈ g.flatMap Prod.snd) ∧
      (∀ x ∈ opened, Answer S net s.asked s'.asked x (answers x)) ∧
      ∀ lists answers', (∀ x ∈ opened, answers' x = answers x) → LJ.Report.reportGroups (seen S lists answers') m g r = some r' := by
  induction g generalizing r s with
  | nil =>
    simp only [Setup.reportGroups, Prod.mk.injEq, Option.some.injEq] at h
    obtain ⟨rfl, rfl⟩ := h
    exact ⟨Nat.le_refl _, [], fun _ => .error S.netError, by simp, by simp, fun _ _ _ => rfl⟩
  | cons p g ih =>
    unfold Setup.reportGroups at h
    generalize h1 : S.reportGroup net m p r s = y at h
    obtain ⟨o, s1⟩ := y
    cases o with
    | none => cases h
    | some r1 =>
      simp only at h
      rw [List.flatMap_cons, List.nodup_append] at hx
      obtain ⟨a1, op1, ans1, a2, a3, a4⟩ := reportGroup_answers hu m p hx.1 r r1 s s1 h1
      obtain ⟨b1, op2, ans2, b2, b3, b4⟩ := ih hx.2.1 r1 s1 h
      obtain ⟨f, f1, f2⟩ := merge op1 op2 ans1 ans2 fun x h1 h2 => hx.2.2 x (a2 x h1) x (b2 x h2) rfl
      refine ⟨Nat.le_trans a1 b1, op1 ++ op2, f, ?_, ?_, ?_⟩
      · intro x hm
        rw [List.flatMap_cons]
        rcases List.mem_append.1 hm with hm | hm
        · exact List.mem_append_left _ (a2 x hm)
        · exact List.mem_append_right _ (b2 x hm)
      · intro x hm
        rcases List.mem_append.1 hm with hm | hm
        · rw [f1 x hm]; exact (a3 x hm).mono (Nat.le_refl _) b1
        · rw [f2 x hm]; exact (b3 x hm).mono a1 (Nat.le_refl _)
      · intro lists answers' he
        unfold LJ.Report.reportGroups
        rw [a4 lists answers' fun x hm => (he x (List.mem_append_left _ hm)).trans (f1 x hm)]
        exact b4 lists answers' fun x hm => (he x (List.mem_append_right _ hm)).trans (f2 x hm)

theorem push_flat (n : N) (x : Source t) (g : List (N × List (Source t))) :
    ((LJ.Report.push n x g).flatMap Prod.snd).Perm (x :: g.flatMap Prod.snd) := by
  induction g with
  | nil => simp [LJ.Report.push]
  | cons p g ih =>
    obtain ⟨k, ss⟩ := p
    unfold LJ.Report.push
    split
    · simp only [List.flatMap_cons, List.append_assoc]
      exact List.perm_middle
    · simp only [List.flatMap_cons]
      exact (ih.append_left ss).trans List.perm_middle

theorem pushes_flat (f : Source t → N) (xs : List (Source t)) (g : List (N × List (Source t))) :
    ((xs.foldl (fun g x => LJ.Report.push (f x) x g) g).flatMap Prod.snd).Perm (xs ++ g.flatMap Prod.snd) := by
  induction xs generalizing g with
  | nil => exact .refl _
  | cons x xs ih =>
    rw [List.foldl_cons]
    refine (ih _).trans (((push_flat (f x) x g).append_left xs).trans ?_)
    exact List.perm_middle

/-- C150: without the cache, whatever the servers answer at each time, the report on a target is the report on files which hold what was
received: the list got first, and for each source which was opened what opening it gave, between the first and the last request of
the report.  Nothing else of the target is in the report. -/
theorem C150_report (hu : S.useCache = false) {m : Model (Content t) (Source t) N}
    {order : List (N × List (Source t)) → List (N × List (Source t))} (ho : ∀ g, (order g).Perm g) {target : Content t} {s s' : Sys}
    {r : Report (Content t) (Source t) N D E Unit} (h : S.report net m order target s = (some (.ok r), s'))
    (hx : (LJ.Report.Spec.validSources S.valid (S.list net target s).1).Nodup) :
    ∃ (opened : List (Source t)) (answers : Source t → Except E (Bool → List (Ev Unit))), (∀ x ∈ opened, x ∈ LJ.Report.Spec.validSources S.valid (S.list net target s).1) ∧
      (∀ x ∈ opened, Answer S net s.asked s'.asked x (answers x)) ∧
      ∀ lists answers', lists target = (S.list net target s).1 → (∀ x ∈ opened, answers' x = answers x) →
        LJ.Report.report (seen S lists answers') m order target = some (.ok r) := by
  unfold Setup.report at h
  have ha := (groupInto_asked (S := S) (net := net) [target] [] s).1
  generalize h1 : S.groupInto net [target] [] s = y at h ha
  obtain ⟨o, s1⟩ := y
  cases o with
  | error e => cases h
  | ok g =>
    simp only at h ha
    generalize h2 : S.reportGroups net m (order g) ⟨target, m.baselines, [], [], [], [], 0, 0⟩ s1 = y at h
    obtain ⟨o, s2⟩ := y
    cases o with
    | none => cases h
    | some r1 =>
      simp only [Prod.mk.injEq, Option.some.injEq, Except.ok.injEq] at h
      obtain ⟨rfl, rfl⟩ := h
      obtain ⟨lists0, l1, l2⟩ := groupInto_answers [target] (by simp) [] g s s1 h1
      have hl0 : lists0 target = (S.list net target s).1 := l1 [] target [] rfl
      -- the groups are the valid sources
      have hg : (g.flatMap Prod.snd).Perm (LJ.Report.Spec.validSources S.valid (S.list net target s).1) := by
        have e := l2 lists0 (fun _ => .error S.netError) fun _ _ => rfl
        unfold LJ.Report.groupInto at e
        cases hs : LJ.Report.getSources (seen S lists0 fun _ => .error S.netError) target with
        | error e1 => rw [hs] at e; cases e
        | ok xs =>
          rw [hs] at e
          simp only [LJ.Report.groupInto, Except.ok.injEq] at e
          subst e
          refine (pushes_flat _ xs []).trans ?_
          simp only [List.flatMap_nil, List.append_nil]
          by_cases hus : LJ.Report.Spec.Usable S.valid (lists0 target)
          · have e1 := LJ.Report.getSources_ok (w := seen S lists0 fun _ => .error S.netError) (c := target) hus
            rw [hs] at e1
            cases e1
            show List.Perm (LJ.Report.Spec.validSources S.valid (lists0 target)) _
            rw [hl0]
          · rcases LJ.Report.getSources_err (w := seen S lists0 fun _ => .error S.netError) (c := target) hus with ⟨_, _, e1⟩ | ⟨_, _, e1⟩ <;>
              · rw [hs] at e1; cases e1
      have hg' : ((order g).flatMap Prod.snd).Perm (LJ.Report.Spec.validSources S.valid (S.list net target s).1) :=
        ((ho g).flatMap_right _).trans hg
      obtain ⟨k1, opened, answers, k2, k3, k4⟩ := reportGroups_answers hu m (order g) (hg'.nodup_iff.2 hx) _ r1 s1 s2 h2
      refine ⟨opened, answers, fun x hm => hg'.mem_iff.1 (k2 x hm), fun x hm => (k3 x hm).mono ha (Nat.le_refl _), ?_⟩
      intro lists answers' e1 e2
      unfold LJ.Report.report LJ.Report.groupSources
      rw [l2 lists answers' (by intro c hc; cases List.mem_singleton.1 hc; exact e1.trans hl0.symm)]
      simp only
      rw [k4 lists answers' e2]

/-- C150: without the cache, whatever the servers answer at each time, the number of anomalies of the report is that of its log reports, and
each valid source of the list which was got has nothing to be compared with, or a read error, or comes after a source of the same
name which could not be opened and is told, or was sent, and all that was sent was compared: nothing was found in it, or it has a log
report with exactly what was found. -/
theorem C150_accounted (hu : S.useCache = false) (hs : SearchOk S) {m : Model (Content t) (Source t) N}
    {order : List (N × List (Source t)) → List (N × List (Source t))} (ho : ∀ g, (order g).Perm g) {target : Content t} {s s' : Sys}
    {r : Report (Content t) (Source t) N D E Unit} (h : S.report net m order target s = (some (.ok r), s'))
    (hx : (LJ.Report.Spec.validSources S.valid (S.list net target s).1).Nodup) :
    r.totalAnomalyCount = (r.logReports.map fun l => l.anomalies.length).sum ∧
    ∀ pre x post, (LJ.Report.Spec.validSources S.valid (S.list net target s).1).filter (fun y => S.nameOf y = S.nameOf x) = pre ++ x :: post →
      (∃ xs ∈ r.indexErrors, x ∈ xs) ∨ (∃ e, (x, e) ∈ r.readErrors) ∨ (∃ y ∈ pre, ∃ e, (y, .opening e) ∈ r.readErrors) ∨
      ∃ index reader known, LJ.Report.lookupOrSingle m.indexes (S.nameOf x) = some index ∧
        Answer S net s.asked s'.asked x (.ok reader) ∧
        (∀ k ∈ known, ∃ y ∈ pre, ∃ rd, Answer S net s.asked s'.asked y (.ok rd) ∧
          ∃ l ∈ LJ.Process.Spec.visible S.decode (rd (S.isJson y)), S.tokenize l.text = k) ∧
        (LJ.Process.process (S.env index.chunks) known (reader (S.isJson x))).2.1 = .finished ∧
        ((LJ.Process.process (S.env index.chunks) known (reader (S.isJson x))).1 = [] ∨
          ∃ l ∈ r.logReports, l.source = x ∧ l.anomalies = (LJ.Process.process (S.env index.chunks) known (reader (S.isJson x))).1) := by
  classical
  obtain ⟨opened, answers, k1, k2, k3⟩ := C150_report hu ho h hx
  let answers' : Source t → Except E (Bool → List (Ev Unit)) := fun x => if x ∈ opened then answers x else .error S.netError
  have hw := k3 (fun _ => (S.list net target s).1) answers' rfl (fun x hm => by simp only [answers', if_pos hm])
  have ok : ∀ x reader, answers' x = .ok reader → Answer S net s.asked s'.asked x (.ok reader) := by
    intro x reader e
    by_cases hm : x ∈ opened
    · simp only [answers', if_pos hm] at e
      rw [← e]
      exact k2 x hm
    · simp only [answers', if_neg hm] at e
      cases e
  have hso : LJ.Report.SearchOk (seen S (fun _ => (S.list net target s).1) answers') := hs
  refine ⟨(LJ.Report.C37_totals hso ho hw).1, fun pre x post hg => ?_⟩
  rcases LJ.Report.C38_partial hso ho hw hg with h1 | h1 | ⟨y, hy, e, _, h1⟩ | ⟨index, reader, known, h1, h2, h3, h4, h5⟩
  · exact .inl h1
  · exact .inr (.inl h1)
  · exact .inr (.inr (.inl ⟨y, hy, e, h1⟩))
  · refine .inr (.inr (.inr ⟨index, reader, known, h1, ok x reader h2, fun k hk => ?_, h4, h5⟩))
    obtain ⟨y, hy, rd, h6, l, hl, h7⟩ := h3 k hk
    exact ⟨y, hy, rd, ok y rd h6, l, hl, h7⟩

/-- C150: without the cache, whatever the servers answer at each time, a comparison is exact for what was received: there are files of the
baselines, which hold what was sent before the model was made, and files of the target, which hold what was sent after, of which the
report is the comparison. -/
theorem C150_compare (hu : S.useCache = false) {order order' : List (N × List (Source t)) → List (N × List (Source t))}
    (ho : ∀ g, (order' g).Perm g) {baselines : List (Content t)} {target : Content t} {s s' : Sys}
    {r : Report (Content t) (Source t) N D E Unit} (h : S.compare net order order' baselines target s = (.ok r, s')) (hb : baselines.Nodup)
    (hm : ∀ m s1, S.train net order baselines s = (.ok m, s1) →
      (m.indexes.flatMap fun i => i.2.sources).Nodup ∧ (LJ.Report.Spec.validSources S.valid (S.list net target s1).1).Nodup) :
    ∃ m s1 lists answers xs, ∃ (opened : List (Source t)) (answers' : Source t → Except E (Bool → List (Ev Unit))), S.train net order baselines s = (.ok m, s1) ∧
      (∀ i ∈ m.indexes, ∀ x ∈ i.2.sources, Answer S net s.asked s1.asked x (answers x)) ∧
      (∀ x ∈ opened, x ∈ LJ.Report.Spec.validSources S.valid xs ∧ Answer S net s1.asked s'.asked x (answers' x)) ∧
      xs = (S.list net target s1).1 ∧
      LJ.Report.train (seen S lists answers) order baselines = .ok m ∧
      LJ.Report.report (seen S (fun _ => xs) answers') m order' target = some (.ok r) := by
  unfold Setup.compare at h
  cases ht : S.train net order baselines s with
  | mk o s1 =>
    rw [ht] at h
    cases o with
    | panic => cases h
    | error e => cases h
    | ok m =>
      simp only at h
      cases hr : S.report net m order' target s1 with
      | mk o s2 =>
        rw [hr] at h
        cases o with
        | none => cases h
        | some o =>
          cases o with
          | error e => cases h
          | ok r1 =>
            simp only [Prod.mk.injEq, Outcome.ok.injEq] at h
            obtain ⟨rfl, rfl⟩ := h
            obtain ⟨n1, n2⟩ := hm m s1 ht
            obtain ⟨lists, answers, _, a2, a3⟩ := C150_train hu ht hb n1
            obtain ⟨opened, answers', b1, b2, b3⟩ := C150_report hu ho hr n2
            exact ⟨m, s1, lists, answers, _, opened, answers', rfl, a2, fun x hx => ⟨b1 x hx, b2 x hx⟩, rfl,
              a3 lists answers (fun _ _ => rfl) (fun _ _ _ _ => rfl), b3 _ answers' rfl (fun _ _ => rfl)⟩

end

/-! ### A server which changes its mind -/

/-- a file which has one line at the first request, another at the second, and then is not sent -/
def moodyNet : Nat → Net LJ.Cache.demoTexts := fun k =>
  { get := fun _ => if k = 0 then some ⟨200, ⟨ascii "a\n", []⟩⟩ else if k = 1 then some ⟨200, ⟨ascii "z\n", [.short 1]⟩⟩ else none
    list := fun _ => none }

theorem moody_base (f : List (Ev Unit) → Nat) : (demo false).read moodyNet (demoSource "t") false f start = (.ok [lineA], ⟨start.cache, 1⟩) :=
  read_live (S := demo false) (L := [lineA]) (resp := ⟨200, ⟨ascii "a\n", []⟩⟩) rfl (demo_base "t") (by decide +kernel) (lines_eval 8 (by decide +kernel))

theorem moody_last (f : List (Ev Unit) → Nat) :
    (demo false).read moodyNet (demoSource "t") false f ⟨start.cache, 1⟩ = (.ok [lineZ 1], ⟨start.cache, 2⟩) :=
  read_live (S := demo false) (L := [lineZ 1]) (resp := ⟨200, ⟨ascii "z\n", [.short 1]⟩⟩) rfl (demo_base "t") (by decide +kernel)
    (lines_eval 8 (by decide +kernel))

theorem moody_train : (demo false).train moodyNet id [.file (demoSource "t")] start =
    (.ok ⟨[.file (demoSource "t")], [((), oneIndex (demo false) (demoSource "t") [lineA])]⟩, ⟨start.cache, 1⟩) := by
  unfold Setup.train Setup.groupInto Setup.groupInto
  have hb := moody_base (trainAsked ((demo false).env []))
  have e : (demo false).getSources moodyNet (.file (demoSource "t")) start = (.ok [demoSource "t"], start) := rfl
  rw [e]
  simp only [List.foldl_cons, List.foldl_nil, LJ.Report.push, id]
  unfold Setup.trainGroups Setup.trainIndex Setup.trainSources
  have e2 : (demo false).firstJson [demoSource "t"] = false := rfl
  rw [e2, hb]
  rfl

/-- Non-vacuity: a file compared with itself, on a server which sends one thing, then another. -/
example : ∃ r s', (demo false).compare moodyNet id id [.file (demoSource "t")] (.file (demoSource "t")) start = (.ok r, s') ∧
    r.totalAnomalyCount = 1 ∧ r.readErrors = [] ∧
    (∀ m s1, (demo false).train moodyNet id [.file (demoSource "t")] start = (.ok m, s1) →
      (m.indexes.flatMap fun i => i.2.sources).Nodup ∧
      (LJ.Report.Spec.validSources (demo false).valid ((demo false).list moodyNet (.file (demoSource "t")) s1).1).Nodup) := by
  have h := compare_found (S := demo false) (net := moodyNet) (x := demoSource "t") (y := demoSource "t") rfl rfl (moody_base _) (moody_last _) (by decide +kernel)
  refine ⟨_, _, h, by decide +kernel, by decide +kernel, ?_⟩
  intro m s1 ht
  rw [moody_train] at ht
  cases ht
  exact ⟨List.nodup_singleton _, List.nodup_singleton _⟩

end LJ.Remote

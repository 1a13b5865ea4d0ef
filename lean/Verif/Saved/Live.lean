/-
C119: the live output made with a saved model.
-/
import Verif.Saved.Toy
import Verif.Output.Model
namespace LJ.Saved
open LJ.Process (Str Ev Cfg)
open LJ.Report (lookupOrSingle getSources ListErr)
open LJ.Codec (Texts Source Content)
open LJ.Output (LiveLabels OutputMode Live progress progressSep printAnomalies readErrLines couldNotRead noBaselines liveEnd)

variable {t : Texts} {E ε : Type} {cfg : Cfg} {hashing : Bool}

/-- main.rs:318-346, a source, with an index in memory. -/
noncomputable def liveSource (cfg : Cfg) (o : Sources t E ε) (lb : LiveLabels (Content t) (Source t) ℝ E ε) (mode : OutputMode) (index : LJ.Codec.Index t)
    (source : Source t) (st : Live) : Option (Bool × Live) :=
  let out := st.out ++ progress mode ("Inspecting ".toList ++ lb.source source)
  match o.openSource source with
  | .error e => some (false, { st with out := out ++ [couldNotRead lb source (lb.openErr e)], sepShown := false })
  | .ok reader =>
    match inspect cfg o index source reader [] with
    | none => none
    | some (anomalies, err, p) =>
      let results := !anomalies.isEmpty || err.isSome
      some (true, {
        out := out ++ progressSep mode results ++ printAnomalies lb none anomalies ++ readErrLines lb source err
        sepShown := mode.inlined && results
        lineCount := st.lineCount + p.lineCount
        anomalyCount := st.anomalyCount + anomalies.length })

/-- main.rs:288-352, the loop over the sources, with a model in memory. -/
noncomputable def liveSources (cfg : Cfg) (o : Sources t E ε) (lb : LiveLabels (Content t) (Source t) ℝ E ε) (mode : OutputMode) (m : LJ.Codec.Model t) :
    List (Source t) → Live → Option Live
  | [], st => some st
  | source :: sources, st =>
    match (match lookupOrSingle m.indexes.pairs (o.nameOf source) with
      | some index => liveSource cfg o lb mode index source st
      | none => some (true, noBaselines lb source st)) with
    | none => none
    | some (false, st) => some st
    | some (true, st) => liveSources cfg o lb mode m sources st

/-- main.rs:278-365 `process_live` with a model in memory: the texts printed; a panic is `none`. -/
noncomputable def live (cfg : Cfg) (o : Sources t E ε) (lb : LiveLabels (Content t) (Source t) ℝ E ε) (mode : OutputMode) (content : Content t)
    (m : LJ.Codec.Model t) : Option (Except (ListErr E (Content t)) (List Str)) :=
  match getSources (o.world cfg true) content with
  | .error e => some (.error e)
  | .ok sources =>
    match liveSources cfg o lb mode m sources ⟨[], false, 0, 0⟩ with
    | none => none
    | some st => some (.ok (liveEnd lb mode content st))

theorem liveSource_same {o : Sources t E ε} {i : LJ.Report.Index (Source t)} {x : LJ.Codec.Index t} (h : Same o cfg hashing i x)
    (lb : LiveLabels (Content t) (Source t) ℝ E ε) (mode : OutputMode) (s : Source t) (st : Live) :
    liveSource cfg o lb mode x s st = LJ.Output.liveSource (o.world cfg hashing) lb mode i s st := by
  unfold liveSource LJ.Output.liveSource
  show (match o.openSource s with | .error e => _ | .ok reader => _) = (match o.openSource s with | .error e => _ | .ok reader => _)
  cases o.openSource s with
  | error e => rfl
  | ok reader =>
    simp only [inspect_same h]
    cases LJ.Report.inspect (o.world cfg hashing) i s reader [] with
    | none => rfl
    | some y => rfl

theorem liveSources_same {o : Sources t E ε} {m : LJ.Report.Model (Content t) (Source t) String} {s : LJ.Codec.Model t}
    {ps : List (String × LJ.Codec.Index t)} (h : List.Forall₂ (fun x p => p.1 = x.1 ∧ Same o cfg hashing x.2 p.2) m.indexes ps)
    (hp : s.indexes.pairs.Perm ps) (lb : LiveLabels (Content t) (Source t) ℝ E ε) (mode : OutputMode) (ss : List (Source t)) (st : Live) :
    liveSources cfg o lb mode s ss st = LJ.Output.liveSources (o.world cfg hashing) lb mode m ss st := by
  induction ss generalizing st with
  | nil => rfl
  | cons x ss ih =>
    unfold liveSources LJ.Output.liveSources LJ.Output.liveOne
    rw [LJ.Report.lookupOrSingle_perm s.indexes.nodup hp]
    have hn : (o.world cfg hashing).nameOf x = o.nameOf x := rfl
    rw [hn]
    rcases lookup_same h (o.nameOf x) with ⟨h1, h2⟩ | ⟨i, y, h1, h2, h3⟩
    · rw [h1, h2]
      exact ih _
    · rw [h1, h2]
      simp only [liveSource_same h3]
      rcases LJ.Output.liveSource (o.world cfg hashing) lb mode i x st with _ | ⟨b, st'⟩
      · rfl
      · cases b
        · rfl
        · exact ih _

/-- C119: a model is trained and saved; in a later run it is loaded, and the live output of any target is the one which the trained
model gives, in every mode of the terminal, whatever follows the model in the file, and in whatever order the loaded map is. -/
theorem C119_live (hf : cfg.fp.IsF32) (o : Sources t E ε) (clocks : Clocks)
    {order : List (String × List (Source t)) → List (String × List (Source t))} (ho : ∀ g, (order g).Perm g) {cs : List (Content t)}
    {m : LJ.Report.Model (Content t) (Source t) String} (hm : LJ.Report.train (o.world cfg hashing) order cs = .ok m) (hs : Spec.Saveable m) :
    ∃ s b, keep cfg hashing clocks m = some s ∧ (LJ.Codec.model t).enc s = some b ∧ ∀ rest, ∃ l, LJ.Codec.load (LJ.Codec.model t) (b ++ rest) = some l ∧
      ∀ l' : LJ.Codec.Model t, l'.indexes.pairs.Perm l.indexes.pairs →
        ∀ (o' : Sources t E ε) (lb : LiveLabels (Content t) (Source t) ℝ E ε) (mode : OutputMode) (target : Content t),
          live cfg o' lb mode target l' = LJ.Output.processLive (o'.world cfg hashing) lb mode target m := by
  obtain ⟨s, h1, h2, h3⟩ := keep_trained clocks ho hm
  obtain ⟨b, hb⟩ := C93_saves hf ho hm h1 hs
  refine ⟨s, b, h1, hb, fun rest => ⟨s, (LJ.Codec.C70_model t hb rest).2, fun l' hp o' lb mode target => ?_⟩⟩
  unfold live LJ.Output.processLive
  have e : getSources (o'.world cfg true) target = getSources (o'.world cfg hashing) target := rfl
  rw [e]
  cases getSources (o'.world cfg hashing) target with
  | error e => rfl
  | ok sources =>
    simp only
    rw [liveSources_same (h3.imp fun x p h => ⟨h.1, ⟨h.2.1, keepIndex_env hf o' h.2.2⟩⟩) hp]
    cases LJ.Output.liveSources (o'.world cfg hashing) lb mode m sources ⟨[], false, 0, 0⟩ <;> rfl

/-- A case of C119: a model of one file, whose saving succeeds. -/
example {fp : LJ.Index.FP} (hf : fp.IsF32) : ∃ s b, keep (toyCfg fp) true toyClocks toyModel = some s ∧ (LJ.Codec.model _).enc s = some b ∧
    LJ.Report.train (toySources.world (toyCfg fp) true) id [.file (toySource "a")] = .ok toyModel ∧ Spec.Saveable toyModel := by
  obtain ⟨s, b, h1, h2, -⟩ := C119_live hf toySources toyClocks (fun _ => List.Perm.refl _) (toyTrained fp) toySaveable
  exact ⟨s, b, h1, h2, toyTrained fp, toySaveable⟩

end LJ.Saved

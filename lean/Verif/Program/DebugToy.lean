/-
A case of C137.
-/
import Verif.Program.Debug
import Verif.Program.Toy
namespace LJ.Program
open LJ.Process (Str Bytes)
open LJ.Paths (Input Source)
open LJ.Whole (Machine Local toyDisk toyMachine_ordinary oldLines newLines near_new)
open LJ.Report (train report)
open LJ.Whole.Spec (reported Ordinary)

/-- the disk of `toyDisk`, with a release build -/
noncomputable def fastDisk : Machine := { toyDisk with checks := false }

theorem fastDisk_ordinary : Ordinary fastDisk :=
  ⟨(toyMachine_ordinary toyDisk.files).fp, (toyMachine_ordinary toyDisk.files).blocks, (toyMachine_ordinary toyDisk.files).whole⟩

theorem fastDisk_report : ∃ m r l a, train fastDisk.world id [.file "old.log".toList] = .ok m ∧ report fastDisk.world m id (.file "new.log".toList) = some (.ok r) ∧
    l ∈ r.logReports ∧ a ∈ l.anomalies ∧ a.anomaly.pos = 2 ∧ a.anomaly.line = "volume vanished quickly".toList := by
  obtain ⟨m, r, dist, g1, g2, _, _, _, g6, g7, g8⟩ := LJ.Whole.C88_diff fastDisk_ordinary (o1 := id) (o2 := id) (fun _ => .rfl) (fun _ => .rfl)
    (a := "old.log".toList) (b := "new.log".toList) (la := oldLines) (lb := newLines) rfl rfl
    (fun l hl => toy_plain l (by simp [hl])) (fun l hl => toy_plain l (by simp [hl]))
    (by decide +kernel) (by decide +kernel) (by decide +kernel) (by decide +kernel) (by decide +kernel)
  have hin : (2, "volume vanished quickly".toList) ∈ reported r := by
    rw [g7]
    refine ⟨1, rfl, rfl, ?_, near_new g6 ?_⟩
    · intro j hj l' hl' e
      have : j = 0 := by omega
      subst this
      cases hl'
      have h : (newLines.map (LJ.Tokenizer.process Char.isAlphanum)).Nodup := by decide +kernel
      simp only [newLines, List.map_cons, List.nodup_cons, List.mem_cons, not_or] at h
      exact h.1.1 e
    · have hno : ∀ b ∈ oldLines.map (LJ.Tokenizer.process Char.isAlphanum), ∀ w ∈ b.splitOn ' ',
          ∀ w' ∈ (LJ.Tokenizer.process Char.isAlphanum "volume vanished quickly".toList).splitOn ' ',
          w.foldl (fun h c => h * 31 + c.toNat) 0 % 260000 ≠ w'.foldl (fun h c => h * 31 + c.toNat) 0 % 260000 := by decide +kernel
      rintro b hb ⟨w, hw, w', hw', e⟩
      exact hno b hb w hw w' hw' e
  unfold reported at hin
  obtain ⟨x, hx, h4⟩ := List.mem_map.1 hin
  obtain ⟨l, h1, h2⟩ := List.mem_flatMap.1 hx
  obtain ⟨a, h3, rfl⟩ := List.mem_map.1 h2
  exact ⟨m, r, l, a, g1, g2, h1, h3, congrArg Prod.fst h4, congrArg Prod.snd h4⟩

/-- the names are compared as lists of characters -/
noncomputable def sortedLocal : Tool Local Source Str ℝ Unit Unit := { toyLocal with le := fun a b => decide (a ≤ b) }

/-- `debug-iterator` shows the new line of the log, `debug-indexname` and `debug-groups` its name. -/
example : ∃ m r l, report fastDisk.world m id (.file "new.log".toList) = some (.ok r) ∧ l ∈ r.logReports ∧
    "2 | volume vanished quickly\n".toList ∈ Spec.prints (localTool fastDisk toyOutside toyPages sortedLocal) noFiles (.debugIterator "new.log".toList) ∧
    Spec.prints (localTool fastDisk toyOutside toyPages sortedLocal) noFiles (.debugIndexname "new.log".toList) = [l.indexName ++ ['\n']] ∧
    ∃ t, Spec.prints (localTool fastDisk toyOutside toyPages sortedLocal) noFiles (.debugTokenizer "volume vanished quickly".toList) = [t] ∧
      ∀ x ∈ oldLines, Spec.prints (localTool fastDisk toyOutside toyPages sortedLocal) noFiles (.debugTokenizer x) ≠ [t] := by
  obtain ⟨m, r, l, a, h1, h2, h3, h4, h5, h6⟩ := fastDisk_report
  have hlist : LJ.Whole.Spec.sourcesOf fastDisk (.file "new.log".toList) = [.loc 0 (some "new.log".toList)] := by decide +kernel
  have hcan : LJ.Whole.Spec.CanList fastDisk (.file "new.log".toList) := by
    refine ⟨?_, by decide +kernel⟩
    intro e h
    have : ∀ x ∈ fastDisk.list (.file "new.log".toList), x.isOk = true := by decide +kernel
    exact absurd (this _ h) (by simp [Except.isOk, Except.toBool])
  have hle : Spec.LinearLe sortedLocal.le := by
    constructor
    · intro a b; simpa [sortedLocal] using List.le_total a b
    · intro a b c h h'
      simp only [sortedLocal, decide_eq_true_eq] at *
      exact List.le_trans h h'
    · intro a b h h'
      simp only [sortedLocal, decide_eq_true_eq] at *
      exact List.le_antisymm h h'
  have hor : Spec.Orders sortedLocal := ⟨fun _ => .rfl, fun _ => .rfl, fun _ => .rfl⟩
  have hin : localInput toyOutside (.path "new.log".toList) = .ok (.file "new.log".toList) := by decide +kernel
  have hin' : localInput toyOutside (Input.fromString "new.log".toList) = .ok (.file "new.log".toList) := by
    rw [fromString_path (by decide +kernel)]; exact hin
  obtain ⟨hs, hn⟩ := log_of_target fastDisk_ordinary.fp (fun _ => .rfl) h2 h3
  have hsrc : l.source = .loc 0 (some "new.log".toList) := by rw [hlist] at hs; exact List.mem_singleton.1 hs
  refine ⟨m, r, l, h2, h3, ?_, ?_, ?_⟩
  · have := C137_lines (G := toyPages) (T := sortedLocal) fastDisk_ordinary.fp (fun _ => .rfl) hin h2 hcan h3 (by rw [hlist, hsrc]; rfl) h4 noFiles
    rw [h5, h6] at this
    exact this
  · exact (C137_names (G := toyPages) fastDisk_ordinary.fp hle hor (fun _ => .rfl) hin' h2 hcan h3 noFiles).1 _ (by rw [hsrc]; decide +kernel)
  · refine ⟨_, prints_tokens _ _, fun x hx => ?_⟩
    rw [← prints_tokens (M := fastDisk) (X := toyOutside) (G := toyPages) (T := sortedLocal) noFiles, ← h6]
    obtain ⟨tokens, e, h⟩ := (C137_tokens (X := toyOutside) (G := toyPages) (T := sortedLocal) rfl fastDisk_ordinary.fp fastDisk_ordinary.blocks (fun _ => .rfl)
      (fun _ => .rfl) h1 h2 noFiles l.indexName).2 a (List.mem_flatMap.2 ⟨l, List.mem_filter.2 ⟨h3, by simp⟩, h4⟩)
    refine h x ?_
    have e' : LJ.Whole.Spec.known fastDisk [.file "old.log".toList] (LJ.Paths.indexName "new.log".toList) =
      some (oldLines.map (LJ.Tokenizer.process Char.isAlphanum)) := by decide +kernel
    have hname : l.indexName = LJ.Paths.indexName "new.log".toList := by
      rw [← hn, hsrc]; decide +kernel
    rw [hname, e'] at e
    cases e
    exact List.mem_map_of_mem hx

end LJ.Program

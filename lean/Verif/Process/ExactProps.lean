/-
C126: exactly which lines are reported, whatever the reader returns.
-/
import Verif.Process.Exact
import Verif.Process.Props
import Verif.Process.Toy
namespace LJ.Process
open Spec (firsts cuts Progress reported)
variable {D ε : Type} {env : Env D} {dist : Str → D}

/-- C126, for every sequence of results of the reader and every index which searches each target on its own: the reported anomalies, how the
report ends, the tokens known then and the totals are those of the specification. -/
theorem C126_exact (hs : Spec.Pointwise env.search dist) (skip : List Str) (r : List (Ev ε)) :
    let spec := Spec.reported env.tokenize dist env.over env.decode (Progress.start skip) r
    (process env skip r).1.map (·.anomaly) = spec.1 ∧ (process env skip r).2.1 = spec.2.1 ∧
    (∀ t, t ∈ (process env skip r).2.2.skipLines ↔ t ∈ spec.2.2.seen) ∧
    (process env skip r).2.2.lineCount = spec.2.2.read ∧ (process env skip r).2.2.byteCount = spec.2.2.bytes :=
  collect_reported hs r _ _ _ (Sim.start skip) (by simp [pend, St.new])

/-- C126 (C31): after less than 512 lines, a marker line ends the report exactly when nothing was found before it.  Else what follows it is
reported as a source of its own. -/
theorem C126_marker (hs : Spec.Pointwise env.search dist) (skip : List Str) {lines : List LogLine} {src : List Spec.Line}
    (hr : Spec.Reads env.decode lines src) (hm : Spec.NoMarker src) (hn : src.length < 512) (marker : LogLine) (text : Str)
    (hd : env.decode marker.1 = some text) (hmk : "TASK [log-classify".toList <:+: text) (rest : List (Ev ε)) :
    let all := process env skip (lines.map Except.ok ++ Except.ok marker :: rest)
    let found := Spec.anomalies env.tokenize dist env.over skip src
    let after := process env (skip ++ src.map fun l => env.tokenize l.text) rest
    (found = [] → all.1 = [] ∧ all.2.1 = .finished) ∧
    (found ≠ [] → all.1.map (·.anomaly) = found ++ after.1.map (·.anomaly) ∧ all.2.1 = after.2.1) := by
  simp only
  obtain ⟨a1, a2, _⟩ := C126_exact hs skip (lines.map Except.ok ++ Except.ok marker :: rest)
  obtain ⟨b1, b2, _⟩ := C126_exact hs (skip ++ src.map fun l => env.tokenize l.text) rest
  obtain ⟨q, h1, h2, h3, h4⟩ := reported_plain (dist := dist) (tok := env.tokenize) (over := env.over) (Except.ok marker :: rest) lines src hr hm
    (Progress.start skip) (by simpa [Progress.start] using hn) (by simp only [Progress.start]; omega)
  rw [h1, reported] at a1 a2
  simp only [hd, if_pos hmk] at a1 a2
  have h2 : q.held = Spec.anomalies env.tokenize dist env.over skip src := h2
  rw [← h2]
  constructor
  · intro h0
    rw [if_pos h0] at a1 a2
    exact ⟨by simpa using a1, a2⟩
  · intro h0
    rw [if_neg h0] at a1 a2
    have hnew : q.new ≠ 0 := by
      rw [h4]
      intro h5
      have : firsts (fun l => env.tokenize l.text) skip src = [] := List.length_eq_zero_iff.1 (by simpa [Progress.start] using h5)
      apply h0
      rw [h2]
      unfold Spec.anomalies
      rw [this]; rfl
    obtain ⟨g1, g2⟩ := reported_same (dist := dist) (tok := env.tokenize) (over := env.over) (decode := env.decode) rest (q.count marker).marker
      (Progress.start (skip ++ src.map fun l => env.tokenize l.text))
      ⟨fun t => by
        show t ∈ q.seen ↔ t ∈ skip ++ _
        rw [h3, List.mem_append, List.mem_map]; exact Iff.rfl,
       rfl, by show (if q.new = 0 then q.lines else 0) = 0; rw [if_neg hnew], rfl, fun h => absurd rfl h⟩
    rw [a1, a2, b1, b2, g1, g2]
    exact ⟨rfl, rfl⟩

/-- C126 (C32): a source which fails before its 512th line has no anomaly in the report. -/
theorem C126_fails (hs : Spec.Pointwise env.search dist) (skip : List Str) {lines : List LogLine} {src : List Spec.Line}
    (hr : Spec.Reads env.decode lines src) (hm : Spec.NoMarker src) (hn : src.length < 512) (ev : Ev ε) (e : Err ε) (hf : Fails env ev e)
    (rest : List (Ev ε)) :
    (process env skip (lines.map Except.ok ++ ev :: rest)).1 = [] ∧
    (process env skip (lines.map Except.ok ++ ev :: rest)).2.1 = .failed e := by
  obtain ⟨a1, a2, _⟩ := C126_exact hs skip (lines.map Except.ok ++ ev :: rest)
  obtain ⟨q, h1, h2, h3, h4⟩ := reported_plain (dist := dist) (tok := env.tokenize) (over := env.over) (ev :: rest) lines src hr hm
    (Progress.start skip) (by simpa [Progress.start] using hn) (by simp only [Progress.start]; omega)
  rw [h1] at a1 a2
  have : reported env.tokenize dist env.over env.decode q (ev :: rest) = ([], .failed e, q) := by
    rcases hf with ⟨x, rfl, rfl⟩ | ⟨l, rfl, hd, rfl⟩
    · rfl
    · rw [reported]; simp only [hd]
  rw [this] at a1 a2
  exact ⟨by simpa using a1, a2⟩

/-! ### Non-vacuity -/

/-- Two marker lines: nothing is found between them, and the report ends at the second one. -/
example : let r : List (Ev Unit) := [.ok (toyL "a" 1), .ok (toyL "Xb" 2), .ok (toyL "TASK [log-classify" 3), .ok (toyL "Xb" 4), .ok (toyL "c" 5),
      .ok (toyL "TASK [log-classify" 6), .ok (toyL "Xd" 7)]
    let spec := Spec.reported toy.tokenize toyDist toy.over toy.decode (Progress.start []) r
    spec.1 = [⟨1, 2, "Xb".toList⟩] ∧ spec.2.1 = .finished ∧ spec.2.2.read = 6 ∧ spec.2.2.seen = ["c".toList, "Xb".toList, "a".toList] := by
  decide +kernel

/-- The same with something found between them. -/
example : (Spec.reported toy.tokenize toyDist toy.over toy.decode (Progress.start []) [.ok (toyL "a" 1), .ok (toyL "Xb" 2), .ok (toyL "TASK [log-classify" 3),
      .ok (toyL "Xc" 5), .ok (toyL "TASK [log-classify" 6), .ok (toyL "Xd" 7), Except.error (α := LogLine) ()]).1 =
    [⟨1, 2, "Xb".toList⟩, ⟨1, 5, "Xc".toList⟩] := by decide +kernel

/-- A source which fails after its first chunk, from its 509th new line on: the anomaly of line 509 is reported, the one of line 510 is not, although
it was read and searched. -/
example : (Spec.reported toy.tokenize toyDist toy.over toy.decode { Progress.start [] with new := 508, lines := 508 }
      ([toyL "Xa" 509, toyL "Xb" 510, toyL "yb" 511, toyL "yc" 512].map Except.ok ++ [Except.error ()])).1 =
    [⟨1, 509, "Xa".toList⟩] := by decide +kernel

/-- With one more line before the end of the chunk it is. -/
example : (Spec.reported toy.tokenize toyDist toy.over toy.decode { Progress.start [] with new := 507, lines := 507 }
      ([toyL "Xa" 508, toyL "Xb" 509, toyL "yb" 510, toyL "yc" 511, toyL "yd" 512].map Except.ok ++ [Except.error ()])).1 =
    [⟨1, 508, "Xa".toList⟩, ⟨1, 509, "Xb".toList⟩] := by decide +kernel

/-- The hypotheses of C126_marker, with something found before the marker and after it. -/
example : Spec.Reads toy.decode lines1 src1 ∧ Spec.NoMarker src1 ∧ src1.length < 512 ∧
    Spec.anomalies toy.tokenize toyDist toy.over [] src1 ≠ [] ∧
    (process toy (src1.map fun l => toy.tokenize l.text) [Except.ok (ε := Unit) (toyL "Xz" 9)]).1.map (·.anomaly) = [⟨1, 9, "Xz".toList⟩] :=
  ⟨reads1, noMarker1, by decide, by decide +kernel, by decide +kernel⟩

/-- The hypotheses of C126_fails: the two anomalies of the source are lost. -/
example : Fails toy (Except.error (α := LogLine) ()) (.io ()) ∧
    (process toy [] (lines1.map Except.ok ++ [Except.error ()])).1 = [] ∧
    ((process toy [] (lines1.map (Except.ok (ε := Unit)))).1.map fun c => c.anomaly.pos) = [3, 6] :=
  ⟨.inl ⟨(), rfl, rfl⟩, (C126_fails toy_pointwise [] reads1 noMarker1 (by decide) _ _ (.inl ⟨(), rfl, rfl⟩) []).1, by decide +kernel⟩

end LJ.Process

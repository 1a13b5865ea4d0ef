/-
The run over a source without errors, in terms of the specification.
-/
import Verif.Process.General
namespace LJ.Process
open Spec (firsts cuts)
variable {D ε : Type} {env : Env D} {dist : Str → D}

/-! ### Processing -/

/-- the marker of the code and of the specification -/
theorem contains_iff (pat s : Str) : contains pat s = true ↔ pat <:+: s := by
  induction s with
  | nil => simp [contains]
  | cons c cs ih =>
    unfold contains
    rw [Bool.or_eq_true, ih, List.infix_cons_iff, List.isPrefixOf_iff_prefix]

theorem reads_eq {lines : List LogLine} {src : List Spec.Line} (h : Spec.Reads env.decode lines src) :
    src = lines.map (lineL env) := by
  induction h with
  | nil => rfl
  | cons hd _ ih =>
    rw [List.map_cons, ← ih]
    congr 1
    simp [lineL, hd.1, hd.2]

theorem reads_plain {lines : List LogLine} {src : List Spec.Line} (h : Spec.Reads env.decode lines src) (hm : Spec.NoMarker src) :
    Plain env lines := by
  induction h with
  | nil => intro l hl; cases hl
  | @cons a b l1 l2 hd _ ih =>
    intro l hl
    rcases List.mem_cons.1 hl with rfl | hl
    · refine ⟨_, hd.1, ?_⟩
      have := hm b (by simp)
      rw [← Bool.not_eq_true, contains_iff]
      exact this
    · exact ih (fun s hs => hm s (by simp [hs])) l hl

theorem shows_lengths {L : List Entry} {c : AnomalyContext D} {w : Win} (h : Shows env dist L c w) :
    c.before.length = w.b ∧ c.after.length = w.a ∧ w.i + w.a < L.length ∧ w.b ≤ w.i := by
  obtain ⟨e, h1, h2, h3, h4, h5, h6⟩ := h
  rw [h4, h6]
  simp
  omega

theorem windows_eq {L : List Entry} {cs : List (AnomalyContext D)} {V : List Win} (h : List.Forall₂ (Shows env dist L) cs V) :
    Spec.windows (V.map (·.i)) cs = V.map winS := by
  induction h with
  | nil => rfl
  | cons hc _ ih =>
    obtain ⟨h1, h2, _⟩ := shows_lengths hc
    simp only [Spec.windows, List.map_cons, List.zipWith_cons_cons] at ih ⊢
    rw [ih, h1, h2]
    rfl

theorem consecutive_map {α β : Type} {R : β → β → Prop} {f : α → β} {l : List α}
    (h : Spec.Consecutive (fun x y => R (f x) (f y)) l) : Spec.Consecutive R (l.map f) := by
  intro pre x y post he
  obtain ⟨l1, l2, rfl, rfl, h2⟩ := List.map_eq_append_iff.1 he
  obtain ⟨a, l3, rfl, rfl, h3⟩ := List.map_eq_cons_iff.1 h2
  obtain ⟨b, l4, rfl, rfl, rfl⟩ := List.map_eq_cons_iff.1 h3
  exact h _ _ _ _ rfl

/-- everything about the run over a source without errors nor marker -/
theorem run_full (ε : Type) (hs : Spec.Pointwise env.search dist) (skip : List Str) {lines : List LogLine} {src : List Spec.Line}
    (hr : Spec.Reads env.decode lines src) (hm : Spec.NoMarker src) :
    ∃ outs ws s, process env skip (lines.map (Except.ok (ε := ε))) = (outs, .finished, s) ∧
      ws = Spec.windows (Spec.positions env.tokenize dist env.over skip src) outs ∧
      ws.map (·.i) = Spec.positions env.tokenize dist env.over skip src ∧
      outs.map (·.anomaly) = Spec.anomalies env.tokenize dist env.over skip src ∧
      List.Forall₂ (Spec.Shows env.tokenize dist src) outs ws ∧
      (∀ w ∈ ws, w.b ≤ 3 ∧ w.a ≤ 3) ∧
      Spec.Consecutive (fun w w' => w.i + w'.b < w'.i ∧ w.i + w.a < w'.i ∧ w.a = min 3 (w'.i - w.i - 1) ∧
        min 3 (w'.i - (w.i + w.a + 1)) ≤ w'.b ∧
        (w.i + w.a + 1 + w'.b ≤ w'.i ∨ ∃ c ∈ cuts (fun l => env.tokenize l.text) skip 0 0 0 src, w.i < c ∧ c ≤ w'.i)) ws ∧
      (∀ w ∈ ws.head?, w.b = min 3 w.i) ∧
      (∀ w ∈ ws.getLast?, w.a = min 3 (src.length - w.i - 1) ∨
        (w.i + w.a + 1 ∈ cuts (fun l => env.tokenize l.text) skip 0 0 0 src ∧
          ∀ l ∈ src.drop (w.i + w.a + 1), env.tokenize l.text ∈ skip ∨
            ∃ l' ∈ src.take (w.i + w.a + 1), env.tokenize l'.text = env.tokenize l.text)) ∧
      (∀ x, x ∈ s.skipLines ↔ x ∈ skip ∨ ∃ l ∈ src, env.tokenize l.text = x) ∧
      s.lineCount = src.length ∧ s.byteCount = (lines.map fun l => l.1.length).sum := by
  have hp := reads_plain hr hm
  have hsrc := reads_eq hr
  obtain ⟨outs, V, s, h1, h2, h3, h4, h5, h6, h7, h8, h9⟩ := run_spec ε hs skip lines hp
  have hsl : src = (ents 0 lines).map (lineE env) := by rw [ents_lines, hsrc]
  have hpos : Spec.positions env.tokenize dist env.over skip src = V.reverse.map (·.i) := by
    have := idx_positions h3
    rw [List.map_reverse (l := List.filter _ _)] at this
    rw [hsrc, positions_eq, List.map_reverse, ← List.reverse_reverse (List.map _ (List.filter _ _)), ← this]
    simp
  have hcuts : cuts (fun l : Spec.Line => env.tokenize l.text) skip 0 0 0 src = cuts (keyL env) skip 0 0 0 lines := by
    rw [hsrc, ← cuts_map]
    rfl
  have hlen : src.length = lines.length := by rw [hsrc, List.length_map]
  have hall : ∀ w ∈ V, w.i + w.a < lines.length := by
    intro w hw
    have hw : w ∈ V.reverse := by simpa using hw
    have key : ∀ (cs : List (AnomalyContext D)) (W : List Win), List.Forall₂ (Shows env dist (ents 0 lines)) cs W →
        ∀ w ∈ W, w.i + w.a < lines.length := by
      intro cs W h
      induction h with
      | nil => intro w hw; cases hw
      | cons hc _ ih =>
        intro w hw
        rcases List.mem_cons.1 hw with rfl | hw
        · have := (shows_lengths hc).2.2.1; rwa [ents_length] at this
        · exact ih w hw
    exact key _ _ h2 w hw
  have hws : Spec.windows (Spec.positions env.tokenize dist env.over skip src) outs = V.reverse.map winS := by
    rw [hpos]; exact windows_eq h2
  refine ⟨outs, _, s, h1, rfl, ?_, ?_, ?_, ?_, ?_, ?_, ?_, ?_, by rw [h8, hlen], h9⟩
  · rw [hws, hpos, List.map_map]; rfl
  · rw [hsrc, anomalies_eq]
    have hrev : V.reverse.map (fun w => (ents 0 lines)[w.i]?) =
        ((firsts (tokE env) skip (ents 0 lines)).filter (overE env dist)).map some := by
      rw [List.map_reverse, h3, ← List.map_reverse, List.reverse_reverse]
    exact shows_anomaly h2 hrev
  · rw [hws, hsl]
    have : ∀ (cs : List (AnomalyContext D)) (W : List Win), List.Forall₂ (Shows env dist (ents 0 lines)) cs W →
        List.Forall₂ (Spec.Shows env.tokenize dist ((ents 0 lines).map (lineE env))) cs (W.map winS) := by
      intro cs W h
      induction h with
      | nil => exact .nil
      | cons hc _ ih => exact .cons (shows_spec hc) ih
    exact this _ _ h2
  · rw [hws]
    intro w hw
    obtain ⟨v, hv, rfl⟩ := List.mem_map.1 hw
    have hv : v ∈ V := by simpa using hv
    exact ⟨good_b3 h4 v hv, h5 v hv⟩
  · rw [hws]
    apply consecutive_map
    intro pre x y post he
    obtain ⟨r1, r2, r3, r4, r5, r6⟩ := good_consecutive h4 pre x y post he
    refine ⟨r1, r2, r4 trivial, r5 trivial, ?_⟩
    rw [hcuts]
    exact r6
  · rw [hws]
    intro w hw
    rw [List.head?_map] at hw
    obtain ⟨v, hv, rfl⟩ := Option.map_eq_some_iff.1 hw
    exact (good_first h4 v hv).2.2 trivial
  · rw [hws]
    intro w hw
    rw [List.getLast?_map, List.getLast?_reverse] at hw
    obtain ⟨v, hv, rfl⟩ := Option.map_eq_some_iff.1 hw
    have hv' : v ∈ V := by
      cases V with
      | nil => cases hv
      | cons a V => simp at hv; simp [hv]
    have hb := hall v hv'
    rcases h6 v hv with h | ⟨E, hE, h | ⟨h, h'⟩⟩
    · left; show v.a = min 3 (src.length - v.i - 1); omega
    · left
      have := h5 v hv'
      show v.a = min 3 (src.length - v.i - 1); omega
    · right
      show v.i + v.a + 1 ∈ _ ∧ ∀ l ∈ src.drop (v.i + v.a + 1), _ ∨ ∃ l' ∈ src.take (v.i + v.a + 1), _
      rw [hE]
      refine ⟨by rw [hcuts]; exact h, ?_⟩
      intro l hl
      rw [hsl, ← List.map_drop] at hl
      obtain ⟨e, he, rfl⟩ := List.mem_map.1 hl
      rcases h' e he with h' | ⟨e', h1', h2'⟩
      · exact .inl h'
      · refine .inr ⟨lineE env e', ?_, h2'⟩
        rw [hsl, ← List.map_take]
        exact List.mem_map_of_mem h1'
  · intro x
    rw [h7]
    have : (∃ e ∈ ents 0 lines, tokE env e = x) ↔ ∃ l ∈ src, env.tokenize l.text = x := by
      constructor
      · rintro ⟨e, he, rfl⟩
        exact ⟨lineE env e, by rw [hsl]; exact List.mem_map_of_mem he, rfl⟩
      · rintro ⟨l, hl, rfl⟩
        rw [hsl] at hl
        obtain ⟨e, he, rfl⟩ := List.mem_map.1 hl
        exact ⟨e, he, rfl⟩
    rw [this]

end LJ.Process

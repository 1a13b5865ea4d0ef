/-
C70 and C80: what is saved loads back unchanged, and a truncated file is refused.
-/
import Verif.Codec.Model
import Mathlib.Tactic.NormNum
namespace LJ.Codec

/-- What is read after something was written is the same thing, with what follows it; and what is read does not depend on
what follows. -/
structure Lawful {α : Type} (c : Codec α) : Prop where
  round : ∀ x b r, c.enc x = some b → c.dec (b ++ r) = some (x, r)
  extend : ∀ b x r s, c.dec b = some (x, r) → c.dec (b ++ s) = some (x, r ++ s)

/-! ### Numbers -/

theorem leBytes_length (k n : Nat) : (leBytes k n).length = k := by
  induction k generalizing n with
  | zero => rfl
  | succ k ih => rw [leBytes, List.length_cons, ih]

theorem leNat_leBytes (k n : Nat) : leNat (leBytes k n) = n % 256 ^ k := by
  induction k generalizing n with
  | zero => simp [leBytes, leNat, Nat.mod_one]
  | succ k ih =>
    rw [leBytes, leNat, ih]
    have : (UInt8.ofNat (n % 256)).toNat = n % 256 := by
      rw [UInt8.toNat_ofNat']
      omega
    rw [this, Nat.pow_succ, Nat.mul_comm (256 ^ k) 256, Nat.mod_mul]

theorem leNat_lt (k n : Nat) (h : n < 256 ^ k) : leNat (leBytes k n) = n := by
  rw [leNat_leBytes, Nat.mod_eq_of_lt h]

theorem takeBytes_append {k : Nat} {b r : Bytes} (h : b.length = k) : takeBytes k (b ++ r) = some (b, r) := by
  unfold takeBytes
  rw [if_pos (by simp; omega), List.take_left' h, List.drop_left' h]

theorem takeBytes_extend {k : Nat} {bs b r : Bytes} (h : takeBytes k bs = some (b, r)) (s : Bytes) : takeBytes k (bs ++ s) = some (b, r ++ s) := by
  unfold takeBytes at h
  split at h
  · rename_i hk
    cases h
    rw [show bs ++ s = bs.take k ++ (bs.drop k ++ s) by rw [← List.append_assoc, List.take_append_drop]]
    exact takeBytes_append (by simp; omega)
  · cases h

theorem u64_lawful : Lawful u64 where
  round := by
    intro x b r h
    cases h
    simp only [u64, takeBytes_append (leBytes_length 8 _), Option.map_some]
    rw [leNat_lt 8 _ (by have := x.toNat_lt; omega), UInt64.ofNat_toNat]
  extend := by
    intro b x r s h
    unfold u64 at h ⊢
    simp only [Option.map_eq_some_iff] at h ⊢
    obtain ⟨⟨p, q⟩, h1, h2⟩ := h
    cases h2
    exact ⟨(p, q ++ s), takeBytes_extend h1 s, rfl⟩

theorem u32_lawful : Lawful u32 where
  round := by
    intro x b r h
    cases h
    simp only [u32, takeBytes_append (leBytes_length 4 _), Option.map_some]
    rw [leNat_lt 4 _ (by have := x.toNat_lt; omega), UInt32.ofNat_toNat]
  extend := by
    intro b x r s h
    unfold u32 at h ⊢
    simp only [Option.map_eq_some_iff] at h ⊢
    obtain ⟨⟨p, q⟩, h1, h2⟩ := h
    cases h2
    exact ⟨(p, q ++ s), takeBytes_extend h1 s, rfl⟩

/-! ### Structures, lists and enumerations -/

theorem unit_lawful : Lawful unit where
  round := by intro x b r h; cases h; rfl
  extend := by intro b x r s h; cases h; rfl

theorem pair_lawful {α β : Type} {a : Codec α} {b : Codec β} (ha : Lawful a) (hb : Lawful b) : Lawful (pair a b) where
  round := by
    intro x bs r h
    simp only [pair, Option.bind_eq_some_iff, Option.map_eq_some_iff] at h
    obtain ⟨p, h1, q, h2, rfl⟩ := h
    simp only [pair, List.append_assoc, ha.round _ _ _ h1, Option.bind_some, hb.round _ _ _ h2, Option.map_some]
  extend := by
    intro bs x r s h
    simp only [pair, Option.bind_eq_some_iff, Option.map_eq_some_iff] at h
    obtain ⟨⟨p, q⟩, h1, ⟨u, v⟩, h2, h3⟩ := h
    cases h3
    simp only [pair, ha.extend _ _ _ s h1, Option.bind_some, hb.extend _ _ _ s h2, Option.map_some]

theorem iso_lawful {α β : Type} {c : Codec α} {f : β → α} {g : α → Option β} (hc : Lawful c) (h : ∀ x, g (f x) = some x) :
    Lawful (iso c f g) where
  round := by
    intro x b r hx
    simp only [iso, hc.round _ _ _ hx, Option.bind_some, h, Option.map_some]
  extend := by
    intro b x r s hx
    simp only [iso, Option.bind_eq_some_iff, Option.map_eq_some_iff] at hx
    obtain ⟨⟨p, q⟩, h1, u, h2, h3⟩ := hx
    cases h3
    simp only [iso, hc.extend _ _ _ s h1, Option.bind_some, h2, Option.map_some]

theorem decAll_encAll {α : Type} {c : Codec α} (hc : Lawful c) (xs : List α) (b r : Bytes) (h : encAll c xs = some b) :
    decAll c xs.length (b ++ r) = some (xs, r) := by
  induction xs generalizing b with
  | nil => cases h; rfl
  | cons x xs ih =>
    simp only [encAll, Option.bind_eq_some_iff, Option.map_eq_some_iff] at h
    obtain ⟨p, h1, q, h2, rfl⟩ := h
    simp only [List.length_cons, decAll, List.append_assoc, hc.round _ _ _ h1, Option.bind_some, ih _ h2, Option.map_some]

theorem decAll_extend {α : Type} {c : Codec α} (hc : Lawful c) (n : Nat) (b : Bytes) (xs : List α) (r s : Bytes)
    (h : decAll c n b = some (xs, r)) : decAll c n (b ++ s) = some (xs, r ++ s) := by
  induction n generalizing b xs with
  | zero => cases h; rfl
  | succ n ih =>
    simp only [decAll, Option.bind_eq_some_iff, Option.map_eq_some_iff] at h
    obtain ⟨⟨p, q⟩, h1, ⟨u, v⟩, h2, h3⟩ := h
    cases h3
    simp only [decAll, hc.extend _ _ _ s h1, Option.bind_some, ih _ _ h2, Option.map_some]

theorem seq_lawful {α : Type} {c : Codec α} (hc : Lawful c) : Lawful (seq c) where
  round := by
    intro xs b r h
    simp only [seq] at h
    split at h
    · rename_i hl
      rw [Option.map_eq_some_iff] at h
      obtain ⟨p, h1, rfl⟩ := h
      simp only [seq, List.append_assoc, takeBytes_append (leBytes_length 8 _), Option.bind_some]
      rw [leNat_lt 8 _ (by omega)]
      exact decAll_encAll hc _ _ _ h1
    · cases h
  extend := by
    intro b x r s h
    simp only [seq, Option.bind_eq_some_iff] at h
    obtain ⟨⟨p, q⟩, h1, h2⟩ := h
    simp only [seq, takeBytes_extend h1 s, Option.bind_some]
    exact decAll_extend hc _ _ _ _ s h2

theorem either_lawful {α β : Type} {a : Codec α} {b : Codec β} (ha : Lawful a) (hb : Lawful b) : Lawful (either a b) where
  round := by
    intro x bs r h
    cases x with
    | inl x =>
      simp only [either, Option.map_eq_some_iff] at h
      obtain ⟨p, h1, rfl⟩ := h
      simp only [either, List.append_assoc, takeBytes_append (leBytes_length 4 _), Option.bind_some, leNat_lt 4 0 (by decide), if_true,
        ha.round _ _ _ h1, Option.map_some]
    | inr y =>
      simp only [either, Option.map_eq_some_iff] at h
      obtain ⟨p, h1, rfl⟩ := h
      simp only [either, List.append_assoc, takeBytes_append (leBytes_length 4 _), Option.bind_some, leNat_lt 4 1 (by decide), if_true,
        hb.round _ _ _ h1, Option.map_some]
      rfl
  extend := by
    intro bs x r s h
    simp only [either, Option.bind_eq_some_iff] at h
    obtain ⟨⟨p, q⟩, h1, h2⟩ := h
    simp only [either, takeBytes_extend h1 s, Option.bind_some]
    simp only at h2
    split at h2
    · rename_i h0
      rw [Option.map_eq_some_iff] at h2
      obtain ⟨⟨u, v⟩, h3, h4⟩ := h2
      cases h4
      rw [if_pos h0, ha.extend _ _ _ s h3]; rfl
    · rename_i h0
      split at h2
      · rename_i h1
        rw [Option.map_eq_some_iff] at h2
        obtain ⟨⟨u, v⟩, h3, h4⟩ := h2
        cases h4
        rw [if_neg h0, if_pos h1, hb.extend _ _ _ s h3]; rfl
      · cases h2

theorem either3_lawful {α β γ : Type} {a : Codec α} {b : Codec β} {c : Codec γ} (ha : Lawful a) (hb : Lawful b) (hc : Lawful c) :
    Lawful (either3 a b c) where
  round := by
    intro x bs r h
    cases x with
    | inl x =>
      simp only [either3, Option.map_eq_some_iff] at h
      obtain ⟨p, h1, rfl⟩ := h
      simp only [either3, List.append_assoc, takeBytes_append (leBytes_length 4 _), Option.bind_some, leNat_lt 4 0 (by decide), if_true,
        ha.round _ _ _ h1, Option.map_some]
    | inr y =>
      cases y with
      | inl y =>
        simp only [either3, Option.map_eq_some_iff] at h
        obtain ⟨p, h1, rfl⟩ := h
        simp only [either3, List.append_assoc, takeBytes_append (leBytes_length 4 _), Option.bind_some, leNat_lt 4 1 (by decide), if_true,
          hb.round _ _ _ h1, Option.map_some]
        rfl
      | inr z =>
        simp only [either3, Option.map_eq_some_iff] at h
        obtain ⟨p, h1, rfl⟩ := h
        simp only [either3, List.append_assoc, takeBytes_append (leBytes_length 4 _), Option.bind_some, leNat_lt 4 2 (by decide), if_true,
          hc.round _ _ _ h1, Option.map_some]
        rfl
  extend := by
    intro bs x r s h
    simp only [either3, Option.bind_eq_some_iff] at h
    obtain ⟨⟨p, q⟩, h1, h2⟩ := h
    simp only [either3, takeBytes_extend h1 s, Option.bind_some]
    simp only at h2
    split at h2
    · rename_i h0
      rw [Option.map_eq_some_iff] at h2
      obtain ⟨⟨u, v⟩, h3, h4⟩ := h2
      cases h4
      rw [if_pos h0, ha.extend _ _ _ s h3]; rfl
    · rename_i h0
      split at h2
      · rename_i h1
        rw [Option.map_eq_some_iff] at h2
        obtain ⟨⟨u, v⟩, h3, h4⟩ := h2
        cases h4
        rw [if_neg h0, if_pos h1, hb.extend _ _ _ s h3]; rfl
      · rename_i h1
        split at h2
        · rename_i hz
          rw [Option.map_eq_some_iff] at h2
          obtain ⟨⟨u, v⟩, h3, h4⟩ := h2
          cases h4
          rw [if_neg h0, if_neg h1, if_pos hz, hc.extend _ _ _ s h3]; rfl
        · cases h2

theorem blob_lawful : Lawful blob where
  round := by
    intro x b r h
    simp only [blob] at h
    split at h
    · cases h
      simp only [blob, List.append_assoc, takeBytes_append (leBytes_length 8 _), Option.bind_some]
      rw [leNat_lt 8 _ (by omega)]
      exact takeBytes_append rfl
    · cases h
  extend := by
    intro b x r s h
    simp only [blob, Option.bind_eq_some_iff] at h
    obtain ⟨⟨p, q⟩, h1, h2⟩ := h
    simp only [blob, takeBytes_extend h1 s, Option.bind_some]
    exact takeBytes_extend h2 s

theorem bytesString_stringBytes (s : String) : bytesString (stringBytes s) = some s := by
  unfold bytesString stringBytes String.fromUTF8?
  simp only [Array.toArray_toList]
  exact dif_pos s.isValidUTF8

theorem stringBytes_bytesString {b : Bytes} {s : String} (h : bytesString b = some s) : stringBytes s = b := by
  unfold bytesString String.fromUTF8? at h
  split at h
  · cases h; rfl
  · cases h

theorem string_lawful : Lawful string := iso_lawful blob_lawful bytesString_stringBytes

theorem path_lawful : Lawful path where
  round := by
    intro x b r h
    simp only [path, Option.bind_eq_some_iff] at h
    obtain ⟨s, h1, h2⟩ := h
    simp only [path, string_lawful.round _ _ _ h2, Option.map_some, stringBytes_bytesString h1]
  extend := by
    intro b x r s h
    simp only [path, Option.map_eq_some_iff] at h
    obtain ⟨⟨p, q⟩, h1, h2⟩ := h
    cases h2
    simp only [path, string_lawful.extend _ _ _ s h1, Option.map_some]

theorem duration_lawful : Lawful duration := by
  refine iso_lawful (pair_lawful u64_lawful u32_lawful) ?_
  rintro ⟨s, n, hn⟩
  have e : (UInt32.ofNat n).toNat = n := by
    rw [UInt32.toNat_ofNat']; omega
  have hs := s.toNat_lt
  simp only [e, Nat.div_eq_of_lt hn, Nat.mod_eq_of_lt hn, Nat.add_zero, hs, if_pos, UInt64.ofNat_toNat]

theorem ofPairs_append {κ ν : Type} [DecidableEq κ] (ps : List (κ × ν)) (m : Map κ ν) (h : ((m.pairs ++ ps).map Prod.fst).Nodup) :
    (ps.foldl (fun (m : Map κ ν) p => ⟨insertPair m.pairs p, insertPair_nodup m.nodup p⟩) m).pairs = m.pairs ++ ps := by
  induction ps generalizing m with
  | nil => simp
  | cons p ps ih =>
    have e : insertPair m.pairs p = m.pairs ++ [p] := by
      unfold insertPair
      rw [if_neg]
      intro hm
      rw [List.map_append, List.nodup_append] at h
      exact h.2.2 p.1 hm p.1 (by simp) rfl
    rw [List.foldl_cons, ih]
    · simp only [e, List.append_assoc, List.singleton_append]
    · simp only [e, List.append_assoc, List.singleton_append]
      exact h

theorem map_lawful {κ ν : Type} [DecidableEq κ] {k : Codec κ} {v : Codec ν} (hk : Lawful k) (hv : Lawful v) : Lawful (map k v) := by
  refine iso_lawful (seq_lawful (pair_lawful hk hv)) ?_
  rintro ⟨ps, h⟩
  have : (Map.ofPairs ps).pairs = ps := by
    have := ofPairs_append ps ⟨[], by simp⟩ (by simpa using h)
    simpa [Map.ofPairs] using this
  rw [Option.some.injEq]
  generalize Map.ofPairs ps = m at this ⊢
  cases m
  subst this
  rfl

/-! ### The types -/

variable (t : Texts)

theorem url_lawful : Lawful (url t) := by
  refine iso_lawful string_lawful ?_
  rintro ⟨s, h⟩
  simp only [h, dif_pos]

theorem date_lawful : Lawful (date t) := iso_lawful string_lawful t.date_law

theorem source_lawful : Lawful (source t) :=
  iso_lawful (either_lawful (pair_lawful u64_lawful path_lawful) (pair_lawful u64_lawful (url_lawful t))) (by rintro (_ | _) <;> rfl)

theorem build_lawful : Lawful (build t) := by
  have s := string_lawful
  have u := url_lawful t
  exact iso_lawful (pair_lawful u (pair_lawful s (pair_lawful s (pair_lawful s (pair_lawful s (pair_lawful s (pair_lawful s (pair_lawful u
    (pair_lawful u (pair_lawful (date_lawful t) u64_lawful)))))))))) (by intro x; rfl)

theorem content_lawful : Lawful (content t) :=
  iso_lawful (either3_lawful (source_lawful t) (source_lawful t) (build_lawful t)) (by rintro (_ | _ | _) <;> rfl)

theorem matrix_lawful : Lawful matrix := by
  refine iso_lawful (pair_lawful (either_lawful unit_lawful unit_lawful) (pair_lawful u64_lawful (pair_lawful u64_lawful (pair_lawful (seq_lawful u64_lawful)
    (pair_lawful (seq_lawful u64_lawful) (seq_lawful u32_lawful)))))) ?_
  rintro ⟨⟨csc, r, c, p, i, d⟩, h⟩
  cases csc
  · exact dif_pos h
  · exact dif_pos h

theorem chunkIndex_lawful : Lawful chunkIndex :=
  iso_lawful (either_lawful (seq_lawful matrix_lawful) unit_lawful) (by rintro (_ | _) <;> rfl)

theorem index_lawful : Lawful (index t) :=
  iso_lawful (pair_lawful duration_lawful (pair_lawful duration_lawful (pair_lawful (seq_lawful (source_lawful t)) (pair_lawful chunkIndex_lawful
    (pair_lawful u64_lawful u64_lawful))))) (by intro x; rfl)

theorem model_lawful : Lawful (model t) :=
  iso_lawful (pair_lawful duration_lawful (pair_lawful (seq_lawful (content_lawful t)) (map_lawful string_lawful (index_lawful t)))) (by intro x; rfl)

theorem anomalyContext_lawful : Lawful anomalyContext :=
  iso_lawful (pair_lawful (seq_lawful string_lawful) (pair_lawful (iso_lawful (pair_lawful u32_lawful (pair_lawful u64_lawful string_lawful)) (by intro x; rfl))
    (seq_lawful string_lawful))) (by intro x; rfl)

theorem logReport_lawful : Lawful (logReport t) :=
  iso_lawful (pair_lawful duration_lawful (pair_lawful u64_lawful (pair_lawful u64_lawful (pair_lawful (seq_lawful anomalyContext_lawful)
    (pair_lawful (source_lawful t) string_lawful))))) (by intro x; rfl)

theorem indexReport_lawful : Lawful (indexReport t) :=
  iso_lawful (pair_lawful duration_lawful (seq_lawful (source_lawful t))) (by intro x; rfl)

theorem report_lawful : Lawful (report t) :=
  iso_lawful (pair_lawful duration_lawful (pair_lawful duration_lawful (pair_lawful (content_lawful t) (pair_lawful (seq_lawful (content_lawful t))
    (pair_lawful (seq_lawful (logReport_lawful t)) (pair_lawful (map_lawful string_lawful (indexReport_lawful t)) (pair_lawful
    (seq_lawful (seq_lawful (source_lawful t))) (pair_lawful (seq_lawful (pair_lawful (source_lawful t) string_lawful)) (pair_lawful u64_lawful u64_lawful)))))))))
    (by intro x; rfl)

theorem listing_lawful : Lawful (listing t) := seq_lawful (url_lawful t)

/-! ### C70 -/

theorem load_saved {α : Type} {c : Codec α} (hc : Lawful c) {x : α} {b : Bytes} (h : c.enc x = some b) (rest : Bytes) :
    c.dec (b ++ rest) = some (x, rest) ∧ load c (b ++ rest) = some x := by
  have := hc.round x b rest h
  exact ⟨this, by rw [load, this]; rfl⟩

/-- A saved matrix loads back unchanged; what follows it is left. -/
theorem C70_matrix {m : Matrix} {b : Bytes} (h : matrix.enc m = some b) (rest : Bytes) :
    matrix.dec (b ++ rest) = some (m, rest) ∧ load matrix (b ++ rest) = some m := load_saved matrix_lawful h rest

/-- A saved model loads back unchanged. -/
theorem C70_model {m : Model t} {b : Bytes} (h : (model t).enc m = some b) (rest : Bytes) :
    (model t).dec (b ++ rest) = some (m, rest) ∧ load (model t) (b ++ rest) = some m := load_saved (model_lawful t) h rest

/-- A saved report loads back unchanged. -/
theorem C70_report {m : Report t} {b : Bytes} (h : (report t).enc m = some b) (rest : Bytes) :
    (report t).dec (b ++ rest) = some (m, rest) ∧ load (report t) (b ++ rest) = some m := load_saved (report_lawful t) h rest

/-- A saved listing loads back unchanged. -/
theorem C70_listing {m : List (Url t)} {b : Bytes} (h : (listing t).enc m = some b) (rest : Bytes) :
    (listing t).dec (b ++ rest) = some (m, rest) ∧ load (listing t) (b ++ rest) = some m := load_saved (listing_lawful t) h rest

/-- Two different values are never saved as the same file. -/
theorem C70_injective {α : Type} {c : Codec α} (hc : Lawful c) {x y : α} {b : Bytes} (hx : c.enc x = some b) (hy : c.enc y = some b) : x = y := by
  have h1 := hc.round x b [] hx
  have h2 := hc.round y b [] hy
  rw [h1] at h2
  cases h2
  rfl

/-! ### C80: truncated files -/

/-- A strict prefix of what was saved is refused. -/
theorem truncated {α : Type} {c : Codec α} (hc : Lawful c) {x : α} {b p : Bytes} (h : c.enc x = some b) (hp : p <+: b) (hne : p ≠ b) :
    c.dec p = none := by
  cases hd : c.dec p with
  | none => rfl
  | some q =>
    obtain ⟨y, r⟩ := q
    obtain ⟨s, rfl⟩ := hp
    have h1 := hc.extend p y r s hd
    have h2 := hc.round x (p ++ s) [] h
    rw [List.append_nil, h1] at h2
    rw [Option.some.injEq, Prod.mk.injEq] at h2
    have : s = [] := (List.append_eq_nil_iff.1 h2.2).2
    exact absurd (by rw [this, List.append_nil]) hne

/-- A truncated model, report, matrix or listing is never loaded as something else. -/
theorem C80_truncated :
    (∀ (m : Model t) b p, (model t).enc m = some b → p <+: b → p ≠ b → load (model t) p = none) ∧
    (∀ (m : Report t) b p, (report t).enc m = some b → p <+: b → p ≠ b → load (report t) p = none) ∧
    (∀ (m : Matrix) b p, matrix.enc m = some b → p <+: b → p ≠ b → load matrix p = none) ∧
    (∀ (m : List (Url t)) b p, (listing t).enc m = some b → p <+: b → p ≠ b → load (listing t) p = none) := by
  refine ⟨?_, ?_, ?_, ?_⟩
  · intro m b p h1 h2 h3; rw [load, truncated (model_lawful t) h1 h2 h3]; rfl
  · intro m b p h1 h2 h3; rw [load, truncated (report_lawful t) h1 h2 h3]; rfl
  · intro m b p h1 h2 h3; rw [load, truncated matrix_lawful h1 h2 h3]; rfl
  · intro m b p h1 h2 h3; rw [load, truncated (listing_lawful t) h1 h2 h3]; rfl

/-! ### When saving succeeds -/

/-- A value is saved exactly when some sizes fit in 64 bits and some paths are UTF-8. -/
def Saves {α : Type} (c : Codec α) (sizes : α → List Nat) (paths : α → List Bytes) : Prop :=
  ∀ x, (c.enc x).isSome = true ↔ (∀ n ∈ sizes x, n < 2 ^ 64) ∧ ∀ p ∈ paths x, (bytesString p).isSome = true

theorem all_append {α : Type} {l m : List α} {P : α → Prop} : (∀ x ∈ l ++ m, P x) ↔ (∀ x ∈ l, P x) ∧ ∀ x ∈ m, P x := by
  simp only [List.mem_append]
  exact ⟨fun h => ⟨fun x hx => h x (.inl hx), fun x hx => h x (.inr hx)⟩, fun h x hx => hx.elim (h.1 x) (h.2 x)⟩

theorem pair_saves {α β : Type} {a : Codec α} {b : Codec β} {s p s' p'} (ha : Saves a s p) (hb : Saves b s' p') :
    Saves (pair a b) (fun x => s x.1 ++ s' x.2) fun x => p x.1 ++ p' x.2 := by
  rintro ⟨x, y⟩
  have h1 := ha x
  have h2 := hb y
  simp only [all_append]
  simp only [pair]
  cases hx : a.enc x with
  | none =>
    rw [hx] at h1
    simp only [Option.bind_none, Option.isSome_none, Bool.false_eq_true, false_iff] at h1 ⊢
    exact fun ⟨⟨g1, _⟩, g2, _⟩ => h1 ⟨g1, g2⟩
  | some u =>
    rw [hx] at h1
    simp only [Option.isSome_some, true_iff] at h1
    simp only [Option.bind_some, Option.isSome_map, h2]
    exact ⟨fun ⟨g1, g2⟩ => ⟨⟨h1.1, g1⟩, h1.2, g2⟩, fun ⟨⟨_, g1⟩, _, g2⟩ => ⟨g1, g2⟩⟩

theorem seq_saves {α : Type} {c : Codec α} {s p} (hc : Saves c s p) : Saves (seq c) (fun xs => xs.length :: xs.flatMap s) fun xs => xs.flatMap p := by
  have key : ∀ xs : List α, (encAll c xs).isSome = true ↔ (∀ n ∈ xs.flatMap s, n < 2 ^ 64) ∧ ∀ q ∈ xs.flatMap p, (bytesString q).isSome = true := by
    intro xs
    induction xs with
    | nil => simp [encAll]
    | cons x xs ih =>
      have := hc x
      simp only [List.flatMap_cons, all_append, encAll]
      cases hx : c.enc x with
      | none =>
        rw [hx] at this
        simp only [Option.bind_none, Option.isSome_none, Bool.false_eq_true, false_iff] at this ⊢
        exact fun ⟨⟨g1, _⟩, g2, _⟩ => this ⟨g1, g2⟩
      | some u =>
        rw [hx] at this
        simp only [Option.isSome_some, true_iff] at this
        simp only [Option.bind_some, Option.isSome_map, ih]
        exact ⟨fun ⟨g1, g2⟩ => ⟨⟨this.1, g1⟩, this.2, g2⟩, fun ⟨⟨_, g1⟩, _, g2⟩ => ⟨g1, g2⟩⟩
  intro xs
  simp only [seq, List.forall_mem_cons]
  split
  · rename_i hl
    simp only [Option.isSome_map, key, hl, true_and]
  · rename_i hl
    simp only [hl, Option.isSome_none, Bool.false_eq_true, false_and]

theorem iso_saves {α β : Type} {c : Codec α} {s p} {f : β → α} {g : α → Option β} (hc : Saves c s p) :
    Saves (iso c f g) (fun x => s (f x)) fun x => p (f x) := fun x => hc (f x)

theorem either_saves {α β : Type} {a : Codec α} {b : Codec β} {s p s' p'} (ha : Saves a s p) (hb : Saves b s' p') :
    Saves (either a b) (Sum.elim s s') (Sum.elim p p') := by
  rintro (x | y)
  · simp only [either, Option.isSome_map]; exact ha x
  · simp only [either, Option.isSome_map]; exact hb y

theorem either3_saves {α β γ : Type} {a : Codec α} {b : Codec β} {c : Codec γ} {s p s' p' s'' p''} (ha : Saves a s p) (hb : Saves b s' p')
    (hc : Saves c s'' p'') : Saves (either3 a b c) (Sum.elim s (Sum.elim s' s'')) (Sum.elim p (Sum.elim p' p'')) := by
  rintro (x | y | z)
  · simp only [either3, Option.isSome_map]; exact ha x
  · simp only [either3, Option.isSome_map]; exact hb y
  · simp only [either3, Option.isSome_map]; exact hc z

theorem u64_saves : Saves u64 (fun _ => []) fun _ => [] := fun x => by simp [u64]
theorem u32_saves : Saves u32 (fun _ => []) fun _ => [] := fun x => by simp [u32]
theorem unit_saves : Saves unit (fun _ => []) fun _ => [] := fun x => by simp [unit]

theorem string_saves : Saves string (fun s => [(stringBytes s).length]) fun _ => [] := by
  intro s
  by_cases h : (stringBytes s).length < 2 ^ 64 <;> simp [string, iso, blob]

theorem path_saves : Saves path (fun p => [p.length]) fun p => [p] := by
  intro p
  simp only [path, List.forall_mem_cons, List.not_mem_nil, false_implies, implies_true, and_true]
  cases h : bytesString p with
  | none => simp
  | some s =>
    have := string_saves s
    simp only [stringBytes_bytesString h, List.forall_mem_cons, List.not_mem_nil, false_implies, implies_true, and_true] at this
    simp only [Option.bind_some, this, Option.isSome_some, and_true]

theorem duration_saves : Saves duration (fun _ => []) fun _ => [] := iso_saves (pair_saves u64_saves u32_saves)

/-- the local paths in a source -/
def Source.paths : Source t → List Bytes
  | .loc _ p => [p]
  | .remote _ _ => []

/-- the size of the path or URL of a source -/
def Source.sizes : Source t → List Nat
  | .loc _ p => [p.length]
  | .remote _ u => [(stringBytes u.val).length]

/-- the sizes of the strings of a build -/
def Build.sizes (b : Build t) : List Nat :=
  [b.api.val, b.uuid, b.jobName, b.project, b.branch, b.result, b.pipeline, b.logUrl.val, b.refUrl.val, t.formatDate b.endTime].map
    fun s => (stringBytes s).length

/-- the local paths in a content -/
def Content.paths : Content t → List Bytes
  | .file s | .directory s => s.paths
  | .zuul _ => []

/-- the sizes in a content -/
def Content.sizes : Content t → List Nat
  | .file s | .directory s => s.sizes
  | .zuul b => b.sizes

/-- the sizes in a matrix -/
def Matrix.sizes (m : Matrix) : List Nat := [m.val.indptr.length, m.val.indices.length, m.val.data.length]

/-- the sizes in an index -/
def ChunkIndex.sizes : ChunkIndex → List Nat
  | .hashing b => b.length :: b.flatMap Matrix.sizes
  | .noop => []

theorem url_saves : Saves (url t) (fun u => [(stringBytes u.val).length]) fun _ => [] := iso_saves string_saves

theorem date_saves : Saves (date t) (fun d => [(stringBytes (t.formatDate d)).length]) fun _ => [] := iso_saves string_saves

theorem source_saves : Saves (source t) (Source.sizes t) (Source.paths t) := by
  intro x
  have := iso_saves (f := fun | .loc n p => .inl (n, p) | .remote n u => .inr (n, u))
    (g := fun | .inl (n, p) => some (Source.loc n p) | .inr (n, u) => some (.remote n u)) (either_saves (pair_saves u64_saves path_saves) (pair_saves u64_saves (url_saves t))) x
  cases x <;> exact this

theorem build_saves : Saves (build t) (Build.sizes t) fun _ => [] := by
  have s := string_saves
  have u := url_saves t
  exact iso_saves (pair_saves u (pair_saves s (pair_saves s (pair_saves s (pair_saves s (pair_saves s (pair_saves s (pair_saves u (pair_saves u
    (pair_saves (date_saves t) u64_saves))))))))))

theorem content_saves : Saves (content t) (Content.sizes t) (Content.paths t) := by
  intro x
  have := iso_saves (f := fun | .file s => .inl s | .directory s => .inr (.inl s) | .zuul b => .inr (.inr b))
    (g := fun | .inl s => some (Content.file s) | .inr (.inl s) => some (.directory s) | .inr (.inr b) => some (.zuul b))
    (either3_saves (source_saves t) (source_saves t) (build_saves t)) x
  cases x <;> exact this

theorem matrix_saves : Saves matrix Matrix.sizes fun _ => [] := by
  have n : ∀ {α : Type} (xs : List α), xs.flatMap (fun _ => ([] : List Nat)) = [] := by intro α xs; induction xs <;> simp_all
  have n' : ∀ {α : Type} (xs : List α), xs.flatMap (fun _ => ([] : List Bytes)) = [] := by intro α xs; induction xs <;> simp_all
  rintro ⟨⟨csc, r, c, p, i, d⟩, h⟩
  have := (pair_saves (either_saves unit_saves unit_saves) (pair_saves u64_saves (pair_saves u64_saves (pair_saves (seq_saves u64_saves)
    (pair_saves (seq_saves u64_saves) (seq_saves u32_saves)))))) (if csc then .inr () else .inl (), r, c, p, i, d)
  simp only [n, n', List.nil_append, List.append_nil] at this
  cases csc <;> exact this

theorem chunkIndex_saves : Saves chunkIndex ChunkIndex.sizes fun _ => [] := by
  have n' : ∀ {α : Type} (xs : List α), xs.flatMap (fun _ => ([] : List Bytes)) = [] := by intro α xs; induction xs <;> simp_all
  intro x
  cases x with
  | hashing b =>
    have := (either_saves (seq_saves matrix_saves) unit_saves) (.inl b)
    simp only [Sum.elim_inl, n'] at this
    exact this
  | noop => exact (either_saves (seq_saves matrix_saves) unit_saves) (.inr ())

/-- the sizes in the index of some sources -/
def Index.sizes (x : Index t) : List Nat := (x.sources.length :: x.sources.flatMap (Source.sizes t)) ++ x.index.sizes

/-- the local paths in the index of some sources -/
def Index.paths (x : Index t) : List Bytes := x.sources.flatMap (Source.paths t)

theorem index_saves : Saves (index t) (Index.sizes t) (Index.paths t) := by
  intro x
  have := (pair_saves duration_saves (pair_saves duration_saves (pair_saves (seq_saves (source_saves t)) (pair_saves chunkIndex_saves
    (pair_saves u64_saves u64_saves))))) (x.createdAt, x.trainTime, x.sources, x.index, x.lineCount, x.byteCount)
  simp only [List.nil_append, List.append_nil] at this
  exact this

/-- the sizes of the lists and strings in a model -/
def Model.sizes (m : Model t) : List Nat :=
  (m.baselines.length :: m.baselines.flatMap (Content.sizes t)) ++
    m.indexes.pairs.length :: m.indexes.pairs.flatMap fun p => [(stringBytes p.1).length] ++ Index.sizes t p.2

/-- the local paths in a model -/
def Model.paths (m : Model t) : List Bytes :=
  m.baselines.flatMap (Content.paths t) ++ m.indexes.pairs.flatMap fun p => Index.paths t p.2

/-- C70, the models which are saved: those with UTF-8 paths and less than 2^64 elements in any list. -/
theorem C70_model_saved (m : Model t) : ((model t).enc m).isSome = true ↔
    (∀ n ∈ m.sizes, n < 2 ^ 64) ∧ ∀ p ∈ m.paths, (bytesString p).isSome = true := by
  have := (pair_saves duration_saves (pair_saves (seq_saves (content_saves t)) (seq_saves (pair_saves string_saves (index_saves t)))))
    (m.createdAt, m.baselines, m.indexes.pairs)
  exact this

/-- the sizes of the lists and strings around an anomaly -/
def AnomalyContext.sizes (a : AnomalyContext) : List Nat :=
  (a.before.length :: a.before.map fun s => (stringBytes s).length) ++ (stringBytes a.anomaly.line).length ::
    a.after.length :: a.after.map fun s => (stringBytes s).length

theorem strings_saves : Saves (seq string) (fun l => l.length :: l.map fun s => (stringBytes s).length) fun _ => [] := by
  have n' : ∀ {α : Type} (xs : List α), xs.flatMap (fun _ => ([] : List Bytes)) = [] := by intro α xs; induction xs <;> simp_all
  have n : ∀ {α : Type} (xs : List α) (f : α → Nat), xs.flatMap (fun x => [f x]) = xs.map f := by intro α xs f; induction xs <;> simp_all
  intro l
  have := seq_saves string_saves l
  simp only [n, n'] at this
  exact this

theorem anomalyContext_saves : Saves anomalyContext AnomalyContext.sizes fun _ => [] := by
  intro a
  have := (pair_saves strings_saves (pair_saves (pair_saves u32_saves (pair_saves u64_saves string_saves)) strings_saves))
    (a.before, (a.anomaly.distance, a.anomaly.pos, a.anomaly.line), a.after)
  exact this

/-- the sizes in the report of a log -/
def LogReport.sizes (x : LogReport t) : List Nat :=
  (x.anomalies.length :: x.anomalies.flatMap AnomalyContext.sizes) ++ (x.source.sizes ++ [(stringBytes x.indexName).length])

theorem logReport_saves : Saves (logReport t) (LogReport.sizes t) fun x => x.source.paths := by
  have n' : ∀ {α : Type} (xs : List α), xs.flatMap (fun _ => ([] : List Bytes)) = [] := by intro α xs; induction xs <;> simp_all
  intro x
  have := (pair_saves duration_saves (pair_saves u64_saves (pair_saves u64_saves (pair_saves (seq_saves anomalyContext_saves)
    (pair_saves (source_saves t) string_saves))))) (x.testTime, x.lineCount, x.byteCount, x.anomalies, x.source, x.indexName)
  simp only [n', List.nil_append, List.append_nil] at this
  exact this

theorem indexReport_saves : Saves (indexReport t) (fun x => x.sources.length :: x.sources.flatMap (Source.sizes t))
    fun x => x.sources.flatMap (Source.paths t) := iso_saves (pair_saves duration_saves (seq_saves (source_saves t)))

/-- the sizes in a report -/
def Report.sizes (x : Report t) : List Nat :=
  x.target.sizes ++ ((x.baselines.length :: x.baselines.flatMap (Content.sizes t)) ++
    ((x.logReports.length :: x.logReports.flatMap (LogReport.sizes t)) ++
    ((x.indexReports.pairs.length :: x.indexReports.pairs.flatMap fun p =>
      [(stringBytes p.1).length] ++ p.2.sources.length :: p.2.sources.flatMap (Source.sizes t)) ++
    ((x.indexErrors.length :: x.indexErrors.flatMap fun l => l.length :: l.flatMap (Source.sizes t)) ++
    (x.readErrors.length :: x.readErrors.flatMap fun p => Source.sizes t p.1 ++ [(stringBytes p.2).length])))))

/-- the local paths in a report -/
def Report.paths (x : Report t) : List Bytes :=
  x.target.paths ++ (x.baselines.flatMap (Content.paths t) ++ ((x.logReports.flatMap fun l => l.source.paths) ++
    ((x.indexReports.pairs.flatMap fun p => p.2.sources.flatMap (Source.paths t)) ++
    ((x.indexErrors.flatMap fun l => l.flatMap (Source.paths t)) ++ x.readErrors.flatMap fun p => Source.paths t p.1))))

/-- C70, the reports which are saved: those with UTF-8 paths and less than 2^64 elements in any list. -/
theorem C70_report_saved (x : Report t) : ((report t).enc x).isSome = true ↔
    (∀ n ∈ x.sizes, n < 2 ^ 64) ∧ ∀ p ∈ x.paths, (bytesString p).isSome = true := by
  have := (pair_saves duration_saves (pair_saves duration_saves (pair_saves (content_saves t) (pair_saves (seq_saves (content_saves t))
    (pair_saves (seq_saves (logReport_saves t)) (pair_saves (seq_saves (pair_saves string_saves (indexReport_saves t)))
    (pair_saves (seq_saves (seq_saves (source_saves t))) (pair_saves (seq_saves (pair_saves (source_saves t) string_saves))
    (pair_saves u64_saves u64_saves)))))))))
    (x.createdAt, x.runTime, x.target, x.baselines, x.logReports, x.indexReports.pairs, x.indexErrors, x.readErrors,
      x.totalLineCount, x.totalAnomalyCount)
  simp only [List.append_nil, List.nil_append] at this
  exact this

/-- C70 does not hold of a local path which is not UTF-8: it can't be saved. -/
theorem C70_path (n : UInt64) (p : Bytes) (h : bytesString p = none) : (source t).enc (.loc n p) = none := by
  simp [source, iso, either, pair, path, h]

/-- a matrix with two rows -/
def demoMatrix : Matrix := ⟨⟨false, 2, 10, [0, 2, 3], [1, 4, 4], [1065353216, 1073741824, 1065353216]⟩, by decide⟩

/-- the URLs which are a single slash, and the dates which are numbers in unary -/
def demoTexts : Texts where
  parseUrl s := if s = "/" then some s else none
  Date := Unit
  formatDate _ := ""
  parseDate _ := some ()
  date_law _ := rfl

/-- a saved model -/
def demoModel : Model demoTexts :=
  ⟨⟨1, 2⟩, [.file (.remote 3 ⟨"/", rfl⟩)], ⟨[("a", ⟨⟨4, 5⟩, ⟨6, 7⟩, [.loc 0 (stringBytes "b")], .hashing [demoMatrix], 8, 9⟩), ("c", ⟨⟨4, 5⟩, ⟨6, 7⟩, [], .noop, 0, 0⟩)], by decide⟩⟩

/-- The hypothesis of `C70_model` and `C80_truncated` holds of a model with a matrix. -/
example : ((model demoTexts).enc demoModel).isSome = true := by decide +kernel

example : ∃ b, matrix.enc demoMatrix = some b ∧ b.length = 8 * 2 + 4 + (8 + 24) + (8 + 24) + (8 + 12) := ⟨_, rfl, by decide +kernel⟩

end LJ.Codec

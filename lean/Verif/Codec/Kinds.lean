import Verif.Codec.Props

/-! # A file of another kind

The saved models and reports have no mark of what they are: a report which is loaded as a model (model.rs:435-441), or a model which is loaded
as a report (model.rs:249-257), is read from its beginning, field by field. -/
namespace LJ.Codec

/-! ### What is read does not grow -/

/-- what is left is not longer than what was given -/
def Shrinks {α : Type} (c : Codec α) : Prop := ∀ bs x r, c.dec bs = some (x, r) → r.length ≤ bs.length

theorem takeBytes_shrinks {k : Nat} {bs b r : Bytes} (h : takeBytes k bs = some (b, r)) : b.length = k ∧ r.length + k = bs.length := by
  unfold takeBytes at h
  split at h
  · cases h
    simp
    omega
  · cases h

theorem u64_shrinks : Shrinks u64 := by
  intro bs x r h
  obtain ⟨⟨b, q⟩, h1, h2⟩ := Option.map_eq_some_iff.1 h
  cases h2
  have := takeBytes_shrinks h1
  omega

theorem u32_shrinks : Shrinks u32 := by
  intro bs x r h
  obtain ⟨⟨b, q⟩, h1, h2⟩ := Option.map_eq_some_iff.1 h
  cases h2
  have := takeBytes_shrinks h1
  omega

theorem u64_rest {n : Nat} {r q : Bytes} {x : UInt64} (h : u64.dec (leBytes 8 n ++ r) = some (x, q)) : q = r := by
  simp only [u64, takeBytes_append (leBytes_length 8 _), Option.map_some] at h
  exact (Prod.mk.inj (Option.some.inj h)).2.symm

theorem u32_rest {n : Nat} {r q : Bytes} {x : UInt32} (h : u32.dec (leBytes 4 n ++ r) = some (x, q)) : q = r := by
  simp only [u32, takeBytes_append (leBytes_length 4 _), Option.map_some] at h
  exact (Prod.mk.inj (Option.some.inj h)).2.symm

theorem unit_shrinks : Shrinks unit := by
  intro bs x r h
  cases h
  exact Nat.le_refl _

theorem pair_dec {α β : Type} {a : Codec α} {b : Codec β} {bs r : Bytes} {x : α × β} (h : (pair a b).dec bs = some (x, r)) :
    ∃ q, a.dec bs = some (x.1, q) ∧ b.dec q = some (x.2, r) := by
  obtain ⟨⟨y, q⟩, h1, h2⟩ := Option.bind_eq_some_iff.1 h
  obtain ⟨⟨z, q'⟩, h3, h4⟩ := Option.map_eq_some_iff.1 h2
  cases h4
  exact ⟨q, h1, h3⟩

theorem iso_dec {α β : Type} {c : Codec α} {f : β → α} {g : α → Option β} {bs r : Bytes} {x : β} (h : (iso c f g).dec bs = some (x, r)) :
    ∃ y, c.dec bs = some (y, r) ∧ g y = some x := by
  obtain ⟨⟨y, q⟩, h1, h2⟩ := Option.bind_eq_some_iff.1 h
  obtain ⟨z, h3, h4⟩ := Option.map_eq_some_iff.1 h2
  cases h4
  exact ⟨y, h1, h3⟩

theorem pair_shrinks {α β : Type} {a : Codec α} {b : Codec β} (ha : Shrinks a) (hb : Shrinks b) : Shrinks (pair a b) := by
  intro bs x r h
  obtain ⟨q, h1, h2⟩ := pair_dec h
  exact Nat.le_trans (hb _ _ _ h2) (ha _ _ _ h1)

theorem iso_shrinks {α β : Type} {c : Codec α} {f : β → α} {g : α → Option β} (hc : Shrinks c) : Shrinks (iso c f g) := by
  intro bs x r h
  obtain ⟨⟨y, q⟩, h1, h2⟩ := Option.bind_eq_some_iff.1 h
  obtain ⟨z, h3, h4⟩ := Option.map_eq_some_iff.1 h2
  cases h4
  exact hc _ _ _ h1

theorem decAll_shrinks {α : Type} {c : Codec α} (hc : Shrinks c) (n : Nat) : ∀ bs xs r, decAll c n bs = some (xs, r) → r.length ≤ bs.length := by
  induction n with
  | zero => intro bs xs r h; cases h; exact Nat.le_refl _
  | succ n ih =>
    intro bs xs r h
    obtain ⟨⟨y, q⟩, h1, h2⟩ := Option.bind_eq_some_iff.1 h
    obtain ⟨⟨z, q'⟩, h3, h4⟩ := Option.map_eq_some_iff.1 h2
    cases h4
    exact Nat.le_trans (ih _ _ _ h3) (hc _ _ _ h1)

theorem seq_shrinks {α : Type} {c : Codec α} (hc : Shrinks c) : Shrinks (seq c) := by
  intro bs x r h
  obtain ⟨⟨b, q⟩, h1, h2⟩ := Option.bind_eq_some_iff.1 h
  have := takeBytes_shrinks h1
  have := decAll_shrinks hc _ _ _ _ h2
  omega

theorem either_shrinks {α β : Type} {a : Codec α} {b : Codec β} (ha : Shrinks a) (hb : Shrinks b) : Shrinks (either a b) := by
  intro bs x r h
  obtain ⟨⟨t, q⟩, h1, h2⟩ := Option.bind_eq_some_iff.1 h
  have h0 := takeBytes_shrinks h1
  simp only at h2
  split at h2
  · obtain ⟨⟨y, q'⟩, h3, h4⟩ := Option.map_eq_some_iff.1 h2
    cases h4
    have := ha _ _ _ h3
    show q'.length ≤ _
    omega
  · split at h2
    · obtain ⟨⟨y, q'⟩, h3, h4⟩ := Option.map_eq_some_iff.1 h2
      cases h4
      have := hb _ _ _ h3
      show q'.length ≤ _
      omega
    · cases h2

theorem string_shrinks {bs r : Bytes} {s : String} (h : string.dec bs = some (s, r)) : r.length + 8 ≤ bs.length := by
  obtain ⟨⟨b, q⟩, h1, h2⟩ := Option.bind_eq_some_iff.1 h
  obtain ⟨z, h3, h4⟩ := Option.map_eq_some_iff.1 h2
  cases h4
  obtain ⟨⟨l, q'⟩, h5, h6⟩ := Option.bind_eq_some_iff.1 h1
  have := takeBytes_shrinks h5
  have := takeBytes_shrinks h6
  omega

theorem path_shrinks : Shrinks path := by
  intro bs x r h
  obtain ⟨⟨s, q⟩, h1, h2⟩ := Option.map_eq_some_iff.1 h
  cases h2
  have := string_shrinks h1
  omega

theorem url_shrinks (t : Texts) : Shrinks (url t) := by
  apply iso_shrinks
  intro bs x r h
  have := string_shrinks h
  omega

theorem source_shrinks (t : Texts) : Shrinks (source t) :=
  iso_shrinks (either_shrinks (pair_shrinks u64_shrinks path_shrinks) (pair_shrinks u64_shrinks (url_shrinks t)))

theorem duration_shrinks : Shrinks duration := iso_shrinks (pair_shrinks u64_shrinks u32_shrinks)

theorem matrix_shrinks : Shrinks matrix :=
  iso_shrinks (pair_shrinks (either_shrinks unit_shrinks unit_shrinks) (pair_shrinks u64_shrinks (pair_shrinks u64_shrinks
    (pair_shrinks (seq_shrinks u64_shrinks) (pair_shrinks (seq_shrinks u64_shrinks) (seq_shrinks u32_shrinks))))))

theorem chunkIndex_shrinks : Shrinks chunkIndex := iso_shrinks (either_shrinks (seq_shrinks matrix_shrinks) unit_shrinks)

theorem index_shrinks (t : Texts) : Shrinks (index t) :=
  iso_shrinks (pair_shrinks duration_shrinks (pair_shrinks duration_shrinks (pair_shrinks (seq_shrinks (source_shrinks t))
    (pair_shrinks chunkIndex_shrinks (pair_shrinks u64_shrinks u64_shrinks)))))

/-- There are not more named elements than bytes. -/
theorem decAll_named {ν : Type} {v : Codec ν} (hv : Shrinks v) (n : Nat) :
    ∀ bs xs r, decAll (pair string v) n bs = some (xs, r) → n ≤ bs.length := by
  induction n with
  | zero => intro bs xs r _; exact Nat.zero_le _
  | succ n ih =>
    intro bs xs r h
    obtain ⟨⟨y, q⟩, h1, h2⟩ := Option.bind_eq_some_iff.1 h
    obtain ⟨⟨z, q'⟩, h3, h4⟩ := Option.map_eq_some_iff.1 h2
    obtain ⟨w, h5, h6⟩ := pair_dec h1
    have := string_shrinks h5
    have := hv _ _ _ h6
    have := ih _ _ _ h3
    omega

/-! ### What is written -/

theorem pair_enc {α β : Type} {a : Codec α} {b : Codec β} {x : α × β} {p : Bytes} (h : (pair a b).enc x = some p) :
    ∃ u v, a.enc x.1 = some u ∧ b.enc x.2 = some v ∧ p = u ++ v := by
  obtain ⟨u, h1, h2⟩ := Option.bind_eq_some_iff.1 h
  obtain ⟨v, h3, h4⟩ := Option.map_eq_some_iff.1 h2
  exact ⟨u, v, h1, h3, h4.symm⟩

theorem iso_enc {α β : Type} {c : Codec α} {f : β → α} {g : α → Option β} {x : β} {p : Bytes} (h : (iso c f g).enc x = some p) : c.enc (f x) = some p := h

theorem duration_enc {d : Duration} {b : Bytes} (h : duration.enc d = some b) : b = leBytes 8 d.secs.toNat ++ leBytes 4 d.nanos := by
  obtain ⟨u, v, h1, h2, rfl⟩ := pair_enc (iso_enc h)
  cases h1
  cases h2
  have : (UInt32.ofNat d.nanos.val).toNat = d.nanos.val := by
    have := d.nanos.isLt
    rw [UInt32.toNat_ofNat']
    omega
  simp only [this]

theorem leBytes_split (a b n : Nat) : leBytes (a + b) n = leBytes a n ++ leBytes b (n / 256 ^ a) := by
  induction a generalizing n with
  | zero => simp [leBytes]
  | succ a ih =>
    rw [show a + 1 + b = (a + b) + 1 from by omega, leBytes, leBytes, ih, List.cons_append, Nat.div_div_eq_div_mul, Nat.pow_succ,
      Nat.mul_comm (256 ^ a) 256]

theorem leNat_append (a b : Bytes) : leNat (a ++ b) = leNat a + 256 ^ a.length * leNat b := by
  induction a with
  | nil => simp [leNat]
  | cons x a ih =>
    rw [List.cons_append, leNat, leNat, ih, List.length_cons, Nat.pow_succ, Nat.mul_add, Nat.mul_comm (256 ^ a.length) 256]
    rw [Nat.mul_assoc]
    omega

theorem leNat_pos {b : Bytes} (h : ∃ x ∈ b, x ≠ 0) : 0 < leNat b := by
  induction b with
  | nil => simp at h
  | cons x b ih =>
    rw [leNat]
    obtain ⟨y, hy, hne⟩ := h
    rcases List.mem_cons.1 hy with rfl | hy
    · have : y.toNat ≠ 0 := fun e => hne (UInt8.toNat_inj.1 (by simpa using e))
      omega
    · have := ih ⟨y, hy, hne⟩
      omega

/-- the number of the variant of a content -/
def Content.tag {t : Texts} : Content t → Nat
  | .file _ => 0
  | .directory _ => 1
  | .zuul _ => 2

theorem content_enc {t : Texts} {c : Content t} {b : Bytes} (h : (content t).enc c = some b) :
    ∃ p, b = leBytes 4 c.tag ++ p ∧ (match c with | .file s => (source t).enc s = some p | .directory s => (source t).enc s = some p | .zuul z => (build t).enc z = some p) := by
  cases c <;>
  · obtain ⟨p, h1, h2⟩ := Option.map_eq_some_iff.1 h
    exact ⟨p, h2.symm, h1⟩

/-! ### C149: a report as a model -/

variable {t : Texts}

/-- A saved report is refused as a model, when the comparison took more than a second (and its nanoseconds are not one of the three numbers of variants), or
when it took less than a second and its target is not a single file; the report is of less than 4 GiB in this case. -/
theorem C149_report_partial {r : Report t} {b : Bytes} (h : (report t).enc r = some b)
    (hr : (1 ≤ r.runTime.secs.toNat ∧ 3 ≤ r.runTime.nanos.val) ∨
      (r.runTime.secs.toNat = 0 ∧ (∀ s, r.target ≠ .file s) ∧ b.length < 2 ^ 32)) : load (model t) b = none := by
  obtain ⟨u, v, h1, h2, rfl⟩ := pair_enc (iso_enc h)
  obtain ⟨d, w, h3, h4, rfl⟩ := pair_enc h2
  obtain ⟨c, z, h5, _, rfl⟩ := pair_enc h4
  simp only at h1 h3 h5
  have hd := duration_enc h3
  obtain ⟨p, hc, _⟩ := content_enc h5
  have e1 := duration_lawful.round _ _ (d ++ (c ++ z)) h1
  have hsecs : leNat (leBytes 8 r.runTime.secs.toNat) = r.runTime.secs.toNat := leNat_lt 8 _ (by have := r.runTime.secs.toNat_lt; omega)
  have hnanos : leNat (leBytes 4 r.runTime.nanos.val) = r.runTime.nanos.val := leNat_lt 4 _ (by have := r.runTime.nanos.isLt; omega)
  have e2 : takeBytes 8 (d ++ (c ++ z)) = some (leBytes 8 r.runTime.secs.toNat, leBytes 4 r.runTime.nanos.val ++ (c ++ z)) := by
    rw [hd, List.append_assoc]
    exact takeBytes_append (leBytes_length 8 _)
  cases hl : load (model t) (u ++ (d ++ (c ++ z))) with
  | none => rfl
  | some m =>
    exfalso
    obtain ⟨⟨m', rest⟩, g1, _⟩ := Option.map_eq_some_iff.1 hl
    obtain ⟨⟨y, q⟩, g2, _⟩ := Option.bind_eq_some_iff.1 g1
    obtain ⟨q1, g3, g4⟩ := pair_dec g2
    rw [e1] at g3
    have gq := (Prod.mk.inj (Option.some.inj g3)).2
    subst gq
    obtain ⟨q2, g5, g6⟩ := pair_dec g4
    obtain ⟨⟨l, q3⟩, g7, g8⟩ := Option.bind_eq_some_iff.1 g5
    rw [e2] at g7
    cases g7
    simp only [hsecs] at g8
    rcases hr with ⟨k1, k2⟩ | ⟨k1, k2, k3⟩
    · obtain ⟨n, hn⟩ : ∃ n, r.runTime.secs.toNat = n + 1 := ⟨r.runTime.secs.toNat - 1, by omega⟩
      rw [hn, decAll] at g8
      obtain ⟨⟨x, q4⟩, g9, _⟩ := Option.bind_eq_some_iff.1 g8
      obtain ⟨⟨x', q5⟩, g10, _⟩ := Option.bind_eq_some_iff.1 g9
      simp only [either3, takeBytes_append (leBytes_length 4 _), Option.bind_some, hnanos] at g10
      rw [if_neg (by omega), if_neg (by omega), if_neg (by omega)] at g10
      cases g10
    · rw [k1] at g8
      have gq := (Prod.mk.inj (Option.some.inj g8)).2
      subst gq
      obtain ⟨⟨ps, q4⟩, g9, _⟩ := Option.bind_eq_some_iff.1 g6
      obtain ⟨⟨l, q5⟩, g10, g11⟩ := Option.bind_eq_some_iff.1 g9
      have e3 : takeBytes 8 (leBytes 4 r.runTime.nanos.val ++ (c ++ z)) =
          some (leBytes 4 r.runTime.nanos.val ++ leBytes 4 r.target.tag, p ++ z) := by
        rw [hc, List.append_assoc, ← List.append_assoc]
        exact takeBytes_append (by simp [leBytes_length])
      rw [e3] at g10
      cases g10
      have := decAll_named (index_shrinks t) _ _ _ _ g11
      rw [leNat_append, leBytes_length, hnanos, leNat_leBytes] at this
      have ht : 1 ≤ r.target.tag ∧ r.target.tag ≤ 2 := by
        cases hk : r.target with
        | file s => exact absurd hk (k2 s)
        | directory s => simp [Content.tag]
        | zuul s => simp [Content.tag]
      rw [hc] at k3
      simp only [List.length_append] at k3 this
      omega

/-! ### C149: a model as a report -/

/-- The location has four bytes, which are not all zero; the URL of a server has three bytes. -/
def Ordinary : Content t → Prop
  | .file (.loc _ p) | .directory (.loc _ p) => 4 ≤ p.length ∧ ∃ x ∈ p.take 4, x ≠ 0
  | .file (.remote _ u) | .directory (.remote _ u) => 4 ≤ (stringBytes u.val).length ∧ ∃ x ∈ (stringBytes u.val).take 4, x ≠ 0
  | .zuul z => 3 ≤ (stringBytes z.api.val).length

theorem blob_refused {u v : Bytes} (hu : u.length = 8) (hl : v.length < leNat u) : blob.dec (u ++ v) = none := by
  unfold blob
  simp only [takeBytes_append hu, Option.bind_some]
  unfold takeBytes
  rw [if_neg (by omega)]

theorem string_refused {u v : Bytes} (hu : u.length = 8) (hl : v.length < leNat u) : string.dec (u ++ v) = none := by
  show (blob.dec (u ++ v)).bind _ = none
  rw [blob_refused hu hl]
  rfl

/-- the bytes of a source -/
theorem source_enc {s : Source t} {b : Bytes} (h : (source t).enc s = some b) :
    ∃ (tag : Nat) (n : UInt64) (l : Bytes), tag ≤ 1 ∧ b = leBytes 4 tag ++ (leBytes 8 n.toNat ++ (leBytes 8 l.length ++ l)) ∧ l.length < 2 ^ 64 ∧
      (match s with | .loc m p => tag = 0 ∧ n = m ∧ l = p | .remote m u => tag = 1 ∧ n = m ∧ l = stringBytes u.val) := by
  have hs : ∀ {x : String} {w : Bytes}, string.enc x = some w → w = leBytes 8 (stringBytes x).length ++ stringBytes x ∧ (stringBytes x).length < 2 ^ 64 := by
    intro x w h
    have h : (if (stringBytes x).length < 2 ^ 64 then some (leBytes 8 (stringBytes x).length ++ stringBytes x) else none) = some w := h
    split at h
    · cases h; exact ⟨rfl, by assumption⟩
    · cases h
  cases s with
  | loc n p =>
    obtain ⟨q, h1, h2⟩ := Option.map_eq_some_iff.1 h
    obtain ⟨v, w, h3, h4, rfl⟩ := pair_enc h1
    cases h3
    obtain ⟨x, h5, h6⟩ := Option.bind_eq_some_iff.1 h4
    obtain ⟨rfl, h7⟩ := hs h6
    have := stringBytes_bytesString h5
    simp only at this
    rw [this] at h2 h7
    exact ⟨0, n, p, by omega, h2.symm, h7, rfl, rfl, rfl⟩
  | remote n u =>
    obtain ⟨q, h1, h2⟩ := Option.map_eq_some_iff.1 h
    obtain ⟨v, w, h3, h4, rfl⟩ := pair_enc h1
    cases h3
    obtain ⟨rfl, h7⟩ := hs h4
    exact ⟨1, n, _, by omega, h2.symm, h7, rfl, rfl, rfl⟩

theorem source_as_content {s : Source t} {b v : Bytes} (h : (source t).enc s = some b) (hv : (b ++ v).length < 2 ^ 32)
    (ho : Ordinary (Content.file s)) : (content t).dec (b ++ v) = none := by
  obtain ⟨tag, n, l, h1, rfl, h3, h4⟩ := source_enc h
  have hl : 4 ≤ l.length ∧ ∃ x ∈ l.take 4, x ≠ 0 := by
    cases s with
    | loc n p => rw [h4.2.2]; exact ho
    | remote n u => rw [h4.2.2]; exact ho
  have e8 : leBytes 8 n.toNat = leBytes 4 n.toNat ++ leBytes 4 (n.toNat / 256 ^ 4) := leBytes_split 4 4 _
  have el : leBytes 8 l.length = leBytes 4 l.length ++ leBytes 4 (l.length / 256 ^ 4) := leBytes_split 4 4 _
  -- the string which would be read
  have hbig : ((l.drop 4 ++ v)).length < leNat (leBytes 4 (l.length / 256 ^ 4) ++ l.take 4) := by
    rw [leNat_append, leBytes_length]
    have := leNat_pos hl.2
    simp only [List.length_append, List.length_drop, leBytes_length] at hv ⊢
    omega
  have hlen : (leBytes 4 (l.length / 256 ^ 4) ++ l.take 4).length = 8 := by
    simp [leBytes_length]; omega
  have key : (source t).dec (leBytes 4 n.toNat ++ (leBytes 4 (n.toNat / 256 ^ 4) ++ (leBytes 4 l.length ++ (leBytes 4 (l.length / 256 ^ 4) ++ (l ++ v))))) = none := by
    have es : leBytes 4 (l.length / 256 ^ 4) ++ (l ++ v) = (leBytes 4 (l.length / 256 ^ 4) ++ l.take 4) ++ (l.drop 4 ++ v) := by
      rw [List.append_assoc, ← List.append_assoc (l.take 4), List.take_append_drop]
    rw [es]
    have hu : ∀ x : Bytes, takeBytes 8 (leBytes 4 (n.toNat / 256 ^ 4) ++ (leBytes 4 l.length ++ x)) = some (leBytes 4 (n.toNat / 256 ^ 4) ++ leBytes 4 l.length, x) := by
      intro x
      rw [← List.append_assoc]
      exact takeBytes_append (by simp [leBytes_length])
    have hp : path.dec ((leBytes 4 (l.length / 256 ^ 4) ++ l.take 4) ++ (l.drop 4 ++ v)) = none := by
      show (string.dec _).map _ = none
      rw [string_refused hlen hbig]; rfl
    have hurl : (url t).dec ((leBytes 4 (l.length / 256 ^ 4) ++ l.take 4) ++ (l.drop 4 ++ v)) = none := by
      show (string.dec _).bind _ = none
      rw [string_refused hlen hbig]; rfl
    simp only [source, iso, either, takeBytes_append (leBytes_length 4 _), Option.bind_some, pair, u64, hu, Option.map_some, hp, hurl, Option.map_none]
    split
    · rfl
    · split <;> rfl
  have e : leBytes 4 tag ++ (leBytes 8 n.toNat ++ (leBytes 8 l.length ++ l)) ++ v =
      leBytes 4 tag ++ (leBytes 4 n.toNat ++ (leBytes 4 (n.toNat / 256 ^ 4) ++ (leBytes 4 l.length ++ (leBytes 4 (l.length / 256 ^ 4) ++ (l ++ v))))) := by
    rw [e8, el]
    simp only [List.append_assoc]
  rw [e]
  have ht : leNat (leBytes 4 tag) = tag := leNat_lt 4 _ (by omega)
  simp only [content, iso, either3, takeBytes_append (leBytes_length 4 _), Option.bind_some, ht, key, Option.map_none]
  rcases (by omega : tag = 0 ∨ tag = 1) with rfl | rfl <;> rfl

/-- A saved model is refused as a report, when it is of less than 4 GiB and its first baseline has an ordinary location. -/
theorem C149_model_partial {m : Model t} {b : Bytes} (h : (model t).enc m = some b) {c : Content t} {cs : List (Content t)}
    (hc : m.baselines = c :: cs) (ho : Ordinary c) (hb : b.length < 2 ^ 32) : load (report t) b = none := by
  obtain ⟨u, v, h1, h2, rfl⟩ := pair_enc (iso_enc h)
  obtain ⟨w, z, h3, _, rfl⟩ := pair_enc h2
  simp only [hc] at h1 h3
  have h3 : (if (c :: cs).length < 2 ^ 64 then (encAll (content t) (c :: cs)).map fun p => leBytes 8 (c :: cs).length ++ p else none) = some w := h3
  split at h3
  · obtain ⟨p, h4, rfl⟩ := Option.map_eq_some_iff.1 h3
    obtain ⟨q, h5, h6⟩ := Option.bind_eq_some_iff.1 h4
    obtain ⟨q', _, rfl⟩ := Option.map_eq_some_iff.1 h6
    obtain ⟨p, rfl, h8⟩ := content_enc h5
    have e1 := duration_lawful.round _ _ (leBytes 8 (c :: cs).length ++ (leBytes 4 c.tag ++ p ++ q') ++ z) h1
    -- the first baseline is read as the target
    have hno : (content t).dec (p ++ (q' ++ z)) = none := by
      have hlen : (p ++ (q' ++ z)).length < 2 ^ 32 := by
        simp only [List.length_append] at hb ⊢
        omega
      cases c with
      | file s => exact source_as_content h8 hlen ho
      | directory s => exact source_as_content h8 hlen (by cases s <;> exact ho)
      | zuul s =>
        obtain ⟨a, a', h9, _, rfl⟩ := pair_enc (iso_enc h8)
        have h9 : (if (stringBytes s.api.val).length < 2 ^ 64 then some (leBytes 8 (stringBytes s.api.val).length ++ stringBytes s.api.val) else none) = some a := h9
        split at h9
        · cases h9
          have el : leBytes 8 (stringBytes s.api.val).length = leBytes 4 (stringBytes s.api.val).length ++ leBytes 4 ((stringBytes s.api.val).length / 256 ^ 4) := leBytes_split 4 4 _
          have hk : 3 ≤ (stringBytes s.api.val).length := ho
          have ht : leNat (leBytes 4 (stringBytes s.api.val).length) = (stringBytes s.api.val).length := by
            refine leNat_lt 4 _ ?_
            simp only [List.length_append] at hlen
            omega
          rw [el]
          simp only [List.append_assoc, content, iso, either3, takeBytes_append (leBytes_length 4 _), Option.bind_some, ht]
          rw [if_neg (by omega), if_neg (by omega), if_neg (by omega)]
          rfl
        · cases h9
    cases hl : load (report t) (u ++ (leBytes 8 (c :: cs).length ++ (leBytes 4 c.tag ++ p ++ q') ++ z)) with
    | none => rfl
    | some r =>
      exfalso
      obtain ⟨⟨r', rest⟩, g1, _⟩ := Option.map_eq_some_iff.1 hl
      obtain ⟨⟨y, q⟩, g2, _⟩ := Option.bind_eq_some_iff.1 g1
      obtain ⟨q1, g3, g4⟩ := pair_dec g2
      rw [e1] at g3
      have gq := (Prod.mk.inj (Option.some.inj g3)).2
      subst gq
      obtain ⟨q2, g5, g6⟩ := pair_dec g4
      obtain ⟨q3, g7, _⟩ := pair_dec g6
      obtain ⟨y5, g8, _⟩ := iso_dec g5
      obtain ⟨q6, g10, g11⟩ := pair_dec g8
      rw [List.append_assoc] at g10
      have gq := u64_rest g10
      subst gq
      simp only [List.append_assoc] at g11
      have gq := u32_rest g11
      subst gq
      rw [hno] at g7
      cases g7
  · cases h3

/-- A saved model of no baseline, which has no index, is refused as a report, whatever its size. -/
theorem C149_empty {m : Model t} {b : Bytes} (h : (model t).enc m = some b) (hm : m.baselines = []) (hi : m.indexes.pairs = []) :
    load (report t) b = none := by
  obtain ⟨u, v, h1, h2, rfl⟩ := pair_enc (iso_enc h)
  obtain ⟨w, z, h3, h4, rfl⟩ := pair_enc h2
  have h4 := iso_enc h4
  simp only [hm] at h1 h3
  rw [hi] at h4
  cases h3
  cases h4
  have e1 := duration_lawful.round _ _ (leBytes 8 0 ++ [] ++ (leBytes 8 0 ++ [])) h1
  have hno : (content t).dec (leBytes 4 0) = none := by
    rfl
  cases hl : load (report t) (u ++ (leBytes 8 0 ++ [] ++ (leBytes 8 0 ++ []))) with
  | none => rfl
  | some r =>
    exfalso
    obtain ⟨⟨r', rest⟩, g1, _⟩ := Option.map_eq_some_iff.1 hl
    obtain ⟨⟨y, q⟩, g2, _⟩ := Option.bind_eq_some_iff.1 g1
    obtain ⟨q1, g3, g4⟩ := pair_dec g2
    rw [e1] at g3
    have gq := (Prod.mk.inj (Option.some.inj g3)).2
    subst gq
    obtain ⟨q2, g5, g6⟩ := pair_dec g4
    obtain ⟨q3, g7, _⟩ := pair_dec g6
    obtain ⟨y5, g8, _⟩ := iso_dec g5
    obtain ⟨q6, g10, g11⟩ := pair_dec g8
    rw [List.append_nil] at g10
    have gq := u64_rest g10
    subst gq
    have e : leBytes 8 0 = leBytes 4 0 ++ leBytes 4 0 := by decide
    rw [e] at g11
    have gq := u32_rest g11
    subst gq
    rw [hno] at g7
    cases g7

/-! ### C149: a report of a single file as a model -/

theorem decAll_source (n : Nat) : ∀ bs xs r, decAll (source t) n bs = some (xs, r) → n ≤ bs.length := by
  induction n with
  | zero => intro bs xs r _; exact Nat.zero_le _
  | succ n ih =>
    intro bs xs r h
    obtain ⟨⟨y, q⟩, h1, h2⟩ := Option.bind_eq_some_iff.1 h
    obtain ⟨⟨z, q'⟩, h3, h4⟩ := Option.map_eq_some_iff.1 h2
    have := ih _ _ _ h3
    have hq : q.length < bs.length := by
      obtain ⟨w, h5, _⟩ := iso_dec h1
      obtain ⟨⟨tag, q2⟩, h6, h7⟩ := Option.bind_eq_some_iff.1 h5
      have h8 := takeBytes_shrinks h6
      simp only at h7
      split at h7
      · obtain ⟨⟨y2, q3⟩, h9, h10⟩ := Option.map_eq_some_iff.1 h7
        have := pair_shrinks u64_shrinks path_shrinks _ _ _ h9
        have e := (Prod.mk.inj h10).2
        simp only at e
        subst e
        omega
      · split at h7
        · obtain ⟨⟨y2, q3⟩, h9, h10⟩ := Option.map_eq_some_iff.1 h7
          have := pair_shrinks u64_shrinks (url_shrinks t) _ _ _ h9
          have e := (Prod.mk.inj h10).2
          simp only at e
          subst e
          omega
        · cases h7
    omega

/-- An entry is refused when the number of its sources is larger than what follows. -/
theorem index_refused {a b c v : Bytes} (ha : a.length = 12) (hb : b.length = 12) (hc : c.length = 8) (hv : v.length < leNat c) :
    (index t).dec (a ++ (b ++ (c ++ v))) = none := by
  have hd : ∀ {x y : Bytes} {d : Duration} {q : Bytes}, x.length = 12 → duration.dec (x ++ y) = some (d, q) → q = y := by
    intro x y d q hx h
    obtain ⟨z, h1, _⟩ := iso_dec h
    obtain ⟨q1, h2, h3⟩ := pair_dec h1
    have e : x ++ y = x.take 8 ++ (x.drop 8 ++ y) := by rw [← List.append_assoc, List.take_append_drop]
    rw [e] at h2
    simp only [u64, takeBytes_append (show (x.take 8).length = 8 by simp [hx]), Option.map_some] at h2
    have e2 := (Prod.mk.inj (Option.some.inj h2)).2
    subst e2
    simp only [u32, takeBytes_append (show (x.drop 8).length = 4 by simp [hx]), Option.map_some] at h3
    exact (Prod.mk.inj (Option.some.inj h3)).2.symm
  cases h : (index t).dec (a ++ (b ++ (c ++ v))) with
  | none => rfl
  | some i =>
    exfalso
    obtain ⟨i, r⟩ := i
    obtain ⟨y, h1, _⟩ := iso_dec h
    obtain ⟨q1, h2, h3⟩ := pair_dec h1
    have e := hd ha h2
    subst e
    obtain ⟨q2, h4, h5⟩ := pair_dec h3
    have e := hd hb h4
    subst e
    obtain ⟨q3, h6, _⟩ := pair_dec h5
    simp only [seq, takeBytes_append hc, Option.bind_some] at h6
    have := decAll_source _ _ _ _ h6
    omega

/-- The location is a text of more than twenty bytes: its bytes 17 to 20 (18 to 21 for a URL) are not all zero. -/
def LongSource : Source t → Prop
  | .loc n p => n = 0 ∧ 20 ≤ p.length ∧ ∃ x ∈ (p.drop 16).take 4, x ≠ 0
  | .remote n u => n = 0 ∧ 21 ≤ (stringBytes u.val).length ∧ ∃ x ∈ ((stringBytes u.val).drop 17).take 4, x ≠ 0

/-- the entry which would be read from the bytes of a source, after their first four -/
theorem source_as_entry {s : Source t} {b v : Bytes} (h : (source t).enc s = some b) (hv : (b ++ v).length < 2 ^ 32) (hs : LongSource s) :
    (pair string (index t)).dec (b ++ v) = none := by
  -- the length of the name, the name, and what follows
  have key : ∀ {l w a b c z : Bytes}, l.length = 8 → w.length = leNat l → a.length = 12 → b.length = 12 → c.length = 8 → z.length < leNat c →
      (pair string (index t)).dec (l ++ (w ++ (a ++ (b ++ (c ++ z))))) = none := by
    intro l w a b c z hl hw ha hb hc hz
    have e : ∀ x : Bytes, string.dec (l ++ (w ++ x)) = (bytesString w).map fun n => (n, x) := by
      intro x
      simp only [string, blob, takeBytes_append hl, Option.bind_some, takeBytes_append hw, iso]
    simp only [pair, e]
    cases bytesString w with
    | none => rfl
    | some n => simp only [Option.map_some, Option.bind_some, index_refused ha hb hc hz, Option.map_none]
  have split8 : ∀ x : Bytes, 8 ≤ x.length → (∃ y ∈ (x.drop 4).take 4, y ≠ 0) → 2 ^ 32 ≤ leNat (x.take 8) := by
    intro x hx hy
    have e : x.take 8 = x.take 4 ++ (x.drop 4).take 4 := by rw [show 8 = 4 + 4 from rfl, List.take_add]
    have hl : (x.take 4).length = 4 := by simp; omega
    rw [e, leNat_append, hl]
    have := leNat_pos hy
    omega
  obtain ⟨tag, n, l, h1, rfl, h3, h4⟩ := source_enc h
  cases s with
  | loc n' p =>
    obtain ⟨rfl, hlen, hne⟩ := hs
    obtain ⟨rfl, rfl, rfl⟩ := h4
    have e : leBytes 4 0 ++ (leBytes 8 (0 : UInt64).toNat ++ (leBytes 8 l.length ++ l)) ++ v =
        leBytes 8 0 ++ ([] ++ ((leBytes 4 0 ++ leBytes 8 l.length) ++ (l.take 12 ++ ((l.drop 12).take 8 ++ ((l.drop 12).drop 8 ++ v))))) := by
      rw [← List.append_assoc ((l.drop 12).take 8), List.take_append_drop, ← List.append_assoc (l.take 12), List.take_append_drop,
        show leBytes 8 0 = leBytes 4 0 ++ leBytes 4 0 from rfl]
      simp [leBytes]
    rw [e] at hv ⊢
    refine key (leBytes_length 8 _) (by decide) (by simp [leBytes_length]) (by simp; omega) (by simp; omega) ?_
    have := split8 (l.drop 12) (by simp; omega) (by simpa using hne)
    simp only [List.length_append] at hv ⊢
    omega
  | remote n' u =>
    obtain ⟨rfl, hlen, hne⟩ := hs
    obtain ⟨rfl, rfl, hl⟩ := h4
    rw [← hl] at hlen hne
    have e : leBytes 4 1 ++ (leBytes 8 (0 : UInt64).toNat ++ (leBytes 8 l.length ++ l)) ++ v =
        leBytes 8 1 ++ ([0] ++ ((leBytes 3 0 ++ leBytes 8 l.length ++ l.take 1) ++ ((l.drop 1).take 12 ++ (((l.drop 1).drop 12).take 8 ++ (((l.drop 1).drop 12).drop 8 ++ v))))) := by
      rw [← List.append_assoc (((l.drop 1).drop 12).take 8), List.take_append_drop, ← List.append_assoc ((l.drop 1).take 12), List.take_append_drop,
        List.append_assoc _ (l.take 1), ← List.append_assoc (l.take 1), List.take_append_drop]
      simp [leBytes]
    rw [e] at hv ⊢
    refine key (leBytes_length 8 _) (by decide) (by simp [leBytes_length]; omega) (by simp; omega) (by simp; omega) ?_
    have := split8 ((l.drop 1).drop 12) (by simp; omega) (by simpa using hne)
    simp only [List.length_append] at hv ⊢
    omega

/-- The report of a single file with a long location, after a comparison of less than a second (and at least a nanosecond), is refused as a model. -/
theorem C149_file_partial {r : Report t} {b : Bytes} (h : (report t).enc r = some b) {s : Source t} (hs : r.target = .file s) (hl : LongSource s)
    (h0 : r.runTime.secs.toNat = 0) (hn : 1 ≤ r.runTime.nanos.val) (hb : b.length < 2 ^ 32) : load (model t) b = none := by
  obtain ⟨u, v, h1, h2, rfl⟩ := pair_enc (iso_enc h)
  obtain ⟨d, w, h3, h4, rfl⟩ := pair_enc h2
  obtain ⟨c, z, h5, _, rfl⟩ := pair_enc h4
  simp only [hs] at h1 h3 h5
  have hd := duration_enc h3
  obtain ⟨p, hc, hp⟩ := content_enc h5
  simp only [Content.tag] at hc hp
  have e1 := duration_lawful.round _ _ (d ++ (c ++ z)) h1
  have hnanos : leNat (leBytes 4 r.runTime.nanos.val) = r.runTime.nanos.val := leNat_lt 4 _ (by have := r.runTime.nanos.isLt; omega)
  rw [h0] at hd
  have e2 : takeBytes 8 (d ++ (c ++ z)) = some (leBytes 8 0, leBytes 4 r.runTime.nanos.val ++ (c ++ z)) := by
    rw [hd, List.append_assoc]
    exact takeBytes_append (leBytes_length 8 _)
  cases hm : load (model t) (u ++ (d ++ (c ++ z))) with
  | none => rfl
  | some m =>
    exfalso
    obtain ⟨⟨m', rest⟩, g1, _⟩ := Option.map_eq_some_iff.1 hm
    obtain ⟨y, g2, _⟩ := iso_dec g1
    obtain ⟨q1, g3, g4⟩ := pair_dec g2
    rw [e1] at g3
    have gq := (Prod.mk.inj (Option.some.inj g3)).2
    subst gq
    obtain ⟨q2, g5, g6⟩ := pair_dec g4
    obtain ⟨⟨l, q3⟩, g7, g8⟩ := Option.bind_eq_some_iff.1 g5
    rw [e2] at g7
    cases g7
    simp only [show leNat (leBytes 8 0) = 0 from by decide] at g8
    have gq := (Prod.mk.inj (Option.some.inj g8)).2
    subst gq
    obtain ⟨⟨ps, q4⟩, g9, _⟩ := Option.bind_eq_some_iff.1 g6
    obtain ⟨⟨l, q5⟩, g10, g11⟩ := Option.bind_eq_some_iff.1 g9
    have e3 : takeBytes 8 (leBytes 4 r.runTime.nanos.val ++ (c ++ z)) = some (leBytes 4 r.runTime.nanos.val ++ leBytes 4 0, p ++ z) := by
      rw [hc, List.append_assoc, ← List.append_assoc]
      exact takeBytes_append (by simp [leBytes_length])
    rw [e3] at g10
    cases g10
    simp only at g11
    rw [leNat_append, hnanos, show leNat (leBytes 4 0) = 0 from by decide, Nat.mul_zero, Nat.add_zero] at g11
    obtain ⟨k, hk⟩ : ∃ k, r.runTime.nanos.val = k + 1 := ⟨r.runTime.nanos.val - 1, by omega⟩
    rw [hk, decAll] at g11
    have hno : (pair string (index t)).dec (p ++ z) = none := by
      refine source_as_entry hp ?_ hl
      rw [hc] at hb
      simp only [List.length_append] at hb ⊢
      omega
    rw [hno] at g11
    cases g11

/-! ### C149: a report of a short comparison -/

theorem u64_takes {bs r : Bytes} {x : UInt64} (h : u64.dec bs = some (x, r)) : r.length + 8 ≤ bs.length := by
  obtain ⟨⟨b, q⟩, h1, h2⟩ := Option.map_eq_some_iff.1 h
  cases h2
  have := takeBytes_shrinks h1
  omega

theorem u32_takes {bs r : Bytes} {x : UInt32} (h : u32.dec bs = some (x, r)) : r.length + 4 ≤ bs.length := by
  obtain ⟨⟨b, q⟩, h1, h2⟩ := Option.map_eq_some_iff.1 h
  cases h2
  have := takeBytes_shrinks h1
  omega

theorem duration_takes {bs r : Bytes} {x : Duration} (h : duration.dec bs = some (x, r)) : r.length + 12 ≤ bs.length := by
  obtain ⟨y, h1, _⟩ := iso_dec h
  obtain ⟨q, h2, h3⟩ := pair_dec h1
  have := u64_takes h2
  have := u32_takes h3
  omega

theorem chunkIndex_takes {bs r : Bytes} {x : ChunkIndex} (h : chunkIndex.dec bs = some (x, r)) : r.length + 4 ≤ bs.length := by
  obtain ⟨y, h1, _⟩ := iso_dec h
  obtain ⟨⟨t, q⟩, h2, h3⟩ := Option.bind_eq_some_iff.1 h1
  have h0 := takeBytes_shrinks h2
  simp only at h3
  split at h3
  · obtain ⟨⟨y, q'⟩, h4, h5⟩ := Option.map_eq_some_iff.1 h3
    cases h5
    have := seq_shrinks matrix_shrinks _ _ _ h4
    show q'.length + 4 ≤ _
    omega
  · split at h3
    · cases h3
      show q.length + 4 ≤ _
      omega
    · cases h3

/-- An index has at least 52 bytes. -/
theorem index_takes {bs r : Bytes} {x : Index t} (h : (index t).dec bs = some (x, r)) : r.length + 52 ≤ bs.length := by
  obtain ⟨y, h1, _⟩ := iso_dec h
  obtain ⟨q1, h2, h3⟩ := pair_dec h1
  obtain ⟨q2, h4, h5⟩ := pair_dec h3
  obtain ⟨q3, h6, h7⟩ := pair_dec h5
  obtain ⟨q4, h8, h9⟩ := pair_dec h7
  obtain ⟨q5, h10, h11⟩ := pair_dec h9
  have := duration_takes h2
  have := duration_takes h4
  obtain ⟨⟨b, q⟩, k1, k2⟩ := Option.bind_eq_some_iff.1 h6
  have := takeBytes_shrinks k1
  have := decAll_shrinks (source_shrinks t) _ _ _ _ k2
  have := chunkIndex_takes h8
  have := u64_takes h10
  have := u64_takes h11
  omega

/-- A named index has at least 60 bytes. -/
theorem decAll_index (n : Nat) : ∀ bs xs r, decAll (pair string (index t)) n bs = some (xs, r) → 60 * n ≤ bs.length := by
  induction n with
  | zero => intro bs xs r _; exact Nat.zero_le _
  | succ n ih =>
    intro bs xs r h
    obtain ⟨⟨y, q⟩, h1, h2⟩ := Option.bind_eq_some_iff.1 h
    obtain ⟨⟨z, q'⟩, h3, h4⟩ := Option.map_eq_some_iff.1 h2
    obtain ⟨w, h5, h6⟩ := pair_dec h1
    have := string_shrinks h5
    have := index_takes h6
    have := ih _ _ _ h3
    omega

/-- A saved report is refused as a model, whatever was compared, when the comparison took less than a second and the report has less than 60 bytes for each
nanosecond of it: less than 60 kilobytes for a comparison of a microsecond. -/
theorem C149_short_partial {r : Report t} {b : Bytes} (h : (report t).enc r = some b) (hr : r.runTime.secs.toNat = 0)
    (hb : b.length < 60 * r.runTime.nanos.val) : load (model t) b = none := by
  obtain ⟨u, v, h1, h2, rfl⟩ := pair_enc (iso_enc h)
  obtain ⟨d, w, h3, h4, rfl⟩ := pair_enc h2
  obtain ⟨c, z, h5, _, rfl⟩ := pair_enc h4
  simp only at h1 h3 h5
  have hd := duration_enc h3
  obtain ⟨p, hc, _⟩ := content_enc h5
  have e1 := duration_lawful.round _ _ (d ++ (c ++ z)) h1
  have hnanos : leNat (leBytes 4 r.runTime.nanos.val) = r.runTime.nanos.val := leNat_lt 4 _ (by have := r.runTime.nanos.isLt; omega)
  have e2 : takeBytes 8 (d ++ (c ++ z)) = some (leBytes 8 0, leBytes 4 r.runTime.nanos.val ++ (c ++ z)) := by
    rw [hd, hr, List.append_assoc]
    exact takeBytes_append (leBytes_length 8 _)
  cases hl : load (model t) (u ++ (d ++ (c ++ z))) with
  | none => rfl
  | some m =>
    exfalso
    obtain ⟨⟨m', rest⟩, g1, _⟩ := Option.map_eq_some_iff.1 hl
    obtain ⟨⟨y, q⟩, g2, _⟩ := Option.bind_eq_some_iff.1 g1
    obtain ⟨q1, g3, g4⟩ := pair_dec g2
    rw [e1] at g3
    have gq := (Prod.mk.inj (Option.some.inj g3)).2
    subst gq
    obtain ⟨q2, g5, g6⟩ := pair_dec g4
    obtain ⟨⟨l, q3⟩, g7, g8⟩ := Option.bind_eq_some_iff.1 g5
    rw [e2] at g7
    cases g7
    simp only [show leNat (leBytes 8 0) = 0 from by decide] at g8
    have gq := (Prod.mk.inj (Option.some.inj g8)).2
    subst gq
    obtain ⟨⟨ps, q4⟩, g9, _⟩ := Option.bind_eq_some_iff.1 g6
    obtain ⟨⟨l, q5⟩, g10, g11⟩ := Option.bind_eq_some_iff.1 g9
    have e3 : takeBytes 8 (leBytes 4 r.runTime.nanos.val ++ (c ++ z)) =
        some (leBytes 4 r.runTime.nanos.val ++ leBytes 4 r.target.tag, p ++ z) := by
      rw [hc, List.append_assoc, ← List.append_assoc]
      exact takeBytes_append (by simp [leBytes_length])
    rw [e3] at g10
    cases g10
    have := decAll_index _ _ _ _ g11
    rw [leNat_append, leBytes_length, hnanos] at this
    rw [hc] at hb
    simp only [List.length_append] at hb this
    omega

/-! ### C149 is not so of all reports -/

/-- the report of a file, by a comparison which took no time on a coarse clock -/
def quickReport : Report demoTexts := ⟨⟨1, 2⟩, ⟨0, 0⟩, .file (.loc 0 (stringBytes "a.log")), [.file (.loc 0 (stringBytes "b.log"))], [], ⟨[], by simp⟩, [], [], 3, 0⟩

/-- A report can be loaded as a model, which has no baseline and no index. -/
theorem C149_false : ∃ b m, (report demoTexts).enc quickReport = some b ∧ load (model demoTexts) b = some m ∧
    m.baselines.length = 0 ∧ m.indexes.pairs.length = 0 := by
  have h : ((report demoTexts).enc quickReport).bind (fun b => (load (model demoTexts) b).map fun m => (m.baselines.length, m.indexes.pairs.length)) = some (0, 0) := by
    decide +kernel
  obtain ⟨b, h1, h2⟩ := Option.bind_eq_some_iff.1 h
  obtain ⟨m, h3, h4⟩ := Option.map_eq_some_iff.1 h2
  cases Prod.mk.injEq .. ▸ h4 with
  | intro h5 h6 => exact ⟨b, m, h1, h3, h5, h6⟩

/-- So is every report of a single file by a comparison which took no time, whatever else it holds. -/
theorem C149_confused {r : Report t} {b : Bytes} (h : (report t).enc r = some b) {s : Source t} (hs : r.target = .file s)
    (hr : r.runTime = ⟨0, 0⟩) : ∃ m, load (model t) b = some m ∧ m.createdAt = r.createdAt ∧ m.baselines = [] ∧ m.indexes.pairs = [] := by
  obtain ⟨u, v, h1, h2, rfl⟩ := pair_enc (iso_enc h)
  obtain ⟨d, w, h3, h4, rfl⟩ := pair_enc h2
  obtain ⟨c, z, h5, _, rfl⟩ := pair_enc h4
  simp only [hs, hr] at h1 h3 h5
  obtain ⟨p, hc, _⟩ := content_enc h5
  have hd := duration_enc h3
  have e1 := duration_lawful.round _ _ (d ++ (c ++ z)) h1
  have e : d ++ (c ++ z) = leBytes 8 0 ++ (leBytes 8 0 ++ (p ++ z)) := by
    rw [hd, hc]
    simp only [Content.tag, show leBytes 8 0 = leBytes 4 0 ++ leBytes 4 0 from by decide, List.append_assoc]
    rfl
  have e2 : ∀ x : Bytes, takeBytes 8 (leBytes 8 0 ++ x) = some (leBytes 8 0, x) := fun x => takeBytes_append (leBytes_length 8 0)
  refine ⟨⟨r.createdAt, [], Map.ofPairs []⟩, ?_, rfl, rfl, rfl⟩
  rw [e] at e1 ⊢
  have e3 : (seq (content t)).dec (leBytes 8 0 ++ (leBytes 8 0 ++ (p ++ z))) = some ([], leBytes 8 0 ++ (p ++ z)) := by
    simp only [seq, e2, Option.bind_some, show leNat (leBytes 8 0) = 0 from by decide, decAll]
  have e4 : (map string (index t)).dec (leBytes 8 0 ++ (p ++ z)) = some (Map.ofPairs [], p ++ z) := by
    simp only [map, iso, seq, e2, Option.bind_some, show leNat (leBytes 8 0) = 0 from by decide, decAll, Option.map_some]
  simp only [load, model, iso, pair, e1, e3, e4, Option.bind_some, Option.map_some]

/-- Non-vacuity: the same report after a run of one second and a half, and of a directory. -/
example : (((report demoTexts).enc { quickReport with runTime := ⟨1, 500000000⟩ }).map (load (model demoTexts) · |>.isNone)) = some true ∧
    (((report demoTexts).enc { quickReport with runTime := ⟨0, 5⟩, target := .directory (.loc 0 (stringBytes "logs")) }).map fun b => decide (b.length < 2 ^ 32)) = some true := by
  decide +kernel

/-- Non-vacuity of `C149_file_partial`. -/
example : LongSource (t := demoTexts) (.loc 0 (stringBytes "/var/log/journal/system.log")) ∧
    ((report demoTexts).enc { quickReport with runTime := ⟨0, 5⟩, target := .file (.loc 0 (stringBytes "/var/log/journal/system.log")) }).map (fun b => decide (b.length < 2 ^ 32)) = some true := by
  refine ⟨⟨rfl, by decide +kernel, 47, by decide +kernel, by decide⟩, by decide +kernel⟩

/-- Non-vacuity of `C149_model_partial`: a model of a file named b.log. -/
example : Ordinary (t := demoTexts) (.file (.loc 0 (stringBytes "b.log"))) ∧
    ((model demoTexts).enc { demoModel with baselines := [.file (.loc 0 (stringBytes "b.log"))] }).map (fun b => decide (b.length < 2 ^ 32)) = some true := by
  refine ⟨⟨by decide +kernel, 98, by decide +kernel, by decide⟩, by decide +kernel⟩

/-- Non-vacuity of `C149_short_partial`: a comparison of a file, of half a millisecond. -/
example : ((report demoTexts).enc { quickReport with runTime := ⟨0, 500000⟩ }).map (fun b => decide (b.length < 60 * 500000)) = some true := by
  decide +kernel

/-- Non-vacuity of `C149_empty`. -/
example : ((model demoTexts).enc ⟨⟨1, 2⟩, [], ⟨[], by simp⟩⟩).map List.length = some 28 := by
  decide +kernel

end LJ.Codec

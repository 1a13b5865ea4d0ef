/-
Position-free reading of the regex semantics: `At wd r pre t post` says that `r` matches the part `t`
of the text `pre ++ t ++ post`.  One equation per constructor.
-/
import Verif.Regex.Lemmas
namespace LJ.Regex
variable {wd : Char → Bool} {pre t post : List Char}

def At (wd : Char → Bool) (r : RE) (pre t post : List Char) : Prop :=
  Matches wd (pre ++ t ++ post) r pre.length (pre.length + t.length)

theorem get_at (pre t post : List Char) (c : Char) (h : t = [c]) :
    (pre ++ t ++ post)[pre.length]? = some c := by
  subst h; simp

theorem at_fail : At wd .fail pre t post ↔ False := Iff.rfl

theorem at_eps : At wd .eps pre t post ↔ t = [] := by
  show pre.length = _ ↔ _
  cases t <;> simp

theorem at_one {p : Char → Bool} (r : RE)
    (hr : ∀ w i j, Matches wd w r i j ↔ j = i + 1 ∧ ∃ c, w[i]? = some c ∧ p c = true) :
    At wd r pre t post ↔ ∃ c, t = [c] ∧ p c = true := by
  unfold At; rw [hr]
  constructor
  · rintro ⟨h, c, hc, hp⟩
    match t, h with
    | [d], _ => exact ⟨d, rfl, by simp at hc; exact hc ▸ hp⟩
    | [], h => simp at h
    | _ :: _ :: _, h => simp at h
  · rintro ⟨c, rfl, hp⟩
    exact ⟨rfl, c, by simp, hp⟩

theorem at_cls {p : Char → Bool} : At wd (.cls p) pre t post ↔ ∃ c, t = [c] ∧ p c = true :=
  at_one _ fun _ _ _ => Iff.rfl

theorem at_word : At wd .word pre t post ↔ ∃ c, t = [c] ∧ wd c = true :=
  at_one _ fun _ _ _ => Iff.rfl

theorem at_alt {a b : RE} : At wd (.alt a b) pre t post ↔ At wd a pre t post ∨ At wd b pre t post :=
  Iff.rfl

theorem at_bol : At wd .bol pre t post ↔ t = [] ∧ pre = [] := by
  show pre.length = _ ∧ pre.length = 0 ↔ _
  cases t <;> simp

theorem at_eol : At wd .eol pre t post ↔ t = [] ∧ post = [] := by
  show pre.length = _ ∧ pre.length = _ ↔ _
  cases t <;> simp

theorem at_split {a : RE} {k : Nat} (h : Matches wd (pre ++ t ++ post) a pre.length k)
    (hk : k ≤ pre.length + t.length) :
    ∃ t1 t2, t = t1 ++ t2 ∧ k = pre.length + t1.length ∧ At wd a pre t1 (t2 ++ post) := by
  have hle := h.le
  refine ⟨t.take (k - pre.length), t.drop (k - pre.length), by simp, by simp; omega, ?_⟩
  unfold At
  have e : (pre ++ t.take (k - pre.length) ++ (t.drop (k - pre.length) ++ post)) = pre ++ t ++ post := by
    rw [List.append_assoc, List.append_assoc, ← List.append_assoc (t.take _), List.take_append_drop]
  rw [e]
  have : pre.length + (t.take (k - pre.length)).length = k := by simp; omega
  rw [this]; exact h

theorem at_seq {a b : RE} : At wd (.seq a b) pre t post ↔
    ∃ t1 t2, t = t1 ++ t2 ∧ At wd a pre t1 (t2 ++ post) ∧ At wd b (pre ++ t1) t2 post := by
  constructor
  · rintro ⟨k, h1, h2⟩
    obtain ⟨t1, t2, rfl, rfl, h⟩ := at_split h1 h2.le
    refine ⟨t1, t2, rfl, h, ?_⟩
    unfold At
    simpa [List.append_assoc, Nat.add_assoc] using h2
  · rintro ⟨t1, t2, rfl, h1, h2⟩
    refine ⟨pre.length + t1.length, ?_, ?_⟩
    · unfold At at h1; simpa [List.append_assoc] using h1
    · unfold At at h2; simpa [List.append_assoc, Nat.add_assoc] using h2

theorem Iter.mem_step {R : Nat → Nat → Prop} (hR : ∀ i j, R i j → i ≤ j) {i j : Nat} (h : Iter R i j)
    (hne : i ≠ j) : ∃ k, i < k ∧ R i k ∧ Iter R k j := by
  induction h with
  | refl => exact absurd rfl hne
  | @step i k j h1 h2 ih =>
    rcases Nat.lt_or_eq_of_le (hR _ _ h1) with h | h
    · exact ⟨k, h, h1, h2⟩
    · subst h; exact ih hne

theorem at_star {a : RE} : At wd (.star a) pre t post ↔
    t = [] ∨ ∃ t1 t2, t = t1 ++ t2 ∧ t1 ≠ [] ∧ At wd a pre t1 (t2 ++ post) ∧
      At wd (.star a) (pre ++ t1) t2 post := by
  constructor
  · intro h
    rcases List.eq_nil_or_concat t with rfl | ht
    · exact .inl rfl
    · right
      have hne : pre.length ≠ pre.length + t.length := by
        rcases ht with ⟨l, b, rfl⟩; simp
      obtain ⟨k, hk, h1, h2⟩ := Iter.mem_step (fun _ _ h => h.le) h hne
      obtain ⟨t1, t2, rfl, rfl, h⟩ := at_split h1 (Iter.mono (fun _ _ h => h.le) h2)
      refine ⟨t1, t2, rfl, ?_, h, ?_⟩
      · rintro rfl; simp at hk
      · show Iter _ _ _
        simpa [List.append_assoc, Nat.add_assoc] using h2
  · rintro (rfl | ⟨t1, t2, rfl, _, h1, h2⟩)
    · exact .refl _
    · refine .step (k := pre.length + t1.length) ?_ ?_
      · unfold At at h1; simpa [List.append_assoc] using h1
      · have h2' : Iter _ _ _ := h2
        simpa [List.append_assoc, Nat.add_assoc] using h2'

theorem at_star_one {a : RE} {p : Char → Bool}
    (ha : ∀ pre t post, At wd a pre t post ↔ ∃ c, t = [c] ∧ p c = true) :
    At wd (.star a) pre t post ↔ ∀ c ∈ t, p c = true := by
  induction t generalizing pre with
  | nil => rw [at_star]; simp
  | cons c t ih =>
    rw [at_star]
    constructor
    · rintro (h | ⟨t1, t2, h, _, h1, h2⟩)
      · simp at h
      · obtain ⟨d, rfl, hd⟩ := (ha _ _ _).1 h1
        simp at h; obtain ⟨rfl, rfl⟩ := h
        have := ih.1 h2
        simp [hd]; exact this
    · intro h
      refine .inr ⟨[c], t, rfl, by simp, (ha _ _ _).2 ⟨c, rfl, h c (by simp)⟩, ih.2 fun d hd => h d (by simp [hd])⟩

theorem at_star_cls {p : Char → Bool} : At wd (.star (.cls p)) pre t post ↔ ∀ c ∈ t, p c = true :=
  at_star_one fun _ _ _ => at_cls

theorem at_plus {a : RE} : At wd (plus a) pre t post ↔
    ∃ t1 t2, t = t1 ++ t2 ∧ At wd a pre t1 (t2 ++ post) ∧ At wd (.star a) (pre ++ t1) t2 post := at_seq

theorem at_plus_cls {p : Char → Bool} :
    At wd (plus (.cls p)) pre t post ↔ t ≠ [] ∧ ∀ c ∈ t, p c = true := by
  rw [at_plus]
  simp only [at_cls, at_star_cls]
  constructor
  · rintro ⟨_, t2, rfl, ⟨c, rfl, hc⟩, h⟩; simp [hc]; exact h
  · rintro ⟨h, h'⟩
    cases t with
    | nil => exact absurd rfl h
    | cons c t => exact ⟨[c], t, rfl, ⟨c, rfl, h' c (by simp)⟩, fun d hd => h' d (by simp [hd])⟩

theorem at_rep_one {n : Nat} {a : RE} {p : Char → Bool}
    (ha : ∀ pre t post, At wd a pre t post ↔ ∃ c, t = [c] ∧ p c = true) :
    At wd (rep n a) pre t post ↔ t.length = n ∧ ∀ c ∈ t, p c = true := by
  induction n generalizing pre t with
  | zero =>
    rw [rep, at_eps]; cases t <;> simp
  | succ n ih =>
    rw [rep, at_seq]
    constructor
    · rintro ⟨t1, t2, rfl, h1, h2⟩
      obtain ⟨c, rfl, hc⟩ := (ha _ _ _).1 h1
      obtain ⟨h3, h4⟩ := ih.1 h2
      simp [h3, hc]; exact h4
    · rintro ⟨h1, h2⟩
      cases t with
      | nil => simp at h1
      | cons c t =>
        exact ⟨[c], t, rfl, (ha _ _ _).2 ⟨c, rfl, h2 c (by simp)⟩,
          ih.2 ⟨by simpa using h1, fun d hd => h2 d (by simp [hd])⟩⟩

theorem at_rep_cls {n : Nat} {p : Char → Bool} :
    At wd (rep n (.cls p)) pre t post ↔ t.length = n ∧ ∀ c ∈ t, p c = true :=
  at_rep_one fun _ _ _ => at_cls

theorem at_repMin_cls {n : Nat} {p : Char → Bool} :
    At wd (repMin n (.cls p)) pre t post ↔ n ≤ t.length ∧ ∀ c ∈ t, p c = true := by
  unfold repMin
  rw [at_seq]; simp only [at_rep_cls, at_star_cls]
  constructor
  · rintro ⟨t1, t2, rfl, ⟨h1, h2⟩, h3⟩
    refine ⟨by simp; omega, fun c hc => ?_⟩
    rcases List.mem_append.1 hc with h | h
    · exact h2 c h
    · exact h3 c h
  · rintro ⟨h1, h2⟩
    exact ⟨t.take n, t.drop n, by simp, ⟨by simp; omega, fun c hc => h2 c (List.mem_of_mem_take hc)⟩,
      fun c hc => h2 c (List.mem_of_mem_drop hc)⟩

theorem at_map {f : Char → Char} {s : List Char} :
    At wd (s.foldr (fun c r => .seq (.cls fun d => f d == c) r) .eps) pre t post ↔ t.map f = s := by
  induction s generalizing pre t with
  | nil => simp [at_eps]
  | cons c s ih =>
    simp only [List.foldr_cons, at_seq, at_cls, ih]
    constructor
    · rintro ⟨_, t2, rfl, ⟨d, rfl, hd⟩, h⟩
      simp at hd; simp [hd, h]
    · intro h
      cases t with
      | nil => simp at h
      | cons d t =>
        simp at h
        exact ⟨[d], t, rfl, ⟨d, rfl, by simp [h.1]⟩, h.2⟩

theorem at_lit {s : String} : At wd (lit s) pre t post ↔ t = s.toList := by
  have := at_map (wd := wd) (pre := pre) (t := t) (post := post) (f := id) (s := s.toList)
  simpa [lit, chr] using this

theorem at_litA {s : String} : At wd (litA s) pre t post ↔ t.map lower = s.toList := at_map
theorem at_litU {s : String} : At wd (litU s) pre t post ↔ t.map foldU = s.toList := at_map

theorem at_dot : At wd dot pre t post ↔ ∃ c, t = [c] ∧ c ≠ '\n' := by
  rw [dot, at_cls]; simp

theorem at_chr {c : Char} : At wd (chr c) pre t post ↔ t = [c] := by
  rw [chr, at_cls]
  constructor
  · rintro ⟨d, rfl, h⟩; simp at h; simp [h]
  · rintro rfl; exact ⟨c, rfl, by simp⟩

theorem at_oneOf {s : String} : At wd (oneOf s) pre t post ↔ ∃ c, t = [c] ∧ c ∈ s.toList := by
  rw [oneOf, at_cls]; simp

theorem at_seqs_nil : At wd (seqs []) pre t post ↔ t = [] := at_eps
theorem at_seqs_cons {r : RE} {l : List RE} : At wd (seqs (r :: l)) pre t post ↔
    ∃ t1 t2, t = t1 ++ t2 ∧ At wd r pre t1 (t2 ++ post) ∧ At wd (seqs l) (pre ++ t1) t2 post := at_seq

theorem at_alts {l : List RE} : At wd (alts l) pre t post ↔ ∃ r ∈ l, At wd r pre t post := alts_matches

/-- last character of the part before, first character of the part after -/
theorem at_wordb : At wd .wordb pre t post ↔ t = [] ∧
    (pre.getLast?.any wd ≠ post.head?.any wd) := by
  show pre.length = _ ∧ wordBefore wd _ _ ≠ wordAt wd _ _ ↔ _
  cases t with
  | cons => simp
  | nil =>
    have h1 : wordBefore wd (pre ++ [] ++ post) pre.length = pre.getLast?.any wd := by
      rcases List.eq_nil_or_concat pre with rfl | ⟨l, b, rfl⟩
      · simp [wordBefore]
      · simp [wordBefore, wordAt]
    have h2 : wordAt wd (pre ++ [] ++ post) pre.length = post.head?.any wd := by
      cases post <;> simp [wordAt]
    rw [h1, h2]; simp

theorem isMatch_iff_at {r : RE} {w : List Char} :
    isMatch wd r w = true ↔ ∃ pre t post, w = pre ++ t ++ post ∧ At wd r pre t post := by
  rw [isMatch_iff]
  constructor
  · rintro ⟨i, j, hi, h⟩
    have h1 := h.le; have h2 := h.bound hi
    refine ⟨w.take i, (w.drop i).take (j - i), w.drop j, ?_, ?_⟩
    · rw [List.append_assoc]
      have : w.drop j = (w.drop i).drop (j - i) := by simp [List.drop_drop]; congr 1; omega
      rw [this, List.take_append_drop, List.take_append_drop]
    · unfold At
      have e : w.take i ++ (w.drop i).take (j - i) ++ w.drop j = w := by
        rw [List.append_assoc]
        have : w.drop j = (w.drop i).drop (j - i) := by simp [List.drop_drop]; congr 1; omega
        rw [this, List.take_append_drop, List.take_append_drop]
      rw [e]
      have e1 : (w.take i).length = i := by simp; omega
      have e2 : ((w.drop i).take (j - i)).length = j - i := by simp; omega
      rw [e1, e2, show i + (j - i) = j by omega]; exact h
  · rintro ⟨pre, t, post, rfl, h⟩
    exact ⟨_, _, by simp, h⟩

end LJ.Regex

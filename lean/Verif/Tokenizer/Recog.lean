/-
The recognisers of the tokenizer (regular expressions) are exactly the descriptions of
`Tokenizer/Spec.lean`.
-/
import Verif.Regex.Lang
import Verif.Tokenizer.Model
import Verif.Tokenizer.Spec
namespace LJ.Tokenizer
open LJ.Regex

/-! ### Characters -/

theorem isDigit_eq (c : Char) : isDigit c = c.isDigit := by
  simp [isDigit, Char.isDigit, Char.le_def, UInt32.le_iff_toNat_le]
theorem isLower_eq (c : Char) : isLower c = c.isLower := by
  simp [isLower, Char.isLower, Char.le_def, UInt32.le_iff_toNat_le]
theorem isUpper_eq (c : Char) : isUpper c = c.isUpper := by
  simp [isUpper, Char.isUpper, Char.le_def, UInt32.le_iff_toNat_le]
theorem isAlpha_eq (c : Char) : isAlpha c = c.isAlpha := by
  rw [isAlpha, isLower_eq, isUpper_eq, Char.isAlpha, Bool.or_comm]
theorem isAlnum_eq (c : Char) : isAlnum c = c.isAlphanum := by
  rw [isAlnum, isAlpha_eq, isDigit_eq, Char.isAlphanum]

theorem lower_eq (c : Char) : lower c = c.toLower := by
  unfold lower Char.toLower
  by_cases h : c.val ≥ 'A'.val ∧ c.val ≤ 'Z'.val
  · have hu : isUpper c = true := by rw [isUpper_eq]; simp [Char.isUpper]; exact h
    rw [if_pos hu, dif_pos h]
    apply Char.ext
    have h1 : 65 ≤ c.val.toNat := UInt32.le_iff_toNat_le.1 h.1
    have h2 : c.val.toNat ≤ 90 := UInt32.le_iff_toNat_le.1 h.2
    have hv : (c.toNat + 32).isValidChar := by left; show c.val.toNat + 32 < _; omega
    unfold Char.ofNat
    rw [dif_pos hv]
    apply UInt32.toNat_inj.1
    show c.val.toNat + 32 = (c.val + (97-65)).toNat
    rw [UInt32.toNat_add]
    simp; omega
  · have hu : ¬ isUpper c = true := by rw [isUpper_eq]; simp [Char.isUpper]; intro h1; exact UInt32.not_le.1 fun h2 => h ⟨h1, h2⟩
    rw [if_neg hu, dif_neg h]

theorem lower_fun : lower = Char.toLower := funext lower_eq

theorem char_eq_iff (c d : Char) : c = d ↔ c.toNat = d.toNat :=
  ⟨fun h => h ▸ rfl, fun h => Char.ext (UInt32.toNat_inj.1 h)⟩

theorem foldU_eq (c : Char) : foldU c = Spec.fold c := by
  unfold foldU Spec.fold
  rw [lower_eq]
  simp only [char_eq_iff]
  rfl

theorem foldU_fun : foldU = Spec.fold := funext foldU_eq

theorem toNat_ofNat {n : Nat} (h : n < 0xd800) : (Char.ofNat n).toNat = n := by
  unfold Char.ofNat
  rw [dif_pos (show n.isValidChar from Or.inl h)]
  rfl

/-- caseless comparison is exact on the characters that are not letters -/
theorem foldU_other {x c : Char} (hc : ¬ (97 ≤ c.toNat ∧ c.toNat ≤ 122)) (h : foldU x = c) : x = c := by
  unfold foldU at h
  split at h
  · subst h; exact absurd (by decide) hc
  · split at h
    · subst h; exact absurd (by decide) hc
    · unfold lower at h
      split at h
      · rename_i hu
        simp [isUpper, Char.le_def, UInt32.le_iff_toNat_le] at hu
        subst h
        rw [toNat_ofNat (by omega)] at hc
        omega
      · exact h

theorem map_foldU_other {t s : Str} (hs : ∀ c ∈ s, ¬ (97 ≤ c.toNat ∧ c.toNat ≤ 122))
    (h : t.map foldU = s) : t = s := by
  induction t generalizing s with
  | nil => simpa using h
  | cons x t ih =>
    cases s with
    | nil => simp at h
    | cons c s =>
      simp at h
      rw [foldU_other (hs c (by simp)) h.1, ih (fun d hd => hs d (by simp [hd])) h.2]

theorem isWs_iff (c : Char) : isWs c = true ↔ Spec.Ws c := by
  simp [isWs, Spec.Ws, Spec.whitespace]
  omega

theorem isPunct_iff (c : Char) : isPunct c = true ↔ Spec.Punct c := by
  simp [isPunct, Spec.Punct]

theorem len_eq (w : Str) : len w = Spec.bytes w := rfl

/-! ### Anchored patterns -/

variable {wd : Char → Bool} {w : Str}

/-- a pattern that starts with `^` -/
theorem isMatch_bol {l : List RE} : isMatch wd (seqs (.bol :: l)) w = true ↔
    ∃ t post, w = t ++ post ∧ At wd (seqs l) [] t post := by
  rw [isMatch_iff_at]
  constructor
  · rintro ⟨pre, t, post, rfl, h⟩
    obtain ⟨t1, t2, rfl, h1, h2⟩ := at_seqs_cons.1 h
    obtain ⟨rfl, rfl⟩ := at_bol.1 h1
    exact ⟨t2, post, by simp, by simpa using h2⟩
  · rintro ⟨t, post, rfl, h⟩
    exact ⟨[], t, post, rfl, at_seqs_cons.2 ⟨[], t, rfl, at_bol.2 ⟨rfl, rfl⟩, by simpa using h⟩⟩

/-- a pattern of the form `^r$` -/
theorem isMatch_bol_eol {r : RE} : isMatch wd (seqs [.bol, r, .eol]) w = true ↔ At wd r [] w [] := by
  rw [isMatch_bol]
  constructor
  · rintro ⟨t, post, rfl, h⟩
    obtain ⟨t1, t2, rfl, h1, h2⟩ := at_seqs_cons.1 h
    obtain ⟨t3, t4, rfl, h3, h4⟩ := at_seqs_cons.1 h2
    obtain ⟨rfl, h5⟩ := at_eol.1 h3
    obtain rfl := at_seqs_nil.1 h4
    simp at h5; subst h5
    simpa using h1
  · intro h
    exact ⟨w, [], by simp, at_seqs_cons.2 ⟨w, [], by simp, by simpa using h,
      at_seqs_cons.2 ⟨[], [], rfl, at_eol.2 ⟨rfl, rfl⟩, at_seqs_nil.2 rfl⟩⟩⟩

theorem alts_litA {l : List String} {pre t post : Str} :
    At wd (alts (l.map litA)) pre t post ↔ ∃ k ∈ l, t.map Char.toLower = k.toList := by
  rw [at_alts]
  constructor
  · rintro ⟨r, hr, h⟩
    obtain ⟨k, hk, rfl⟩ := List.mem_map.1 hr
    exact ⟨k, hk, lower_fun ▸ at_litA.1 h⟩
  · rintro ⟨k, hk, h⟩
    exact ⟨_, List.mem_map.2 ⟨k, hk, rfl⟩, at_litA.2 (lower_fun ▸ h)⟩

theorem alts_litU {l : List String} {pre t post : Str} :
    At wd (alts (l.map litU)) pre t post ↔ ∃ k ∈ l, t.map Spec.fold = k.toList := by
  rw [at_alts]
  constructor
  · rintro ⟨r, hr, h⟩
    obtain ⟨k, hk, rfl⟩ := List.mem_map.1 hr
    exact ⟨k, hk, foldU_fun ▸ at_litU.1 h⟩
  · rintro ⟨k, hk, h⟩
    exact ⟨_, List.mem_map.2 ⟨k, hk, rfl⟩, at_litU.2 (foldU_fun ▸ h)⟩

theorem ex_mem_congr {α : Type} {l l' : List α} (h : ∀ x, x ∈ l ↔ x ∈ l') {p : α → Prop} :
    (∃ x ∈ l, p x) ↔ ∃ x ∈ l', p x := by
  simp [h]

theorem isDate_iff : isDate wd w = true ↔ Spec.Looks wd w .date := by
  rw [isDate, isMatch_bol_eol, alts_litA]
  refine ex_mem_congr fun x => ?_
  simp [dateWords, Spec.dates]
  constructor
  · rintro (h|h|h|h|h|h|h|h|h|h|h|h|h|h|h|h|h|h|h) <;> simp [h]
  · rintro (h|h|h|h|h|h|h|h|h|h|h|h|h|h|h|h|h|h|h) <;> simp [h]

theorem isError_iff : isError wd w = true ↔ Spec.ErrorKeyword w := by
  rw [isError, isMatch_bol_eol, alts_litA]
  refine ex_mem_congr fun x => ?_
  simp [errorWords, Spec.errorKeywords]
  constructor
  · rintro (h|h|h|h|h|h|h|h|h|h|h|h|h|h) <;> simp [h]
  · rintro (h|h|h|h|h|h|h|h|h|h|h|h|h|h) <;> simp [h]

theorem containsOddChar_iff : containsOddChar wd w = true ↔ ∃ c ∈ w, Spec.Odd c := by
  rw [containsOddChar, isMatch_iff_at]
  constructor
  · rintro ⟨pre, t, post, rfl, h⟩
    obtain ⟨c, rfl, hc⟩ := at_oneOf.1 h
    exact ⟨c, by simp, by simpa [Spec.Odd] using hc⟩
  · rintro ⟨c, hc, h⟩
    obtain ⟨a, b, rfl⟩ := List.append_of_mem hc
    exact ⟨a, [c], b, by simp, at_oneOf.2 ⟨c, rfl, by simpa [Spec.Odd] using h⟩⟩

theorem isKeyForId_iff : isKeyForId wd w = true ↔ Spec.SecretKey w := by
  rw [isKeyForId, isMatch_iff_at]
  constructor
  · rintro ⟨pre, t, post, rfl, h⟩
    obtain ⟨k, hk, h⟩ := alts_litU.1 h
    exact ⟨k, hk, ⟨pre.map Spec.fold, post.map Spec.fold, by simp [h]⟩⟩
  · rintro ⟨k, hk, ⟨a, b, h⟩⟩
    obtain ⟨x, post, rfl, h1, rfl⟩ := List.map_eq_append_iff.1 h.symm
    obtain ⟨pre, t, rfl, rfl, h2⟩ := List.map_eq_append_iff.1 h1
    exact ⟨pre, t, post, rfl, alts_litU.2 ⟨k, hk, h2⟩⟩

theorem digit_iff (c : Char) : c.isDigit = true ↔ 48 ≤ c.toNat ∧ c.toNat ≤ 57 := by
  simp [Char.isDigit, UInt32.le_iff_toNat_le]

theorem isUidChar_iff (c : Char) : isUidChar c = true ↔ Spec.Hexish c := by
  simp only [isUidChar, Spec.Hexish, isDigit_eq]
  simp [Char.le_def, UInt32.le_iff_toNat_le, char_eq_iff, digit_iff]
  omega

theorem isTokenChar_iff (c : Char) : isTokenChar c = true ↔ Spec.TokenChar c := by
  simp [isTokenChar, Spec.TokenChar, isAlnum_eq, or_assoc]

/-- sequences ending with the end of the text -/
theorem at_seqs_last {r : RE} {pre t post : Str} :
    At wd (seqs [r]) pre t post ↔ At wd r pre t post := by
  rw [at_seqs_cons]
  constructor
  · rintro ⟨t1, t2, rfl, h1, h2⟩
    obtain rfl := at_seqs_nil.1 h2
    simpa using h1
  · intro h; exact ⟨t, [], by simp, by simpa using h, at_seqs_nil.2 rfl⟩

theorem isHash_iff : isHash wd w = true ↔ Spec.Looks wd w .hash := by
  rw [isHash, isMatch_iff_at]
  constructor
  · rintro ⟨pre, t, post, rfl, h⟩
    rcases at_alt.1 h with h | h
    · left
      obtain ⟨_, t, rfl, h0, h⟩ := at_seqs_cons.1 h
      obtain ⟨rfl, rfl⟩ := at_bol.1 h0
      obtain ⟨a, t, rfl, ha, h⟩ := at_seqs_cons.1 h
      obtain ⟨ds, t, rfl, hds, h⟩ := at_seqs_cons.1 h
      have h := at_litU.1 (at_seqs_last.1 h)
      obtain ⟨algo, h1, h2⟩ := (alts_litU (l := ["hash", "sha", "md"])).1 ha
      refine ⟨algo, h1, a, ds, post, ?_, h2, fun c hc => ?_⟩
      · rw [map_foldU_other (s := [':']) (by decide) h]; simp
      · rw [← isDigit_eq]; exact at_star_cls.1 hds c hc
    · right
      obtain ⟨t1, t2, rfl, h1, h2⟩ := at_seqs_cons.1 h
      obtain ⟨h3, h4⟩ := at_repMin_cls.1 (at_seqs_last.1 h2)
      exact ⟨pre ++ t1, t2, post, by simp, h3, fun c hc => (isTokenChar_iff c).1 (h4 c hc)⟩
  · rintro (⟨algo, h1, a, ds, rest, rfl, h2, h3⟩ | ⟨a, run, b, rfl, h1, h2⟩)
    · refine ⟨[], a ++ (ds ++ [':']), rest, by simp, at_alt.2 (.inl ?_)⟩
      refine at_seqs_cons.2 ⟨[], _, rfl, at_bol.2 ⟨rfl, rfl⟩, ?_⟩
      refine at_seqs_cons.2 ⟨a, _, rfl, (alts_litU (l := ["hash", "sha", "md"])).2 ⟨algo, h1, h2⟩, ?_⟩
      refine at_seqs_cons.2 ⟨ds, _, rfl, at_star_cls.2 fun c hc => ?_, ?_⟩
      · rw [isDigit_eq]; exact h3 c hc
      · exact at_seqs_last.2 (at_litU.2 (by decide))
    · refine ⟨a, run, b, rfl, at_alt.2 (.inr ?_)⟩
      refine at_seqs_cons.2 ⟨[], run, rfl, at_alt.2 (.inl (at_eps.2 rfl)), at_seqs_last.2 ?_⟩
      exact at_repMin_cls.2 ⟨h1, fun c hc => (isTokenChar_iff c).2 (h2 c hc)⟩

def uidGroup : RE := seqs [.star (chr ':'), plus (.cls isUidChar), .star (oneOf ":.-")]

theorem at_uidGroup {pre t post : Str} : At wd uidGroup pre t post ↔
    ∃ a b c, t = a ++ b ++ c ∧ (∀ x ∈ a, x = ':') ∧ b ≠ [] ∧ (∀ x ∈ b, Spec.Hexish x) ∧
      ∀ x ∈ c, x ∈ [':', '.', '-'] := by
  unfold uidGroup chr oneOf
  simp only [at_seqs_cons, at_seqs_nil, at_star_cls, at_plus_cls]
  constructor
  · rintro ⟨a, _, rfl, ha, b, _, rfl, ⟨hb, hb'⟩, c, _, rfl, hc, rfl⟩
    exact ⟨a, b, c, by simp, by simpa using ha, hb, fun x hx => (isUidChar_iff x).1 (hb' x hx),
      by simpa using hc⟩
  · rintro ⟨a, b, c, rfl, ha, hb, hb', hc⟩
    exact ⟨a, b ++ c, by simp, by simpa using ha, b, c, rfl, ⟨hb, fun x hx => (isUidChar_iff x).2 (hb' x hx)⟩,
      c, [], by simp, by simpa using hc, rfl⟩

theorem at_uidStar {pre t post : Str} (h : At wd (.star uidGroup) pre t post) :
    ∀ d ∈ t, Spec.Hexish d ∨ d ∈ [':', '.', '-'] := by
  generalize hn : t.length = n
  induction n using Nat.strongRecOn generalizing pre t with
  | ind n ih =>
    rcases at_star.1 h with rfl | ⟨t1, t2, rfl, hne, h1, h2⟩
    · simp
    · obtain ⟨a, b, c, rfl, ha, hb, hb', hc⟩ := at_uidGroup.1 h1
      have hl : 0 < (a ++ b ++ c).length := List.length_pos_iff.2 hne
      have := ih t2.length (by simp at hn hl ⊢; omega) h2 rfl
      intro d hd
      rcases List.mem_append.1 hd with hd | hd
      · rcases List.mem_append.1 hd with hd | hd
        · rcases List.mem_append.1 hd with hd | hd
          · right; simp [ha d hd]
          · exact .inl (hb' d hd)
        · exact .inr (hc d hd)
      · exact this d hd

theorem splitSeps (rest : Str) (h : ∀ d ∈ rest, Spec.Hexish d ∨ d ∈ [':', '.', '-']) :
    ∃ s r, rest = s ++ r ∧ (∀ x ∈ s, x ∈ [':', '.', '-']) ∧
      (r = [] ∨ ∃ e r', r = e :: r' ∧ Spec.Hexish e ∧ ∀ d ∈ r', Spec.Hexish d ∨ d ∈ [':', '.', '-']) := by
  induction rest with
  | nil => exact ⟨[], [], rfl, by simp, .inl rfl⟩
  | cons d t ih =>
    rcases h d (by simp) with h1 | h1
    · exact ⟨[], d :: t, rfl, by simp, .inr ⟨d, t, rfl, h1, fun x hx => h x (by simp [hx])⟩⟩
    · obtain ⟨s, r, rfl, h2, h3⟩ := ih fun x hx => h x (by simp [hx])
      refine ⟨d :: s, r, rfl, fun x hx => ?_, h3⟩
      rcases List.mem_cons.1 hx with rfl | hx
      · exact h1
      · exact h2 x hx

theorem mkStar (n : Nat) : ∀ {pre rest post : Str}, rest.length ≤ n →
    (rest = [] ∨ ∃ e r', rest = e :: r' ∧ Spec.Hexish e ∧ ∀ d ∈ r', Spec.Hexish d ∨ d ∈ [':', '.', '-']) →
    At wd (.star uidGroup) pre rest post := by
  induction n with
  | zero =>
    intro pre rest post hn _
    exact at_star.2 (.inl (List.length_eq_zero_iff.1 (by omega)))
  | succ n ih =>
    rintro pre rest post hn (rfl | ⟨c, r', rfl, hc, hr⟩)
    · exact at_star.2 (.inl rfl)
    · obtain ⟨s, r, rfl, hs, h⟩ := splitSeps r' hr
      refine at_star.2 (.inr ⟨c :: s, r, rfl, by simp,
        at_uidGroup.2 ⟨[], [c], s, rfl, by simp, by simp, by simpa using hc, hs⟩, ih ?_ h⟩)
      simp at hn; omega

theorem isUid_iff : isUid wd w = true ↔ Spec.Looks wd w .id := by
  rw [isUid, isMatch_bol_eol, at_plus]
  constructor
  · rintro ⟨t1, t2, rfl, h1, h2⟩
    obtain ⟨a, b, c, rfl, ha, hb, hb', hc⟩ := at_uidGroup.1 h1
    have hs := at_uidStar h2
    obtain ⟨x, b, rfl⟩ := List.exists_cons_of_ne_nil hb
    refine ⟨a.length, x, b ++ c ++ t2, ?_, hb' x (by simp), ?_⟩
    · rw [show List.replicate a.length ':' = a from (List.eq_replicate_iff.2 ⟨rfl, ha⟩).symm]; simp
    · intro d hd
      rcases List.mem_append.1 hd with hd | hd
      · rcases List.mem_append.1 hd with hd | hd
        · exact .inl (hb' d (by simp [hd]))
        · exact .inr (hc d hd)
      · exact hs d hd
  · rintro ⟨n, c, rest, rfl, hc, hr⟩
    obtain ⟨s, r, rfl, hs, h⟩ := splitSeps rest hr
    refine ⟨List.replicate n ':' ++ c :: s, r, by simp, at_uidGroup.2 ⟨List.replicate n ':', [c], s, by simp,
      fun x hx => (List.mem_replicate.1 hx).2, by simp, by simpa using hc, hs⟩, mkStar _ (Nat.le_refl _) h⟩

theorem isCookie_iff : isCookie wd w = true ↔ Spec.Looks wd w .cookie := by
  rw [isCookie, isMatch_bol]
  constructor
  · rintro ⟨t, post, rfl, h⟩
    obtain ⟨r, hr, h⟩ := at_alts.1 (at_seqs_last.1 h)
    simp only [List.mem_cons, List.not_mem_nil, or_false] at hr
    rcases hr with rfl | rfl | rfl | rfl | rfl | rfl
    · exact .inl ⟨"gAAAA", by simp, post, by rw [at_lit.1 h]⟩
    · exact .inl ⟨"AAAA", by simp, post, by rw [at_lit.1 h]⟩
    · obtain ⟨t1, t2, rfl, h1, h2⟩ := at_seqs_cons.1 h
      obtain ⟨c, rfl, hc⟩ := at_cls.1 (at_seqs_last.1 h2)
      exact .inr ⟨c, post, by rw [at_lit.1 h1]; rfl, by rw [← isLower_eq]; exact hc⟩
    · exact .inl ⟨"tap", by simp, post, by rw [at_lit.1 h]⟩
    · exact .inl ⟨"req-", by simp, post, by rw [at_lit.1 h]⟩
    · exact .inl ⟨"AUTH_", by simp, post, by rw [at_lit.1 h]⟩
  · rintro (⟨p, hp, post, rfl⟩ | ⟨c, rest, rfl, hc⟩)
    · refine ⟨p.toList, post, rfl, at_seqs_last.2 (at_alts.2 ⟨lit p, ?_, at_lit.2 rfl⟩)⟩
      simp only [List.mem_cons, List.not_mem_nil, or_false] at hp
      rcases hp with rfl | rfl | rfl | rfl | rfl <;> simp
    · refine ⟨['t', 'x', c], rest, rfl, at_seqs_last.2 (at_alts.2 ⟨seqs [lit "tx", .cls isLower], ?_, at_seqs_cons.2
        ⟨['t', 'x'], [c], rfl, at_lit.2 rfl, at_seqs_last.2 (at_cls.2 ⟨c, rfl, (isLower_eq c).trans hc⟩)⟩⟩)⟩
      simp

theorem isUuid_iff : isUuid wd w = true ↔ Spec.Looks wd w .uuid := by
  rw [isUuid, isMatch_bol]
  simp only [at_seqs_cons, at_seqs_nil, at_lit, at_rep_cls, at_cls, at_eol, dot, at_star_cls]
  constructor
  · rintro ⟨t, post, rfl, _, _, rfl, ⟨c, rfl, hc⟩, a, _, rfl, ha, _, _, rfl, rfl, x, _, rfl, hx,
      _, _, rfl, rfl, y, _, rfl, hy, _, _, rfl, rfl, z, _, rfl, hz, _, _, rfl, rfl, _, _, rfl, ⟨rfl, hp⟩, rfl⟩
    simp at hp; subst hp
    simp only [isAlnum_eq] at hc hx hy hz
    refine ⟨c, a, x, y, z, by simp, hc, fun h => by simpa using ha _ h, hx, hy, hz⟩
  · rintro ⟨c, a, x, y, z, rfl, hc, ha, hx, hy, hz⟩
    simp only [isAlnum_eq]
    refine ⟨_, [], (List.append_nil _).symm, [c], _, by simp, ⟨c, rfl, hc⟩, a, _, rfl, ?_, ['-'], _, rfl, rfl, x, _, rfl, hx,
      ['-'], _, rfl, rfl, y, _, rfl, hy, ['-'], _, rfl, rfl, z, _, rfl, hz, ['-'], [], rfl, rfl, [], [], rfl,
      ⟨rfl, rfl⟩, rfl⟩
    intro d hd
    simp; rintro rfl; exact ha hd

theorem isUrl_iff : isUrl wd w = true ↔ Spec.Looks wd w .url := by
  rw [isUrl, isMatch_bol]
  constructor
  · rintro ⟨t, post, rfl, h⟩
    obtain ⟨a, t2, rfl, h1, h2⟩ := at_seqs_cons.1 h
    obtain ⟨s, hs, h1⟩ := (alts_litU (l := ["https", "http", "ftp", "ssh"])).1 h1
    have h2 := at_litU.1 (at_seqs_last.1 h2)
    exact ⟨s, hs, a, post, by rw [map_foldU_other (s := "://".toList) (by decide) h2], h1⟩
  · rintro ⟨s, hs, a, rest, rfl, h⟩
    exact ⟨a ++ "://".toList, rest, rfl, at_seqs_cons.2 ⟨a, _, rfl,
      (alts_litU (l := ["https", "http", "ftp", "ssh"])).2 ⟨s, hs, h⟩,
      at_seqs_last.2 (at_litU.2 (by decide))⟩⟩

theorem contains_iff {s w : Str} : contains s w = true ↔ s <:+: w := by
  induction w with
  | nil => simp [contains]
  | cons c w ih =>
    rw [contains, Bool.or_eq_true, List.isPrefixOf_iff_prefix, ih, List.infix_cons_iff]

theorem isRandomPath_iff : isRandomPath w = true ↔ Spec.Looks wd w .path := by
  simp only [isRandomPath, Spec.Looks, Bool.or_eq_true, contains_iff, List.isPrefixOf_iff_prefix, or_assoc]

theorem isRefs_iff : isRefs wd w = true ↔ Spec.Looks wd w .ref := by
  simp only [isRefs, Spec.Looks, Bool.or_eq_true, List.isPrefixOf_iff_prefix, or_assoc]
  refine or_congr Iff.rfl (or_congr Iff.rfl ?_)
  rw [isMatch_bol]
  simp only [at_seqs_cons, at_seqs_nil, at_lit, at_rep_one (fun _ _ _ => at_word), at_eol]
  constructor
  · rintro ⟨_, post, rfl, a, _, rfl, ⟨h1, h2⟩, _, _, rfl, rfl, b, _, rfl, ⟨h3, h4⟩, _, _, rfl, ⟨rfl, hp⟩, rfl⟩
    simp at hp; subst hp
    exact ⟨a, b, by simp, h1, h3, h2, h4⟩
  · rintro ⟨a, b, rfl, h1, h3, h2, h4⟩
    exact ⟨_, [], (List.append_nil _).symm, a, _, by rw [List.append_assoc], ⟨h1, h2⟩, _, _, rfl, rfl, b, [], by simp, ⟨h3, h4⟩,
      [], [], rfl, ⟨rfl, rfl⟩, rfl⟩

theorem isBase64_iff : isBase64 wd w = true ↔ Spec.Looks wd w .base64 := by
  simp only [isBase64, Spec.Looks, Bool.or_eq_true, Bool.and_eq_true, decide_eq_true_eq,
    List.isSuffixOf_iff_suffix, isMatch_bol_eol, at_plus_cls]
  have e : ∀ c : Char, (((isAlnum c = true ∨ (c == '+') = true) ∨ (c == '/') = true) ∨ (c == '=') = true) ↔ Spec.Base64Char c := by
    intro c; simp [isAlnum_eq, Spec.Base64Char, or_assoc]
  simp only [e]
  show _ ∨ (24 < Spec.bytes w ∧ _) ↔ _
  refine or_congr Iff.rfl ⟨fun ⟨h1, _, h3⟩ => ⟨h1, h3⟩, fun ⟨h1, h3⟩ => ⟨h1, ?_, h3⟩⟩
  rintro rfl
  simp [Spec.bytes] at h1

def looksB (wd : Char → Bool) (w : Str) : Spec.Class → Bool
  | .date => isDate wd w
  | .hash => isHash wd w
  | .id => isUid wd w
  | .cookie => isCookie wd w
  | .uuid => isUuid wd w
  | .url => isUrl wd w
  | .path => isRandomPath w
  | .ref => isRefs wd w
  | .base64 => isBase64 wd w

theorem looksB_iff (c : Spec.Class) : looksB wd w c = true ↔ Spec.Looks wd w c := by
  cases c
  · exact isDate_iff
  · exact isHash_iff
  · exact isUid_iff
  · exact isCookie_iff
  · exact isUuid_iff
  · exact isUrl_iff
  · exact isRandomPath_iff
  · exact isRefs_iff
  · exact isBase64_iff

def firstToken (L : Spec.Class → Bool) : Option Str :=
  if L .date then some "%DATE".toList
  else if L .hash then some "%HASH".toList
  else if L .id then some "%ID".toList
  else if L .cookie then some "%COOKIE".toList
  else if L .uuid then some "%UID".toList
  else if L .url then some "%URL".toList
  else if L .path then some "%PATH".toList
  else if L .ref then some "%REF".toList
  else if L .base64 then some "%BASE64".toList
  else none

theorem parseLiteral_eq : parseLiteral wd w = firstToken (looksB wd w) := rfl

theorem firstToken_some {L : Spec.Class → Bool} {t : Str} : firstToken L = some t ↔
    ∃ c : Spec.Class, (L c = true ∧ ∀ c' : Spec.Class, c'.rank < c.rank → ¬ L c' = true) ∧ t = c.token.toList := by
  unfold firstToken
  constructor
  · intro h
    by_cases h0 : L .date = true
    · rw [if_pos h0] at h
      exact ⟨.date, ⟨h0, fun c hc => by cases c <;> first | assumption | (simp [Spec.Class.rank] at hc)⟩, (Option.some.inj h).symm⟩
    rw [if_neg h0] at h
    by_cases h1 : L .hash = true
    · rw [if_pos h1] at h
      exact ⟨.hash, ⟨h1, fun c hc => by cases c <;> first | assumption | (simp [Spec.Class.rank] at hc)⟩, (Option.some.inj h).symm⟩
    rw [if_neg h1] at h
    by_cases h2 : L .id = true
    · rw [if_pos h2] at h
      exact ⟨.id, ⟨h2, fun c hc => by cases c <;> first | assumption | (simp [Spec.Class.rank] at hc)⟩, (Option.some.inj h).symm⟩
    rw [if_neg h2] at h
    by_cases h3 : L .cookie = true
    · rw [if_pos h3] at h
      exact ⟨.cookie, ⟨h3, fun c hc => by cases c <;> first | assumption | (simp [Spec.Class.rank] at hc)⟩, (Option.some.inj h).symm⟩
    rw [if_neg h3] at h
    by_cases h4 : L .uuid = true
    · rw [if_pos h4] at h
      exact ⟨.uuid, ⟨h4, fun c hc => by cases c <;> first | assumption | (simp [Spec.Class.rank] at hc)⟩, (Option.some.inj h).symm⟩
    rw [if_neg h4] at h
    by_cases h5 : L .url = true
    · rw [if_pos h5] at h
      exact ⟨.url, ⟨h5, fun c hc => by cases c <;> first | assumption | (simp [Spec.Class.rank] at hc)⟩, (Option.some.inj h).symm⟩
    rw [if_neg h5] at h
    by_cases h6 : L .path = true
    · rw [if_pos h6] at h
      exact ⟨.path, ⟨h6, fun c hc => by cases c <;> first | assumption | (simp [Spec.Class.rank] at hc)⟩, (Option.some.inj h).symm⟩
    rw [if_neg h6] at h
    by_cases h7 : L .ref = true
    · rw [if_pos h7] at h
      exact ⟨.ref, ⟨h7, fun c hc => by cases c <;> first | assumption | (simp [Spec.Class.rank] at hc)⟩, (Option.some.inj h).symm⟩
    rw [if_neg h7] at h
    by_cases h8 : L .base64 = true
    · rw [if_pos h8] at h
      exact ⟨.base64, ⟨h8, fun c hc => by cases c <;> first | assumption | (simp [Spec.Class.rank] at hc)⟩, (Option.some.inj h).symm⟩
    rw [if_neg h8] at h
    cases h
  · rintro ⟨c, ⟨h1, h2⟩, rfl⟩
    cases c
    · rw [if_pos h1]; rfl
    · rw [if_neg (h2 .date (by decide)), if_pos h1]; rfl
    · rw [if_neg (h2 .date (by decide)), if_neg (h2 .hash (by decide)), if_pos h1]; rfl
    · rw [if_neg (h2 .date (by decide)), if_neg (h2 .hash (by decide)), if_neg (h2 .id (by decide)), if_pos h1]; rfl
    · rw [if_neg (h2 .date (by decide)), if_neg (h2 .hash (by decide)), if_neg (h2 .id (by decide)),
        if_neg (h2 .cookie (by decide)), if_pos h1]; rfl
    · rw [if_neg (h2 .date (by decide)), if_neg (h2 .hash (by decide)), if_neg (h2 .id (by decide)),
        if_neg (h2 .cookie (by decide)), if_neg (h2 .uuid (by decide)), if_pos h1]; rfl
    · rw [if_neg (h2 .date (by decide)), if_neg (h2 .hash (by decide)), if_neg (h2 .id (by decide)),
        if_neg (h2 .cookie (by decide)), if_neg (h2 .uuid (by decide)), if_neg (h2 .url (by decide)), if_pos h1]; rfl
    · rw [if_neg (h2 .date (by decide)), if_neg (h2 .hash (by decide)), if_neg (h2 .id (by decide)),
        if_neg (h2 .cookie (by decide)), if_neg (h2 .uuid (by decide)), if_neg (h2 .url (by decide)),
        if_neg (h2 .path (by decide)), if_pos h1]; rfl
    · rw [if_neg (h2 .date (by decide)), if_neg (h2 .hash (by decide)), if_neg (h2 .id (by decide)),
        if_neg (h2 .cookie (by decide)), if_neg (h2 .uuid (by decide)), if_neg (h2 .url (by decide)),
        if_neg (h2 .path (by decide)), if_neg (h2 .ref (by decide)), if_pos h1]; rfl

theorem firstToken_none {L : Spec.Class → Bool} : firstToken L = none ↔ ∀ c : Spec.Class, ¬ L c = true := by
  unfold firstToken
  constructor
  · intro h
    (repeat' split at h) <;> first
      | (cases h; done)
      | (intro c; cases c <;> assumption)
  · intro h
    simp only [if_neg (h _)]

/-- The token of a word is the token of its class. -/
theorem parseLiteral_some {t : Str} : parseLiteral wd w = some t ↔
    ∃ c : Spec.Class, Spec.InClass wd c w ∧ t = c.token.toList := by
  rw [parseLiteral_eq, firstToken_some]
  unfold Spec.InClass
  simp only [looksB_iff]

theorem parseLiteral_none : parseLiteral wd w = none ↔ ∀ c : Spec.Class, ¬ Spec.Looks wd w c := by
  rw [parseLiteral_eq, firstToken_none]
  simp only [looksB_iff]

end LJ.Tokenizer

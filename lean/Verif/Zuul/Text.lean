/-
Lemmas on the texts: dates, durations, JSON and URLs.
-/
import Verif.Zuul.Lemmas
import Mathlib.Tactic.Ring
namespace LJ.Zuul
open LJ.Paths (Str contains split)

variable {env : Env}

/-! ### Digits -/

theorem digitValue_char {d : Nat} (h : d < 10) : digitValue (digitChar d) = some d := by
  revert d; decide

theorem digitChar_ne {d : Nat} (h : d < 10) : digitChar d ≠ '+' ∧ digitChar d ≠ '-' := by
  revert d; decide

theorem scan_digits (w W k acc n : Nat) (r : Str) :
    scanDigits (w + W) k acc (digits w n ++ r) = scanDigits W (k + w) (acc * 10 ^ w + n % 10 ^ w) r := by
  induction w generalizing W n r with
  | zero => simp [digits, Nat.mod_one]
  | succ w ih =>
    have e : digits (w + 1) n ++ r = digits w (n / 10) ++ (digitChar (n % 10) :: r) := by simp [digits]
    rw [e, show w + 1 + W = w + (W + 1) by omega, ih]
    conv_lhs => unfold scanDigits
    rw [digitValue_char (Nat.mod_lt _ (by decide))]
    dsimp only
    have e2 : n % 10 ^ (w + 1) = n % 10 + 10 * (n / 10 % 10 ^ w) := by
      rw [Nat.pow_succ, Nat.mul_comm, Nat.mod_mul]
    rw [e2]
    congr 1
    ring

theorem scan_stop (W k acc : Nat) (c : Char) (r : Str) (h : digitValue c = none) : scanDigits W k acc (c :: r) = (k, acc, c :: r) := by
  cases W with
  | zero => rfl
  | succ W => unfold scanDigits; rw [h]

theorem width_spec (n : Nat) : n < 10 ^ width n ∧ 1 ≤ width n := by
  induction n using Nat.strongRecOn with
  | _ n ih =>
    unfold width
    split
    · rename_i h; exact ⟨by simpa using h, le_refl _⟩
    · rename_i h
      have := (ih (n / 10) (by omega)).1
      refine ⟨?_, by omega⟩
      rw [Nat.pow_succ]
      omega

theorem width_le {n w : Nat} (hw : 1 ≤ w) (h : n < 10 ^ w) : width n ≤ w := by
  induction w generalizing n with
  | zero => omega
  | succ w ih =>
    unfold width
    split
    · omega
    · rename_i hn
      cases w with
      | zero => simp at h; omega
      | succ w =>
        have := ih (n := n / 10) (by omega) (by rw [Nat.pow_succ] at h; omega)
        omega

theorem pad_eq {w n : Nat} (hw : 1 ≤ w) (h : n < 10 ^ w) : pad w n = digits w n := by
  unfold pad; rw [Nat.max_eq_left (width_le hw h)]

theorem scan_pad {w n : Nat} (hw : 1 ≤ w) (h : n < 10 ^ w) (r : Str) : scanNumber w (pad w n ++ r) = some (n, r) := by
  have := scan_digits w 0 0 0 n r
  unfold scanNumber
  rw [pad_eq hw h]
  rw [Nat.add_zero] at this
  rw [this]
  obtain ⟨v, rfl⟩ : ∃ v, w = v + 1 := ⟨w - 1, by omega⟩
  simp only [scanDigits, Nat.zero_mul, Nat.zero_add, Nat.mod_eq_of_lt h]

theorem digits_length (w n : Nat) : (digits w n).length = w := by
  induction w generalizing n with
  | zero => rfl
  | succ w ih => simp [digits, ih]

theorem scan_long (n : Nat) (r : Str) :
    scanNumber (pad 4 n ++ '-' :: r).length (pad 4 n ++ '-' :: r) = some (n, '-' :: r) := by
  unfold scanNumber pad
  set w := max 4 (width n)
  have hn : n < 10 ^ w := lt_of_lt_of_le (width_spec n).1 (Nat.pow_le_pow_right (by decide) (Nat.le_max_right _ _))
  rw [List.length_append, digits_length, scan_digits, scan_stop _ _ _ _ _ (by decide)]
  obtain ⟨v, hv⟩ : ∃ v, w = v + 1 := ⟨w - 1, by have := Nat.le_max_left 4 (width n); omega⟩
  rw [hv] at hn ⊢
  simp only [Nat.zero_mul, Nat.zero_add, Nat.mod_eq_of_lt hn]

theorem scanYear_plus (s : Str) : scanYear ('+' :: s) = (scanNumber s.length s).map fun (n, r) => ((n : Int), r) := rfl
theorem scanYear_minus (s : Str) : scanYear ('-' :: s) = (scanNumber s.length s).map fun (n, r) => (-(n : Int), r) := rfl

theorem scan_year (y : Int) (r : Str) : scanYear (formatYear y ++ '-' :: r) = some (y, '-' :: r) := by
  unfold formatYear
  split
  · rename_i h
    have hn : y.toNat < 10 ^ 4 := by omega
    have e := scan_pad (w := 4) (by decide) hn ('-' :: r)
    rw [pad_eq (by decide) hn] at e ⊢
    have e2 : digits 4 y.toNat = digitChar (y.toNat / 10 / 10 / 10 % 10) :: (digits 4 y.toNat).tail := by
      simp [digits]
    rw [e2] at e ⊢
    rw [List.cons_append] at e ⊢
    have hne := digitChar_ne (Nat.mod_lt (y.toNat / 10 / 10 / 10) (by decide : 0 < 10))
    unfold scanYear
    split
    · rename_i h1; exact absurd (List.cons.inj h1).1 hne.1
    · rename_i h1; exact absurd (List.cons.inj h1).1 hne.2
    · rw [e]
      simp only [Option.map_some, Option.some.injEq, Prod.mk.injEq, and_true]
      omega
  · rename_i h
    have e := scan_long y.natAbs r
    split
    · rename_i hneg
      rw [List.cons_append]
      rw [scanYear_minus, e]
      simp only [Option.map_some, Option.some.injEq, Prod.mk.injEq, and_true]
      omega
    · rename_i hneg
      rw [List.cons_append]
      rw [scanYear_plus, e]
      simp only [Option.map_some, Option.some.injEq, Prod.mk.injEq, and_true]
      omega

theorem trim_digits {w : Nat} (hw : 1 ≤ w) (n : Nat) (r : Str) : trimStart (digits w n ++ r) = digits w n ++ r := by
  have hd : ∀ d, d < 10 → LJ.Tokenizer.isWs (digitChar d) = false := by decide +kernel
  have key : ∀ w n r, 1 ≤ w → ∃ d r', d < 10 ∧ digits w n ++ r = digitChar d :: r' := by
    intro w
    induction w with
    | zero => intro n r h; omega
    | succ w ih =>
      intro n r _
      rw [digits, List.append_assoc]
      rcases Nat.eq_zero_or_pos w with rfl | h
      · exact ⟨n % 10, r, Nat.mod_lt _ (by decide), rfl⟩
      · exact ih (n / 10) _ h
  obtain ⟨d, r', h1, h2⟩ := key w n r hw
  rw [h2, trimStart, List.dropWhile_cons_of_neg (by rw [hd d h1]; decide)]

theorem trim_pad {w : Nat} (hw : 1 ≤ w) (n : Nat) (r : Str) : trimStart (pad w n ++ r) = pad w n ++ r :=
  trim_digits (le_trans hw (Nat.le_max_left _ _)) n r

theorem trim_year (y : Int) (r : Str) : trimStart (formatYear y ++ r) = formatYear y ++ r := by
  unfold formatYear
  split
  · exact trim_pad (by decide) _ _
  · split
    · rfl
    · rfl

theorem scan_char (c : Char) (r : Str) : scanChar c (c :: r) = some r := by simp [scanChar]

/-- A time which is written and read again is the same, to the second. -/
theorem time_round_trip (t : DateTime) : parseTime (formatTime t) = some (Spec.toSecond t) := by
  obtain ⟨y, mo, d, h, mi, s, n, v⟩ := t
  have hd : d < 10 ^ 2 := by
    have : monthDays y mo ≤ 31 := by unfold monthDays; split <;> split <;> omega
    omega
  unfold parseTime formatTime
  simp only [List.append_assoc, List.cons_append]
  rw [trim_year, scan_year]
  simp only [Option.bind_eq_bind, Option.bind_some, scan_char]
  rw [trim_pad (by decide), scan_pad (by decide) (by omega)]
  simp only [Option.bind_some, scan_char]
  rw [trim_pad (by decide), scan_pad (by decide) hd]
  simp only [Option.bind_some, scan_char]
  rw [trim_pad (by decide), scan_pad (by decide) (by omega)]
  simp only [Option.bind_some, scan_char]
  rw [trim_pad (by decide), scan_pad (by decide) (by omega)]
  simp only [Option.bind_some, scan_char]
  have e := scan_pad (w := 2) (n := s) (by decide) (by omega) []
  have e' := trim_pad (w := 2) (by decide) s []
  rw [List.append_nil] at e e'
  rw [e', e]
  simp only [Option.bind_some, if_true]
  unfold mkTime
  rw [dif_pos (by omega)]
  rfl

/-! ### Durations -/

theorem roundF32_small {n : Nat} (h : n ≤ 2 ^ 24) : roundF32 n = n := by
  rcases Nat.lt_or_ge n (2 ^ 24) with h1 | h1
  · have : n.log2 ≤ 23 := by
      by_cases h0 : n = 0
      · subst h0; decide
      · have := (Nat.log2_lt h0).2 h1; omega
    have e : n.log2 - 23 = 0 := by omega
    unfold roundF32
    simp only [e, Nat.pow_zero, Nat.div_one, Nat.mod_one, Nat.mul_one]
    rw [if_pos (by omega)]
  · have : n = 2 ^ 24 := by omega
    subst this
    decide

theorem ulp_le {n : Nat} (h : 2 ^ 23 ≤ n) : 2 ^ (n.log2 - 23) * 2 ^ 23 ≤ n := by
  have h0 : n ≠ 0 := by have : (0:Nat) < 2 ^ 23 := by decide
                        omega
  have : 23 ≤ n.log2 := (Nat.le_log2 h0).2 h
  rw [← Nat.pow_add, show n.log2 - 23 + 23 = n.log2 by omega]
  exact Nat.log2_self_le h0

theorem roundF32_near (n : Nat) :
    2 * roundF32 n ≤ 2 * n + 2 ^ (n.log2 - 23) ∧ 2 * n ≤ 2 * roundF32 n + 2 ^ (n.log2 - 23) := by
  have h1 : 0 < 2 ^ (n.log2 - 23) := Nat.pow_pos (by decide)
  unfold roundF32
  dsimp only
  generalize 2 ^ (n.log2 - 23) = u at *
  have h2 := Nat.div_add_mod n u
  have h3 := Nat.mod_lt n h1
  rw [Nat.mul_comm] at h2
  split <;> rename_i hc
  · omega
  · rw [Nat.add_mul, Nat.one_mul]; omega

theorem roundF32_error (n : Nat) : 2 ^ 24 * roundF32 n ≤ (2 ^ 24 + 1) * n ∧ (2 ^ 24 - 1) * n ≤ 2 ^ 24 * roundF32 n := by
  rcases Nat.lt_or_ge n (2 ^ 23) with h | h
  · rw [roundF32_small (by omega)]; omega
  · have := roundF32_near n
    have := ulp_le h
    omega

theorem roundF32_exact (n : Nat) : roundF32 n = n ↔ 2 ^ (n.log2 - 23) ∣ n := by
  have h1 : 0 < 2 ^ (n.log2 - 23) := Nat.pow_pos (by decide)
  unfold roundF32
  dsimp only
  generalize 2 ^ (n.log2 - 23) = u at *
  have h2 := Nat.div_add_mod n u
  have h3 := Nat.mod_lt n h1
  rw [Nat.mul_comm] at h2
  rw [Nat.dvd_iff_mod_eq_zero]
  split <;> rename_i hc
  · omega
  · rw [Nat.add_mul, Nat.one_mul]; omega

/-! ### JSON -/

theorem mkUrl_val (u : Url env) : mkUrl env u.val = some u := by
  unfold mkUrl
  rw [u.property]
  dsimp only
  rw [dif_pos u.property]
  rfl

theorem decode_artifact (a : Artifact env) : decodeArtifact (encodeArtifact a) = some a := by
  simp [decodeArtifact, encodeArtifact, structFields, field, asStr, asUrl, mkUrl_val]

theorem decode_artifacts (l : List (Artifact env)) : (l.map encodeArtifact).mapM decodeArtifact = some l := by
  induction l with
  | nil => rfl
  | cons a l ih => simp [decode_artifact, ih]

theorem opt_url (u : Option (Url env)) : opt asUrl (some (optJson (fun u => .str u.val) u)) = some u := by
  cases u with
  | none => rfl
  | some u => simp [opt, optJson, asUrl, mkUrl_val]

theorem opt_u64 (n : Option Nat) : opt asU64 (some (optJson (fun n => .num (.pos n)) n)) = some n := by
  cases n <;> rfl

theorem opt_str (n : Option Str) : opt asStr (some (optJson .str n)) = some n := by
  cases n <;> rfl

theorem decode_encode (b : Build env) : decodeBuild (encodeBuild b) = some { b with
    startTime := Spec.toSecond b.startTime, endTime := Spec.toSecond b.endTime, duration := asU32 (roundF32 b.duration) } := by
  unfold decodeBuild encodeBuild
  unfold structFields
  dsimp only
  rw [if_pos (by simp only [List.map_cons, List.map_nil]; decide +kernel), Option.bind_some]
  unfold decodeFields
  simp only [field, String.reduceEq, if_true, if_false, Option.bind_some, asStr, asTime, asBool, asDuration, asArtifacts, opt_url, opt_u64, opt_str,
    time_round_trip, decode_artifacts, Option.bind_eq_bind, Option.pure_def]

/-! ### URLs -/

theorem splitOnce_first (pat X Y : Str) (hp : pat ≠ []) (h : ¬ pat <:+: X ++ pat.dropLast) : splitOnceStr pat (X ++ pat ++ Y) = some X := by
  induction X with
  | nil =>
    cases pat with
    | nil => exact absurd rfl hp
    | cons p ps =>
      simp only [List.nil_append, List.cons_append]
      unfold splitOnceStr
      rw [if_pos]
      rw [List.isPrefixOf_iff_prefix]
      exact ⟨Y, rfl⟩
  | cons c X ih =>
    simp only [List.cons_append]
    unfold splitOnceStr
    rw [if_neg, ih (fun hi => h (hi.trans (List.suffix_cons c _).isInfix))]
    · rfl
    · intro hpre
      rw [List.isPrefixOf_iff_prefix] at hpre
      apply h
      have h2 : (c :: (X ++ pat.dropLast)) <+: c :: (X ++ pat ++ Y) := by
        refine ⟨[pat.getLast hp] ++ Y, ?_⟩
        conv_rhs => rw [← List.dropLast_append_getLast hp]
        simp
      have hlen : pat.length ≤ (c :: (X ++ pat.dropLast)).length := by
        simp only [List.length_cons, List.length_append, List.length_dropLast]; omega
      exact (List.prefix_of_prefix_length_le hpre h2 hlen).isInfix

theorem rsplit_none (pat s : Str) (h : ¬ pat <:+: s) : rsplitOnceStr pat s = none := by
  induction s with
  | nil =>
    unfold rsplitOnceStr
    rw [if_neg]
    intro e
    rw [List.isEmpty_iff] at e
    exact h (by rw [e]; exact List.nil_infix)
  | cons c s ih =>
    unfold rsplitOnceStr
    rw [List.infix_cons_iff, not_or] at h
    rw [ih h.2]
    dsimp only
    rw [if_neg]
    rw [List.isPrefixOf_iff_prefix]
    exact h.1

theorem rsplit_last (p : Char) (ps X Y : Str) (h : ¬ (p :: ps) <:+: ps ++ Y) : rsplitOnceStr (p :: ps) (X ++ (p :: ps) ++ Y) = some X := by
  induction X with
  | nil =>
    simp only [List.nil_append, List.cons_append]
    unfold rsplitOnceStr
    rw [rsplit_none _ _ h]
    dsimp only
    rw [if_pos]
    rw [List.isPrefixOf_iff_prefix]
    exact ⟨Y, rfl⟩
  | cons c X ih =>
    rw [List.cons_append, List.cons_append]
    unfold rsplitOnceStr
    rw [ih]

theorem infix_skip {p : Char} {ps a b : Str} (h : p ∉ a) (hi : (p :: ps) <:+: a ++ b) : (p :: ps) <:+: b := by
  induction a with
  | nil => exact hi
  | cons c a ih =>
    rw [List.mem_cons, not_or] at h
    rw [List.cons_append, List.infix_cons_iff] at hi
    rcases hi with hi | hi
    · exact absurd (List.cons_prefix_cons.1 hi).1 h.1
    · exact ih h.2 hi

theorem uid_no_slash {uid : Str} (h : Spec.Uid uid) : '/' ∉ uid := fun hm => by
  have := h.2 _ hm
  revert this
  decide

theorem build_last {uid suffix : Str} (h : Spec.Uid uid) (hs : ¬ "/build/".toList <:+: suffix) :
    ¬ "/build/".toList <:+: "build/".toList ++ (uid ++ suffix) := by
  intro hi
  change ('/' :: ['b', 'u', 'i', 'l', 'd', '/']) <:+: ['b', 'u', 'i', 'l', 'd'] ++ ('/' :: (uid ++ suffix)) at hi
  have h2 := infix_skip (by decide) hi
  rw [List.infix_cons_iff] at h2
  rcases h2 with h2 | h2
  · have h3 := (List.cons_prefix_cons.1 h2).2
    have h4 : ['b', 'u', 'i', 'l', 'd', '/'] <+: uid :=
      List.prefix_of_prefix_length_le h3 ⟨suffix, rfl⟩ (by rw [h.1]; decide)
    exact uid_no_slash h (h4.subset (by decide))
  · exact hs (infix_skip (uid_no_slash h) h2)

theorem rsplit_build {uid suffix : Str} (X : Str) (h : Spec.Uid uid) (hs : ¬ "/build/".toList <:+: suffix) :
    rsplitOnceStr "/build/".toList (X ++ "/build/".toList ++ (uid ++ suffix)) = some X := by
  have h1 := build_last h hs
  have e1 : "/build/".toList = '/' :: ['b', 'u', 'i', 'l', 'd', '/'] := rfl
  have e2 : "build/".toList = ['b', 'u', 'i', 'l', 'd', '/'] := rfl
  rw [e1, e2] at h1
  rw [e1]
  exact rsplit_last _ _ _ _ h1

theorem t_first {X : Str} (h : ¬ "/t/".toList <:+: X ++ ['/']) : ¬ "/t/".toList <:+: X ++ "/t/".toList.dropLast := by
  intro hi
  apply h
  change ['/', 't', '/'] <:+: X ++ ['/', 't'] at hi
  change ['/', 't', '/'] <:+: X ++ ['/']
  obtain ⟨a, b, e⟩ := hi
  rcases List.eq_nil_or_concat b with rfl | ⟨b', c, rfl⟩
  · have := congrArg List.getLast? e
    simp at this
  · refine ⟨a, b', ?_⟩
    have e2 : (a ++ ['/', 't', '/'] ++ b') ++ [c] = (X ++ ['/']) ++ ['t'] := by simpa using e
    exact (List.append_inj' e2 rfl).1

theorem isUid_iff (s : Str) : isUid s = true ↔ Spec.Uid s := by
  have key : ∀ c : Char, (c.isLower || c.isUpper || c.isDigit) = true ↔ (('a' ≤ c ∧ c ≤ 'z') ∨ ('A' ≤ c ∧ c ≤ 'Z') ∨ ('0' ≤ c ∧ c ≤ '9')) := by
    intro c
    simp only [Char.isLower, Char.isUpper, Char.isDigit, Bool.or_eq_true, Bool.and_eq_true, decide_eq_true_eq, Char.le_def, or_assoc]
  have size : ∀ c : Char, (c.isLower || c.isUpper || c.isDigit) = true → c.utf8Size = 1 := by
    intro c hc
    rw [key] at hc
    simp only [Char.le_def, UInt32.le_iff_toNat_le] at hc
    rw [Char.utf8Size, if_pos]
    show c.val.toNat ≤ 127
    have e1 : ('z' : Char).val.toNat = 122 := rfl
    have e2 : ('Z' : Char).val.toNat = 90 := rfl
    have e3 : ('9' : Char).val.toNat = 57 := rfl
    omega
  have len : ∀ s : Str, (∀ c ∈ s, (c.isLower || c.isUpper || c.isDigit) = true) → LJ.Paths.byteLen s = s.length := by
    intro s
    induction s with
    | nil => intro _; rfl
    | cons c s ih =>
      intro h
      have := ih (fun d hd => h d (List.mem_cons_of_mem _ hd))
      have h1 := size c (h c List.mem_cons_self)
      unfold LJ.Paths.byteLen at *
      rw [List.map_cons, List.sum_cons, h1, this, List.length_cons]
      omega
  unfold isUid Spec.Uid
  rw [Bool.and_eq_true, List.all_eq_true, decide_eq_true_eq]
  constructor
  · rintro ⟨h1, h2⟩
    exact ⟨by rw [← len s h2]; exact h1, fun c hc => (key c).1 (h2 c hc)⟩
  · rintro ⟨h1, h2⟩
    have h3 : ∀ c ∈ s, (c.isLower || c.isUpper || c.isDigit) = true := fun c hc => (key c).2 (h2 c hc)
    exact ⟨by rw [len s h3]; exact h1, h3⟩

theorem split_snoc {sep : Char} {p x : Str} {A : List Str} (h : split sep p = A ++ [x]) (hA : A ≠ []) :
    ∃ q, p = q ++ sep :: x ∧ split sep q = A := by
  by_cases hm : sep ∈ p
  · obtain ⟨as, bs, e, hn⟩ := List.eq_append_cons_of_mem (List.mem_reverse.2 hm)
    have e2 : p = bs.reverse ++ sep :: as.reverse := by
      rw [← List.reverse_reverse p, e]; simp
    have hn' : sep ∉ as.reverse := fun h => hn (List.mem_reverse.1 h)
    rw [e2, LJ.Paths.split_sep, LJ.Paths.split_no sep hn'] at h
    obtain ⟨h1, h2⟩ := List.append_inj' h rfl
    have h3 : as.reverse = x := by simpa using h2
    exact ⟨bs.reverse, by rw [e2, h3], h1⟩
  · rw [LJ.Paths.split_no sep hm] at h
    cases A with
    | nil => exact absurd rfl hA
    | cons a A =>
      have := congrArg List.length h
      simp at this

/-- The segments before `/build/<uid>` -/
def before (pre : Str) : List Str :=
  match pre with
  | '/' :: p => split '/' p
  | _ => []

theorem before_cons (p : Str) : before ('/' :: p) = split '/' p := rfl

theorem segments_build (url : WebUrl) {pre uid : Str} (hd : Spec.Dir pre) (hu : Spec.Uid uid) (h : url.path = pre ++ "/build/".toList ++ uid) :
    url.segments = some (before pre ++ ["build".toList, uid]) := by
  have hb : '/' ∉ "build".toList := by decide
  have seg : ∀ p, url.path = '/' :: p → url.segments = some (split '/' p) := fun p hp => by
    unfold WebUrl.segments
    rw [hp]; rfl
  rcases hd with rfl | ⟨p, rfl⟩
  · have : url.path = '/' :: ("build".toList ++ '/' :: uid) := by rw [h]; rfl
    rw [seg _ this]
    rw [LJ.Paths.split_sep, LJ.Paths.split_no _ hb, LJ.Paths.split_no _ (uid_no_slash hu)]
    rfl
  · have : url.path = '/' :: (p ++ '/' :: ("build".toList ++ '/' :: uid)) := by
      rw [h, List.cons_append, List.cons_append, List.append_assoc]; rfl
    rw [seg _ this]
    rw [LJ.Paths.split_sep, LJ.Paths.split_sep, LJ.Paths.split_no _ hb, LJ.Paths.split_no _ (uid_no_slash hu)]
    rfl

theorem segments_some {url : WebUrl} {segs : List Str} {x : Str × Option Str} (hs : url.segments = some segs)
    (h : recogniseSegments segs.reverse = some x) :
    ∃ pre, Spec.Dir pre ∧ Spec.Uid x.1 ∧ url.path = pre ++ "/build/".toList ++ x.1 := by
  obtain ⟨uid, rest, e⟩ : ∃ uid rest, segs.reverse = uid :: "build".toList :: rest ∧ isUid uid = true ∧ x.1 = uid := by
    unfold recogniseSegments at h
    split at h
    · rename_i uid build rest e
      by_cases h1 : isUid uid = true
      swap
      · rw [if_neg h1] at h; exact absurd h (by simp)
      rw [if_pos h1] at h
      by_cases h2 : build = "build".toList
      swap
      · rw [if_neg h2] at h; exact absurd h (by simp)
      rw [if_pos h2] at h
      subst h2
      refine ⟨uid, rest, e, h1, ?_⟩
      unfold tenantSegments at h
      split at h
      · split at h <;> (rw [← Option.some.inj h])
      · rw [← Option.some.inj h]
    · exact absurd h (by simp)
  obtain ⟨e1, e2, e3⟩ := e
  rw [e3]
  have hu := (isUid_iff uid).1 e2
  have e4 : segs = (rest.reverse ++ ["build".toList]) ++ [uid] := by
    rw [← List.reverse_reverse segs, e1]; simp
  unfold WebUrl.segments at hs
  split at hs
  swap
  · exact absurd hs (by simp)
  rename_i p hp
  have hs := Option.some.inj hs
  rw [e4] at hs
  obtain ⟨q, hq1, hq2⟩ := split_snoc hs (by simp)
  by_cases hr : rest.reverse = []
  · rw [hr, List.nil_append] at hq2
    have hq3 : q = "build".toList := by
      by_cases hm : '/' ∈ q
      · obtain ⟨a, b, rfl⟩ := List.append_of_mem hm
        rw [LJ.Paths.split_sep] at hq2
        have := congrArg List.length hq2
        have h1 := List.length_pos_iff.2 (LJ.Paths.split_ne_nil '/' a)
        have h2 := List.length_pos_iff.2 (LJ.Paths.split_ne_nil '/' b)
        rw [List.length_append, List.length_singleton] at this
        omega
      · rw [LJ.Paths.split_no _ hm] at hq2
        exact (List.cons.inj hq2).1
    refine ⟨[], Or.inl rfl, hu, ?_⟩
    rw [hp, hq1, hq3]
    rfl
  · obtain ⟨q', hq3, hq4⟩ := split_snoc hq2 hr
    refine ⟨'/' :: q', Or.inr ⟨q', rfl⟩, hu, ?_⟩
    rw [hp, hq1, hq3]
    simp

theorem recognise_build (uid : Str) (rest : List Str) (hu : Spec.Uid uid) :
    recogniseSegments (uid :: "build".toList :: rest) = tenantSegments uid rest := by
  have e : recogniseSegments (uid :: "build".toList :: rest) =
      if isUid uid = true then (if "build".toList = "build".toList then tenantSegments uid rest else none) else none := rfl
  rw [e, if_pos ((isUid_iff uid).2 hu), if_pos rfl]

theorem before_tenant {pre q tenant : Str} (ht : '/' ∉ tenant) (hd : Spec.Dir q) (h : pre = q ++ "/t/".toList ++ tenant) :
    before pre = before q ++ [['t'], tenant] := by
  rcases hd with rfl | ⟨p, rfl⟩
  · have : pre = '/' :: (['t'] ++ '/' :: tenant) := by rw [h]; rfl
    rw [this, before_cons]
    rw [LJ.Paths.split_sep, LJ.Paths.split_no _ ht, LJ.Paths.split_no _ (by decide : '/' ∉ ['t'])]
    rfl
  · have : pre = '/' :: (p ++ '/' :: (['t'] ++ '/' :: tenant)) := by
      rw [h, List.cons_append, List.cons_append, List.append_assoc]; rfl
    rw [this, before_cons]
    rw [LJ.Paths.split_sep, LJ.Paths.split_sep, LJ.Paths.split_no _ ht, LJ.Paths.split_no _ (by decide : '/' ∉ ['t']), before_cons]
    rfl

theorem before_some {pre : Str} {tenant : Str} {rest : List Str} (h : (before pre).reverse = tenant :: ['t'] :: rest) :
    ∃ q, '/' ∉ tenant ∧ pre = q ++ "/t/".toList ++ tenant := by
  have e : before pre = (rest.reverse ++ [['t']]) ++ [tenant] := by
    rw [← List.reverse_reverse (before pre), h]; simp
  unfold before at e
  split at e
  swap
  · exact absurd e.symm (by simp)
  rename_i p
  have hno : '/' ∉ tenant := by
    obtain ⟨q, hq1, hq2⟩ := split_snoc e (by simp)
    intro hm
    obtain ⟨a, b, rfl⟩ := List.append_of_mem hm
    have := e
    rw [hq1, LJ.Paths.split_sep, hq2, LJ.Paths.split_sep] at this
    have := congrArg List.length this
    have h1 := List.length_pos_iff.2 (LJ.Paths.split_ne_nil '/' a)
    have h2 := List.length_pos_iff.2 (LJ.Paths.split_ne_nil '/' b)
    simp only [List.length_append, List.length_cons, List.length_nil] at this
    omega
  obtain ⟨q, hq1, hq2⟩ := split_snoc e (by simp)
  by_cases hr : rest.reverse = []
  · rw [hr, List.nil_append] at hq2
    have hq3 : q = ['t'] := by
      by_cases hm : '/' ∈ q
      · obtain ⟨a, b, rfl⟩ := List.append_of_mem hm
        rw [LJ.Paths.split_sep] at hq2
        have := congrArg List.length hq2
        have h1 := List.length_pos_iff.2 (LJ.Paths.split_ne_nil '/' a)
        have h2 := List.length_pos_iff.2 (LJ.Paths.split_ne_nil '/' b)
        rw [List.length_append, List.length_singleton] at this
        omega
      · rw [LJ.Paths.split_no _ hm] at hq2
        exact (List.cons.inj hq2).1
    exact ⟨[], hno, by rw [hq1, hq3]; rfl⟩
  · obtain ⟨q', hq3, hq4⟩ := split_snoc hq2 hr
    exact ⟨'/' :: q', hno, by rw [hq1, hq3]; simp⟩

end LJ.Zuul

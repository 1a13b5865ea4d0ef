/-
C40-C46 and C76-C77: index names, source filter, readers, relative names and inputs.
-/
import Verif.Paths.Lemmas
namespace LJ.Paths

/-! ### C40: index names ignore digits and rotation -/

theorem keep_append (a b : Str) : keep (a ++ b) = keep a ++ keep b := by simp [keep]

/-- a suffix without letters does not change an ordinary name -/
theorem cleanName_suffix (s r : Str) (hr : ∀ c ∈ r, ¬ Spec.Letter c) : cleanName (s ++ r) = cleanName s := by
  unfold cleanName
  rw [keep_append, trimBoth_append]
  intro c hc
  rw [keep_eq, List.mem_filter, decide_eq_true_eq] at hc
  cases h : isSymbol c with
  | true => rfl
  | false => exact absurd ((letter_iff c).2 ⟨hc.2, h⟩) (hr c hc.1)

theorem isK8s_suffix (name r : Str) (h : '-' ∈ name ∨ '-' ∉ r ∨ ¬ "k8s_".toList <+: name) :
    isK8sService (name ++ '.' :: r) = isK8sService name := by
  unfold isK8sService
  rw [startsWith_append _ _ _ _ (by decide), startsWith_append _ _ _ _ (by decide)]
  by_cases hk : startsWith name "k8s_".toList = true
  · rw [if_pos hk, if_pos hk]
    by_cases hd : '-' ∈ name
    · exact splitOnce_append '-' _ _ hd
    · have hr : '-' ∉ r := by
        rcases h with h | h | h
        · exact absurd h hd
        · exact h
        · exact absurd (startsWith_iff.1 hk) h
      rw [splitOnce_none _ hd, splitOnce_none]
      simp [hd, hr]
  · rw [if_neg hk, if_neg hk]

theorem split_mem_no (sep : Char) (s : Str) : ∀ p ∈ split sep s, sep ∉ p := by
  induction s with
  | nil => simp [split]
  | cons c s ih =>
    rw [split_cons]
    by_cases hc : c = sep
    · rw [if_pos hc]
      intro p hp
      rcases List.mem_cons.1 hp with rfl | hp
      · simp
      · exact ih p hp
    · rw [if_neg hc]
      cases h : split sep s with
      | nil => exact absurd h (split_ne_nil _ _)
      | cons q qs =>
        rw [h] at ih
        intro p hp
        rcases List.mem_cons.1 hp with rfl | hp
        · rw [List.mem_cons, not_or]
          exact ⟨fun e => hc e.symm, ih q (by simp)⟩
        · exact ih p (by simp [hp])

theorem components_mem {s m : Str} (h : .normal m ∈ components s) : m ∈ split '/' s := by
  have hc : ∀ p, compOf p = some (.normal m) → p = m := by
    intro p hp
    unfold compOf at hp
    split at hp
    · cases hp
    · split at hp
      · cases hp
      · split at hp
        · cases hp
        · cases hp; rfl
  unfold components at h
  split at h
  · cases h
  · rename_i first rest hs
    rw [hs]
    rcases List.mem_append.1 h with h | h
    · split at h
      · split at h
        · cases h
        · simp at h
      · split at h
        · simp at h
        · rw [Option.mem_toList] at h
          rw [hc first h]; simp
    · obtain ⟨p, hp, e⟩ := List.mem_filterMap.1 h
      rw [← hc p e]; simp [hp]

theorem fileName_mem {ps : List Comp} {name : Str} (hf : fileName ps = some name) : .normal name ∈ ps := by
  unfold fileName at hf
  split at hf
  · rename_i m hm
    cases hf
    exact List.mem_of_getLast? hm
  · cases hf

theorem parentStr_mem {ps par : List Comp} {name : Str} (h : parentStr ps = some (par, name)) : .normal name ∈ ps := by
  unfold parentStr at h
  rw [Option.bind_eq_some_iff] at h
  obtain ⟨q, hpar, hq⟩ := h
  rw [Option.map_eq_some_iff] at hq
  obtain ⟨nm, hnm, e⟩ := hq
  cases e
  have hsub : par = ps.dropLast := by
    unfold parent at hpar
    split at hpar
    · cases hpar
    · cases hpar
    · cases hpar; rfl
  have hin := fileName_mem hnm
  rw [hsub] at hin
  exact List.dropLast_subset _ hin

theorem prefix_dir {d m : Str} (hd : '/' ∉ d) (hp : "pod/".toList <+: d ++ '/' :: m) : d = "pod".toList := by
  obtain ⟨t, ht⟩ := hp
  have e : split '/' ("pod/".toList ++ t) = "pod".toList :: split '/' t := by
    show split '/' ("pod".toList ++ '/' :: t) = _
    rw [split_sep, split_no '/' (by decide)]; rfl
  rw [ht, split_sep, split_no '/' hd] at e
  simp only [List.singleton_append, List.cons.injEq] at e
  exact e.1

theorem pod_prefix {dir n : Str} (hn : '/' ∉ n) (h : "pod/".toList <+: shortPrefix (components dir) ++ n) :
    "pod".toList ∈ split '/' dir := by
  have hno : ∀ m, .normal m ∈ components dir → '/' ∉ m := fun m hm => split_mem_no '/' dir m (components_mem hm)
  unfold shortPrefix at h
  cases hf : fileName (components dir) with
  | none =>
    rw [hf] at h
    exfalso
    obtain ⟨t, ht⟩ := h
    apply hn
    rw [List.nil_append] at ht
    rw [← ht]
    simp
  | some name =>
    rw [hf] at h
    simp only [List.append_assoc, List.singleton_append] at h
    by_cases hs : isSmallHash name = true
    · rw [if_pos hs] at h
      cases hp : parentStr (components dir) with
      | none =>
        rw [hp] at h
        exfalso
        obtain ⟨t, ht⟩ := h
        simp only [Option.map_none, Option.getD_none, List.nil_append] at ht
        have h0 := congrArg List.head? ht
        simp at h0
      | some q =>
        obtain ⟨par, nm⟩ := q
        rw [hp] at h
        simp only [Option.map_some, Option.getD_some] at h
        have hin := parentStr_mem hp
        have := prefix_dir (hno nm hin) h
        subst this
        exact components_mem hin
    · rw [if_neg hs] at h
      have hin := fileName_mem hf
      have := prefix_dir (hno name hin) h
      subst this
      exact components_mem hin

/-- a path whose last part is a name -/
theorem indexName_dir {dir n : Str} (hd : Spec.Dir dir) (hn : Spec.Normal n) :
    indexName (dir ++ n) = modelName (shortPrefix (components dir) ++ n) n := by
  unfold indexName
  simp only [components_dir hd hn, shortFileName_snoc, fileNameOr, fileName_snoc, Option.getD_some]

theorem normal_suffix {n : Str} (hn : Spec.Normal n) (r : Str) (hr : '/' ∉ r) : Spec.Normal (n ++ '.' :: r) := by
  obtain ⟨h1, h2, h3, h4⟩ := hn
  refine ⟨by simp [h1, hr], by simp, ?_, ?_⟩
  · intro h
    cases n with
    | nil => exact h2 rfl
    | cons c n =>
      have := congrArg List.length h
      simp at this
  · intro h
    cases n with
    | nil => exact h2 rfl
    | cons c n =>
      cases n with
      | nil =>
        rw [List.singleton_append, List.cons.injEq] at h
        exact h3 (by rw [h.1])
      | cons d n =>
        have := congrArg List.length h
        simp at this

/-- A file and its rotations get the same name: a dot and any characters which are not letters
(`.1`, `.2017-11-12`, ...) do not matter.  The two exceptions are the files of pods and services
without dash in their name. -/
theorem C40_rotation_any {dir name r : Str} (hd : Spec.Dir dir) (hn : Spec.Normal name) (hr : ∀ c ∈ r, ¬ Spec.Letter c ∧ c ≠ '/')
    (hpod : '-' ∈ name ∨ "pod".toList ∉ split '/' dir) (hk : '-' ∈ name ∨ '-' ∉ r ∨ ¬ "k8s_".toList <+: name) :
    indexName (dir ++ (name ++ '.' :: r)) = indexName (dir ++ name) := by
  rw [indexName_dir hd (normal_suffix hn r (fun h => (hr _ h).2 rfl)), indexName_dir hd hn, ← List.append_assoc]
  unfold modelName
  rw [startsWith_append _ _ _ _ (by decide), startsWith_append _ _ _ _ (by decide), isK8s_suffix name r hk]
  split
  · rfl
  · split
    · rename_i hp
      have hdash : '-' ∈ name := by
        rcases hpod with h | h
        · exact h
        · exact absurd (pod_prefix hn.1 (startsWith_iff.1 hp)) h
      unfold takeUntilPodUuid
      rw [List.headD_eq_head?_getD, List.headD_eq_head?_getD, split_head '-' (List.mem_append_right _ hdash)]
      obtain ⟨x, hx⟩ : ∃ x, (split '-' (shortPrefix (components dir) ++ name)).head? = some x := by
        cases h : split '-' (shortPrefix (components dir) ++ name) with
        | nil => exact absurd h (split_ne_nil _ _)
        | cons p ps => exact ⟨p, rfl⟩
      rw [hx]; rfl
    · rw [cleanName_suffix]
      intro c hc
      rcases List.mem_cons.1 hc with rfl | hc
      · decide
      · exact (hr c hc).1

example : indexName "logs/audit/audit.log.1".toList = indexName "logs/audit/audit.log".toList :=
  C40_rotation_any (dir := "logs/audit/".toList) (name := "audit.log".toList) (r := "1".toList) (.inr ⟨"logs/audit".toList, rfl⟩)
    (by decide) (by decide) (.inr (by decide)) (.inr (.inl (by decide)))

/-- The exceptions are needed. -/
theorem C40_exceptions : indexName "pod/zuul.log.1".toList ≠ indexName "pod/zuul.log".toList ∧
    indexName "k8s_zuul.log.2017-11-12".toList ≠ indexName "k8s_zuul.log".toList := by decide +kernel

theorem startsWith_cons_slash {d m pat : Str} (hd : '/' ∉ d) (hp : '/' ∉ pat) {q : Str} :
    startsWith (d ++ '/' :: m) (pat ++ '/' :: q) = true ↔ d = pat ∧ q <+: m := by
  rw [startsWith_iff]
  constructor
  · rintro ⟨t, ht⟩
    rw [List.append_assoc, List.cons_append] at ht
    have hlen : ∀ (d pat m r : Str), '/' ∉ d → '/' ∉ pat → d ++ '/' :: m = pat ++ '/' :: r → d = pat ∧ m = r := by
      intro d
      induction d with
      | nil =>
        intro pat m r _ hp h
        cases pat with
        | nil => simp at h; exact ⟨rfl, h⟩
        | cons c pat =>
          simp at h
          exact absurd (by rw [h.1]; simp) hp
      | cons c d ih =>
        intro pat m r hd hp h
        cases pat with
        | nil =>
          simp at h
          exact absurd (by rw [h.1]; simp) hd
        | cons c' pat =>
          simp only [List.cons_append, List.cons.injEq] at h
          obtain ⟨h1, h2⟩ := ih pat m r (fun hm => hd (by simp [hm])) (fun hm => hp (by simp [hm])) h.2
          exact ⟨by rw [h.1, h1], h2⟩
    obtain ⟨h1, h2⟩ := hlen d pat m (q ++ t) hd hp ht.symm
    exact ⟨h1, by rw [h2]; exact List.prefix_append _ _⟩
  · rintro ⟨rfl, t, rfl⟩
    exact ⟨t, by simp⟩

theorem shortPrefix_dir {a d : Str} (ha : Spec.Dir a) (hd : Spec.Normal d) (hh : ¬ Spec.SmallHash d) :
    shortPrefix (components (a ++ d ++ ['/'])) = d ++ ['/'] := by
  have e : components (a ++ d ++ ['/']) = components (a ++ d) := by
    unfold components
    rw [split_sep]
    cases hs : split '/' (a ++ d) with
    | nil => exact absurd hs (split_ne_nil _ _)
    | cons f r =>
      have e1 : f = [] → r ≠ [] := by
        rintro rfl rfl
        rcases ha with rfl | ⟨x, rfl⟩
        · rw [List.nil_append, split_no '/' hd.1] at hs
          simp only [List.cons.injEq, and_true] at hs
          exact hd.2.1 hs
        · rw [List.append_assoc, List.singleton_append, split_sep] at hs
          have := congrArg List.length hs
          simp only [List.length_append, List.length_cons, List.length_nil] at this
          have h1 := List.length_pos_iff.2 (split_ne_nil '/' x)
          have h2 := List.length_pos_iff.2 (split_ne_nil '/' d)
          omega
      by_cases hf : f = []
      · have := e1 hf
        simp [split, compOf, hf, this]
      · simp [split, compOf, hf]
  rw [e, components_dir ha hd]
  unfold shortPrefix
  rw [fileName_snoc]
  have hh' : isSmallHash d = false := by
    rw [← Bool.not_eq_true, isSmallHash_iff]; exact hh
  simp [hh']

theorem modelName_ordinary {d f : Str} (hd : Spec.Normal d) (ho : Spec.Ordinary d f) : modelName (d ++ '/' :: f) f = cleanName (d ++ '/' :: f) := by
  obtain ⟨h1, h2, h3, h4⟩ := ho
  unfold modelName
  rw [if_neg, if_neg]
  · have : isK8sService f = none := by
      unfold isK8sService
      rw [if_neg (by rw [startsWith_iff]; exact h3), if_neg (by rw [startsWith_iff]; exact h4)]
    rw [this]
  · intro hp
    exact h2 ((startsWith_cons_slash (q := []) hd.1 (by decide)).1 hp).1
  · intro hp
    have := (startsWith_cons_slash (pat := "qemu".toList) (q := "instance-".toList) hd.1 (by decide)).1 hp
    exact h1 this

/-- the name of an ordinary file in a directory -/
theorem indexName_ordinary {a d f : Str} (ha : Spec.Dir a) (hd : Spec.Normal d) (hf : Spec.Normal f) (hh : ¬ Spec.SmallHash d)
    (ho : Spec.Ordinary d f) : indexName (a ++ d ++ '/' :: f) = cleanName (d ++ '/' :: f) := by
  have e : a ++ d ++ '/' :: f = (a ++ d ++ ['/']) ++ f := by simp
  rw [e, indexName_dir (.inr ⟨a ++ d, rfl⟩) hf, shortPrefix_dir ha hd hh, List.append_assoc, List.singleton_append]
  exact modelName_ordinary hd ho

/-- Two ordinary files, in whatever directories, get the same name when their name with the directory
name differs only by digits or other characters than letters and `/._-`. -/
theorem C40_letters {a d f a' d' f' : Str} (ha : Spec.Dir a) (hd : Spec.Normal d) (hf : Spec.Normal f) (hh : ¬ Spec.SmallHash d)
    (ho : Spec.Ordinary d f) (ha' : Spec.Dir a') (hd' : Spec.Normal d') (hf' : Spec.Normal f') (hh' : ¬ Spec.SmallHash d')
    (ho' : Spec.Ordinary d' f')
    (hsame : (d ++ '/' :: f).filter (fun c => decide (Spec.Kept c)) = (d' ++ '/' :: f').filter fun c => decide (Spec.Kept c)) :
    indexName (a ++ d ++ '/' :: f) = indexName (a' ++ d' ++ '/' :: f') := by
  rw [indexName_ordinary ha hd hf hh ho, indexName_ordinary ha' hd' hf' hh' ho']
  unfold cleanName
  rw [keep_eq, keep_eq, hsame]

/-- A directory named by a hash between the directory and the file is ignored. -/
theorem C40_hash {a d h f : Str} (ha : Spec.Dir a) (hd : Spec.Normal d) (hf : Spec.Normal f) (hn : Spec.Normal h) (hdh : ¬ Spec.SmallHash d)
    (hh : Spec.SmallHash h) : indexName (a ++ d ++ '/' :: h ++ '/' :: f) = indexName (a ++ d ++ '/' :: f) := by
  have e1 : a ++ d ++ '/' :: h ++ '/' :: f = (a ++ d ++ '/' :: h ++ ['/']) ++ f := by simp
  have e2 : a ++ d ++ '/' :: f = (a ++ d ++ ['/']) ++ f := by simp
  rw [e1, e2, indexName_dir (.inr ⟨_, rfl⟩) hf, indexName_dir (.inr ⟨_, rfl⟩) hf, shortPrefix_dir ha hd hdh]
  have e3 : components (a ++ d ++ '/' :: h ++ ['/']) = components (a ++ d) ++ [.normal h] := by
    have key : ∀ s, s ≠ [] → components (s ++ ['/']) = components s := by
      intro s hs
      unfold components
      rw [split_sep]
      cases hsp : split '/' s with
      | nil => exact absurd hsp (split_ne_nil _ _)
      | cons f r =>
        by_cases hf : f = []
        · have hr : r ≠ [] := by
            rintro rfl
            subst hf
            cases s with
            | nil => exact hs rfl
            | cons c s =>
              rw [split_cons] at hsp
              split at hsp
              · simp only [List.cons.injEq, true_and] at hsp
                exact split_ne_nil _ _ hsp
              · split at hsp <;> simp at hsp
          simp [split, compOf, hf, hr]
        · simp [split, compOf, hf]
    rw [key _ (by simp)]
    have e4 : a ++ d ++ '/' :: h = (a ++ d) ++ '/' :: h := by simp
    rw [e4, components_snoc _ hn, key]
    simp [hd.2.1]
  rw [e3]
  have hh' : isSmallHash h = true := (isSmallHash_iff h).2 hh
  have : shortPrefix (components (a ++ d) ++ [.normal h]) = d ++ ['/'] := by
    unfold shortPrefix
    rw [fileName_snoc]
    simp only [hh', if_true]
    unfold parentStr
    rw [parent_snoc, Option.bind_some, components_dir ha hd, fileName_snoc]
    rfl
  rw [this]

example : indexName "a/config-update/015da2b/job.log".toList = indexName "a/config-update/job.log".toList :=
  C40_hash (a := "a/".toList) (d := "config-update".toList) (h := "015da2b".toList) (f := "job.log".toList) (.inr ⟨['a'], rfl⟩)
    (by decide) (by decide) (by decide) (by decide) (by decide)

/-! ### C41: index names are clean -/

theorem trimRevGz_suffix (s : Str) : trimRevGz s <:+ s := by
  induction h : s.length using Nat.strongRecOn generalizing s with
  | _ n ih =>
    unfold trimRevGz
    split
    · rename_i s'
      have := ih s'.length (by simp at h; omega) s' rfl
      exact this.trans ⟨['z', 'g', '.'], rfl⟩
    · exact List.suffix_refl _

theorem trimGz_prefix (s : Str) : trimGz s <+: s := by
  have := trimRevGz_suffix s.reverse
  unfold trimGz
  rw [← List.reverse_suffix, List.reverse_reverse]
  exact this

theorem trimRevGz_end (s t : Str) : trimRevGz s ≠ 'z' :: 'g' :: '.' :: t := by
  induction h : s.length using Nat.strongRecOn generalizing s with
  | _ n ih =>
    unfold trimRevGz
    split
    · rename_i s'
      exact ih s'.length (by simp at h; omega) s' rfl
    · rename_i hne
      intro e
      exact hne _ e

theorem trimBoth_sub (p : Char → Bool) (s : Str) : ∀ c ∈ trimBoth p s, c ∈ s := by
  intro c hc
  unfold trimBoth trimEnd trimStart at hc
  rw [List.mem_reverse] at hc
  have := (List.dropWhile_suffix p).subset hc
  rw [List.mem_reverse] at this
  exact (List.dropWhile_suffix p).subset this

/-- The name of an ordinary file has only letters and `/._-`, does not start with one of these symbols,
and does not end with `.gz`. -/
theorem C41_clean {a d f : Str} (ha : Spec.Dir a) (hd : Spec.Normal d) (hf : Spec.Normal f) (hh : ¬ Spec.SmallHash d) (ho : Spec.Ordinary d f) :
    (∀ c ∈ indexName (a ++ d ++ '/' :: f), Spec.Kept c) ∧
    (∀ c t, indexName (a ++ d ++ '/' :: f) = c :: t → Spec.Letter c) ∧
    ¬ ".gz".toList <:+ indexName (a ++ d ++ '/' :: f) := by
  rw [indexName_ordinary ha hd hf hh ho]
  have hk : ∀ c ∈ trimBoth isSymbol (keep (d ++ '/' :: f)), Spec.Kept c := by
    intro c hc
    have := trimBoth_sub _ _ c hc
    rw [keep_eq, List.mem_filter, decide_eq_true_eq] at this
    exact this.2
  refine ⟨?_, ?_, ?_⟩
  · intro c hc
    exact hk c ((trimGz_prefix _).subset hc)
  · intro c t h
    have hmem : Spec.Kept c := hk c ((trimGz_prefix _).subset (show c ∈ cleanName (d ++ '/' :: f) by rw [h]; simp))
    rw [letter_iff]
    refine ⟨hmem, ?_⟩
    have hp := trimGz_prefix (trimBoth isSymbol (keep (d ++ '/' :: f)))
    unfold cleanName at h
    rw [h] at hp
    -- the head of the trimmed string is the head of the part not dropped
    unfold trimBoth trimStart at hp
    have h2 : trimEnd isSymbol ((keep (d ++ '/' :: f)).dropWhile isSymbol) <+: (keep (d ++ '/' :: f)).dropWhile isSymbol := by
      unfold trimEnd
      rw [← List.reverse_suffix, List.reverse_reverse]
      exact List.dropWhile_suffix _
    have h3 := hp.trans h2
    obtain ⟨u, hu⟩ := h3
    have := List.head?_dropWhile_not isSymbol (keep (d ++ '/' :: f))
    rw [← hu] at this
    simpa using this
  · rintro ⟨u, hu⟩
    unfold cleanName trimGz at hu
    have := congrArg List.reverse hu
    rw [List.reverse_reverse, List.reverse_append] at this
    exact trimRevGz_end _ _ this.symm

/-- A compressed file gets the name of the file, when the name of the file ends with a letter.  What is
missing: `C41_false`. -/
theorem C41_gz_partial {dir name : Str} {c : Char} (hd : Spec.Dir dir) (hn : Spec.Normal (name ++ [c])) (hc : Spec.Letter c)
    (hpod : '-' ∈ name ∨ "pod".toList ∉ split '/' dir) :
    indexName (dir ++ (name ++ [c] ++ ".gz".toList)) = indexName (dir ++ (name ++ [c])) := by
  have hgz : (name ++ [c]) ++ ".gz".toList = (name ++ [c]) ++ '.' :: "gz".toList := rfl
  rw [hgz, indexName_dir hd (normal_suffix hn _ (by decide)), indexName_dir hd hn, ← List.append_assoc]
  unfold modelName
  rw [startsWith_append _ _ _ _ (by decide), startsWith_append _ _ _ _ (by decide), isK8s_suffix _ _ (.inr (.inl (by decide)))]
  split
  · rfl
  · split
    · rename_i hp
      have hdash : '-' ∈ name ++ [c] := by
        rcases hpod with h | h
        · simp [h]
        · exact absurd (pod_prefix hn.1 (startsWith_iff.1 hp)) h
      unfold takeUntilPodUuid
      rw [List.headD_eq_head?_getD, List.headD_eq_head?_getD, split_head '-' (List.mem_append_right _ hdash)]
      obtain ⟨x, hx⟩ : ∃ x, (split '-' (shortPrefix (components dir) ++ (name ++ [c]))).head? = some x := by
        cases h : split '-' (shortPrefix (components dir) ++ (name ++ [c])) with
        | nil => exact absurd h (split_ne_nil _ _)
        | cons p ps => exact ⟨p, rfl⟩
      rw [hx]; rfl
    · have hsym := ((letter_iff c).1 hc).2
      have hkc : keep [c] = [c] := by rw [keep_eq]; simp [((letter_iff c).1 hc).1]
      have key : cleanName (shortPrefix (components dir) ++ (name ++ [c]) ++ '.' :: "gz".toList) =
          cleanName (shortPrefix (components dir) ++ (name ++ [c])) := by
        unfold cleanName
        rw [keep_append, ← List.append_assoc, keep_append _ [c], hkc]
        have hkgz : keep ('.' :: "gz".toList) = ".gz".toList := by decide
        rw [hkgz]
        generalize keep (shortPrefix (components dir) ++ name) = x
        have hne : (x ++ [c]).dropWhile isSymbol ≠ [] := by
          rw [dropWhile_append]
          split
          · simp [hsym]
          · simp
        unfold trimBoth trimStart
        rw [dropWhile_append (x ++ [c]), if_neg hne]
        obtain ⟨y, hy⟩ : ∃ y, (x ++ [c]).dropWhile isSymbol = y ++ [c] := by
          rw [dropWhile_append]
          split
          · exact ⟨[], by simp [hsym]⟩
          · exact ⟨_, rfl⟩
        rw [hy]
        have e : y ++ [c] ++ ".gz".toList = (y ++ [c] ++ ['.', 'g']) ++ ['z'] := by simp
        rw [e, trimEnd_keep _ (by decide), trimEnd_keep _ hsym, ← e, trimGz_gz]
      rw [key]

/-- C41 does not hold in full: after a symbol or a digit, `.gz` matters. -/
theorem C41_false : indexName "logs/a-.gz".toList ≠ indexName "logs/a-".toList ∧ indexName "1.gz".toList ≠ indexName "1".toList := by decide +kernel

example : indexName "logs/audit/audit.log.gz".toList = indexName "logs/audit/audit.log".toList :=
  C41_gz_partial (dir := "logs/audit/".toList) (name := "audit.lo".toList) (c := 'g') (.inr ⟨"logs/audit".toList, rfl⟩)
    (by decide) (by decide) (.inr (by decide))

/-- All the files whose path is not UTF-8 have the same index name; below a directory, the program panics (`none`). -/
theorem C41_not_utf8 (n : Nat) : (Source.loc n none).indexName = if n = 0 then some "N/A".toList else none := by
  cases n with
  | zero => decide +kernel
  | succ n =>
    rw [if_neg (by omega)]
    show (sliceFrom [] (n + 1)).map LJ.Paths.indexName = none
    rfl

/-! ### C42: source filter -/

/-- The suffixes of the files which are skipped. -/
def skippedSuffixes : List String :=
  [".ico", ".png", ".clf", ".tar", ".tar.bzip2", ".subunit", ".sqlite", ".db", ".bin", ".pcap.log.txt", ".eot", ".otf", ".woff", ".woff2",
   ".ttf", ".yaml", ".ini", ".conf", "job-output.json", "log-classify.json", "zuul-manifest.json", ".html", "cacerts", "local/creds",
   "pacemaker/authkey", "mysql/tc.log.txt", "corosync/authkey", "object.builder", "account.builder", "container.builder"]

/-- A location is skipped exactly when it contains `/etc/` or ends with one of the suffixes, with or
without `.gz`. -/
theorem C42_valid (s : Str) : isValid s = false ↔
    "/etc/".toList <:+: s ∨ ∃ ext ∈ skippedSuffixes, ext.toList <:+ s ∨ ext.toList ++ ".gz".toList <:+ s := by
  unfold isValid
  rw [Bool.and_eq_false_iff, Bool.not_eq_false', contains_iff, List.all_eq_false, or_comm]
  apply or_congr_right
  unfold allExts EXTS
  constructor
  · rintro ⟨e, he, h⟩
    rw [Bool.not_eq_true, Bool.not_eq_false', endsWith_iff] at h
    obtain ⟨x, hx, he⟩ := List.mem_flatMap.1 he
    obtain ⟨ext, hext, rfl⟩ := List.mem_map.1 hx
    refine ⟨ext, hext, ?_⟩
    rcases List.mem_cons.1 he with rfl | he
    · exact .inl h
    · rw [List.mem_singleton] at he
      rw [he] at h
      exact .inr h
  · rintro ⟨ext, hext, h | h⟩
    · exact ⟨ext.toList, List.mem_flatMap.2 ⟨_, List.mem_map_of_mem hext, by simp⟩, by rw [endsWith_iff.2 h]; simp⟩
    · exact ⟨ext.toList ++ ".gz".toList, List.mem_flatMap.2 ⟨_, List.mem_map_of_mem hext, by simp⟩, by rw [endsWith_iff.2 h]; simp⟩

example : isValid "logs/a.png.gz".toList = false ∧ isValid "root/etc/passwd".toList = false ∧ isValid "logs/a.log".toList = true ∧
    isValid "logs/a.png.gz.gz".toList = true := by decide +kernel

/-! ### C43: compressed local files -/

theorem extension_no_dot {path e : Str} (h : extension path = some e) : '.' ∉ e := by
  unfold extension at h
  rw [Option.bind_eq_some_iff] at h
  obtain ⟨n, _, he⟩ := h
  unfold extensionOf at he
  split at he
  · rename_i ext before hs
    split at he
    · cases he
    · split at he
      · cases he
      · cases he
        have : e ∈ split '.' n := by rw [← List.mem_reverse, hs]; simp
        exact split_mem_no '.' n e this
  · cases he

/-- No path is ever decompressed, because the extension of a path has no dot. -/
theorem C43_never (gunzip : List UInt8 → List UInt8) (fs : Str → Option (List UInt8)) (path : Str) :
    (fromPath fs path).map (Reader.data gunzip) = fs path := by
  unfold fromPath
  cases h : fs path with
  | none => rfl
  | some fp =>
    simp only [Option.map_some]
    rw [if_neg]
    · rfl
    · intro he
      cases hx : extension path with
      | none => rw [hx] at he; cases he
      | some e =>
        have := extension_no_dot hx
        rw [hx, Option.getD_some] at he
        rw [he] at this
        exact this (by decide)

/-- What holds: a path without the extension `gz` is read as it is. -/
theorem C43_partial (gunzip : List UInt8 → List UInt8) (fs : Str → Option (List UInt8)) (path : Str)
    (_ : extension path ≠ some "gz".toList) : (fromPath fs path).map (Reader.data gunzip) = fs path :=
  C43_never gunzip fs path

/-- The full claim: a file with the extension `gz` is read decompressed. -/
def Spec.C43 : Prop := ∀ (gunzip : List UInt8 → List UInt8) (fs : Str → Option (List UInt8)) (path : Str), extension path = some "gz".toList →
  (fromPath fs path).map (Reader.data gunzip) = (fs path).map gunzip

/-- It does not hold: a gzip file whose decompressed data is empty is read as its compressed data. -/
theorem C43_false : ¬ Spec.C43 := fun h => by
  have := h (fun _ => []) (fun _ => some [31, 139]) "a/b.log.gz".toList (by decide +kernel)
  exact absurd this (by decide +kernel)

/-! ### C44: opening a remote source -/

/-- Opening a remote source panics exactly when it was found by listing and its URL has fewer than 42
bytes (URLs are ASCII). -/
theorem C44_partial (parse : Str → Option Str) (pre : Nat) (url : Str) (h : ∀ c ∈ url, c.utf8Size = 1) :
    urlOpen parse pre url = .panic ↔ pre ≠ 0 ∧ url.length < 42 := by
  unfold urlOpen
  by_cases hp : pre = 0
  · simp [hp]
  · rw [if_neg hp, sliceTo_ascii url 42 h]
    by_cases hl : 42 ≤ url.length
    · rw [if_pos hl]
      have : ¬ url.length < 42 := by omega
      simp only [this, and_false, iff_false]
      cases parse (url.take 42) <;> simp
    · rw [if_neg hl]
      simp [hp]; omega

/-- C44 does not hold in full: a file found below a short URL makes the program panic. -/
theorem C44_false (parse : Str → Option Str) : urlOpen parse 20 "http://example.com/a.log".toList = .panic := by
  rw [C44_partial _ _ _ (by decide +kernel)]
  decide

/-! ### C45: relative names -/

theorem join_spec {dir name : Str} (hd : dir ≠ []) (hs : ¬ ['/'] <:+ dir) : join dir name = dir ++ '/' :: name := by
  unfold join
  rw [if_neg]
  simp only [hd, decide_false, Bool.false_or]
  rw [endsWith_iff]
  exact hs

theorem last_noslash {dir n : Str} (hn1 : n ≠ []) (hn2 : '/' ∉ n) : ¬ ['/'] <:+ dir ++ n := by
  rintro ⟨t, ht⟩
  have h1 := congrArg List.getLast? ht
  rw [List.getLast?_append, List.getLast?_append] at h1
  cases hl : n.getLast? with
  | none => rw [List.getLast?_eq_none_iff] at hl; exact hn1 hl
  | some x =>
    rw [hl] at h1
    simp only [List.getLast?_singleton, Option.some_or, Option.some.injEq] at h1
    exact hn2 (by rw [h1]; exact List.mem_of_getLast? hl)

theorem foldl_join (dir : Str) (names : List Str) (hd : dir ≠ []) (hs : ¬ ['/'] <:+ dir) (hn : ∀ n ∈ names, n ≠ [] ∧ '/' ∉ n) :
    (names.map some).foldl joinStep (some dir) = some (dir ++ names.flatMap ('/' :: ·)) := by
  induction names generalizing dir with
  | nil => simp
  | cons n names ih =>
    rw [List.map_cons, List.foldl_cons]
    have e1 : joinStep (some dir) (some n) = some (dir ++ '/' :: n) := by
      show some (join dir n) = _
      rw [join_spec hd hs]
    rw [e1, ih]
    · simp
    · simp
    · obtain ⟨hn1, hn2⟩ := hn n (by simp)
      have e : dir ++ '/' :: n = (dir ++ ['/']) ++ n := by simp
      rw [e]
      exact last_noslash hn1 hn2
    · intro m hm
      exact hn m (by simp [hm])

/-- the path of an entry -/
theorem entryPath_names {dir : Str} {n : Str} {names : List Str} (hn : ∀ x ∈ n :: names, x ≠ [] ∧ '/' ∉ x) :
    entryPath dir ((n :: names).map some) = some (dir ++
      if dir = [] ∨ ['/'] <:+ dir then n ++ names.flatMap ('/' :: ·) else (n :: names).flatMap ('/' :: ·)) := by
  show ((n :: names).map some).foldl joinStep (some dir) = _
  by_cases hd : dir = [] ∨ ['/'] <:+ dir
  · rw [if_pos hd, List.map_cons, List.foldl_cons]
    have hj : join dir n = dir ++ n := by
      unfold join
      rw [if_pos]
      simpa only [Bool.or_eq_true, decide_eq_true_eq, endsWith_iff] using hd
    obtain ⟨hn1, hn2⟩ := hn n (by simp)
    have e1 : joinStep (some dir) (some n) = some (dir ++ n) := by
      show some (join dir n) = _
      rw [hj]
    rw [e1, foldl_join]
    · simp
    · simp [hn1]
    · exact last_noslash hn1 hn2
    · exact fun m hm => hn m (by simp [hm])
  · rw [if_neg hd]
    rw [not_or] at hd
    exact foldl_join dir (n :: names) hd.1 hd.2 hn

/-- The relative name of an entry of a local directory is its path below the directory: the names, each
after a slash; there is no first slash when the directory ends with one. -/
theorem C45_local {dir : Str} {n : Str} {names : List Str} (hn : ∀ x ∈ n :: names, x ≠ [] ∧ '/' ∉ x) :
    (dirSource dir ((n :: names).map some)).getRelative =
      some (if dir = [] ∨ ['/'] <:+ dir then n ++ names.flatMap ('/' :: ·) else (n :: names).flatMap ('/' :: ·)) := by
  unfold dirSource Source.getRelative
  rw [entryPath_names hn]
  exact sliceFrom_append _ _

/-- the directory itself, when it is a file -/
theorem C45_root (dir : Str) : (dirSource dir []).getRelative = some [] := by
  unfold dirSource Source.getRelative entryPath
  have := sliceFrom_append dir []
  rw [List.append_nil] at this
  exact this

/-- The relative name of a URL below the listed one. -/
theorem C45_remote_partial (url rest : Str) : (httpdirSource url (trimEnd (· == '/') url ++ '/' :: rest)).getRelative = some rest := by
  unfold httpdirSource Source.getRelative
  have := sliceFrom_append (trimEnd (· == '/') url ++ ['/']) rest
  rw [byteLen_append] at this
  have e : byteLen ['/'] = 1 := by decide
  rw [e, List.append_assoc, List.singleton_append] at this
  exact this

/-- C45 does not hold in full: a file name which is not UTF-8 makes the program panic, and so does a
listed URL which is shorter than the listed one (links are not restricted to it, `Verif/Crawler`). -/
theorem C45_false : (dirSource "logs".toList [none]).getRelative = none ∧
    (httpdirSource "http://example.com/logs/".toList "http://a.com/b".toList).getRelative = none := by decide +kernel

/-- exactly when a listed URL makes the program panic (URLs are ASCII) -/
theorem C45_panic (url u : Str) (h : byteLen u < byteLen (trimEnd (· == '/') url) + 1) : (httpdirSource url u).getRelative = none :=
  sliceFrom_none _ _ h

example : (dirSource "logs".toList (["a".toList, "b.txt".toList].map some)).getRelative = some "/a/b.txt".toList := by
  rw [C45_local (n := "a".toList) (names := ["b.txt".toList]) (by decide)]
  decide +kernel

/-! ### C46: inputs -/

/-- URLs are classified as URLs, and strings which do not start with `http` as paths; a path never makes
the program panic; a URL does exactly when it can't be parsed or the zuul recognition panics. -/
theorem C46_partial {Z : Type} (o : Outside Z) (s : Str) :
    ("http://".toList <+: s ∨ "https://".toList <+: s → Input.fromString s = .url s) ∧
    (¬ "http".toList <+: s → Input.fromString s = .path s ∧ fromInput o (Input.fromString s) ≠ .panic) ∧
    (fromInput o (Input.fromString s) = .panic → "http".toList <+: s ∧
      (o.parse s = none ∨ ∃ u, o.parse s = some u ∧ o.zuulUrl u = some .panic)) := by
  unfold Input.fromString
  refine ⟨?_, ?_, ?_⟩
  · intro h
    have : "http".toList <+: s := by
      rcases h with h | h
      · exact List.IsPrefix.trans (by decide) h
      · exact List.IsPrefix.trans (by decide) h
    rw [if_pos (startsWith_iff.2 this)]
  · intro h
    have hs : startsWith s "http".toList = false := by rw [← Bool.not_eq_true, startsWith_iff]; exact h
    rw [hs]
    refine ⟨rfl, ?_⟩
    show fromPathStr o s ≠ .panic
    unfold fromPathStr
    split
    · simp
    · split <;> simp
  · intro h
    by_cases hs : startsWith s "http".toList = true
    · refine ⟨startsWith_iff.1 hs, ?_⟩
      rw [if_pos hs] at h
      unfold fromInput at h
      cases hp : o.parse s with
      | none => exact .inl rfl
      | some u =>
        simp only [hp] at h
        refine .inr ⟨u, rfl, ?_⟩
        unfold fromUrl at h
        split at h
        · cases h
        · split at h
          · cases h
          · cases h
          · assumption
          · split at h <;> cases h
    · rw [if_neg hs] at h
      unfold fromInput fromPathStr at h
      simp only at h
      split at h
      · cases h
      · split at h <;> cases h

/-- C46 does not hold in full: the file `httpd.log` is taken for a URL, and the program panics since it
has no scheme. -/
theorem C46_false {Z : Type} (o : Outside Z) (hparse : ∀ s, ':' ∉ s → o.parse s = none) :
    Input.fromString "httpd.log".toList = .url "httpd.log".toList ∧ fromInput o (Input.fromString "httpd.log".toList) = .panic := by
  have e : Input.fromString "httpd.log".toList = .url "httpd.log".toList := by decide
  refine ⟨e, ?_⟩
  rw [e]
  simp only [fromInput, hparse _ (show ':' ∉ "httpd.log".toList by decide)]

/-- How existing paths and parsed URLs are classified. -/
theorem C46_contents {Z : Type} (o : Outside Z) (s u : Str) :
    (o.isDir s = true → fromInput o (.path s) = .ok (.directory (.loc 0 (some s)))) ∧
    (o.isDir s = false → o.isFile s = true → fromInput o (.path s) = .ok (.file (.loc 0 (some s)))) ∧
    (o.isDir s = false → o.isFile s = false → fromInput o (.path s) = .err) ∧
    (o.parse s = some u → o.hasAuthority u = false → fromInput o (.url s) = .err) ∧
    (o.parse s = some u → o.hasAuthority u = true → o.zuulUrl u = none →
      fromInput o (.url s) = .ok (if ['/'] <:+ u then .directory (.remote 0 u) else .file (.remote 0 u))) := by
  refine ⟨?_, ?_, ?_, ?_, ?_⟩
  · intro h; simp [fromInput, fromPathStr, h]
  · intro h h2; simp [fromInput, fromPathStr, h, h2]
  · intro h h2; simp [fromInput, fromPathStr, h, h2]
  · intro h h2; simp [fromInput, fromUrl, h, h2]
  · intro h h2 h3
    simp only [fromInput, fromUrl, h, h2, h3, Bool.not_true, Bool.false_eq_true, if_false]
    by_cases he : ['/'] <:+ u
    · rw [if_pos he, if_pos (endsWith_iff.2 he)]
    · rw [if_neg he, if_neg (by rw [endsWith_iff]; exact he)]

/-! ### C76: local listings -/

/-- The sources of a local directory are its regular files, in the order of the walk, without the
symbolic links; all the errors are kept. -/
theorem C76_listing {E : Type} (walk : List (Except E Entry)) :
    (∀ e, .error e ∈ dirIter walk ↔ .error e ∈ walk) ∧
    (∀ s, .ok s ∈ dirIter walk ↔ ∃ x, .ok x ∈ walk ∧ x.source = s ∧ x.file = true ∧ x.symlink = false) ∧
    (∃ sub : List (Except E Entry), sub.Sublist walk ∧ dirIter walk = sub.map fun e => e.map (·.source)) ∧
    (dirIter walk).length = walk.countP (fun | .ok x => x.file && !x.symlink | .error _ => true) := by
  unfold dirIter
  refine ⟨?_, ?_, ⟨walk.filter keepPath, List.filter_sublist, rfl⟩, ?_⟩
  · intro e
    rw [List.mem_map]
    constructor
    · rintro ⟨x, hx, h⟩
      cases x with
      | ok x => cases h
      | error e' => cases h; exact (List.mem_filter.1 hx).1
    · intro h
      exact ⟨.error e, List.mem_filter.2 ⟨h, rfl⟩, rfl⟩
  · intro s
    rw [List.mem_map]
    constructor
    · rintro ⟨x, hx, h⟩
      cases x with
      | error e => cases h
      | ok x =>
        cases h
        obtain ⟨h1, h2⟩ := List.mem_filter.1 hx
        simp only [keepPath, Bool.and_eq_true, Bool.not_eq_true'] at h2
        exact ⟨x, h1, rfl, h2.2, h2.1⟩
    · rintro ⟨x, h1, h2, h3, h4⟩
      exact ⟨.ok x, List.mem_filter.2 ⟨h1, by simp [keepPath, h3, h4]⟩, by rw [← h2]; rfl⟩
  · rw [List.length_map, ← List.countP_eq_length_filter]
    congr 1
    funext e
    cases e with
    | error e => rfl
    | ok x => simp only [keepPath, Bool.and_comm]

example : (dirIter (E := Nat) [.ok ⟨false, true, .loc 0 (some ['a'])⟩, .error 2, .ok ⟨true, true, .loc 0 (some ['b'])⟩]).length = 2 := by decide

/-! ### C77: discovering baselines -/

/-- Discovery never returns an empty list.  The baseline of a local file is the file with `.0`
appended; remote files and directories have none. -/
theorem C77_discover {Z : Type} (o : Outside Z) (zuul : Z → Res (List (Content Z))) (c : Content Z) :
    discoverBaselines o zuul c ≠ .ok [] ∧
    (∀ n p bs, c = .file (.loc n (some p)) → discoverBaselines o zuul c = .ok bs →
      (o.isDir (p ++ ".0".toList) = true ∧ bs = [.directory (.loc 0 (some (p ++ ".0".toList)))]) ∨
      (o.isFile (p ++ ".0".toList) = true ∧ bs = [.file (.loc 0 (some (p ++ ".0".toList)))])) ∧
    (∀ n p, c = .file (.loc n (some p)) → discoverBaselines o zuul c ≠ .panic) ∧
    (∀ n u, c = .file (.remote n u) → discoverBaselines o zuul c = .err) ∧
    (∀ s, c = .directory s → discoverBaselines o zuul c = .err) := by
  refine ⟨?_, ?_, ?_, ?_, ?_⟩
  · unfold discoverBaselines
    split
    · split <;> simp
    · simp
    · simp
    · simp
    · split <;> simp_all
  · rintro n p bs rfl h
    simp only [discoverBaselines, fromInput, fromPathStr] at h
    by_cases hd : o.isDir (p ++ ".0".toList) = true
    · rw [if_pos hd] at h
      cases h
      exact .inl ⟨hd, rfl⟩
    · rw [if_neg hd] at h
      by_cases hf : o.isFile (p ++ ".0".toList) = true
      · rw [if_pos hf] at h
        cases h
        exact .inr ⟨hf, rfl⟩
      · rw [if_neg hf] at h
        cases h
  · rintro n p rfl
    simp only [discoverBaselines, fromInput, fromPathStr]
    split
    · simp
    · simp
    · rename_i h
      split at h
      · cases h
      · split at h <;> cases h
  · rintro n u rfl; rfl
  · rintro s rfl; rfl

/-- What is discovered, in all the cases: for a file, the directory or the file with `.0` appended, when there is one; for a
build, what the API gives when it is not empty. -/
theorem C77_found {Z : Type} (o : Outside Z) (zuul : Z → Res (List (Content Z))) :
    (∀ n p, o.isDir (p ++ ".0".toList) = true →
      discoverBaselines o zuul (.file (.loc n (some p))) = .ok [.directory (.loc 0 (some (p ++ ".0".toList)))]) ∧
    (∀ n p, o.isDir (p ++ ".0".toList) = false → o.isFile (p ++ ".0".toList) = true →
      discoverBaselines o zuul (.file (.loc n (some p))) = .ok [.file (.loc 0 (some (p ++ ".0".toList)))]) ∧
    (∀ n p, o.isDir (p ++ ".0".toList) = false → o.isFile (p ++ ".0".toList) = false →
      discoverBaselines o zuul (.file (.loc n (some p))) = .err) ∧
    (∀ b bs, discoverBaselines o zuul (.zuul b) = .ok bs ↔ zuul b = .ok bs ∧ bs ≠ []) ∧
    ∀ b, (discoverBaselines o zuul (.zuul b) = .panic ↔ zuul b = .panic) ∧
      (discoverBaselines o zuul (.zuul b) = .err ↔ zuul b = .err ∨ zuul b = .ok []) := by
  refine ⟨?_, ?_, ?_, ?_, ?_⟩
  · intro n p h
    simp only [discoverBaselines, fromInput, fromPathStr, h, if_true]
  · intro n p h h'
    simp only [discoverBaselines, fromInput, fromPathStr, h, h', if_true, if_false, Bool.false_eq_true]
  · intro n p h h'
    simp only [discoverBaselines, fromInput, fromPathStr, h, h', if_false, Bool.false_eq_true]
  · intro b bs
    simp only [discoverBaselines]
    cases hz : zuul b with
    | ok l =>
      cases l with
      | nil => simp only [reduceCtorEq, Res.ok.injEq, false_iff]; rintro ⟨rfl, h⟩; exact h rfl
      | cons x l =>
        simp only [Res.ok.injEq]
        exact ⟨fun h => ⟨h, by rw [← h]; simp⟩, fun h => h.1⟩
    | err => simp
    | panic => simp
  · intro b
    simp only [discoverBaselines]
    cases hz : zuul b with
    | ok l => cases l <;> simp
    | err => simp
    | panic => simp

example : discoverBaselines (Z := Nat) ⟨fun _ => false, fun s => s == "a.log.0".toList, fun _ => none, fun _ => true, fun _ => none⟩
    (fun _ => .err) (.file (.loc 0 (some "a.log".toList))) = .ok [.file (.loc 0 (some "a.log.0".toList))] := by decide

end LJ.Paths

/-
C125: C03, C05 and C07 for every schedule of reads, over-long lines included: what exactly is lost, damaged and kept.

`Spec.seen` says which content is seen through the iterator; the lines which are yielded are those of that content.
-/
import Verif.Iterator.Exact
namespace LJ.Iterator
open Spec
variable {ε : Type}

theorem at_start (json : Bool) : At json [] [] ⟨false, if json then some false else none⟩ 1 := by
  refine ⟨rfl, fun fut => ?_⟩
  cases json <;> rfl

theorem allLines_watched {checks json : Bool} {blocks : List Bytes} {fin : Reader ε} {x : Except ε Bytes} {r : Reader ε} (hb : Blocks blocks)
    (hfin : fin.read 8192 = (x, r)) (hx : ∀ bs, x = .ok bs → bs = []) :
    allLines (build checks) json (blocks.map .data ++ fin) =
      ending 6000 (watched checks json [] blocks x).2 (pieces json (watched checks json [] blocks x).1) := by
  have hr := new_rinv (build checks) (blocks.map .data ++ fin) json
  rw [allLines, drain_drainRun hr (by simp [BL.new])]
  obtain ⟨q, _, h1, h2⟩ := exactCore (cfg := build checks) rfl rfl (json := json) (f := .getSlice) (s := BL.new (blocks.map .data ++ fin) json)
    (blocks := blocks) (p := []) (c := []) (ps := []) (at_start json) (hr (by simp [BL.new])) ⟨rfl, rfl⟩ rfl hb hfin hx
  rw [h2]
  rw [List.nil_append] at h1
  have e : (build checks).overflowChecks = checks := rfl
  rw [e] at h1 ⊢
  rw [h1]
  rfl

theorem allLines_exact {json : Bool} {blocks : List Bytes} {fin : Reader ε} {x : Except ε Bytes} {r : Reader ε} (hb : Blocks blocks)
    (hfin : fin.read 8192 = (x, r)) (hx : ∀ bs, x = .ok bs → bs = []) :
    allLines (build false) json (blocks.map .data ++ fin) = expected 6000 x (pieces json (seen json [] blocks)) :=
  allLines_watched hb hfin hx

/-- C125 (C05, C03), for every schedule in a release build: the iterator yields exactly the lines of the content seen, with their numbers in it,
and ends normally. -/
theorem C125_exact (ε : Type) (json : Bool) (reads : List Bytes) (hb : Blocks reads) :
    allLines (ε := ε) (build false) json (fromReads reads) = (lines json 6000 (seen json [] reads), .finished) := by
  have := allLines_exact (ε := ε) (json := json) (fin := []) (x := .ok []) (r := []) hb rfl (by simp)
  simpa [fromReads, expected, lines] using this

theorem blocks_cons {b : Bytes} {bs : List Bytes} (h0 : b ≠ []) (h1 : b.length ≤ 8192) (h : Blocks bs) : Blocks (b :: bs) := by
  intro x hx
  rcases List.mem_cons.1 hx with rfl | hx
  · exact ⟨h0, h1⟩
  · exact h x hx

theorem blocks_long (n : Nat) (h0 : 0 < n) (h1 : n ≤ 8192) (x : UInt8) {bs : List Bytes} (h : Blocks bs) : Blocks (List.replicate n x :: bs) :=
  blocks_cons (List.ne_nil_of_length_pos (by rw [List.length_replicate]; exact h0)) (by rw [List.length_replicate]; exact h1) h

/-- Non-vacuity of C125_exact: an over-long line, and a line which is lost because of the zeros in it (`C05_neighbour_lost`). -/
example (xs : Bytes) (hx : xs = List.replicate 8192 120) :
    lines false 6000 (seen false [] [xs, ascii "y\nab", ascii "cd\nlast\n"]) = [(ascii "last", 3)] := by
  have hb : Blocks [xs, ascii "y\nab", ascii "cd\nlast\n"] := by
    rw [hx]; exact blocks_long 8192 (by omega) (by omega) 120 (by unfold Blocks; decide)
  have h := C05_neighbour_lost
  rw [← hx, C125_exact Unit false _ hb] at h
  exact congrArg Prod.fst h

/-- C125 (C07), for every schedule in a release build: before an error, exactly the lines terminated in the content seen. -/
theorem C125_error (json : Bool) (reads : List Bytes) (hb : Blocks reads) (e : ε) (after : Reader ε) :
    allLines (build false) json (fromReads reads ++ .err e :: after) = (keep 6000 (pieces json (seen json [] reads)).dropLast, .failed e) := by
  have := allLines_exact (json := json) (fin := .err e :: after) (x := .error e) (r := after) hb rfl (by simp)
  simpa [fromReads, expected] using this

example (xs : Bytes) (hx : xs = List.replicate 8192 120) :
    keep 6000 (pieces false (seen false [] [xs, ascii "y\nab", ascii "cd\n"])).dropLast = [] := by
  have hb : Blocks [xs, ascii "y\nab", ascii "cd\n"] := by
    rw [hx]; exact blocks_long 8192 (by omega) (by omega) 120 (by unfold Blocks; decide)
  have h := C07_line_lost_before_error
  rw [← hx, C125_error false _ hb] at h
  exact congrArg Prod.fst h

/-- C125 (C08). In a debug build: a panic exactly when a line which is over the limit at the end of a read ends with the two characters
`\\n`, cut by the end of that read; the lines yielded before are those terminated in the content seen until then.  Else the lines, the end and
the error are those of a release build. -/
theorem C125_debug (json : Bool) (reads : List Bytes) (hb : Blocks reads) (after : Reader ε) (hafter : after = [] ∨ ∃ e r, after = .err e :: r) :
    allLines (build true) json (fromReads reads ++ after) =
      match stop json [] reads with
      | some c => (keep 6000 (pieces json c).dropLast, .panicked)
      | none => allLines (build false) json (fromReads reads ++ after) := by
  obtain ⟨x, r, hfin, hx⟩ : ∃ x r, Reader.read 8192 after = (x, r) ∧ ∀ bs, x = .ok bs → bs = [] := by
    rcases hafter with rfl | ⟨e, r, rfl⟩
    · exact ⟨_, _, rfl, by simp⟩
    · exact ⟨_, _, rfl, by simp⟩
  have h1 := allLines_watched (checks := true) (json := json) hb hfin hx
  have h2 := allLines_watched (checks := false) (json := json) hb hfin hx
  unfold fromReads
  rw [h1, h2]
  unfold watched
  cases stop json [] reads <;> rfl

/-- Non-vacuity: a line of 6001 bytes whose `\\n` is cut; a debug build panics, a release build drops the line. -/
example (xs : Bytes) (hx : xs = List.replicate 6000 120) :
    stop false [] [xs ++ ['\\'.toUInt8], ascii "nb"] = some (xs ++ ['\\'.toUInt8]) ∧
    allLines (ε := Unit) (build true) false (fromReads [xs ++ ['\\'.toUInt8], ascii "nb"] ++ []) = ([], .panicked) := by
  have hs : scan ⟨false, none⟩ xs 0 = (⟨false, none⟩, none) := by rw [hx]; decide +kernel
  have hxl : xs.length = 6000 := by rw [hx, List.length_replicate]
  clear hx
  have hs2 : scan ⟨false, none⟩ (xs ++ ['\\'.toUInt8]) 0 = (⟨true, none⟩, none) := by rw [scan_append hs]; rfl
  have h1 := at_rest (at_start false) hs2
  have h2 := halved_eq (at_start false) hs2 (ascii "nb")
  have h3 := at_open (at_start false) hs2 []
  rw [List.nil_append] at h1 h2 h3
  rw [List.append_nil, splitL_nil] at h3
  have hst : stop false [] [xs ++ ['\\'.toUInt8], ascii "nb"] = some (xs ++ ['\\'.toUInt8]) := by
    rw [stop, if_pos (by decide), List.nil_append, stop, h1, if_neg (by simp [hxl]), h2, if_pos (by decide)]
  have hb : Blocks [xs ++ ['\\'.toUInt8], ascii "nb"] := by
    intro b h
    rcases List.mem_cons.1 h with rfl | h
    · exact ⟨by simp, by simp [hxl]⟩
    · rcases List.mem_cons.1 h with rfl | h
      · decide
      · cases h
  refine ⟨hst, ?_⟩
  rw [C125_debug false _ hb [] (.inl rfl), hst]
  simp only [h3]
  rfl

/-- The content seen is the content when no line is over the limit at the end of a read. -/
theorem seen_flatten (json : Bool) (c : Bytes) (reads : List Bytes)
    (h : ∀ k, k < reads.length → (rest json (c ++ (reads.take k).flatten)).length ≤ 6000) : seen json c reads = c ++ reads.flatten := by
  induction reads generalizing c with
  | nil => simp [seen]
  | cons b bs ih =>
    have h0 := h 0 (by simp)
    simp only [List.take_zero, List.flatten_nil, List.append_nil] at h0
    rw [seen, if_pos h0, ih]
    · simp
    · intro k hk
      have := h (k + 1) (by simp; omega)
      simpa using this

theorem seen_append (json : Bool) (c : Bytes) (r1 r2 : List Bytes) : seen json c (r1 ++ r2) = seen json (seen json c r1) r2 := by
  induction r1 generalizing c with
  | nil => rfl
  | cons b bs ih => simp only [List.cons_append, seen]; split <;> exact ih _

/-- Where the line being read begins. -/
theorem at_exists (json : Bool) (c : Bytes) :
    ∃ p cur ps l0 l1 n, c = p ++ cur ∧ At json p ps l0 n ∧ scan l0 cur 0 = (l1, none) ∧ l0.splitJson.isSome = json := by
  suffices h : ∀ (xs : Bytes) (p cur : Bytes) ps l0 l1 n, At json p ps l0 n → scan l0 cur 0 = (l1, none) →
      l0.splitJson.isSome = json →
      ∃ p' cur' ps' l0' l1' n', p ++ cur ++ xs = p' ++ cur' ∧ At json p' ps' l0' n' ∧ scan l0' cur' 0 = (l1', none) ∧
        l0'.splitJson.isSome = json by
    obtain ⟨p, cur, ps, l0, l1, n, h1, h2, h3, h4⟩ := h c [] [] [] _ _ 1 (at_start json) rfl (by cases json <;> rfl)
    exact ⟨p, cur, ps, l0, l1, n, by simpa using h1, h2, h3, h4⟩
  intro xs
  induction xs with
  | nil => intro p cur ps l0 l1 n h1 h2 h5; exact ⟨p, cur, ps, l0, l1, n, by simp, h1, h2, h5⟩
  | cons x xs ih =>
    intro p cur ps l0 l1 n h1 h2 h5
    rcases hl : lexByte l1 x with ⟨l2, _ | sep⟩
    · have : scan l0 (cur ++ [x]) 0 = (l2, none) := by rw [scan_append h2]; simp [scan, hl]
      have := ih p (cur ++ [x]) ps l0 l2 n h1 this h5
      simpa using this
    · have hs : scan l1 [x] 0 = (l2, some (0, sep)) := by simp [scan, hl]
      have h3 := at_sep h1 h2 hs
      have := ih _ [] _ _ _ _ h3 rfl (by rw [scan_none_json hs, scan_none_json h2, h5])
      simpa using this

theorem at_dropLast {json : Bool} {p cur : Bytes} {ps : List (Bytes × Nat)} {l l1 : Lex} {n i : Nat} (h : At json p ps l n)
    (hs : scan l cur i = (l1, none)) : (pieces json (p ++ cur)).dropLast = ps := by
  have := at_open h hs []
  rw [List.append_nil, splitL_nil] at this
  simp [this]

/-- The lines which are terminated stay. -/
theorem seen_prefix (json : Bool) (c : Bytes) (reads : List Bytes) : (pieces json c).dropLast <+: (pieces json (seen json c reads)).dropLast := by
  induction reads generalizing c with
  | nil => exact List.prefix_rfl
  | cons b bs ih =>
    obtain ⟨p, cur, ps, l0, l1, n, rfl, hat, hs, _⟩ := at_exists json c
    have key : ∀ (y fut : Bytes), (∃ ly, scan l0 y 0 = (ly, none)) → ps <+: (pieces json (p ++ y ++ fut)).dropLast := by
      rintro y fut ⟨ly, hy⟩
      rw [at_open hat hy, List.dropLast_append_of_ne_nil (by unfold splitL; exact split_ne_nil _ _ _ _ _ _)]
      exact List.prefix_append _ _
    rw [at_dropLast hat hs, seen]
    split
    · exact (key cur b ⟨_, hs⟩).trans (ih _)
    · refine List.IsPrefix.trans ?_ (ih _)
      rw [at_longer hat hs]
      exact key (0 :: cur) _ ⟨l1, by rw [scan_zero hat.1]; exact scan_none_shift hs _⟩

/-- C125. Nothing which ends before the first over-long line is lost, damaged or renumbered: while no line is over the limit at the end of a
read, the lines terminated in the data read are the first ones yielded, whatever comes then. -/
theorem C125_before (ε : Type) (json : Bool) (reads more : List Bytes) (hb : Blocks (reads ++ more)) (hno : NoOverflow json 6000 reads) :
    keep 6000 (pieces json reads.flatten).dropLast <+: (allLines (ε := ε) (build false) json (fromReads (reads ++ more))).1 := by
  rw [C125_exact ε json _ hb, seen_append, seen_flatten json [] reads (by simpa [NoOverflow] using hno), List.nil_append]
  have h := (seen_prefix json reads.flatten more).trans (List.dropLast_prefix _)
  exact h.filter _

/-- Two lines, then one which never ends. -/
example (more : List Bytes) (hb : Blocks ([ascii "a\nb\n"] ++ List.replicate 8192 120 :: more)) :
    [(ascii "a", 1), (ascii "b", 2)] <+:
      (allLines (ε := Unit) (build false) false (fromReads ([ascii "a\nb\n"] ++ List.replicate 8192 120 :: more))).1 :=
  C125_before Unit false [ascii "a\nb\n"] (List.replicate 8192 120 :: more) hb (by unfold NoOverflow; decide)

/-- The lines of a plain text after the end of a line do not depend on what is before, but for their numbers. -/
theorem split_shift (esc inStr json : Bool) (cur : Bytes) (n d : Nat) (xs : Bytes) :
    split json esc inStr cur (n + d) xs = (split json esc inStr cur n xs).map fun q => (q.1, q.2 + d) := by
  induction xs generalizing esc inStr cur n with
  | nil => simp [split]
  | cons x xs ih =>
    have e : n + d + 1 = n + 1 + d := by omega
    simp only [split, e, ih]
    repeat' split
    all_goals simp

/-- The number of the line being read. -/
def lineNo (json : Bool) (c : Bytes) : Nat := ((pieces json c).getLastD ([], 0)).2

/-- C125 (C05, C03). The iterator recovers: once the end of a line is the end of what is seen, every line of the rest of a plain text is yielded
unchanged, numbered from the number reached there, until the next over-long line. -/
theorem C125_after (ε : Type) (reads more : List Bytes) (hb : Blocks (reads ++ more)) (hend : rest false (seen false [] reads) = [])
    (hno : NoOverflow false 6000 more) :
    (allLines (ε := ε) (build false) false (fromReads (reads ++ more))).1 =
      (allLines (ε := ε) (build false) false (fromReads reads)).1 ++
        (lines false 6000 more.flatten).map fun q => (q.1, q.2 + (lineNo false (seen false [] reads) - 1)) := by
  have hb1 : Blocks reads := fun b h => hb b (by simp [h])
  rw [C125_exact ε false _ hb, C125_exact ε false _ hb1, seen_append]
  generalize seen false [] reads = c at hend ⊢
  obtain ⟨p, cur, ps, l0, l1, n, rfl, hat, hs, hj⟩ := at_exists false c
  rw [at_rest hat hs] at hend
  subst hend
  rw [List.append_nil]
  have hn : lineNo false p = n := by
    have := hat.2 []
    rw [List.append_nil, splitL_nil] at this
    simp [lineNo, this]
  have hpos : 1 ≤ n := by
    have h2 := hat.2 []
    rw [splitL_nil] at h2
    have : ∀ (json esc inStr : Bool) (cur : Bytes) (k : Nat) (xs : Bytes), ∀ q ∈ split json esc inStr cur k xs, k ≤ q.2 := by
      intro json esc inStr cur k xs
      induction xs generalizing esc inStr cur k with
      | nil => simp [split]
      | cons x xs ih =>
        intro q hq
        simp only [split] at hq
        repeat' split at hq
        all_goals first
          | exact ih _ _ _ _ q hq
          | (rcases List.mem_cons.1 hq with rfl | hq
             · exact Nat.le_refl _
             · exact Nat.le_trans (by omega) (ih _ _ _ _ q hq))
    have hm : (([] : Bytes), n) ∈ pieces false (p ++ []) := by rw [h2]; simp
    exact this _ _ _ _ _ _ _ hm
  have hl : l0 = ⟨false, none⟩ := by
    rcases l0 with ⟨e, js⟩
    have h1 := hat.1
    simp only at h1 hj
    cases js with
    | none => rw [h1]
    | some _ => cases hj
  have hp : ∀ fut, pieces false (p ++ fut) = ps ++ (pieces false fut).map fun q => (q.1, q.2 + (n - 1)) := by
    intro fut
    have h2 := hat.2 fut
    rw [hl] at h2
    have e : n = 1 + (n - 1) := by omega
    rw [h2, splitL, e, split_shift, Nat.add_sub_cancel_left]
    rfl
  have hrest : ∀ fut, rest false (p ++ fut) = rest false fut := by
    intro fut
    unfold rest
    rw [hp]
    have hne : pieces false fut ≠ [] := split_ne_nil _ _ _ _ _ _
    simp only [List.getLastD_eq_getLast?, List.getLast?_append, List.getLast?_map]
    rw [List.getLast?_eq_some_getLast hne]
    rfl
  have h0 : pieces false p = ps ++ [([], n)] := by
    have := hat.2 []
    rwa [List.append_nil, splitL_nil] at this
  rw [seen_flatten false p more (fun k hk => by rw [hrest]; exact hno k hk), hn]
  simp only [lines, hp, h0, keep, List.filter_append, List.filter_map]
  simp
  rfl

/-- Non-vacuity: the read in which an over-long line ends is full; all the rest of it is lost, then the lines are yielded again. -/
example (xs ys : Bytes) (hx : xs = List.replicate 8192 120) (hy : ys = List.replicate 8191 121) :
    (allLines (ε := Unit) (build false) false (fromReads ([xs, LF :: ys] ++ [ascii "b\nc\n"]))).1 = [(ascii "b", 2), (ascii "c", 3)] := by
  have hs : scan ⟨false, none⟩ xs 0 = (⟨false, none⟩, none) := by rw [hx]; decide +kernel
  have hxl : xs.length = 8192 := by rw [hx, List.length_replicate]
  have hyl : ys.length = 8191 := by rw [hy, List.length_replicate]
  clear hx hy
  have h1 := at_rest (at_start false) hs
  have h2 := at_longer (at_start false) hs
  have h3 := upTo_some (at_start false) hs (xs := LF :: ys) (j := 0) (k := 0) (l2 := ⟨false, none⟩) (sep := .newLine) rfl
  rw [List.nil_append] at h1 h2 h3
  have hseen : seen false [] [xs, LF :: ys] = [] ++ 0 :: xs ++ [LF] := by
    rw [seen, if_pos (by decide), List.nil_append, seen, h1, if_neg (by omega), seen, h2, damaged,
      if_pos (by rw [List.length_cons, hyl]), h3, List.nil_append]
    rfl
  have hs' : scan ⟨false, none⟩ (0 :: xs) 0 = (⟨false, none⟩, none) := by rw [scan_zero rfl]; exact scan_none_shift hs _
  have h4 := at_sep (at_start false) hs' (xs := [LF]) (j := 0) (k := 0) (l2 := ⟨false, none⟩) (sep := .newLine) rfl
  have h5 := at_rest h4 (cur := []) (i := 0) rfl
  have hp := h4.2 []
  simp only [Nat.sub_self, Nat.zero_add, List.take_succ_cons, List.take_zero, List.append_nil] at h5 hp
  rw [splitL_nil] at hp
  have hno : lineNo false ([] ++ 0 :: xs ++ [LF]) = 2 := by
    unfold lineNo
    rw [hp]
    rfl
  have hblocks : Blocks ([xs, LF :: ys] ++ [ascii "b\nc\n"]) :=
    blocks_cons (List.ne_nil_of_length_pos (by omega)) (by omega)
      (blocks_cons (List.cons_ne_nil _ _) (by rw [List.length_cons]; omega) (by unfold Blocks; decide))
  rw [C125_after Unit _ [ascii "b\nc\n"] hblocks (by rw [hseen]; exact h5) (by unfold NoOverflow; decide), hseen, hno,
    C125_exact Unit false _ (fun b h => hblocks b (List.mem_append.2 (.inl h))), hseen]
  have : lines false 6000 ([] ++ 0 :: xs ++ [LF]) = [] := by
    rw [lines, hp, keep]
    simp [hxl]
  rw [this]
  decide

end LJ.Iterator

/-
Properties of the line iterator (C01–C08).

`build checks` is `BytesLines` with its real constants (8192 byte reads, 6000 byte lines), compiled
with or without overflow checks.  A schedule is the list `reads` of the blocks returned by the
successive `read` calls (`Spec.Blocks`: 1 to 8192 bytes each); `allLines` is everything a
`for line in BytesLines::new(reader, json)` loop gets, and how it ends.
-/
import Verif.Iterator.Extra
import Verif.Iterator.Eval
namespace LJ.Iterator
open Spec

/-- The configuration of `BytesLines::new`. -/
def build (checks : Bool) : Cfg := ⟨8192, 6000, checks⟩

/-- A reader that returns the blocks and then stays at end of file. -/
def fromReads (reads : List Bytes) : Reader ε := reads.map .data

/-! ### C02, C03: what the lines are -/

/-- C02. Under any schedule without overflow, the iterator yields exactly the lines of the
specification and ends normally, in debug and release builds. -/
theorem C02_lines_spec (ε : Type) (checks json : Bool) (reads : List Bytes) (hb : Blocks reads)
    (hno : NoOverflow json 6000 reads) :
    allLines (ε := ε) (build checks) json (fromReads reads) =
      (lines json 6000 reads.flatten, .finished) := by
  have := allLines_core (ε := ε) (cfg := build checks) (json := json) (blocks := reads) (fin := [])
    (x := .ok []) (r := []) hb rfl (by simp) hno
  simpa [fromReads, expected, lines, build] using this

/-- C02. The pieces of the specification are the content cut at its separators: putting the
separators back gives the content.  C03: the number of a piece is one plus the number of line
returns cut before it. -/
theorem C02_C03_pieces_are_the_content (json : Bool) (content : Bytes) :
    ∃ seps : List Bytes,
      (pieces json content).length = seps.length + 1 ∧
      (∀ s ∈ seps, IsSep json s) ∧
      weave ((pieces json content).map (·.1)) seps = content ∧
      (∀ (i : Nat) (p : Bytes × Nat), (pieces json content)[i]? = some p →
        p.2 = 1 + (seps.take i).count ['\n'.toUInt8]) := by
  exact weave_split json false false [] 1 content (by simp)

theorem split_plain (cur : Bytes) (ln : Nat) (content : Bytes)
    (h : '\\'.toUInt8 ∉ content) (hc : '\n'.toUInt8 ∉ cur) :
    (∀ p ∈ split false false false cur ln content, '\n'.toUInt8 ∉ p.1) ∧
    List.intercalate ['\n'.toUInt8] ((split false false false cur ln content).map (·.1)) =
      cur ++ content ∧
    ∀ (i : Nat) (p : Bytes × Nat), (split false false false cur ln content)[i]? = some p → p.2 = ln + i := by
  induction content generalizing cur ln with
  | nil =>
    refine ⟨by simpa [split] using hc, by simp [split, List.intercalate], ?_⟩
    intro i p h
    cases i <;> simp [split] at h
    simp [← h]
  | cons c cs ih =>
    have hc1 : ¬ (c = '\\'.toUInt8) := fun h' => h (by simp [h'])
    have hcs : '\\'.toUInt8 ∉ cs := fun h' => h (by simp [h'])
    by_cases hl : c = '\n'.toUInt8
    · have e : split false false false cur ln (c :: cs) =
          (cur, ln) :: split false false false [] (ln + 1) cs := by
        rw [split.eq_2, if_neg (by simp), if_neg hc1, if_pos hl]
      rw [e]
      obtain ⟨h1, h2, h3⟩ := ih [] (ln + 1) hcs (by simp)
      refine ⟨?_, ?_, ?_⟩
      · intro p hp
        rcases List.mem_cons.1 hp with rfl | hp
        · exact hc
        · exact h1 p hp
      · have hne := split_ne_nil false false false [] (ln + 1) cs
        generalize split false false false [] (ln + 1) cs = ps at hne h2
        cases ps with
        | nil => exact absurd rfl hne
        | cons q qs =>
          simp only [List.map_cons, List.intercalate, List.intersperse_cons_cons, List.flatten_cons] at h2 ⊢
          rw [h2, hl]; simp
      · intro i p hp
        cases i with
        | zero => simp at hp; simp [← hp]
        | succ i =>
          have := h3 i p (by simpa using hp)
          omega
    · have e : split false false false cur ln (c :: cs) =
          split false false false (cur ++ [c]) ln cs := by
        rw [split.eq_2, if_neg (by simp), if_neg hc1, if_neg hl]
        simp
      rw [e]
      have := ih (cur ++ [c]) ln hcs (by
        intro h'
        rcases List.mem_append.1 h' with h' | h'
        · exact hc h'
        · exact hl (by simpa using Eq.symm (List.mem_singleton.1 h')))
      simpa using this

/-- C02/C03 for ordinary text (no backslash, plain mode): the pieces are the text split on line
returns, numbered 1, 2, 3, … -/
theorem C02_C03_plain_text (content : Bytes) (h : '\\'.toUInt8 ∉ content) :
    (∀ p ∈ pieces false content, '\n'.toUInt8 ∉ p.1) ∧
    List.intercalate ['\n'.toUInt8] ((pieces false content).map (·.1)) = content ∧
    ∀ (i : Nat) (p : Bytes × Nat), (pieces false content)[i]? = some p → p.2 = 1 + i := by
  simpa [pieces] using split_plain [] 1 content h (by simp)

/-! ### C01: schedule independence -/

/-- C01. Two schedules of the same content that never overflow give the same lines and numbers. -/
theorem C01_schedule_independent (ε : Type) (checks json : Bool) (reads reads' : List Bytes)
    (hsame : reads.flatten = reads'.flatten) (hb : Blocks reads) (hb' : Blocks reads')
    (hno : NoOverflow json 6000 reads) (hno' : NoOverflow json 6000 reads') :
    allLines (ε := ε) (build checks) json (fromReads reads) =
      allLines (build checks) json (fromReads reads') := by
  rw [C02_lines_spec ε checks json reads hb hno, C02_lines_spec ε checks json reads' hb' hno', hsame]

/-- C01, without any condition on the schedules: when every piece of the content is shorter than
6000 bytes, all the schedules give the same lines. -/
theorem C01_short_lines (ε : Type) (checks json : Bool) (reads reads' : List Bytes)
    (hsame : reads.flatten = reads'.flatten) (hb : Blocks reads) (hb' : Blocks reads')
    (hshort : ∀ p ∈ pieces json reads.flatten, p.1.length < 6000) :
    allLines (ε := ε) (build checks) json (fromReads reads) =
      allLines (build checks) json (fromReads reads') :=
  C01_schedule_independent ε checks json reads reads' hsame hb hb'
    (noOverflow_of_short hshort) (noOverflow_of_short (hsame ▸ hshort))

/-- Non-vacuity: a content with all the separators, read in two different ways. -/
example : allLines (ε := Unit) (build true) true (fromReads [ascii "{\"a,b\": 1\\n2,\n\nx", ascii "y]\nz"]) =
    ([(ascii "\"a,b\": 1", 1), (ascii "2", 1), (ascii "xy", 3), (ascii "z", 4)], .finished) :=
  allLines_of_drainN (n := 20) (by decide +kernel)

example : ∀ p ∈ pieces true (ascii "{\"a,b\": 1\\n2,\n\nxy]\nz"), p.1.length < 6000 := by decide +kernel

/-- The sizes and numbers of the lines. -/
def sizes {ε : Type} (r : List (Bytes × Nat) × End ε) : List (Nat × Nat) × End ε :=
  (r.1.map fun p => (p.1.length, p.2), r.2)

/-- Why the schedule condition is there (6000 is a hard edge): a 6000 byte line followed by a
backslash-n separator is yielded when read at once … -/
theorem C01_edge_one_read : sizes (allLines (ε := Unit) (build false) false
    (fromReads [List.replicate 6000 120 ++ ascii "\\nab\n"])) =
      ([(6000, 1), (2, 1)], .finished) :=
  allLines_summary (n := 6) sizes (by decide +kernel)

/-- … and silently dropped when a read ends between the two bytes. -/
theorem C01_edge_two_reads : allLines (ε := Unit) (build false) false
    (fromReads [List.replicate 6000 120 ++ ascii "\\", ascii "nab\n"]) = ([(ascii "ab", 1)], .finished) :=
  allLines_of_drainN (n := 8) (by decide +kernel)

/-! ### C03: line numbers -/

/-- C03, the part that holds (the full statement, for every schedule, is false: see
`C03_C05_full_read_lost`). Under a schedule without overflow every yielded line carries one plus the number of line
returns before it. -/
theorem C03_line_numbers_partial (ε : Type) (checks json : Bool) (reads : List Bytes) (hb : Blocks reads)
    (hno : NoOverflow json 6000 reads) :
    ∃ ps : List (Bytes × Nat), ∃ seps : List Bytes,
      ps.length = seps.length + 1 ∧ (∀ s ∈ seps, IsSep json s) ∧
      weave (ps.map (·.1)) seps = reads.flatten ∧
      (∀ (i : Nat) (p : Bytes × Nat), ps[i]? = some p →
        p.2 = 1 + (seps.take i).count ['\n'.toUInt8]) ∧
      (allLines (ε := ε) (build checks) json (fromReads reads)).1 =
        ps.filter (fun p => 0 < p.1.length && p.1.length ≤ 6000) := by
  obtain ⟨seps, h1, h2, h3, h4⟩ := C02_C03_pieces_are_the_content json reads.flatten
  exact ⟨_, seps, h1, h2, h3, h4, by rw [C02_lines_spec ε checks json reads hb hno]; rfl⟩

/-- C03, for every sequence of read results (overflow, errors): the numbers start at 1 or more and
never decrease. -/
theorem C03_numbers_sorted {ε : Type} (checks json : Bool) (reader : Reader ε) :
    ((allLines (build checks) json reader).1.map (·.2)).Pairwise (· ≤ ·) ∧
      ∀ p ∈ (allLines (build checks) json reader).1, 1 ≤ p.2 := by
  have h := drain_lines (new_rinv (build checks) reader json)
  refine ⟨h.2.1, fun p hp => ?_⟩
  have := (h.1 p hp).2.2
  simpa [BL.new] using this

/-! ### C04: size of the yielded lines -/

/-- C04. Whatever the reader returns and however many times `next` is called (also after the end
and after errors), a yielded line has 1 to 6000 bytes. -/
theorem C04_line_size {ε : Type} (checks json : Bool) (reader : Reader ε) (s : BL ε)
    (h : Reach (build checks) reader json s) (bs : Bytes) (nr : Nat)
    (hl : (s.next (build checks)).2 = .line bs nr) : 1 ≤ bs.length ∧ bs.length ≤ 6000 :=
  ⟨((next_inv (reach_inv h)).2.2.2 bs nr hl).1, ((next_inv (reach_inv h)).2.2.2 bs nr hl).2.1⟩

example : ∃ s, Reach (ε := Unit) (build true) [.data (ascii "ab\n"), .err (), .data (ascii "c")] false s ∧
    (s.next (build true)).2 = .line (ascii "ab") 1 :=
  ⟨_, .new, nextN_outcome (n := 5) (by decide +kernel)⟩

/-! ### C05: over-long lines -/

/-- C05, the part that holds: under a schedule that never has to drop an unterminated line, an
over-long line (ended in the data at hand) disappears and every other line is unchanged.  The full
statement (every schedule) is false: see the witnesses below. -/
theorem C05_long_line_partial (ε : Type) (checks json : Bool) (reads : List Bytes) (hb : Blocks reads)
    (hno : NoOverflow json 6000 reads) :
    (allLines (ε := ε) (build checks) json (fromReads reads)).1 =
      ((pieces json reads.flatten).filter (fun p => p.1.length ≤ 6000)).filter
        (fun p => 0 < p.1.length) := by
  rw [C02_lines_spec ε checks json reads hb hno]
  simp [lines, keep, List.filter_filter]

/-- Non-vacuity of C05: a 7000 byte line between two others, in one read. -/
example : allLines (ε := Unit) (build true) false
    (fromReads [ascii "a\n" ++ List.replicate 7000 120 ++ ascii "\nb\n"]) =
      ([(ascii "a", 1), (ascii "b", 3)], .finished) :=
  allLines_of_drainN (n := 8) (by decide +kernel)

/-- C05 is false: after an over-long line the neighbour `abcd` is lost when it spans two reads (the
rest of the 8192 byte buffer is zero padding that is not truncated, and the zeros are taken as part
of the line, which then exceeds the limit). -/
theorem C05_neighbour_lost : allLines (ε := Unit) (build false) false
    (fromReads [List.replicate 8192 120, ascii "y\nab", ascii "cd\nlast\n"]) =
      ([(ascii "last", 3)], .finished) :=
  allLines_of_drainN (n := 8) (by decide +kernel)

/-- Length, number of zero bytes, first two and last two bytes and number of each line. -/
def shape {ε : Type} (r : List (Bytes × Nat) × End ε) : List ((Nat × Nat) × (Bytes × Nat)) :=
  r.1.map fun p =>
    ((p.1.length, p.1.count (0 : UInt8)), (p.1.take 2 ++ p.1.drop (p.1.length - 2), p.2))

/-- C05 is false: the neighbour `abcd` is yielded with 5189 zero bytes in the middle (a line of
5193 bytes that is nowhere in the content). -/
theorem C05_neighbour_corrupted : shape (allLines (ε := Unit) (build false) false
    (fromReads [List.replicate 8192 120, List.replicate 3000 121 ++ ascii "\nab", ascii "cd\n"])) =
    [((5193, 5189), (ascii "abcd", 2))] :=
  allLines_summary (n := 8) shape (by decide +kernel)

/-- C05 is false: when the read that ends the over-long line is a full one, all the complete lines
it contains are lost and the following line gets a wrong number (3 instead of 5). -/
theorem C03_C05_full_read_lost : allLines (ε := Unit) (build false) false
    (fromReads [List.replicate 8192 120,
      ascii "\nA\nB\n" ++ List.replicate 8187 121, ascii "\nC\n"]) =
      ([(ascii "C", 3)], .finished) :=
  allLines_of_drainN (n := 8) (by decide +kernel)

/-! ### C06: memory -/

/-- C06. Between the calls of `next`, at the entry of every function it runs and with the space
reserved for the next read, the buffer never exceeds 6000 + 8192 bytes. -/
theorem C06_bounded_buffer {ε : Type} (checks json : Bool) (reader : Reader ε) :
    (∀ s, Reach (build checks) reader json s → s.buf.length ≤ 6000 + 8192) ∧
    (∀ f s, Exec (build checks) reader json f s → s.buf.length ≤ 6000 + 8192 ∧
      (f = .readSlice → s.buf.length + 8192 ≤ 6000 + 8192)) := by
  have e : (build checks).maxLineLength + (build checks).chunkSize = 6000 + 8192 := rfl
  have e2 : (build checks).chunkSize = 8192 := rfl
  refine ⟨fun s h => e ▸ reach_len h, fun f s h => ?_⟩
  have hi := exec_inv h
  have hp := hi.peak_le
  rw [e] at hp
  refine ⟨?_, ?_⟩
  · cases f <;> simp only [peak, e2] at hp <;> omega
  · rintro rfl
    simpa only [peak, e2] using hp

theorem buffer_reached (checks : Bool) (m n : Nat) (hm : 0 < m) (hm' : m ≤ 6000) (hn : 0 < n)
    (hn' : n ≤ 8192) :
    ∃ s, Exec (ε := Unit) (build checks) [.data (List.replicate m 120), .data (List.replicate n 121)]
      false .getSlice s ∧ s.buf.length = m + n := by
  have hs : ∀ n i, scan ⟨false, none⟩ (List.replicate n 120) i = (⟨false, none⟩, none) := by
    intro n
    induction n with
    | zero => intro i; rfl
    | succ n ih =>
      intro i
      rw [List.replicate_succ, scan]
      rw [show lexByte ⟨false, none⟩ 120 = (⟨false, none⟩, none) from rfl]
      exact ih (i + 1)
  have h0 : Exec (ε := Unit) (build checks) [.data (List.replicate m 120), .data (List.replicate n 121)]
      false .readSlice _ := .read (sep := .newLine) .new rfl rfl
  have h1 : Exec (ε := Unit) (build checks) [.data (List.replicate m 120), .data (List.replicate n 121)]
      false .getSlice ⟨[.data (List.replicate n 121)], List.replicate m 120, .scanning .newLine, 0, ⟨false, none⟩, 0⟩ := by
    refine .call h0 ?_
    obtain ⟨m, rfl⟩ : ∃ k, m = k + 1 := ⟨m - 1, by omega⟩
    have ht : List.take 8192 (List.replicate (m + 1) (120 : UInt8)) = 120 :: List.replicate m 120 := by
      rw [List.take_of_length_le (by rw [List.length_replicate]; omega), List.replicate_succ]
    simp only [body, readSlice, BL.new, build, Reader.read, ht]
    have hl : (List.replicate (m + 1) (120 : UInt8)).length ≤ 8192 := by
      rw [List.length_replicate]; omega
    simp only [hl, if_true, List.length_nil, List.take_zero, List.nil_append, Bool.false_eq_true, if_false]
    rw [List.replicate_succ]
  have h2 : Exec (ε := Unit) (build checks) [.data (List.replicate m 120), .data (List.replicate n 121)]
      false .readSlice ⟨[.data (List.replicate n 121)], List.replicate m 120, .scanning .newLine, 0, ⟨false, none⟩, m⟩ := by
    refine .call h1 ?_
    simp only [body, getSlice, BL.findNextLine, List.drop_zero, hs, List.length_replicate, Nat.not_lt_zero, if_false]
    rw [if_neg (by simp only [build]; omega)]
  have h3 : Exec (ε := Unit) (build checks) [.data (List.replicate m 120), .data (List.replicate n 121)]
      false .getSlice ⟨[], List.replicate m 120 ++ List.replicate n 121, .scanning .newLine, 0, ⟨false, none⟩, m⟩ := by
    refine .call h2 ?_
    obtain ⟨n, rfl⟩ : ∃ k, n = k + 1 := ⟨n - 1, by omega⟩
    have ht : List.take 8192 (List.replicate (n + 1) (121 : UInt8)) = 121 :: List.replicate n 121 := by
      rw [List.take_of_length_le (by rw [List.length_replicate]; omega), List.replicate_succ]
    have hm2 : List.take m (resize (List.replicate m 120) (m + 8192)) = List.replicate m 120 := by
      have h8 : ∀ (b : Bytes) (k : Nat), (resize b (b.length + k)).take b.length = b := by
        intro b k
        rw [resize, List.take_of_length_le (i := b.length + k) (Nat.le_add_right _ _)]
        exact List.take_left
      have := h8 (List.replicate m 120) 8192
      rwa [List.length_replicate] at this
    simp only [body, readSlice, build, Reader.read, ht, List.length_replicate, hm2]
    rw [if_pos (by omega), List.replicate_succ]
  exact ⟨_, h3, by simp⟩

/-- The bound is reached up to the last byte: a 6000 byte rest and a full read. -/
example : ∃ s, Exec (ε := Unit) (build true) [.data (List.replicate 6000 120), .data (List.replicate 8192 121)]
    false .getSlice s ∧ s.buf.length = 6000 + 8192 :=
  buffer_reached true 6000 8192 (by omega) (by omega) (by omega) (by omega)

/-! ### C07: read errors -/

/-- C07, the part that holds (with overflow, terminated lines can be lost before the error as in
C05). A failing read after a schedule without overflow: exactly the lines terminated in the data
received (the unterminated last piece is not yielded), then that error. -/
theorem C07_error_position_partial {ε : Type} (checks json : Bool) (reads : List Bytes) (hb : Blocks reads)
    (hno : NoOverflow json 6000 reads) (e : ε) (after : Reader ε) :
    allLines (build checks) json (fromReads reads ++ .err e :: after) =
      (keep 6000 (pieces json reads.flatten).dropLast, .failed e) := by
  have := allLines_core (cfg := build checks) (json := json) (blocks := reads)
    (fin := .err e :: after) (x := .error e) (r := after) hb rfl (by simp) hno
  simpa [fromReads, expected, build] using this

/-- C07, for every schedule in a release build (even with over-long lines): an error is never
swallowed nor taken for the end of the content. -/
theorem C07_error_never_swallowed {ε : Type} (json : Bool) (reads : List Bytes)
    (hb : ∀ b ∈ reads, b ≠ []) (e : ε) (after : Reader ε) :
    (allLines (build false) json (fromReads reads ++ .err e :: after)).2 = .failed e := by
  have hr := new_rinv (build false) (fromReads reads ++ .err e :: after) json
  have h1 := drainRun_error (cfg := build false) (by simp [build]) (hr (by simp [BL.new]))
    (e := e) (r := after) ⟨reads, hb, rfl⟩
  rw [← drain_drainRun hr (by simp [BL.new])] at h1
  rcases h1 with h1 | h1
  · exact h1
  · exact absurd ((drain_lines hr).2.2 h1) (by simp [build])

example : allLines (build true) false (fromReads [ascii "a\nb\nc"] ++ [.err 5]) =
    ([(ascii "a", 1), (ascii "b", 2)], .failed 5) :=
  allLines_of_drainN (n := 8) (by decide +kernel)

/-- C07 at full strength is false: the terminated line `abcd` is lost before the error. -/
theorem C07_line_lost_before_error : allLines (build false) false
    (fromReads [List.replicate 8192 120, ascii "y\nab", ascii "cd\n"] ++ [.err 5]) = ([], .failed 5) :=
  allLines_of_drainN (n := 8) (by decide +kernel)

/-! ### C08: termination, end, panics -/

/-- C08. In a release build no call of `next` panics, whatever the reader returns.  (Termination of
each call and of the whole consumption is established by the definitions of `run` and `drain`.) -/
theorem C08_release_no_panic {ε : Type} (json : Bool) (reader : Reader ε) (s : BL ε)
    (h : Reach (build false) reader json s) : (s.next (build false)).2 ≠ .panic := by
  intro hp
  exact absurd ((next_inv (reach_inv h)).1 hp) (by simp [build])

/-- C08. A reader without errors is consumed to its end. -/
theorem C08_release_finishes {ε : Type} (json : Bool) (reads : List Bytes) (hb : ∀ b ∈ reads, b ≠ []) :
    (allLines (ε := ε) (build false) json (fromReads reads)).2 = .finished := by
  have hr := new_rinv (ε := ε) (build false) (fromReads reads) json
  have h1 := drainRun_end (cfg := build false) (by simp [build]) (hr (by simp [BL.new]))
    ⟨reads, hb, by simp [BL.new, fromReads]⟩
  rw [← drain_drainRun hr (by simp [BL.new])] at h1
  rcases h1 with h1 | h1
  · exact h1
  · exact absurd ((drain_lines hr).2.2 h1) (by simp [build])

/-- `n` more calls of `next`. -/
def nextTimes {ε : Type} (cfg : Cfg) : Nat → BL ε → BL ε
  | 0, s => s
  | n + 1, s => nextTimes cfg n (s.next cfg).1

/-- C08. Once `next` has returned `None` it always returns `None` (debug and release builds, reader
without errors). -/
theorem C08_stays_finished {ε : Type} (checks json : Bool) (reads : List Bytes)
    (hb : ∀ b ∈ reads, b ≠ []) (s : BL ε) (h : Reach (build checks) (fromReads reads) json s)
    (hd : (s.next (build checks)).2 = .done) (n : Nat) :
    ((nextTimes (build checks) n (s.next (build checks)).1).next (build checks)).2 = .done := by
  have hcm : (build checks).maxLineLength < (build checks).chunkSize := by simp [build]
  have hc : 0 < (build checks).chunkSize := by simp [build]
  -- every reachable state is finished or still fed by the remaining blocks
  have key : ∀ s, Reach (build checks) (fromReads reads) json s →
      Finished (build checks) s ∨ Feeds (ε := ε) [] s.reader := by
    intro s hs
    induction hs with
    | new => exact .inr ⟨reads, hb, by simp [BL.new, fromReads]⟩
    | @next s hs hp ih =>
      rcases ih with hf | hf
      · exact .inl (finished_next hcm hf).2
      · by_cases hst : s.state = .eof
        · left; left; simp [BL.next, hst]
        · obtain ⟨f, hi, he⟩ := next_eq_run (reach_inv hs) hst
          have := run_done hc hcm hi hf
          rw [he] at hp ⊢
          cases ho : (run (build checks) f s).2 with
          | done => exact .inl (this.1 ho)
          | line bs nr => exact this.2 bs nr ho
          | panic => exact absurd ho hp
          | error e =>
            have h2 := drainRun_end hc hi hf
            unfold drainRun at h2
            rcases hr : run (build checks) f s with ⟨s', o⟩
            rw [hr] at h2 ho
            simp only at ho
            subst ho
            simp at h2
  have hfin : Finished (build checks) (s.next (build checks)).1 := by
    rcases key s h with hf | hf
    · exact (finished_next hcm hf).2
    · by_cases hst : s.state = .eof
      · left; simp [BL.next, hst]
      · obtain ⟨f, hi, he⟩ := next_eq_run (reach_inv h) hst
        rw [he] at hd ⊢
        exact (run_done hc hcm hi hf).1 hd
  generalize (s.next (build checks)).1 = s' at hfin
  induction n generalizing s' with
  | zero => exact (finished_next hcm hfin).1
  | succ n ih => exact ih _ (finished_next hcm hfin).2

/-- C08 in debug builds, the part that holds: no panic under a schedule without overflow. -/
theorem C08_debug_no_panic_partial (ε : Type) (json : Bool) (reads : List Bytes) (hb : Blocks reads)
    (hno : NoOverflow json 6000 reads) :
    (allLines (ε := ε) (build true) json (fromReads reads)).2 = .finished := by
  rw [C02_lines_spec ε true json reads hb hno]

/-- C08 is false in debug builds: an over-long line cut by a read between the two bytes of `\n`
makes the position of the separator underflow (`prev_pos + pos - 1` with both zero). -/
theorem C08_debug_panics : allLines (ε := Unit) (build true) false
    (fromReads [List.replicate 8191 120 ++ ascii "\\", ascii "nab\n"]) = ([], .panicked) :=
  allLines_of_drainN (n := 8) (by decide +kernel)

end LJ.Iterator

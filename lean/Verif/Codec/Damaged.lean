import Verif.Codec.Kinds

/-! # Damaged files

The saved models and reports are compressed: such a file ends with a checksum and the number of its bytes (RFC 1952).  A damaged file would be found by
them, if they were read. -/
namespace LJ.Codec

/-! ### The model -/

/-- one bit of the checksum of RFC 1952 -/
def crcBit (c : UInt32) : UInt32 := if c &&& 1 = 1 then (0xEDB88320 : UInt32) ^^^ (c >>> 1) else c >>> 1

/-- one byte of it -/
def crcByte (c : UInt32) (b : UInt8) : UInt32 :=
  let x := c ^^^ b.toUInt32
  crcBit (crcBit (crcBit (crcBit (crcBit (crcBit (crcBit (crcBit x)))))))

/-- RFC 1952, section 8: CRC-32, which `flate2` computes -/
def crc32 (bs : Bytes) : UInt32 := bs.foldl crcByte 0xFFFFFFFF ^^^ 0xFFFFFFFF

/-- the check value of this checksum -/
example : crc32 (stringBytes "123456789") = 0xCBF43926 := by decide +kernel

/-- A compressed file, when its blocks can be decoded: the data which they give, and the two numbers at its end.  How the blocks are written is not
modelled. -/
structure GzFile where
  data : Bytes
  crc : UInt32
  size : UInt32

/-- model.rs:443-452 and 239-248, `GzEncoder` -/
def gzOf (b : Bytes) : GzFile := ⟨b, crc32 b, UInt32.ofNat b.length⟩

/-- What `flate2::read::GzDecoder` gives to its reader, byte by byte: the data, and an error at their end if the numbers at the end of the file are not
right.  They are looked at by the read which follows the last byte. -/
def GzFile.reads (f : GzFile) : List (Option UInt8) :=
  f.data.map some ++ if f.crc = crc32 f.data ∧ f.size = UInt32.ofNat f.data.length then [] else [none]

/-- model.rs:435-441 and 249-257, `bincode::deserialize_from`: bytes are read until there is a value, and then no more; `read` are those read so far.  `none`:
the error of the reader, or of `bincode` for bytes which are no value. -/
def readValue {α : Type} (c : Codec α) (read : Bytes) (rs : List (Option UInt8)) : Option α :=
  match c.dec read with
  | some (x, _) => some x
  | none =>
    match rs with
    | [] => none
    | none :: _ => none
    | some b :: rs => readValue c (read ++ [b]) rs
termination_by rs.length

/-- model.rs:435-441 `Model::load` and model.rs:249-257 `Report::load`, of a file whose blocks can be decoded -/
def loadGz {α : Type} (c : Codec α) (f : GzFile) : Option α := readValue c [] f.reads

/-! ### C152 -/

variable {α : Type} {c : Codec α}

theorem readValue_data (hc : Lawful c) (e : List (Option UInt8)) (he : e = [] ∨ e = [none]) :
    ∀ (bs read : Bytes), readValue c read (bs.map some ++ e) = load c (read ++ bs) := by
  intro bs
  induction bs with
  | nil =>
    intro read
    unfold readValue
    rw [List.append_nil, load]
    cases hd : c.dec read with
    | some q => rfl
    | none => rcases he with rfl | rfl <;> rfl
  | cons b bs ih =>
    intro read
    unfold readValue
    cases hd : c.dec read with
    | some q =>
      obtain ⟨x, r⟩ := q
      rw [load, hc.extend _ _ _ (b :: bs) hd]
      rfl
    | none =>
      show readValue c (read ++ [b]) (bs.map some ++ e) = _
      rw [ih, List.append_assoc]
      rfl

/-- What is loaded depends on the data alone: the checksum and the size at the end of the file have no effect. -/
theorem loadGz_data (hc : Lawful c) (f : GzFile) : loadGz c f = load c f.data := by
  refine readValue_data hc _ ?_ f.data []
  split
  · exact .inl rfl
  · exact .inr rfl

variable {t : Texts}

/-- A saved model or report is loaded as it was; if only a part of its data can be decoded it is refused. -/
theorem C152_partial :
    (∀ (m : Model t) b, (model t).enc m = some b → loadGz (model t) (gzOf b) = some m ∧
      ∀ f : GzFile, f.data <+: b → f.data ≠ b → loadGz (model t) f = none) ∧
    (∀ (r : Report t) b, (report t).enc r = some b → loadGz (report t) (gzOf b) = some r ∧
      ∀ f : GzFile, f.data <+: b → f.data ≠ b → loadGz (report t) f = none) := by
  refine ⟨fun m b h => ⟨?_, fun f h1 h2 => ?_⟩, fun m b h => ⟨?_, fun f h1 h2 => ?_⟩⟩
  · rw [loadGz_data (model_lawful t)]
    have := (C70_model t h []).2
    rwa [List.append_nil] at this
  · rw [loadGz_data (model_lawful t)]
    exact (C80_truncated t).1 m b _ h h1 h2
  · rw [loadGz_data (report_lawful t)]
    have := (C70_report t h []).2
    rwa [List.append_nil] at this
  · rw [loadGz_data (report_lawful t)]
    exact (C80_truncated t).2.1 m b _ h h1 h2

/-- A damage which makes the data those of another model or report is never found, whatever the checksum and the size at the end of the file. -/
theorem C152_unchecked (crc size : UInt32) :
    (∀ (m : Model t) b, (model t).enc m = some b → loadGz (model t) ⟨b, crc, size⟩ = some m) ∧
    (∀ (r : Report t) b, (report t).enc r = some b → loadGz (report t) ⟨b, crc, size⟩ = some r) := by
  refine ⟨fun m b h => ?_, fun m b h => ?_⟩
  · rw [loadGz_data (model_lawful t)]
    have := (C70_model t h []).2
    rwa [List.append_nil] at this
  · rw [loadGz_data (report_lawful t)]
    have := (C70_report t h []).2
    rwa [List.append_nil] at this

/-- a model of the file b.log -/
def smallModel : Model demoTexts := ⟨⟨1, 2⟩, [.file (.loc 0 (stringBytes "b.log"))], ⟨[], by simp⟩⟩

/-- One byte of the data of a saved model is changed: the checksum of the file is wrong, and it is loaded as a model of another file. -/
theorem C152_false : ∃ b b' m', (model demoTexts).enc smallModel = some b ∧ b'.length = b.length ∧ b'.take 44 = b.take 44 ∧ b'.drop 45 = b.drop 45 ∧
    crc32 b' ≠ (gzOf b).crc ∧ loadGz (model demoTexts) { gzOf b with data := b' } = some m' ∧
    m'.baselines.map (fun | .file (.loc _ p) => p | _ => []) = [stringBytes "c.log"] := by
  have h : ((model demoTexts).enc smallModel).bind (fun b => (load (model demoTexts) (b.set 44 99)).map fun m' =>
      (decide (crc32 (b.set 44 99) ≠ crc32 b), m'.baselines.map fun | .file (.loc _ p) => p | _ => [])) = some (true, [stringBytes "c.log"]) := by
    decide +kernel
  obtain ⟨b, h1, h2⟩ := Option.bind_eq_some_iff.1 h
  obtain ⟨m', h3, h4⟩ := Option.map_eq_some_iff.1 h2
  have h5 := congrArg Prod.fst h4
  have h6 := congrArg Prod.snd h4
  refine ⟨b, b.set 44 99, m', h1, List.length_set, ?_, ?_, of_decide_eq_true h5, ?_, h6⟩
  · rw [List.take_set_of_le (by decide)]
  · rw [List.drop_set_of_lt (by decide)]
  · rw [loadGz_data (model_lawful _)]
    exact h3

/-- Non-vacuity of `C152_partial` and `C152_unchecked`: a model which is saved, and whose checksum is right. -/
example : ((model demoTexts).enc smallModel).map (fun b => decide (0 < b.length ∧ (gzOf b).crc = crc32 b)) = some true := by
  decide +kernel

/-! ### The times of a file which was not written by the program -/

/-- Whatever the two numbers of a duration in a file, it is read as the duration of this many nanoseconds, or refused if its seconds are too many for 64 bits. -/
theorem C70_duration (s : UInt64) (n : UInt32) (rest : Bytes) :
    (s.toNat + n.toNat / 1000000000 < 2 ^ 64 →
      ∃ d, duration.dec (leBytes 8 s.toNat ++ leBytes 4 n.toNat ++ rest) = some (d, rest) ∧
        d.secs.toNat * 1000000000 + d.nanos.val = s.toNat * 1000000000 + n.toNat) ∧
    (2 ^ 64 ≤ s.toNat + n.toNat / 1000000000 → duration.dec (leBytes 8 s.toNat ++ leBytes 4 n.toNat ++ rest) = none) := by
  have e : (pair u64 u32).dec (leBytes 8 s.toNat ++ leBytes 4 n.toNat ++ rest) = some ((s, n), rest) :=
    (pair_lawful u64_lawful u32_lawful).round (s, n) _ rest rfl
  constructor
  · intro h
    refine ⟨⟨UInt64.ofNat (s.toNat + n.toNat / 1000000000), ⟨n.toNat % 1000000000, Nat.mod_lt _ (by decide)⟩⟩, ?_, ?_⟩
    · simp only [duration, iso, e, Option.bind_some, if_pos h, Option.map_some]
    · show (UInt64.ofNat (s.toNat + n.toNat / 1000000000)).toNat * 1000000000 + n.toNat % 1000000000 = _
      rw [UInt64.toNat_ofNat', Nat.mod_eq_of_lt h]
      omega
  · intro h
    simp only [duration, iso, e, Option.bind_some, if_neg (Nat.not_lt.2 h), Option.map_none]

/-- Non-vacuity: both cases. -/
example : (5 : UInt64).toNat + (3000000007 : UInt32).toNat / 1000000000 < 2 ^ 64 ∧
    2 ^ 64 ≤ (18446744073709551615 : UInt64).toNat + (1000000000 : UInt32).toNat / 1000000000 := by decide

end LJ.Codec

import Verif.Fault

/-!
# Byte format of a chain file

`google::protobuf::util::SerializeDelimitedToZeroCopyStream` /
`ParseDelimitedFromZeroCopyStream`, used in `src/collectors/file_collector.cc` 22-30,
96-102 and `src/collectors/memory_collector.h` 33-77, and the reader in
`python/bayesmixpy/io_utils.py` 34-53.

Each message is written as its length in base-128 varint form followed by its bytes.
The protobuf library itself is not part of /repo; its behaviour is modelled here from
its documentation.  Serialization of a message to bytes is abstract (`Codec`).
-/

namespace Bayesmix

/-- Serialization of protobuf messages: `SerializeToString` / `ParseFromString`.  The two
laws are what is trusted about protobuf: parsing inverts serialization, and a serialized
message is shorter than 2 GiB (protobuf's own limit). -/
structure Codec (M : Type) where
  ser : M → List UInt8
  parse : List UInt8 → Option M
  parse_ser : ∀ m, parse (ser m) = some m
  short : ∀ m, (ser m).length < 2 ^ 31

/-- `CodedOutputStream::WriteVarint32`. -/
def varint (n : Nat) : List UInt8 :=
  if n < 128 then [UInt8.ofNat n] else UInt8.ofNat (n % 128 + 128) :: varint (n / 128)
termination_by n
decreasing_by omega

/-- Reads at most `fuel` bytes of a varint; result before truncation to 32 bits. -/
def readVarint : Nat → List UInt8 → Option (Nat × List UInt8)
  | 0, _ => none
  | _ + 1, [] => none
  | f + 1, b :: bs =>
    if b.toNat < 128 then some (b.toNat, bs)
    else match readVarint f bs with
      | none => none
      | some (v, r) => some (b.toNat - 128 + 128 * v, r)

/-- `CodedInputStream::ReadVarint32`: at most ten bytes, the low 32 bits are kept. -/
def readVarint32 (bs : List UInt8) : Option (Nat × List UInt8) :=
  match readVarint 10 bs with
  | none => none
  | some (v, r) => some (v % 2 ^ 32, r)

variable {M : Type}

/-- Bytes written for one message. -/
def Codec.frame (C : Codec M) (m : M) : List UInt8 := varint (C.ser m).length ++ C.ser m

/-- `ParseDelimitedFromZeroCopyStream`: reads the length, then requires the message to
parse and to use exactly that many bytes.  `none` is the return value `false`. -/
def Codec.readFrame (C : Codec M) (bs : List UInt8) : Option (M × List UInt8) :=
  match readVarint32 bs with
  | none => none
  | some (n, r) =>
    if r.length < n then none
    else match C.parse (r.take n) with
      | none => none
      | some m => some (m, r.drop n)

theorem readVarint_length {f : Nat} {bs r : List UInt8} {v : Nat}
    (h : readVarint f bs = some (v, r)) : r.length < bs.length := by
  induction f generalizing bs v with
  | zero => cases h
  | succ f ih =>
    cases bs with
    | nil => cases h
    | cons b bs =>
      simp only [readVarint] at h
      split at h
      · cases h; simp
      · cases h' : readVarint f bs with
        | none => rw [h'] at h; cases h
        | some p =>
          obtain ⟨w, q⟩ := p
          rw [h'] at h
          cases h
          have := ih h'
          simp only [List.length_cons]; omega

theorem Codec.readFrame_length {C : Codec M} {bs r : List UInt8} {m : M}
    (h : C.readFrame bs = some (m, r)) : r.length < bs.length := by
  unfold Codec.readFrame readVarint32 at h
  cases h' : readVarint 10 bs with
  | none => rw [h'] at h; cases h
  | some p =>
    obtain ⟨v, q⟩ := p
    rw [h'] at h
    simp only at h
    have := readVarint_length h'
    split at h
    · cases h
    · split at h
      · cases h
      · cases h
        simp only [List.length_drop]
        omega

/-- Repeated `ParseDelimitedFromZeroCopyStream` until it returns `false`: the loop of
`MemoryCollector::read_from_file` (`memory_collector.h` 67-74). -/
def Codec.readAll (C : Codec M) (bs : List UInt8) : List M :=
  match h : C.readFrame bs with
  | none => []
  | some (m, r) => m :: C.readAll r
termination_by bs.length
decreasing_by exact Codec.readFrame_length h

/-- Python `_DecodeVarint32(buf, pos)`: `none` stands for an exception, here an
`IndexError` when the buffer ends inside the varint or a `DecodeError` after ten bytes;
the result is masked to 32 bits. -/
def pyDecodeVarint32 (bs : List UInt8) : Option (Nat × List UInt8) :=
  match readVarint 10 bs with
  | none => none
  | some (v, r) => some (v % 2 ^ 32, r)

theorem pyDecodeVarint32_length {bs r : List UInt8} {v : Nat}
    (h : pyDecodeVarint32 bs = some (v, r)) : r.length < bs.length := by
  unfold pyDecodeVarint32 at h
  cases h' : readVarint 10 bs with
  | none => rw [h'] at h; cases h
  | some p => obtain ⟨w, q⟩ := p; rw [h'] at h; cases h; exact readVarint_length h'

/-- `read_many_protos_from_file` (`python/bayesmixpy/io_utils.py` 34-53) on the bytes of
the file.  `buf[n:n+msg_len]` is shortened at the end of the buffer without an error;
`n += msg_len` may go past the end, which ends the loop; a parse error ends the loop; an
exception of `_DecodeVarint32` is outside the `try` and propagates. -/
def Codec.pyReadMany (C : Codec M) (bs : List UInt8) : Except Fault (List M) :=
  if hbs : bs = [] then .ok []
  else match h : pyDecodeVarint32 bs with
    | none => .error .throw
    | some (n, r) =>
      match C.parse (r.take n) with
      | none => .ok []
      | some m =>
        match C.pyReadMany (r.drop n) with
        | .error e => .error e
        | .ok l => .ok (m :: l)
termination_by bs.length
decreasing_by
  have := pyDecodeVarint32_length h
  simp only [List.length_drop]; omega

end Bayesmix

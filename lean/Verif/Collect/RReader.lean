import Verif.Collect.Framing
import Mathlib.Data.Nat.Notation
import Mathlib.Tactic.Common

/-!
# The chain reader of the R package

`R/bayesmixr/R/decoder.R` 10-40 and `R/bayesmixr/R/utils.R` 37-68.  Positions in a raw vector
count from one; an index beyond the end of a raw vector gives the byte `00`, not an error.
Doubles hold the natural numbers that occur exactly.
-/

namespace Bayesmix

variable {M : Type}

/-- `buffer[pos]` for a raw vector (`decoder.R` 17, `utils.R` 57): `00` beyond the end. -/
def rByte (buf : List UInt8) (pos : ℕ) : UInt8 := buf.getD (pos - 1) 0

/-- `DecodeVarint` with the mask and result type of `DecodeVarint32` (`decoder.R` 13-31, 40).
`shl` is `bitops::bitShiftL`, which works on 32 bits; `as.integer` of a value of at least 2^31 is
`NA`, and the range built from it in `utils.R` 57 stops. -/
def rDecode (shl : ℕ → ℕ → ℕ) (buf : List UInt8) (shift result pos : ℕ) :
    Except Fault (ℕ × ℕ) :=
  let b := (rByte buf pos).toNat
  let result := result ||| shl (b &&& 0x7f) shift
  if b &&& 0x80 = 0 then
    let v := result &&& (2 ^ 32 - 1)
    if v < 2 ^ 31 then .ok (v, pos + 1) else .error .throw
  else if 64 ≤ shift + 7 then .error .throw
  else rDecode shl buf (shift + 7) result (pos + 1)
termination_by 64 - shift
decreasing_by omega

theorem rDecode_pos {shl : ℕ → ℕ → ℕ} {buf : List UInt8} {shift result pos : ℕ} {x : ℕ × ℕ}
    (h : rDecode shl buf shift result pos = .ok x) : pos < x.2 := by
  generalize hd : 64 - shift = d
  induction d using Nat.strongRecOn generalizing shift result pos with
  | _ d ih =>
    rw [rDecode] at h
    simp only at h
    split at h
    · split at h
      · cases h; simp
      · cases h
    · split at h
      · cases h
      · exact Nat.lt_trans (Nat.lt_succ_self _) (ih (64 - (shift + 7)) (by omega) h rfl)

/-- `buffer[n:(n+msg_len-1)]` (`utils.R` 57).  For `msg_len` zero the range counts down: it is
`n, n - 1`. -/
def rSlice (buf : List UInt8) (n len : ℕ) : List UInt8 :=
  if len = 0 then [rByte buf n, rByte buf (n - 1)]
  else (List.range len).map fun j => rByte buf (n + j)

/-- The loop of `read_many_proto_from_file` (`utils.R` 50-66) from position `n`; a message that
does not parse stops with an error (62-65). -/
def Codec.rLoop (C : Codec M) (shl : ℕ → ℕ → ℕ) (buf : List UInt8) (n : ℕ) :
    Except Fault (List M) :=
  if _hn : n < buf.length then
    match h : rDecode shl buf 0 0 n with
    | .error e => .error e
    | .ok x =>
      match C.parse (rSlice buf x.2 x.1) with
      | none => .error .throw
      | some m =>
        match C.rLoop shl buf (x.2 + x.1) with
        | .error e => .error e
        | .ok l => .ok (m :: l)
  else .ok []
termination_by buf.length - n
decreasing_by
  have := rDecode_pos h
  omega

/-- `read_many_proto_from_file` (`utils.R` 37-68) on the bytes of the file. -/
def Codec.rReadMany (C : Codec M) (shl : ℕ → ℕ → ℕ) (buf : List UInt8) : Except Fault (List M) :=
  C.rLoop shl buf 1

end Bayesmix

import Verif.Collect.RReader
import Verif.Collect.Props

/-!
# Property C136: the chain reader of the R package
-/

namespace Bayesmix

variable {M : Type}

/-- What is used of `bitops::bitShiftL`: for shifts below 32 it multiplies on 32 bits.  Larger
shifts do not occur for messages shorter than 2 GiB. -/
def IsShiftL (shl : ℕ → ℕ → ℕ) : Prop := ∀ x s, s < 32 → shl x s = x * 2 ^ s % 2 ^ 32

theorem rByte_append (p q : List UInt8) (j : ℕ) :
    rByte (p ++ q) (p.length + 1 + j) = q.getD j 0 := by
  simp only [rByte, List.getD_eq_getElem?_getD]
  rw [show p.length + 1 + j - 1 = p.length + j by omega, List.getElem?_append_right (by omega),
    Nat.add_sub_cancel_left]

theorem and_high_bit (b : ℕ) (hb : b < 256) : b &&& 0x80 = 0 ↔ b < 128 := by
  have h := Nat.testBit_eq_decide_div_mod_eq (x := b) (i := 7)
  constructor
  · intro h0
    by_contra hc
    have h1 : (b &&& 0x80).testBit 7 = true := by
      rw [Nat.testBit_and, h]
      simp only [Bool.and_eq_true, decide_eq_true_eq]
      exact ⟨by omega, by decide⟩
    rw [h0] at h1
    exact absurd h1 (by decide)
  · intro hlt
    refine Nat.eq_of_testBit_eq fun i => ?_
    rw [Nat.testBit_and, Nat.zero_testBit, show (0x80 : ℕ) = 2 ^ 7 by norm_num,
      Nat.testBit_two_pow]
    by_cases hi : 7 = i
    · subst hi
      rw [h]
      simp only [Bool.and_eq_false_iff, decide_eq_false_iff_not]
      exact Or.inl (by omega)
    · simp [hi]

theorem rByte_beyond {buf : List UInt8} {pos : ℕ} (h : buf.length < pos) : rByte buf pos = 0 := by
  simp only [rByte, List.getD_eq_getElem?_getD]
  rw [List.getElem?_eq_none (by omega)]
  rfl

theorem rDecode_varint {shl : ℕ → ℕ → ℕ} (hs : IsShiftL shl) (p q : List UInt8)
    (v shift res : ℕ) (hres : res < 2 ^ shift) (hv : v * 2 ^ shift < 2 ^ 31)
    (h0 : 1 ≤ v ∨ shift = 0) :
    rDecode shl (p ++ (varint v ++ q)) shift res (p.length + 1) =
      .ok (res + v * 2 ^ shift, p.length + (varint v).length + 1) := by
  induction v using Nat.strong_induction_on generalizing p shift res with
  | _ v ih =>
    have hsh : shift < 32 := by
      rcases h0 with h0 | h0
      · by_contra hc
        have h1 : 2 ^ 32 ≤ 2 ^ shift := Nat.pow_le_pow_right (by norm_num) (by omega)
        have h2 : 1 * 2 ^ shift ≤ v * 2 ^ shift := Nat.mul_le_mul_right _ h0
        have h3 : (2 : ℕ) ^ 31 < 2 ^ 32 := by norm_num
        omega
      · omega
    have hb := rByte_append p (varint v ++ q) 0
    rw [add_zero] at hb
    have hor : ∀ x, res ||| x * 2 ^ shift = res + x * 2 ^ shift := by
      intro x
      have := Nat.shiftLeft_add_eq_or_of_lt hres x
      rw [Nat.shiftLeft_eq] at this
      rw [Nat.or_comm, ← this, Nat.add_comm]
    rw [rDecode]
    simp only
    rw [hb]
    have hvar : varint v = if v < 128 then [UInt8.ofNat v] else
        UInt8.ofNat (v % 128 + 128) :: varint (v / 128) := by rw [varint]
    by_cases hv1 : v < 128
    · rw [hvar, if_pos hv1]
      have hbt : ((([UInt8.ofNat v] ++ q).getD 0 0)).toNat = v := by
        simp only [List.singleton_append, List.getD_cons_zero]
        exact toNat_ofNat_lt (by omega)
      rw [hbt]
      have h80 : v &&& 0x80 = 0 := (and_high_bit v (by omega)).2 hv1
      have h7f : v &&& 0x7f = v := by
        have := Nat.and_two_pow_sub_one_eq_mod v 7
        rw [show (0x7f : ℕ) = 2 ^ 7 - 1 by norm_num, this, Nat.mod_eq_of_lt (by simpa using hv1)]
      rw [if_pos h80, h7f, hs _ _ hsh, Nat.mod_eq_of_lt (by
        have : (2 : ℕ) ^ 31 < 2 ^ 32 := by norm_num
        omega), hor]
      have hlt : res + v * 2 ^ shift < 2 ^ 31 := by
        have h2 : res + v * 2 ^ shift < (v + 1) * 2 ^ shift := by rw [Nat.add_mul]; omega
        have h3 : (v + 1) * 2 ^ shift ≤ 2 ^ 31 := by
          have h4 : (2 : ℕ) ^ 31 = 2 ^ (31 - shift) * 2 ^ shift := by
            rw [← pow_add]; congr 1
            by_contra hc
            have h5 : shift = 32 - 0 - 0 ∨ 31 < shift := by omega
            have h6 : 31 < shift := by omega
            omega
          rw [h4] at hv ⊢
          have := Nat.lt_of_mul_lt_mul_right hv
          exact Nat.mul_le_mul_right _ this
        omega
      rw [show (2 : ℕ) ^ 32 - 1 = 2 ^ 32 - 1 from rfl, Nat.and_two_pow_sub_one_eq_mod,
        Nat.mod_eq_of_lt (by
          have : (2 : ℕ) ^ 31 < 2 ^ 32 := by norm_num
          omega), if_pos hlt]
      simp
    · rw [hvar, if_neg hv1]
      have hbt : (((UInt8.ofNat (v % 128 + 128) :: varint (v / 128)) ++ q).getD 0 0).toNat =
          v % 128 + 128 := by
        simp only [List.cons_append, List.getD_cons_zero]
        exact toNat_ofNat_lt (by omega)
      rw [hbt]
      have h80 : ¬ (v % 128 + 128) &&& 0x80 = 0 := fun h =>
        absurd ((and_high_bit _ (by omega)).1 h) (by omega)
      have h7f : (v % 128 + 128) &&& 0x7f = v % 128 := by
        have := Nat.and_two_pow_sub_one_eq_mod (v % 128 + 128) 7
        rw [show (0x7f : ℕ) = 2 ^ 7 - 1 by norm_num, this]
        omega
      have hle : v % 128 * 2 ^ shift ≤ v * 2 ^ shift :=
        Nat.mul_le_mul_right _ (Nat.mod_le _ _)
      have hlt2 : v % 128 * 2 ^ shift < 2 ^ 32 := by
        have : (2 : ℕ) ^ 31 < 2 ^ 32 := by norm_num
        omega
      rw [if_neg h80, if_neg (show ¬ 64 ≤ shift + 7 by omega), h7f, hs _ _ hsh,
        Nat.mod_eq_of_lt hlt2, hor]
      have e1 : v / 128 * 2 ^ (shift + 7) = (v - v % 128) * 2 ^ shift := by
        rw [pow_add, mul_comm (2 ^ shift), ← mul_assoc]
        congr 1
        have := Nat.div_add_mod v 128
        norm_num
        omega
      have h := ih (v / 128) (by omega) (p ++ [UInt8.ofNat (v % 128 + 128)]) (shift + 7)
        (res + v % 128 * 2 ^ shift) ?_ ?_ (Or.inl (by omega))
      · rw [e1] at h
        have e2 : (v - v % 128) * 2 ^ shift + v % 128 * 2 ^ shift = v * 2 ^ shift := by
          rw [← Nat.add_mul]; congr 1
          have := Nat.mod_le v 128
          omega
        have e3 : (p ++ [UInt8.ofNat (v % 128 + 128)]) ++ (varint (v / 128) ++ q) =
            p ++ (UInt8.ofNat (v % 128 + 128) :: varint (v / 128) ++ q) := by simp
        rw [e3] at h
        simp only [List.length_append, List.length_singleton] at h
        rw [h]
        simp only [List.length_cons, Except.ok.injEq, Prod.mk.injEq]
        constructor <;> omega
      · have h2 : v % 128 < 128 := Nat.mod_lt _ (by norm_num)
        have h3 : v % 128 * 2 ^ shift ≤ 127 * 2 ^ shift := Nat.mul_le_mul_right _ (by omega)
        rw [pow_add]
        have : 2 ^ shift * 2 ^ 7 = 2 ^ shift + 127 * 2 ^ shift := by ring
        omega
      · rw [e1]
        exact lt_of_le_of_lt (Nat.mul_le_mul_right _ (Nat.sub_le _ _)) hv

theorem rSlice_eq (p q : List UInt8) (len : ℕ) (h : len ≠ 0) :
    rSlice (p ++ q) (p.length + 1) len = (q ++ List.replicate len 0).take len := by
  rw [rSlice, if_neg h]
  apply List.ext_getElem
  · simp
  · intro j h1 h2
    rw [List.getElem_map, List.getElem_range, rByte_append, List.getElem_take,
      List.getD_eq_getElem?_getD]
    by_cases hj : j < q.length
    · rw [List.getElem?_eq_getElem hj, List.getElem_append_left hj]
      rfl
    · rw [List.getElem?_eq_none (by omega), List.getElem_append_right (by omega)]
      simp

/-- One round of the loop: position after `p`, a complete length prefix, whatever follows. -/
theorem rLoop_step (C : Codec M) {shl : ℕ → ℕ → ℕ} (hs : IsShiftL shl) (p q : List UInt8) (v : ℕ)
    (hv : v < 2 ^ 31) (hn : 2 ≤ (varint v ++ q).length) :
    C.rLoop shl (p ++ (varint v ++ q)) (p.length + 1) =
      match C.parse (rSlice (p ++ (varint v ++ q)) (p.length + (varint v).length + 1) v) with
      | none => .error .throw
      | some m =>
        match C.rLoop shl (p ++ (varint v ++ q)) (p.length + (varint v).length + 1 + v) with
        | .error e => .error e
        | .ok l => .ok (m :: l) := by
  have hd := rDecode_varint hs p q v 0 0 (by norm_num) (by simpa using hv) (Or.inr rfl)
  rw [pow_zero, mul_one, zero_add] at hd
  rw [Codec.rLoop, dif_pos (by rw [List.length_append]; omega)]
  split
  · rename_i e he
    rw [hd] at he
    cases he
  · rename_i x he
    rw [hd] at he
    cases he
    rfl

theorem rLoop_end (C : Codec M) {shl : ℕ → ℕ → ℕ} {buf : List UInt8} {n : ℕ} (h : buf.length ≤ n) :
    C.rLoop shl buf n = .ok [] := by
  rw [Codec.rLoop, dif_neg (by omega)]

/-- One message that is not empty. -/
theorem rLoop_frame (C : Codec M) {shl : ℕ → ℕ → ℕ} (hs : IsShiftL shl) (p r : List UInt8) (m : M)
    (hm : C.ser m ≠ []) :
    C.rLoop shl (p ++ (C.frame m ++ r)) (p.length + 1) =
      match C.rLoop shl ((p ++ C.frame m) ++ r) ((p ++ C.frame m).length + 1) with
      | .error e => .error e
      | .ok l => .ok (m :: l) := by
  have hpos : 0 < (C.ser m).length := List.length_pos_iff.2 hm
  have hvp := varint_pos (C.ser m).length
  have h := rLoop_step C hs p (C.ser m ++ r) (C.ser m).length (C.short m)
    (by simp only [List.length_append]; omega)
  have e1 : C.frame m ++ r = varint (C.ser m).length ++ (C.ser m ++ r) := by
    rw [Codec.frame, List.append_assoc]
  have e2 : p ++ (varint (C.ser m).length ++ (C.ser m ++ r)) =
      (p ++ varint (C.ser m).length) ++ (C.ser m ++ r) := by simp
  rw [e1, h]
  have h2 := rSlice_eq (p ++ varint (C.ser m).length) (C.ser m ++ r) (C.ser m).length (by omega)
  rw [List.length_append, ← e2] at h2
  rw [h2, List.append_assoc, List.take_left', C.parse_ser] <;> try rfl
  simp only
  have e3 : p.length + (varint (C.ser m).length).length + 1 + (C.ser m).length =
      (p ++ C.frame m).length + 1 := by
    simp only [Codec.frame, List.length_append]; omega
  rw [e3, ← e1, ← List.append_assoc]

theorem rLoop_chainFile (C : Codec M) {shl : ℕ → ℕ → ℕ} (hs : IsShiftL shl) (ms : List M)
    (hne : ∀ m ∈ ms, C.ser m ≠ []) (p r : List UInt8) :
    C.rLoop shl (p ++ (chainFile C ms ++ r)) (p.length + 1) =
      match C.rLoop shl ((p ++ chainFile C ms) ++ r) ((p ++ chainFile C ms).length + 1) with
      | .error e => .error e
      | .ok l => .ok (ms ++ l) := by
  induction ms generalizing p with
  | nil =>
    simp only [chainFile, List.flatMap_nil, List.nil_append, List.append_nil]
    split <;> rename_i h <;> rw [h]
  | cons m ms ih =>
    rw [chainFile_cons, List.append_assoc, rLoop_frame C hs _ _ _ (hne m (by simp)),
      ih (fun x hx => hne x (List.mem_cons_of_mem _ hx)), List.append_assoc p]
    cases C.rLoop shl (p ++ (C.frame m ++ chainFile C ms) ++ r)
      ((p ++ (C.frame m ++ chainFile C ms)).length + 1) <;> simp

/-- **C136, partial (messages that are not empty).** On a complete chain file of messages of any
length from one byte to 2 GiB the R reader returns the same list as the C++ reader.  Missing:
messages all of whose fields have their default value, which are empty, and files that are cut. -/
theorem c136_r_agrees_partial (C : Codec M) {shl : ℕ → ℕ → ℕ} (hs : IsShiftL shl) (ms : List M)
    (hne : ∀ m ∈ ms, C.ser m ≠ []) :
    C.rReadMany shl (chainFile C ms) = .ok (C.readAll (chainFile C ms)) := by
  have h := rLoop_chainFile C hs ms hne [] []
  have he : C.rLoop shl (([] ++ chainFile C ms) ++ []) (([] ++ chainFile C ms).length + 1) =
      .ok [] := rLoop_end C (by simp)
  rw [he] at h
  rw [c18_decode_encode, Codec.rReadMany]
  simpa using h

/-- Messages on both sides of a boundary of the length prefix. -/
example : ∃ shl, IsShiftL shl ∧ ∀ a b : Bytes, a.1.length = 127 → b.1.length = 128 →
    idCodec.rReadMany shl (chainFile idCodec [a, b]) = .ok [a, b] :=
  ⟨fun x s => x * 2 ^ s % 2 ^ 32, fun _ _ _ => rfl, fun a b ha hb => by
    rw [c136_r_agrees_partial idCodec (fun _ _ _ => rfl) [a, b], c18_decode_encode]
    intro m hm
    simp only [List.mem_cons, List.not_mem_nil, or_false] at hm
    rcases hm with rfl | rfl
    · intro h; simp [idCodec] at h; simp [h] at ha
    · intro h; simp [idCodec] at h; simp [h] at hb⟩

/-- **C136, violation (empty message at the end).** If the last message of the file is empty, the
R reader leaves it out. -/
theorem c136_last_empty_violated (C : Codec M) {shl : ℕ → ℕ → ℕ} (hs : IsShiftL shl) (ms : List M)
    (hne : ∀ m ∈ ms, C.ser m ≠ []) (m : M) (hm : C.ser m = []) :
    C.rReadMany shl (chainFile C (ms ++ [m])) = .ok ms ∧
      C.readAll (chainFile C (ms ++ [m])) = ms ++ [m] := by
  refine ⟨?_, c18_decode_encode _ _⟩
  have hf : chainFile C (ms ++ [m]) = chainFile C ms ++ [0] := by
    simp [chainFile, Codec.frame, hm, varint]
  have h := rLoop_chainFile C hs ms hne [] [0]
  have he : C.rLoop shl (([] ++ chainFile C ms) ++ [0]) (([] ++ chainFile C ms).length + 1) =
      .ok [] := rLoop_end C (by simp)
  rw [he] at h
  rw [hf, Codec.rReadMany]
  simpa using h

/-- **C136, violation (empty message before another one).** The bytes that are parsed for an empty
message are the first byte of the next length prefix and the byte zero: if they do not parse the
reader stops with an error, and otherwise the result starts with what they parse to. -/
theorem c136_empty_inside_violated (C : Codec M) {shl : ℕ → ℕ → ℕ} (hs : IsShiftL shl)
    (ms : List M) (hne : ∀ m ∈ ms, C.ser m ≠ []) (m m' : M) (hm : C.ser m = [])
    (hm' : C.ser m' ≠ []) (hl : (C.ser m').length < 128) :
    C.rReadMany shl (chainFile C (ms ++ [m, m'])) =
      match C.parse [UInt8.ofNat (C.ser m').length, 0] with
      | none => .error .throw
      | some x => .ok (ms ++ [x, m']) := by
  have hf : chainFile C (ms ++ [m, m']) = chainFile C ms ++ ([0] ++ C.frame m') := by
    have h0 : varint 0 = [0] := by simp [varint]
    simp [chainFile, Codec.frame, hm, h0]
  have hf' : C.frame m' = UInt8.ofNat (C.ser m').length :: C.ser m' := by
    rw [Codec.frame, varint, if_pos hl]; rfl
  have h := rLoop_chainFile C hs ms hne [] ([0] ++ C.frame m')
  rw [List.nil_append, List.nil_append] at h
  rw [hf, Codec.rReadMany]
  rw [List.length_nil, zero_add] at h
  rw [h]
  obtain ⟨p, hp⟩ : ∃ p : List UInt8, p = chainFile C ms := ⟨_, rfl⟩
  rw [← hp]
  have h0 : varint 0 = [0] := by simp [varint]
  have h1 := rLoop_step C hs p (C.frame m') 0 (by norm_num) (by
    have := frame_pos C m'
    simp only [h0, List.length_append, List.length_singleton]; omega)
  rw [h0] at h1
  rw [h1, List.length_singleton]
  have e1 : rSlice (p ++ ([0] ++ C.frame m')) (p.length + 1 + 1) 0 =
      [UInt8.ofNat (C.ser m').length, 0] := by
    rw [rSlice, if_pos rfl]
    have a1 := rByte_append p ([0] ++ C.frame m') 1
    have a2 := rByte_append p ([0] ++ C.frame m') 0
    rw [a1, Nat.add_sub_cancel, ← add_zero (p.length + 1), a2, hf']
    rfl
  rw [e1]
  cases C.parse [UInt8.ofNat (C.ser m').length, 0] with
  | none => rfl
  | some x =>
    have h2 := rLoop_frame C hs (p ++ [0]) [] m' hm'
    have he : C.rLoop shl (((p ++ [0]) ++ C.frame m') ++ [])
        (((p ++ [0]) ++ C.frame m').length + 1) = .ok [] := rLoop_end C (by simp)
    rw [he, List.append_nil, List.append_assoc, List.length_append, List.length_singleton] at h2
    simp only [add_zero]
    rw [h2]

/-- An empty message and one of three bytes: the first is read as a message of two bytes. -/
example (shl : ℕ → ℕ → ℕ) (hs : IsShiftL shl) :
    idCodec.rReadMany shl (chainFile idCodec [⟨[], by simp⟩, ⟨[1, 2, 3], by simp⟩]) =
      .ok [⟨[3, 0], by simp⟩, ⟨[1, 2, 3], by simp⟩] := by
  have := c136_empty_inside_violated idCodec hs [] (by simp) ⟨[], by simp⟩ ⟨[1, 2, 3], by simp⟩
    rfl (by simp [idCodec]) (by simp [idCodec])
  rw [List.nil_append] at this
  rw [this]
  simp [idCodec]

/-- **C136, cut files.** If the file ends after `j` bytes of a message, at least one of them after
the length prefix, then what is parsed is the message with zeros in place of the missing bytes;
the C++ reader returns the complete messages only. -/
theorem c136_cut_body_violated (C : Codec M) {shl : ℕ → ℕ → ℕ} (hs : IsShiftL shl)
    (ms : List M) (hne : ∀ m ∈ ms, C.ser m ≠ []) (m : M) (j : ℕ) (h0 : 0 < j)
    (hj : j < (C.ser m).length) :
    C.rReadMany shl (chainFile C ms ++ (varint (C.ser m).length ++ (C.ser m).take j)) =
      (match C.parse ((C.ser m).take j ++ List.replicate ((C.ser m).length - j) 0) with
      | none => .error .throw
      | some x => .ok (ms ++ [x])) ∧
    C.readAll (chainFile C ms ++ (varint (C.ser m).length ++ (C.ser m).take j)) = ms := by
  have hvp := varint_pos (C.ser m).length
  constructor
  · have h := rLoop_chainFile C hs ms hne [] (varint (C.ser m).length ++ (C.ser m).take j)
    rw [List.nil_append, List.nil_append, List.length_nil, zero_add] at h
    rw [Codec.rReadMany, h]
    obtain ⟨p, hp⟩ : ∃ p : List UInt8, p = chainFile C ms := ⟨_, rfl⟩
    rw [← hp, rLoop_step C hs p _ _ (C.short m) (by
      simp only [List.length_append, List.length_take]; omega)]
    have h2 := rSlice_eq (p ++ varint (C.ser m).length) ((C.ser m).take j) (C.ser m).length
      (by omega)
    rw [List.length_append, List.append_assoc] at h2
    rw [h2, List.take_append, List.length_take, Nat.min_eq_left hj.le, List.take_replicate,
      List.take_of_length_le (by simp), Nat.min_eq_left (Nat.sub_le _ _)]
    cases C.parse ((C.ser m).take j ++ List.replicate ((C.ser m).length - j) 0) with
    | none => rfl
    | some x =>
      simp only
      rw [rLoop_end C (by simp only [List.length_append, List.length_take]; omega)]
  · rw [readAll_chainFile_append]
    have e : varint (C.ser m).length ++ (C.ser m).take j =
        (C.frame m).take ((varint (C.ser m).length).length + j) := by
      rw [Codec.frame, List.take_length_add_append]
    rw [e]
    have hr := readFrame_cut C m ((varint (C.ser m).length).length + j) (by
      simp only [Codec.frame, List.length_append]; omega)
    rw [Codec.readAll]
    split
    · simp
    · rename_i h'
      rw [hr] at h'
      cases h'

/-- Two messages, the file cut after the first byte of the second: its other bytes become zero. -/
example (shl : ℕ → ℕ → ℕ) (hs : IsShiftL shl) :
    idCodec.rReadMany shl ((chainFile idCodec [⟨[7], by simp⟩, ⟨[1, 2, 3], by simp⟩]).take 4) =
      .ok [⟨[7], by simp⟩, ⟨[1, 0, 0], by simp⟩] := by
  have := (c136_cut_body_violated idCodec hs [⟨[7], by simp⟩] (by simp [idCodec])
    ⟨[1, 2, 3], by simp⟩ 1 (by norm_num) (by simp [idCodec])).1
  have e : (chainFile idCodec [⟨[7], by simp⟩, ⟨[1, 2, 3], by simp⟩]).take 4 =
      chainFile idCodec [⟨[7], by simp⟩] ++ (varint 3 ++ [1, 2, 3].take 1) := by
    simp [chainFile, Codec.frame, idCodec, varint]
  rw [e]
  refine this.trans ?_
  simp [idCodec]

end Bayesmix

import Verif.Collect.Spec
import Verif.FaultLemmas
import Mathlib.Data.List.Basic
import Mathlib.Data.List.Flatten
import Mathlib.Tactic.Common
import Mathlib.Tactic.Ring
import Mathlib.Tactic.NormNum

/-! Helper lemmas for the collector model. -/

namespace Bayesmix

variable {M : Type}

/-! ### Framing -/

theorem toNat_ofNat_lt {n : ℕ} (h : n < 256) : (UInt8.ofNat n).toNat = n := by
  simp [UInt8.toNat_ofNat, Nat.mod_eq_of_lt h]

theorem readVarint_varint (f n : ℕ) (r : List UInt8) (h : n < 128 ^ (f + 1)) :
    readVarint (f + 1) (varint n ++ r) = some (n, r) := by
  induction f generalizing n with
  | zero =>
    unfold varint
    have hn : n < 128 := by simpa using h
    rw [if_pos hn, List.singleton_append, readVarint, toNat_ofNat_lt (by omega), if_pos hn]
  | succ f ih =>
    unfold varint
    by_cases hn : n < 128
    · rw [if_pos hn, List.singleton_append, readVarint, toNat_ofNat_lt (by omega), if_pos hn]
    · have h1 : n / 128 < 128 ^ (f + 1) := by
        rw [pow_succ] at h
        exact Nat.div_lt_of_lt_mul (by rw [mul_comm]; exact h)
      rw [if_neg hn, List.cons_append, readVarint, toNat_ofNat_lt (by omega),
        if_neg (by omega), ih _ h1]
      simp only [Option.some.injEq, Prod.mk.injEq, and_true]
      omega

theorem readVarint_cut (f n k : ℕ) (h : k < (varint n).length) :
    readVarint f ((varint n).take k) = none := by
  induction f generalizing n k with
  | zero => rfl
  | succ f ih =>
    unfold varint at h ⊢
    by_cases hn : n < 128
    · rw [if_pos hn] at h ⊢
      have : k = 0 := by simpa using h
      subst this; rfl
    · rw [if_neg hn] at h ⊢
      cases k with
      | zero => rfl
      | succ k =>
        rw [List.take_succ_cons, readVarint, toNat_ofNat_lt (by omega), if_neg (by omega),
          ih _ _ (by simpa using h)]

theorem varint_pos (n : ℕ) : 0 < (varint n).length := by
  unfold varint; split <;> simp

theorem readVarint32_varint (n : ℕ) (r : List UInt8) (h : n < 2 ^ 31) :
    readVarint32 (varint n ++ r) = some (n, r) := by
  rw [readVarint32, readVarint_varint 9 n r (lt_trans h (by norm_num))]
  simp only [Option.some.injEq, Prod.mk.injEq, and_true]
  exact Nat.mod_eq_of_lt (by omega)

theorem readFrame_frame (C : Codec M) (m : M) (r : List UInt8) :
    C.readFrame (C.frame m ++ r) = some (m, r) := by
  have := C.short m
  rw [Codec.readFrame, Codec.frame, List.append_assoc, readVarint32_varint _ _ this]
  simp [C.parse_ser]

theorem frame_pos (C : Codec M) (m : M) : 0 < (C.frame m).length := by
  have := varint_pos (C.ser m).length
  simp only [Codec.frame, List.length_append]; omega

theorem readFrame_cut (C : Codec M) (m : M) (k : ℕ) (h : k < (C.frame m).length) :
    C.readFrame ((C.frame m).take k) = none := by
  have hs := C.short m
  rw [Codec.frame, List.take_append]
  by_cases hk : k < (varint (C.ser m).length).length
  · rw [show k - (varint (C.ser m).length).length = 0 by omega]
    simp only [List.take_zero, List.append_nil, Codec.readFrame, readVarint32,
      readVarint_cut 10 _ k hk]
  · rw [List.take_of_length_le (by omega), Codec.readFrame, readVarint32_varint _ _ hs]
    simp only
    rw [if_pos]
    simp only [Codec.frame, List.length_append] at h
    rw [List.length_take]; omega

theorem readAll_eq (C : Codec M) (bs : List UInt8) : C.readAll bs =
    match C.readFrame bs with | none => [] | some (m, r) => m :: C.readAll r := by
  rw [Codec.readAll]
  split <;> rename_i h <;> rw [h]

theorem readAll_none {C : Codec M} {bs : List UInt8} (h : C.readFrame bs = none) :
    C.readAll bs = [] := by rw [readAll_eq, h]

theorem readAll_some {C : Codec M} {bs r : List UInt8} {m : M} (h : C.readFrame bs = some (m, r)) :
    C.readAll bs = m :: C.readAll r := by rw [readAll_eq, h]

theorem readFrame_nil (C : Codec M) : C.readFrame [] = none := rfl

theorem readAll_chainFile_append (C : Codec M) (ms : List M) (r : List UInt8) :
    C.readAll (chainFile C ms ++ r) = ms ++ C.readAll r := by
  induction ms with
  | nil => rfl
  | cons m ms ih =>
    have : chainFile C (m :: ms) ++ r = C.frame m ++ (chainFile C ms ++ r) := by
      simp [chainFile]
    rw [this, readAll_some (readFrame_frame C m _), ih]; rfl

theorem readAll_chainFile (C : Codec M) (ms : List M) : C.readAll (chainFile C ms) = ms := by
  have := readAll_chainFile_append C ms []
  rw [List.append_nil, readAll_none (readFrame_nil C), List.append_nil] at this
  exact this

theorem chainFile_cons (C : Codec M) (m : M) (ms : List M) :
    chainFile C (m :: ms) = C.frame m ++ chainFile C ms := by simp [chainFile]

theorem readAll_cut (C : Codec M) (ms : List M) (k : ℕ) :
    C.readAll ((chainFile C ms).take k) = ms.take (complete C ms k) := by
  induction ms generalizing k with
  | nil =>
    have : (chainFile C ([] : List M)).take k = [] := by simp [chainFile]
    rw [this, readAll_none (readFrame_nil C)]; simp
  | cons m ms ih =>
    rw [chainFile_cons, List.take_append]
    by_cases h : (C.frame m).length ≤ k
    · rw [List.take_of_length_le h, readAll_some (readFrame_frame C m _), ih, complete, if_pos h]
      simp
    · rw [show k - (C.frame m).length = 0 by omega, complete, if_neg h, List.take_zero,
        List.append_nil, readAll_none (readFrame_cut C m k (by omega))]
      simp

/-! ### Python -/

theorem pyReadMany_nil (C : Codec M) : C.pyReadMany [] = .ok [] := by
  rw [Codec.pyReadMany]; simp

theorem pyReadMany_frame (C : Codec M) (m : M) (r : List UInt8) :
    C.pyReadMany (C.frame m ++ r) =
      match C.pyReadMany r with | .error e => .error e | .ok l => .ok (m :: l) := by
  have hne : C.frame m ++ r ≠ [] := by
    have := frame_pos C m
    intro h
    rw [List.append_eq_nil_iff] at h
    rw [h.1] at this; simp at this
  have hd : pyDecodeVarint32 (C.frame m ++ r) = some ((C.ser m).length, C.ser m ++ r) := by
    rw [Codec.frame, List.append_assoc]
    exact readVarint32_varint _ _ (C.short m)
  rw [Codec.pyReadMany, dif_neg hne]
  split
  · rename_i h; rw [hd] at h; cases h
  · rename_i n q h
    rw [hd] at h; cases h
    simp only [List.take_left', List.drop_left', C.parse_ser]
    cases C.pyReadMany r <;> rfl

theorem pyReadMany_chainFile_append (C : Codec M) (ms : List M) (r : List UInt8) :
    C.pyReadMany (chainFile C ms ++ r) =
      match C.pyReadMany r with | .error e => .error e | .ok l => .ok (ms ++ l) := by
  induction ms with
  | nil =>
    simp only [chainFile, List.flatMap_nil, List.nil_append]
    split <;> rename_i h <;> rw [h]
  | cons m ms ih =>
    rw [chainFile_cons, List.append_assoc, pyReadMany_frame, ih]
    cases C.pyReadMany r <;> simp

/-- The Python reader on a proper, non-empty beginning of a frame. -/
theorem pyReadMany_cut_frame (C : Codec M) (m : M) (k : ℕ) (h : k < (C.frame m).length) :
    C.pyReadMany ((C.frame m).take k) = .error .throw ∨
    C.pyReadMany ((C.frame m).take k) = .ok [] ∨
    ∃ m', C.pyReadMany ((C.frame m).take k) = .ok [m'] := by
  by_cases hne : (C.frame m).take k = []
  · right; left; rw [hne, pyReadMany_nil]
  rw [Codec.pyReadMany, dif_neg hne]
  split
  · exact .inl rfl
  · rename_i n q hd
    -- the payload is cut, so nothing is left after it
    have hq : q.drop n = [] := by
      rw [Codec.frame, List.take_append] at hd
      by_cases hk : k < (varint (C.ser m).length).length
      · rw [show k - (varint (C.ser m).length).length = 0 by omega, List.take_zero,
          List.append_nil, pyDecodeVarint32, readVarint_cut 10 _ k hk] at hd
        cases hd
      · rw [List.take_of_length_le (by omega)] at hd
        have h2 := readVarint32_varint (C.ser m).length
          ((C.ser m).take (k - (varint (C.ser m).length).length)) (C.short m)
        have h3 : pyDecodeVarint32 = readVarint32 := rfl
        rw [h3, h2] at hd
        cases hd
        simp
    split
    · exact .inr (.inl rfl)
    · rename_i m' _
      right; right
      exact ⟨m', by rw [hq, pyReadMany_nil]⟩

theorem cut_split (C : Codec M) (ms : List M) (k : ℕ) :
    ∃ r, (chainFile C ms).take k = chainFile C (ms.take (complete C ms k)) ++ r ∧
      (r = [] ∨ ∃ m j, j < (C.frame m).length ∧ r = (C.frame m).take j) := by
  induction ms generalizing k with
  | nil => exact ⟨[], by simp [chainFile], .inl rfl⟩
  | cons m ms ih =>
    rw [chainFile_cons, List.take_append]
    by_cases h : (C.frame m).length ≤ k
    · obtain ⟨r, e, hr⟩ := ih (k - (C.frame m).length)
      refine ⟨r, ?_, hr⟩
      rw [List.take_of_length_le h, e, complete, if_pos h, List.take_succ_cons, chainFile_cons,
        List.append_assoc]
    · refine ⟨(C.frame m).take k, ?_, .inr ⟨m, k, by omega, rfl⟩⟩
      rw [complete, if_neg h, show k - (C.frame m).length = 0 by omega]
      simp [chainFile]

/-! ### Readers -/

/-- `next`/`reset` on states related by `R` behave as a tape. -/
structure IsReader {σ : Type} (wrap : Bool) (next : σ → Except Fault (Option M × σ))
    (reset : σ → σ) (R : σ → Tape M → Prop) : Prop where
  bound : ∀ {s t}, R s t → t.cursor ≤ t.items.length
  item : ∀ {s t m}, R s t → t.items[t.cursor]? = some m →
    ∃ s', next s = .ok (some m, s') ∧ R s' { t with cursor := t.cursor + 1 }
  eof : ∀ {s t}, R s t → t.cursor = t.items.length →
    ∃ s', next s = .ok (none, s') ∧ R s' (t.atEnd wrap)
  reset : ∀ {s t}, R s t → R (reset s) { t with cursor := 0 }

section
variable {σ : Type} {wrap : Bool} {next : σ → Except Fault (Option M × σ)} {reset : σ → σ}
  {R : σ → Tape M → Prop}

theorem IsReader.getChunk (hR : IsReader wrap next reset R) (k : ℕ) (s : σ) (t : Tape M)
    (h : R s t) : ∃ s', getChunk next k true s =
      .ok ((t.take wrap k).1.1, (t.take wrap k).1.2, s') ∧ R s' (t.take wrap k).2 := by
  induction k generalizing s t with
  | zero => exact ⟨s, by simp [Bayesmix.getChunk, Tape.take], by simpa [Tape.take] using h⟩
  | succ k ih =>
    rcases Nat.lt_or_ge t.cursor t.items.length with hc | hc
    · obtain ⟨s', e, h'⟩ := hR.item h (List.getElem?_eq_getElem hc)
      obtain ⟨s'', e', h''⟩ := ih s' _ h'
      have hl : t.left = t.items[t.cursor] :: Tape.left { t with cursor := t.cursor + 1 } := by
        simp only [Tape.left]; exact List.drop_eq_getElem_cons hc
      refine ⟨s'', ?_, ?_⟩
      · simp only [Bayesmix.getChunk, e, ok_bind, e']
        unfold Tape.take
        rw [hl]
        by_cases hk : k ≤ (Tape.left { t with cursor := t.cursor + 1 }).length
        · simp [hk]
        · simp [hk]
      · revert h''
        unfold Tape.take
        rw [hl]
        by_cases hk : k ≤ (Tape.left { t with cursor := t.cursor + 1 }).length
        · simp [hk, Nat.add_assoc, Nat.add_comm 1 k]
        · simp [hk, Tape.atEnd]
    · have hc' : t.cursor = t.items.length := le_antisymm (hR.bound h) hc
      obtain ⟨s', e, h'⟩ := hR.eof h hc'
      have hl : t.left = [] := by simp [Tape.left, hc']
      refine ⟨s', by simp [Bayesmix.getChunk, e, Tape.take, hl], ?_⟩
      simpa [Tape.take, hl] using h'

theorem IsReader.readOp (hR : IsReader wrap next reset R) (s : σ) (t : Tape M) (h : R s t)
    (o : ReadOp) : ∃ s', readOp next reset s o = .ok ((t.op wrap o).1, s') ∧ R s' (t.op wrap o).2 := by
  cases o with
  | next =>
    obtain ⟨s', e, h'⟩ := hR.getChunk 1 s t h
    refine ⟨s', ?_, h'⟩
    rcases Nat.lt_or_ge t.cursor t.items.length with hc | hc
    · obtain ⟨s1, e1, -⟩ := hR.item h (List.getElem?_eq_getElem hc)
      simp only [Bayesmix.getChunk, e1, ok_bind, Except.ok.injEq, Prod.mk.injEq] at e
      obtain ⟨a, b, c⟩ := e
      subst c
      simp only [Bayesmix.readOp, e1, ok_bind, Tape.op, a, b]
    · obtain ⟨s1, e1, -⟩ := hR.eof h (le_antisymm (hR.bound h) hc)
      simp only [Bayesmix.getChunk, e1, ok_bind, Except.ok.injEq, Prod.mk.injEq] at e
      obtain ⟨a, b, c⟩ := e
      subst c
      simp only [Bayesmix.readOp, e1, ok_bind, Tape.op, a, b]
  | chunk k =>
    obtain ⟨s', e, h'⟩ := hR.getChunk k s t h
    exact ⟨s', by simp [Bayesmix.readOp, e, Tape.op], h'⟩
  | reset => exact ⟨reset s, rfl, hR.reset h⟩

theorem IsReader.readOps (hR : IsReader wrap next reset R) (os : List ReadOp) (s : σ) (t : Tape M)
    (h : R s t) : readOps next reset s os = .ok (t.ops wrap os) := by
  induction os generalizing s t with
  | nil => rfl
  | cons o os ih =>
    obtain ⟨s', e, h'⟩ := hR.readOp s t h o
    simp [Bayesmix.readOps, e, ih s' _ h', Tape.ops]

theorem IsReader.getWholeChain (hR : IsReader wrap next reset R) (fuel : ℕ) (s : σ) (t : Tape M)
    (h : R s t) (hf : t.left.length < fuel) : ∃ s', getWholeChain next fuel s = .ok (t.left, s') ∧
      R s' (t.atEnd wrap) := by
  induction fuel generalizing s t with
  | zero => omega
  | succ k ih =>
    rcases Nat.lt_or_ge t.cursor t.items.length with hc | hc
    · obtain ⟨s', e, h'⟩ := hR.item h (List.getElem?_eq_getElem hc)
      have hl : t.left = t.items[t.cursor] :: Tape.left { t with cursor := t.cursor + 1 } := by
        simp only [Tape.left]; exact List.drop_eq_getElem_cons hc
      obtain ⟨s'', e', h''⟩ := ih s' _ h' (by rw [hl] at hf; simpa using hf)
      refine ⟨s'', by simp [Bayesmix.getWholeChain, e, e', hl], ?_⟩
      simpa [Tape.atEnd] using h''
    · have hc' : t.cursor = t.items.length := le_antisymm (hR.bound h) hc
      obtain ⟨s', e, h'⟩ := hR.eof h hc'
      have hl : t.left = [] := by simp [Tape.left, hc']
      exact ⟨s', by simp [Bayesmix.getWholeChain, e, hl], h'⟩

end

/-! ### The two collectors are readers -/

/-- Memory collector as a tape. -/
def MemColl.Rel (C : Codec M) (s : MemColl) (t : Tape M) : Prop :=
  s.chain = t.items.map C.ser ∧ s.size = t.items.length ∧ s.cur = t.cursor ∧
    t.cursor ≤ t.items.length

theorem memColl_isReader (C : Codec M) :
    IsReader false (MemColl.next C) MemColl.reset (MemColl.Rel C) where
  bound := fun h => h.2.2.2
  item := by
    rintro s t m ⟨h1, h2, h3, h4⟩ hm
    have hlt : t.cursor < t.items.length := (List.getElem?_eq_some_iff.mp hm).1
    refine ⟨{ s with cur := s.cur + 1 }, ?_, h1, h2, by simp [h3], hlt⟩
    have hg : s.chain[s.cur]? = some (C.ser m) := by rw [h1, h3, List.getElem?_map, hm]; rfl
    rw [MemColl.next, if_neg (by omega), vget_ok hg, ok_bind]
    simp [C.parse_ser]
  eof := by
    rintro s t ⟨h1, h2, h3, h4⟩ hc
    refine ⟨s, by rw [MemColl.next, if_pos (by omega)], h1, h2, ?_, ?_⟩
    · simp [Tape.atEnd, h3, hc]
    · simp [Tape.atEnd]
  reset := by
    rintro s t ⟨h1, h2, h3, h4⟩
    exact ⟨h1, h2, rfl, Nat.zero_le _⟩

/-- File collector, reading a fixed file, as a tape over the messages the file decodes to. -/
def FileColl.Rel (C : Codec M) (chunk : ℕ) (file : List UInt8) (s : FileColl) (t : Tape M) : Prop :=
  s.file = file ∧ s.chunk = chunk ∧ t.items = C.readAll file ∧ t.cursor ≤ t.items.length ∧
  ((s.fin = none ∧ t.cursor = 0) ∨
   (∃ r, s.fin = some r ∧ C.readAll r = t.left ∧ s.buf.length = chunk ∧ s.pos < chunk ∧
     ∀ j, s.pos < j → j < chunk → s.buf[j]? = some true))

theorem fileColl_isReader (C : Codec M) (chunk : ℕ) (hchunk : 1 ≤ chunk) (file : List UInt8) :
    IsReader true (FileColl.next C) FileColl.reset (FileColl.Rel C chunk file) := by
  -- one call of next_state up to the read
  have key : ∀ (s : FileColl) (t : Tape M), FileColl.Rel C chunk file s t →
      ∃ s', s.ensureOpen.advance = s' ∧ s'.file = file ∧ s'.chunk = chunk ∧
        s'.buf[s'.pos]? = some true ∧ s'.buf.length = chunk ∧ s'.pos < chunk ∧
        (∀ j, s'.pos < j → j < chunk → s'.buf[j]? = some true) ∧
        ∃ r, s'.fin = some r ∧ C.readAll r = t.left := by
    rintro s t ⟨h1, h2, h3, h4, h5⟩
    -- after opening
    obtain ⟨s1, e1, a1, a2, a3, a4, a5, r, a6, a7⟩ : ∃ s1, s.ensureOpen = s1 ∧ s1.file = file ∧
        s1.chunk = chunk ∧ s1.buf.length = chunk ∧ s1.pos < chunk ∧
        (∀ j, s1.pos < j → j < chunk → s1.buf[j]? = some true) ∧
        ∃ r, s1.fin = some r ∧ C.readAll r = t.left := by
      rcases h5 with ⟨h5, h6⟩ | ⟨r, h5, h6, h7, h8, h9⟩
      · refine ⟨_, rfl, ?_⟩
        simp only [FileColl.ensureOpen, h5, FileColl.populate, h1, h2, Int.toNat_natCast,
          List.length_replicate]
        refine ⟨trivial, trivial, trivial, by omega, ?_, file, rfl, ?_⟩
        · intro j _ hj; simp [List.getElem?_replicate, hj]
        · simp [Tape.left, h6, h3]
      · refine ⟨s, by simp [FileColl.ensureOpen, h5], h1, h2, h7, h8, h9, r, h5, h6⟩
    refine ⟨_, rfl, ?_⟩
    rw [e1]
    unfold FileColl.advance
    by_cases hp : ((s1.pos + 1 : ℕ) : ℤ) = s1.chunk
    · simp only [hp, if_true, FileColl.populate, a2, Int.toNat_natCast, List.length_replicate]
      refine ⟨a1, trivial, ?_, trivial, by omega, ?_, r, a6, a7⟩
      · simp [List.getElem?_replicate]; omega
      · intro j _ hj; simp [List.getElem?_replicate, hj]
    · simp only [hp, if_false]
      have hlt : s1.pos + 1 < chunk := by
        rw [a2] at hp
        have : s1.pos + 1 ≠ chunk := fun h => hp (by exact_mod_cast h)
        omega
      exact ⟨a1, a2, a5 _ (by omega) hlt, a3, hlt, fun j hj hj' => a5 j (by omega) hj', r, a6, a7⟩
  refine ⟨fun h => h.2.2.2.1, ?_, ?_, ?_⟩
  · intro s t m h hm
    obtain ⟨s', e, b1, b2, b3, b4, b5, b6, r, b7, b8⟩ := key s t h
    have hlt : t.cursor < t.items.length := (List.getElem?_eq_some_iff.mp hm).1
    have hl : t.left = m :: Tape.left { t with cursor := t.cursor + 1 } := by
      simp only [Tape.left]
      rw [List.drop_eq_getElem_cons hlt, (List.getElem?_eq_some_iff.mp hm).2]
    rw [hl] at b8
    cases hf : C.readFrame r with
    | none => rw [readAll_none hf] at b8; cases b8
    | some p =>
      obtain ⟨m', r'⟩ := p
      rw [readAll_some hf] at b8
      obtain ⟨hmm, b9⟩ := List.cons.inj b8
      subst hmm
      refine ⟨{ s' with buf := s'.buf.set s'.pos false, fin := some r' }, ?_, ?_⟩
      · simp only [FileColl.next, e, vget_ok b3, ok_bind, if_true, b7, hf]
      · refine ⟨b1, b2, h.2.2.1, hlt, .inr ⟨r', rfl, b9, by simpa using b4, b5, ?_⟩⟩
        intro j hj hj'
        simp only at hj ⊢
        rw [List.getElem?_set_ne (by omega)]
        exact b6 j hj hj'
  · intro s t h hc
    obtain ⟨s', e, b1, b2, b3, b4, b5, b6, r, b7, b8⟩ := key s t h
    have hl : t.left = [] := by simp [Tape.left, hc]
    rw [hl] at b8
    cases hf : C.readFrame r with
    | some p => obtain ⟨m', r'⟩ := p; rw [readAll_some hf] at b8; cases b8
    | none =>
      refine ⟨{ s' with buf := s'.buf.set s'.pos false, fin := none, cur := 0, pos := 0 }, ?_, ?_⟩
      · simp only [FileColl.next, e, vget_ok b3, ok_bind, if_true, b7, hf]
      · exact ⟨b1, b2, h.2.2.1, Nat.zero_le _, .inl ⟨rfl, rfl⟩⟩
  · intro s t h
    exact ⟨h.1, h.2.1, h.2.2.1, Nat.zero_le _, .inl ⟨rfl, rfl⟩⟩

theorem fileColl_make_rel (C : Codec M) (chunk : ℕ) (file : List UInt8) :
    FileColl.Rel C chunk file (FileColl.make chunk file) ⟨C.readAll file, 0⟩ :=
  ⟨rfl, rfl, rfl, Nat.zero_le _, .inl ⟨rfl, rfl⟩⟩

end Bayesmix

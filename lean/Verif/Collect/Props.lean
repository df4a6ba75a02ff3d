import Verif.Collect.EvalLemmas

/-!
# Properties C14-C24, C61, C62: runs, collectors, chain files, density evaluation
-/

namespace Bayesmix

variable {M α : Type}

/-! ### A concrete codec for examples: a message is its own byte string -/

/-- Byte strings shorter than 2 GiB. -/
abbrev Bytes := { l : List UInt8 // l.length < 2 ^ 31 }

/-- The identity codec. -/
def idCodec : Codec Bytes where
  ser := (·.1)
  parse := fun l => if h : l.length < 2 ^ 31 then some ⟨l, h⟩ else none
  parse_ser := fun m => by rw [dif_pos m.2]
  short := fun m => m.2

/-! ### C14 -/

/-- **C14.** A run of `maxiter` iterations with burn-in `burnin` starts the collector,
hands it the states number `burnin, …, maxiter - 1` — state number `i` being the sampler
state after `i + 1` steps — and finishes it. -/
theorem c14_run_saves_post_burnin {S : Type} (step : S → S) (save : ℕ → S → M)
    (maxiter burnin : ℕ) (s0 : S) :
    runEvents step save maxiter burnin s0 =
      [Event.start] ++
      (List.range' burnin (maxiter - burnin)).map
        (fun i => Event.collect (save i (step^[i + 1] s0))) ++
      [Event.finish] := by
  rw [runEvents, runLoop_eq, range_filter_ge]
  rfl

/-- The states saved by a run. -/
def savedStates {S : Type} (step : S → S) (save : ℕ → S → M) (maxiter burnin : ℕ) (s0 : S) :
    List M :=
  (List.range' burnin (maxiter - burnin)).map (fun i => save i (step^[i + 1] s0))

/-- **C14 with a memory collector.** After a run into a new memory collector, any sequence
of reads sees exactly the saved states. -/
theorem c14_run_into_memory {S : Type} (C : Codec M) (step : S → S) (save : ℕ → S → M)
    (maxiter burnin : ℕ) (s0 : S) (ops : List ReadOp) :
    readOps (MemColl.next C) MemColl.reset
      ((runEvents step save maxiter burnin s0).foldl (MemColl.receive C) MemColl.empty) ops =
    .ok (Tape.ops false ⟨savedStates step save maxiter burnin s0, 0⟩ ops) := by
  have h : (runEvents step save maxiter burnin s0).foldl (MemColl.receive C) MemColl.empty =
      (savedStates step save maxiter burnin s0).foldl (MemColl.collect C) MemColl.empty := by
    rw [c14_run_saves_post_burnin, List.foldl_append, List.foldl_append, savedStates,
      List.foldl_map, List.foldl_map]
    rfl
  rw [h]
  exact (memColl_isReader C).readOps ops _ _ (memColl_rel_collected C _)

/-- **C14 with a file collector.** After a run into a file collector — whatever the file
contained before, however the written bytes are buffered — the file is the chain file of
the saved states, and any sequence of reads, for any chunk size at least 1, sees exactly
the saved states. -/
theorem c14_run_into_file {S : Type} (C : Codec M) (step : S → S) (save : ℕ → S → M)
    (maxiter burnin : ℕ) (s0 : S) (old : List UInt8) (chunk : ℕ) (hchunk : 1 ≤ chunk)
    (flush : List ℕ) (hfl : flush.length = maxiter - burnin) :
    ∃ s, FileColl.receiveAll C (FileColl.make chunk old)
        ((runEvents step save maxiter burnin s0).zip ([0] ++ flush ++ [0])) = .ok s ∧
      s.file = chainFile C (savedStates step save maxiter burnin s0) ∧
      s.size = maxiter - burnin ∧
      ∀ ops, readOps (FileColl.next C) FileColl.reset s ops =
        .ok (Tape.ops true ⟨savedStates step save maxiter burnin s0, 0⟩ ops) := by
  obtain ⟨ms, hms⟩ : ∃ ms, ms = savedStates step save maxiter burnin s0 := ⟨_, rfl⟩
  have hlen : ms.length = maxiter - burnin := by simp [hms, savedStates]
  have hev : runEvents step save maxiter burnin s0 =
      [Event.start] ++ ms.map Event.collect ++ [Event.finish] := by
    rw [c14_run_saves_post_burnin, hms, savedStates, List.map_map]; rfl
  obtain ⟨s', q, e, h1, h2, h3, h4, h5⟩ := fileColl_collects C ms flush (by omega)
    (FileColl.make chunk old).start [] rfl
  rw [← hms]
  refine ⟨s'.finish, ?_, ?_, ?_, ?_⟩
  · rw [hev]
    have hz : ([Event.start] ++ ms.map Event.collect ++ [Event.finish]).zip ([0] ++ flush ++ [0]) =
        [(Event.start, 0)] ++ (ms.map Event.collect).zip flush ++ [((Event.finish : Event M), 0)] := by
      rw [List.zip_append (by simp; omega)]
      simp
    rw [hz]
    unfold FileColl.receiveAll at e ⊢
    simp only [List.foldlM_append, List.foldlM_cons, List.foldlM_nil, receive_start,
      receive_finish, ok_bind, pure_eq_ok, e]
  · simpa [FileColl.finish, h1, FileColl.start] using h2
  · simp [FileColl.finish, h1, h3, FileColl.start, FileColl.make, hlen]
  · have hfile : s'.finish.file = chainFile C ms := by
      simpa [FileColl.finish, h1, FileColl.start] using h2
    have hrel : FileColl.Rel C chunk (chainFile C ms) s'.finish ⟨ms, 0⟩ := by
      refine ⟨hfile, ?_, (readAll_chainFile C ms).symm, Nat.zero_le _, .inl ⟨?_, rfl⟩⟩
      · simp [FileColl.finish, h1, h5, FileColl.start, FileColl.make]
      · simp [FileColl.finish, h1, h4, FileColl.start, FileColl.make]
    intro ops
    exact (fileColl_isReader C chunk hchunk _).readOps ops _ _ hrel

/-- Burn-in 2 of 5 iterations saves the states after 3, 4, 5 steps. -/
example : savedStates (· + 1) (fun i (s : ℕ) => (i, s)) 5 2 0 = [(2, 3), (3, 4), (4, 5)] := rfl

/-! ### C15 -/

/-- **C15.** Any sequence of operations on a new memory collector gives the same results
as on an empty list with a cursor (including the failure on `get_state` out of range),
and at the end the reported size is the number of collected states. -/
theorem c15_memory_collector_is_log (C : Codec M) (ops : List (MemOp M)) :
    match runOps Tape.memOp (⟨[], 0⟩ : Tape M) ops with
    | .error e => runOps (MemColl.memOp C) MemColl.empty ops = .error e
    | .ok (out, t) => ∃ s, runOps (MemColl.memOp C) MemColl.empty ops = .ok (out, s) ∧
        s.size = t.items.length := by
  have key : ∀ (ops : List (MemOp M)) (s : MemColl) (t : Tape M), MemColl.Rel C s t →
      match runOps Tape.memOp t ops with
      | .error e => runOps (MemColl.memOp C) s ops = .error e
      | .ok (out, t') => ∃ s', runOps (MemColl.memOp C) s ops = .ok (out, s') ∧
          s'.size = t'.items.length := by
    intro ops
    induction ops with
    | nil => intro s t h; exact ⟨s, rfl, h.2.1⟩
    | cons o os ih =>
      intro s t h
      -- one operation
      have hop : (∃ e, t.memOp o = .error e ∧ s.memOp C o = .error e) ∨
          ∃ r t' s', t.memOp o = .ok (r, t') ∧ s.memOp C o = .ok (r, s') ∧ MemColl.Rel C s' t' := by
        obtain ⟨h1, h2, h3, h4⟩ := h
        cases o with
        | start => exact .inr ⟨_, _, _, rfl, rfl, h1, h2, h3, h4⟩
        | finish => exact .inr ⟨_, _, _, rfl, rfl, h1, h2, h3, h4⟩
        | collect m =>
          refine .inr ⟨_, _, _, rfl, rfl, ?_, ?_, h3, ?_⟩
          · simp [MemColl.collect, h1]
          · simp [MemColl.collect, h2]
          · simp only [List.length_append, List.length_singleton]; omega
        | get i =>
          cases hi : t.items[i]? with
          | none =>
            refine .inl ⟨.ub, by simp [Tape.memOp, hi], ?_⟩
            have : s.chain[i]? = none := by rw [h1, List.getElem?_map, hi]; rfl
            simp [MemColl.memOp, MemColl.getState, vget, this]
          | some m =>
            refine .inr ⟨([m], true), t, s, by simp [Tape.memOp, hi], ?_, h1, h2, h3, h4⟩
            have : s.chain[i]? = some (C.ser m) := by rw [h1, List.getElem?_map, hi]; rfl
            simp [MemColl.memOp, MemColl.getState, vget, this, C.parse_ser]
        | read o =>
          obtain ⟨s', e, h'⟩ := (memColl_isReader C).readOp s t ⟨h1, h2, h3, h4⟩ o
          exact .inr ⟨_, _, s', rfl, e, h'⟩
      rcases hop with ⟨e, h1, h2⟩ | ⟨r, t', s', h1, h2, h3⟩
      · simp only [runOps, h1, h2, error_bind]
      · have := ih s' t' h3
        simp only [runOps, h1, h2, ok_bind]
        cases hr : runOps Tape.memOp t' os with
        | error e => rw [hr] at this; simp only [error_bind]; rw [this]; rfl
        | ok p =>
          obtain ⟨out, t''⟩ := p
          rw [hr] at this
          obtain ⟨s'', e, h⟩ := this
          simp only [ok_bind]
          exact ⟨s'', by rw [e]; rfl, h⟩
  exact key ops _ _ ⟨rfl, rfl, rfl, Nat.zero_le _⟩

/-- A concrete history: reads interleaved with collects, past the end and after reset. -/
example (a b : M) (C : Codec M) : ∃ s, runOps (MemColl.memOp C) MemColl.empty
    [.collect a, .read .next, .read .next, .collect b, .read (.chunk 2), .read .reset,
      .read (.chunk 2)] =
    .ok ([([], true), ([a], true), ([], false), ([], true), ([b], false), ([], true),
      ([a, b], true)], s) := by
  have := c15_memory_collector_is_log C [.collect a, .read .next, .read .next, .collect b,
    .read (.chunk 2), .read .reset, .read (.chunk 2)]
  obtain ⟨s, e, -⟩ := this
  exact ⟨s, e⟩

/-! ### C16 -/

/-- **C16, partial (new collector).** Loading a file into a collector that has never
collected or been read gives the states of the file, their number, and reading starts at
the first.  Missing: collectors with a history, for which the claim is false. -/
theorem c16_read_into_new_collector_partial (C : Codec M) (ms : List M) (ops : List ReadOp) :
    (MemColl.empty.fromFile C (chainFile C ms)).size = ms.length ∧
    readOps (MemColl.next C) MemColl.reset (MemColl.empty.fromFile C (chainFile C ms)) ops =
      .ok (Tape.ops false ⟨ms, 0⟩ ops) := by
  have h : MemColl.Rel C (MemColl.empty.fromFile C (chainFile C ms)) ⟨ms, 0⟩ := by
    rw [fromFile_eq, readAll_chainFile]
    exact ⟨rfl, by simp [MemColl.empty], rfl, Nat.zero_le _⟩
  exact ⟨h.2.1, (memColl_isReader C).readOps ops _ _ h⟩

/-- Saving a collector and loading it into a new one preserves the chain. -/
theorem c16_write_then_read (C : Codec M) (ms : List M) (ops : List ReadOp) :
    readOps (MemColl.next C) MemColl.reset
      (MemColl.empty.fromFile C ((ms.foldl (MemColl.collect C) MemColl.empty).toFile C)) ops =
      .ok (Tape.ops false ⟨ms, 0⟩ ops) := by
  rw [toFile_collected C ms _ (memColl_rel_collected C ms).1]
  exact (c16_read_into_new_collector_partial C ms ops).2

/-- **C16, violation 1.** Loading into a collector that already holds `old ≠ []`: the size
reported is that of both chains, and after reading the states of the file the next read is
out of range. -/
theorem c16_violated_size (C : Codec M) (old ms : List M) (hold : old ≠ []) :
    ∃ s, s = (old.foldl (MemColl.collect C) MemColl.empty).fromFile C (chainFile C ms) ∧
      s.size = old.length + ms.length ∧
      readOps (MemColl.next C) MemColl.reset s [.chunk (ms.length + 1)] = .error .ub := by
  refine ⟨_, rfl, ?_, ?_⟩
  · rw [fromFile_eq, memColl_foldl, readAll_chainFile]; simp [MemColl.empty]
  · rw [fromFile_eq, memColl_foldl, readAll_chainFile]
    have hpos : 0 < old.length := List.length_pos_iff.mpr hold
    have key : ∀ (k c : ℕ), c + k = ms.length → getChunk (MemColl.next C) (k + 1) true
        ({ chain := ms.map C.ser, size := old.length + ms.length, cur := c } : MemColl) =
        .error .ub := by
      intro k
      induction k with
      | zero =>
        intro c hc
        have h1 : (ms.map C.ser)[c]? = none := by simp; omega
        simp only [getChunk, MemColl.next]
        rw [if_neg (by omega)]
        simp [vget, h1]
      | succ k ih =>
        intro c hc
        have hlt : c < ms.length := by omega
        have h1 : (ms.map C.ser)[c]? = some (C.ser ms[c]) := by
          simp [List.getElem?_eq_getElem hlt]
        rw [getChunk, MemColl.next, if_neg (by simp only; omega), vget_ok h1]
        simp only [ok_bind, C.parse_ser]
        rw [ih (c + 1) (by omega)]
        rfl
    have := key ms.length 0 (by omega)
    simp only [readOps, readOp, MemColl.empty] at this ⊢
    rw [Nat.zero_add, this]
    rfl

/-- **C16, violation 2.** Loading into a collector whose cursor is at `c > 0`: the first
state read is number `c` of the file, not the first. -/
theorem c16_violated_cursor (C : Codec M) (s : MemColl) (ms : List M) (hs : s.cur ≤ s.size)
    (hc : 0 < s.cur) (hlt : s.cur < ms.length) :
    ∃ s', (s.fromFile C (chainFile C ms)).next C = .ok (some ms[s.cur], s') := by
  rw [fromFile_eq, readAll_chainFile]
  have h1 : (ms.map C.ser)[s.cur]? = some (C.ser ms[s.cur]) := by
    simp [List.getElem?_eq_getElem hlt]
  rw [MemColl.next, if_neg (by simp only; omega), vget_ok h1]
  simp only [ok_bind, C.parse_ser]
  exact ⟨_, rfl⟩

/-- Non-vacuity: one old state that has been read, a file with two states. -/
example : ∃ s' : MemColl, (MemColl.fromFile idCodec ⟨[[7]], 1, 1⟩
    (chainFile idCodec [⟨[1], by simp⟩, ⟨[2], by simp⟩])).next idCodec =
      .ok (some ⟨[2], by simp⟩, s') :=
  c16_violated_cursor idCodec ⟨[[7]], 1, 1⟩ [⟨[1], by simp⟩, ⟨[2], by simp⟩] (by simp) (by simp)
    (by simp)

/-! ### C17, C21 -/

/-- **C17.** For every chunk size at least 1, every sequence of reads and resets on a file
collector over a complete chain file gives the stored states in order, starting again from
the first after the end of the chain or a reset. -/
theorem c17_file_collector_any_chunk_size (C : Codec M) (ms : List M) (chunk : ℕ)
    (hchunk : 1 ≤ chunk) (ops : List ReadOp) :
    readOps (FileColl.next C) FileColl.reset (FileColl.make chunk (chainFile C ms)) ops =
      .ok (Tape.ops true ⟨ms, 0⟩ ops) := by
  have h := fileColl_make_rel C chunk (chainFile C ms)
  rw [readAll_chainFile] at h
  exact (fileColl_isReader C chunk hchunk _).readOps ops _ _ h

/-- **C17, boundary.** A chunk size of zero or less makes the first read undefined. -/
theorem c17_nonpositive_chunk_is_ub (C : Codec M) (file : List UInt8) (chunk : ℤ)
    (h : chunk ≤ 0) : (FileColl.make chunk file).next C = .error .ub := by
  have h1 : chunk.toNat = 0 := by omega
  have h2 : ¬ ((0 + 1 : ℕ) : ℤ) = chunk := by omega
  simp only [FileColl.next, FileColl.make, FileColl.ensureOpen, FileColl.populate, FileColl.advance,
    h1, h2, if_false, List.replicate_zero, vget, List.getElem?_nil, error_bind]

/-- Non-vacuity: three states, chunk sizes 1, 2, 3, 100; two passes. -/
example (C : Codec M) (a b c : M) : ∀ chunk ∈ [1, 2, 3, 100],
    readOps (FileColl.next C) FileColl.reset (FileColl.make (chunk : ℕ) (chainFile C [a, b, c]))
      [.next, .next, .next, .next, .next, .reset, .chunk 2] =
    .ok [([a], true), ([b], true), ([c], true), ([], false), ([a], true), ([], true),
      ([a, b], true)] := by
  intro chunk hc
  exact c17_file_collector_any_chunk_size C [a, b, c] chunk (by simp at hc; omega) _

/-- Chunk reads of the sizes listed, until one is not full. -/
def chunkReads {σ : Type} (next : σ → Except Fault (Option M × σ)) : List ℕ → σ →
    Except Fault (List (ReadOut M))
  | [], _ => .ok []
  | k :: ks, s => do
    let (l, keep, s) ← getChunk next k true s
    if keep then do
      let rest ← chunkReads next ks s
      .ok ((l, true) :: rest)
    else .ok [(l, false)]

/-- **C21 (any collector that is a reader).** -/
theorem c21_chunks_generic {σ : Type} {wrap : Bool} {next : σ → Except Fault (Option M × σ)}
    {reset : σ → σ} {R : σ → Tape M → Prop} (hR : IsReader wrap next reset R) (ks : List ℕ)
    (s : σ) (t : Tape M) (h : R s t) :
    ∃ outs, chunkReads next ks s = .ok outs ∧
      outs.flatMap (·.1) = t.left.take ks.sum ∧
      ((∃ o ∈ outs, o.2 = false) ↔ t.left.length < ks.sum) := by
  induction ks generalizing s t with
  | nil => exact ⟨[], rfl, by simp, by simp⟩
  | cons k ks ih =>
    obtain ⟨s', e, h'⟩ := hR.getChunk k s t h
    by_cases hk : k ≤ t.left.length
    · have ht : t.take wrap k = ((t.left.take k, true), { t with cursor := t.cursor + k }) := by
        rw [Tape.take, if_pos hk]
      rw [ht] at e h'
      have hd : Tape.left { t with cursor := t.cursor + k } = t.left.drop k := by
        simp [Tape.left, List.drop_drop]
      obtain ⟨outs, e', h1, h2⟩ := ih s' _ h'
      refine ⟨(t.left.take k, true) :: outs, by simp [chunkReads, e, e'], ?_, ?_⟩
      · rw [List.flatMap_cons, h1, hd, List.sum_cons, List.take_add]
      · rw [hd, List.length_drop] at h2
        simp only [List.mem_cons, exists_eq_or_imp, Bool.true_eq_false, false_or, List.sum_cons]
        rw [h2]; omega
    · have ht : t.take wrap k = ((t.left, false), t.atEnd wrap) := by
        rw [Tape.take, if_neg hk]
      rw [ht] at e h'
      refine ⟨[(t.left, false)], by simp [chunkReads, e], ?_, ?_⟩
      · simp only [List.flatMap_cons, List.flatMap_nil, List.append_nil, List.sum_cons]
        rw [List.take_of_length_le (by omega)]
      · simp only [List.mem_singleton, exists_eq_left, List.sum_cons, true_iff]; omega

/-- **C21 (memory collector).** Reading a chain by chunks of any sizes gives the same
states as single reads, and some chunk reports the end exactly when more states were asked
for than there are; a whole-chain read returns everything. -/
theorem c21_memory_chunks (C : Codec M) (ms : List M) (ks : List ℕ) :
    (∃ outs, chunkReads (MemColl.next C) ks (ms.foldl (MemColl.collect C) MemColl.empty) = .ok outs ∧
      outs.flatMap (·.1) = ms.take ks.sum ∧
      ((∃ o ∈ outs, o.2 = false) ↔ ms.length < ks.sum)) ∧
    ∀ fuel, ms.length < fuel → ∃ s', getWholeChain (MemColl.next C) fuel
      (ms.foldl (MemColl.collect C) MemColl.empty) = .ok (ms, s') := by
  have h := memColl_rel_collected C ms
  have hl : (⟨ms, 0⟩ : Tape M).left = ms := by simp [Tape.left]
  constructor
  · have := c21_chunks_generic (memColl_isReader C) ks _ _ h
    rwa [hl] at this
  · intro fuel hf
    obtain ⟨s', e, -⟩ := (memColl_isReader C).getWholeChain fuel _ _ h (by rw [hl]; exact hf)
    exact ⟨s', by rw [e, hl]⟩

/-- **C21 (file collector).** -/
theorem c21_file_chunks (C : Codec M) (ms : List M) (chunk : ℕ) (hchunk : 1 ≤ chunk)
    (ks : List ℕ) :
    (∃ outs, chunkReads (FileColl.next C) ks (FileColl.make chunk (chainFile C ms)) = .ok outs ∧
      outs.flatMap (·.1) = ms.take ks.sum ∧
      ((∃ o ∈ outs, o.2 = false) ↔ ms.length < ks.sum)) ∧
    ∀ fuel, ms.length < fuel → ∃ s', getWholeChain (FileColl.next C) fuel
      (FileColl.make chunk (chainFile C ms)) = .ok (ms, s') := by
  have h := fileColl_make_rel C chunk (chainFile C ms)
  rw [readAll_chainFile] at h
  have hl : (⟨ms, 0⟩ : Tape M).left = ms := by simp [Tape.left]
  constructor
  · have := c21_chunks_generic (fileColl_isReader C chunk hchunk _) ks _ _ h
    rwa [hl] at this
  · intro fuel hf
    obtain ⟨s', e, -⟩ := (fileColl_isReader C chunk hchunk _).getWholeChain fuel _ _ h
      (by rw [hl]; exact hf)
    exact ⟨s', by rw [e, hl]⟩

/-- Non-vacuity: three states in chunks of two. -/
example (C : Codec M) (a b c : M) : (⟨[a, b, c], 0⟩ : Tape M).left.take ([2, 2] : List ℕ).sum =
    [a, b, c] := rfl

/-! ### C18, C19, C20 -/

/-- **C18.** Decoding a chain file gives back the list of messages. -/
theorem c18_decode_encode (C : Codec M) (ms : List M) : C.readAll (chainFile C ms) = ms :=
  readAll_chainFile C ms

/-- **C18.** Different lists of messages have different chain files. -/
theorem c18_no_collision (C : Codec M) (ms ms' : List M) (h : chainFile C ms = chainFile C ms') :
    ms = ms' := by
  rw [← readAll_chainFile C ms, h, readAll_chainFile]

/-- **C18.** Appending to a chain file appends to the chain. -/
theorem c18_append (C : Codec M) (ms ms' : List M) :
    C.readAll (chainFile C ms ++ chainFile C ms') = ms ++ ms' := by
  rw [readAll_chainFile_append, readAll_chainFile]

/-- Lengths at a varint boundary: 127 and 128 bytes. -/
example : ∃ a b : Bytes, (idCodec.frame a).length = 128 ∧ (idCodec.frame b).length = 130 ∧
    idCodec.readAll (chainFile idCodec [a, b]) = [a, b] :=
  ⟨⟨List.replicate 127 7, by simp⟩, ⟨List.replicate 128 7, by simp⟩, by simp [Codec.frame, idCodec, varint],
    by simp [Codec.frame, idCodec, varint], c18_decode_encode _ _⟩

/-- **C19.** If only the first `k` bytes of the chain file are present, then the memory
collector loads, and the file collector (any chunk size) returns, exactly the states whose
bytes are entirely present. -/
theorem c19_truncated_file (C : Codec M) (ms : List M) (k : ℕ) (chunk : ℕ) (hchunk : 1 ≤ chunk)
    (ops : List ReadOp) :
    readOps (FileColl.next C) FileColl.reset (FileColl.make chunk ((chainFile C ms).take k)) ops =
      .ok (Tape.ops true ⟨ms.take (complete C ms k), 0⟩ ops) ∧
    readOps (MemColl.next C) MemColl.reset
      (MemColl.empty.fromFile C ((chainFile C ms).take k)) ops =
      .ok (Tape.ops false ⟨ms.take (complete C ms k), 0⟩ ops) := by
  constructor
  · have h := fileColl_make_rel C chunk ((chainFile C ms).take k)
    rw [readAll_cut] at h
    exact (fileColl_isReader C chunk hchunk _).readOps ops _ _ h
  · have h : MemColl.Rel C (MemColl.empty.fromFile C ((chainFile C ms).take k))
        ⟨ms.take (complete C ms k), 0⟩ := by
      rw [fromFile_eq, readAll_cut]
      exact ⟨rfl, by simp [MemColl.empty], rfl, Nat.zero_le _⟩
    exact (memColl_isReader C).readOps ops _ _ h

/-- What `complete` counts: the bytes of that many states fit in `k`, those of one more
do not. -/
theorem complete_spec (C : Codec M) (ms : List M) (k : ℕ) :
    complete C ms k ≤ ms.length ∧ (chainFile C (ms.take (complete C ms k))).length ≤ k ∧
    (complete C ms k < ms.length → k < (chainFile C (ms.take (complete C ms k + 1))).length) := by
  induction ms generalizing k with
  | nil => simp [complete, chainFile]
  | cons m ms ih =>
    by_cases h : (C.frame m).length ≤ k
    · obtain ⟨h1, h2, h3⟩ := ih (k - (C.frame m).length)
      rw [complete, if_pos h]
      refine ⟨by simpa using h1, ?_, ?_⟩
      · rw [List.take_succ_cons, chainFile_cons, List.length_append]; omega
      · intro hlt
        have := h3 (by simpa using hlt)
        rw [List.take_succ_cons, chainFile_cons, List.length_append]; omega
    · rw [complete, if_neg h]
      refine ⟨Nat.zero_le _, by simp [chainFile], fun _ => ?_⟩
      simp only [Nat.zero_add, List.take_succ_cons, List.take_zero, chainFile_cons,
        List.length_append]
      omega

/-- **C19 (crash while writing).** If the process dies after `start_collecting` and any
number of `collect` calls, with any buffering, the file is the beginning of the chain file,
so (by `c19_truncated_file`) a reader gets a prefix of the chain. -/
theorem c19_crash_leaves_prefix (C : Codec M) (ms : List M) (flush : List ℕ)
    (hfl : flush.length = ms.length) (chunk : ℤ) (old : List UInt8) :
    ∃ s k, FileColl.receiveAll C (FileColl.make chunk old)
        ((Event.start, 0) :: (ms.map Event.collect).zip flush) = .ok s ∧
      s.file = (chainFile C ms).take k ∧ C.readAll s.file = ms.take (complete C ms k) := by
  obtain ⟨s', q, e, h1, h2, -⟩ := fileColl_collects C ms flush hfl
    (FileColl.make chunk old).start [] rfl
  have h3 : s'.file = (chainFile C ms).take s'.file.length := by
    have : s'.file ++ q = chainFile C ms := by simpa [FileColl.start] using h2
    rw [← this]; simp
  refine ⟨s', s'.file.length, ?_, h3, ?_⟩
  · unfold FileColl.receiveAll at e ⊢
    simp only [List.foldlM_cons, receive_start, ok_bind, e]
  · conv_lhs => rw [h3]
    exact readAll_cut C ms _

/-- Non-vacuity: two 3-byte messages, cut in the middle of the second. -/
example : complete idCodec [⟨[1, 2, 3], by simp⟩, ⟨[4, 5, 6], by simp⟩] 6 = 1 := by
  simp [complete, Codec.frame, idCodec, varint]

/-- **C20, partial (complete files).** The Python reader and the C++ reader agree on every
complete chain file.  Missing: truncated files. -/
theorem c20_python_agrees_partial (C : Codec M) (ms : List M) :
    C.pyReadMany (chainFile C ms) = .ok (C.readAll (chainFile C ms)) := by
  have := pyReadMany_chainFile_append C ms []
  rw [List.append_nil, pyReadMany_nil] at this
  rw [this, readAll_chainFile]; simp

/-- **C20, truncated files.** On a file cut at any byte, the Python reader raises an
exception, or agrees with the C++ reader, or returns one message more. -/
theorem c20_python_on_cut_file (C : Codec M) (ms : List M) (k : ℕ) :
    C.pyReadMany ((chainFile C ms).take k) = .error .throw ∨
    C.pyReadMany ((chainFile C ms).take k) = .ok (C.readAll ((chainFile C ms).take k)) ∨
    ∃ m', C.pyReadMany ((chainFile C ms).take k) =
      .ok (C.readAll ((chainFile C ms).take k) ++ [m']) := by
  rw [readAll_cut]
  obtain ⟨r, e, hr⟩ := cut_split C ms k
  rw [e, pyReadMany_chainFile_append]
  rcases hr with rfl | ⟨m, j, hj, rfl⟩
  · right; left; rw [pyReadMany_nil]; simp
  · rcases pyReadMany_cut_frame C m j hj with h | h | ⟨m', h⟩
    · left; rw [h]
    · right; left; rw [h]; simp
    · right; right; exact ⟨m', by rw [h]⟩

/-- **C20, violation.** One message of three bytes, file cut after the second of them: the
C++ reader returns nothing, the Python reader returns a two-byte message that was never
written; cut inside a two-byte length prefix, the Python reader raises. -/
theorem c20_violated_on_cut_file :
    idCodec.readAll ((chainFile idCodec [⟨[1, 2, 3], by simp⟩]).take 3) = [] ∧
    idCodec.pyReadMany ((chainFile idCodec [⟨[1, 2, 3], by simp⟩]).take 3) =
      .ok [⟨[1, 2], by simp⟩] ∧
    idCodec.pyReadMany ((chainFile idCodec [⟨List.replicate 128 0, by simp⟩]).take 1) =
      .error .throw := by
  refine ⟨?_, ?_, ?_⟩
  · rw [readAll_cut]; simp [complete, Codec.frame, idCodec, varint]
  · have : (chainFile idCodec [⟨[1, 2, 3], by simp⟩]).take 3 = [3, 1, 2] := by
      simp [chainFile, Codec.frame, idCodec, varint]
    rw [this, Codec.pyReadMany]
    simp [pyDecodeVarint32, readVarint, idCodec, pyReadMany_nil]
  · have : (chainFile idCodec [⟨List.replicate 128 0, by simp⟩]).take 1 = [128] := by
      simp [chainFile, Codec.frame, idCodec, varint]
    rw [this, Codec.pyReadMany]
    simp [pyDecodeVarint32, readVarint]

/-- C20: a chain of two messages; the first four bytes hold the first one and a part of the second. -/
example : idCodec.pyReadMany (chainFile idCodec [⟨[1, 2], by simp⟩, ⟨[3], by simp⟩]) =
    .ok (idCodec.readAll (chainFile idCodec [⟨[1, 2], by simp⟩, ⟨[3], by simp⟩])) ∧
    chainFile idCodec [⟨[1, 2], by simp⟩, ⟨[3], by simp⟩] = [2, 1, 2, 1, 3] :=
  ⟨c20_python_agrees_partial idCodec _, by simp [chainFile, Codec.frame, idCodec, varint]⟩

/-! ### C22, C23, C24 -/

/-- **C22.** Sequential density evaluation over the states `ms ≠ []` held by a memory or
file collector returns one row per state, in order, and leaves the collector such that the
same call gives the same matrix again. -/
theorem c22_eval_lpdf (C : Codec M) (ms : List M) (hne : ms ≠ []) (chunk : ℕ) (hchunk : 1 ≤ chunk)
    (f : M → List α) (c : ℕ) (hc : ∀ m, (f m).length = c) (fuel : ℕ) (hf : ms.length < fuel) :
    (∃ s' s'', evalLpdf (MemColl.next C) MemColl.reset f fuel
        (ms.foldl (MemColl.collect C) MemColl.empty) = .ok (ms.map f, s') ∧
      evalLpdf (MemColl.next C) MemColl.reset f fuel s' = .ok (ms.map f, s'')) ∧
    (∃ s' s'', evalLpdf (FileColl.next C) FileColl.reset f fuel
        (FileColl.make chunk (chainFile C ms)) = .ok (ms.map f, s') ∧
      evalLpdf (FileColl.next C) FileColl.reset f fuel s' = .ok (ms.map f, s'')) := by
  constructor
  · obtain ⟨s', e, h'⟩ := (memColl_isReader C).evalLpdf f c hc _ ms hne
      (memColl_rel_collected C ms) fuel hf
    obtain ⟨s'', e', -⟩ := (memColl_isReader C).evalLpdf f c hc _ ms hne h' fuel hf
    exact ⟨s', s'', e, e'⟩
  · have h := fileColl_make_rel C chunk (chainFile C ms)
    rw [readAll_chainFile] at h
    obtain ⟨s', e, h'⟩ := (fileColl_isReader C chunk hchunk _).evalLpdf f c hc _ ms hne h fuel hf
    obtain ⟨s'', e', -⟩ := (fileColl_isReader C chunk hchunk _).evalLpdf f c hc _ ms hne h' fuel hf
    exact ⟨s', s'', e, e'⟩

/-- C22: three states, rows of length two. -/
example : ∃ s' s'', evalLpdf (MemColl.next idCodec) MemColl.reset (fun m => [m.1.length, 7]) 10
      ([⟨[1, 2], by simp⟩, ⟨[], by simp⟩, ⟨[3], by simp⟩].foldl (MemColl.collect idCodec)
        MemColl.empty) = .ok ([[2, 7], [0, 7], [1, 7]], s') ∧
    evalLpdf (MemColl.next idCodec) MemColl.reset (fun m => [m.1.length, 7]) 10 s' =
      .ok ([[2, 7], [0, 7], [1, 7]], s'') :=
  (c22_eval_lpdf idCodec [⟨[1, 2], by simp⟩, ⟨[], by simp⟩, ⟨[3], by simp⟩] (by simp) 1 le_rfl
    (fun m => [m.1.length, 7]) 2 (fun _ => rfl) 10 (by simp)).1

/-- **C22, boundary.** An empty chain is undefined behaviour. -/
theorem c22_empty_chain_is_ub (C : Codec M) (f : M → List α) (fuel : ℕ) (hf : 0 < fuel) :
    evalLpdf (MemColl.next C) MemColl.reset f fuel MemColl.empty = .error .ub :=
  (memColl_isReader C).evalLpdf_empty f _ (memColl_rel_collected C []) fuel hf

/-- C22: a run in which all iterations are burn-in. -/
example : evalLpdf (MemColl.next idCodec) MemColl.reset (fun m => [m.1.length]) 1 MemColl.empty =
    .error .ub := c22_empty_chain_is_ub idCodec _ 1 one_pos

/-- **C23.** The low-memory parallel evaluation returns the same matrix as the sequential
one, for every chunk size at least 1 and every order in which the threads process the
states of each chunk. -/
theorem c23_low_memory_parallel (C : Codec M) (ms : List M) (hne : ms ≠ []) (rchunk : ℕ)
    (hrc : 1 ≤ rchunk) (f : M → List α) (c : ℕ) (hc : ∀ m, (f m).length = c)
    (chunk : ℕ) (hchunk : 1 ≤ chunk) (sched : ℕ → List M → List ℕ)
    (hs : ∀ k xs, (sched k xs).Perm (List.range xs.length)) (fuel : ℕ) (hf : ms.length < fuel) :
    (∃ s', evalLowMem (MemColl.next C) MemColl.reset f chunk sched fuel
        (ms.foldl (MemColl.collect C) MemColl.empty) = .ok (ms.map f, s')) ∧
    (∃ s', evalLowMem (FileColl.next C) FileColl.reset f chunk sched fuel
        (FileColl.make rchunk (chainFile C ms)) = .ok (ms.map f, s')) := by
  have hl : (⟨ms, 0⟩ : Tape M).left = ms := by simp [Tape.left]
  have hst := stackVectors_ok (ms.map f) c (by simpa using fun m _ => hc m) (by simpa using hne)
  constructor
  · obtain ⟨s', e, h'⟩ := (memColl_isReader C).lowMemLoop f chunk hchunk sched hs fuel 0 _ _
      (memColl_rel_collected C ms) (by rw [hl]; exact hf)
    exact ⟨MemColl.reset s', by rw [evalLowMem, e, ok_bind, hl]; simp only; rw [hst, ok_bind]⟩
  · have h := fileColl_make_rel C rchunk (chainFile C ms)
    rw [readAll_chainFile] at h
    obtain ⟨s', e, h'⟩ := (fileColl_isReader C rchunk hrc _).lowMemLoop f chunk hchunk sched hs
      fuel 0 _ _ h (by rw [hl]; exact hf)
    exact ⟨FileColl.reset s', by rw [evalLowMem, e, ok_bind, hl]; simp only; rw [hst, ok_bind]⟩

/-- C23: three states in chunks of two, each chunk from its end. -/
example : ∃ s', evalLowMem (MemColl.next idCodec) MemColl.reset (fun m => [m.1.length]) 2
      (fun _ xs => (List.range xs.length).reverse) 10
      ([⟨[1, 2], by simp⟩, ⟨[], by simp⟩, ⟨[3], by simp⟩].foldl (MemColl.collect idCodec)
        MemColl.empty) = .ok ([[2], [0], [1]], s') :=
  (c23_low_memory_parallel idCodec [⟨[1, 2], by simp⟩, ⟨[], by simp⟩, ⟨[3], by simp⟩] (by simp) 1
    le_rfl (fun m => [m.1.length]) 1 (fun _ => rfl) 2 (by omega) _
    (fun _ _ => List.reverse_perm _) 10 (by simp)).1

/-- **C23, boundary.** With chunk size zero the loop never ends, whatever the collector. -/
theorem c23_zero_chunk_never_ends {σ : Type} (next : σ → Except Fault (Option M × σ))
    (reset : σ → σ) (f : M → List α) (sched : ℕ → List M → List ℕ)
    (hs : ∀ k xs, (sched k xs).Perm (List.range xs.length)) (fuel : ℕ) (s : σ) :
    evalLowMem next reset f 0 sched fuel s = .error .outOfFuel := by
  have key : ∀ k, lowMemLoop next f 0 sched fuel k s = .error .outOfFuel := by
    induction fuel with
    | zero => intro k; rfl
    | succ n ih =>
      intro k
      simp only [lowMemLoop, getChunk, ok_bind, if_true]
      rw [parallelFor_eq f _ _ (hs k _), ok_bind, ih (k + 1)]
      rfl
  rw [evalLowMem, key 0]; rfl

/-- C23: the default schedule on a collector with a state. -/
example : evalLowMem (MemColl.next idCodec) MemColl.reset (fun m => [m.1.length]) 0
    (fun _ xs => List.range xs.length) 1000
    (MemColl.collect idCodec MemColl.empty ⟨[3], by simp⟩) = .error .outOfFuel :=
  c23_zero_chunk_never_ends _ _ _ _ (fun _ _ => List.Perm.refl _) _ _

/-- **C24, partial.** The full-memory parallel evaluation with `njobs ≥ 1` jobs returns the
right rows up to order; in the right order with one job.  Missing: the order for two or
more jobs, which is wrong. -/
theorem c24_full_memory_parallel_partial (C : Codec M) (ms : List M) (rchunk : ℕ)
    (hrc : 1 ≤ rchunk) (f : M → List α) (c njobs : ℕ) (hj : 1 ≤ njobs) (fuel : ℕ)
    (hf : ms.length < fuel) :
    ∃ rows, rows.Perm (ms.map f) ∧ (njobs = 1 → rows = ms.map f) ∧
      (∃ s', evalFullMem (MemColl.next C) MemColl.reset f c njobs fuel
        (ms.foldl (MemColl.collect C) MemColl.empty) = .ok (rows, s')) ∧
      (∃ s', evalFullMem (FileColl.next C) FileColl.reset f c njobs fuel
        (FileColl.make rchunk (chainFile C ms)) = .ok (rows, s')) := by
  refine ⟨shardRows f ms njobs, shardRows_perm f ms njobs (by omega), ?_, ?_, ?_⟩
  · rintro rfl; exact shardRows_one f ms
  · obtain ⟨s', e, -⟩ := (memColl_isReader C).evalFullMem f c njobs (by omega) _ ms
      (memColl_rel_collected C ms) fuel hf
    exact ⟨s', e⟩
  · have h := fileColl_make_rel C rchunk (chainFile C ms)
    rw [readAll_chainFile] at h
    obtain ⟨s', e, -⟩ := (fileColl_isReader C rchunk hrc _).evalFullMem f c njobs (by omega) _ ms
      h fuel hf
    exact ⟨s', e⟩

/-- **C24, violation.** With two or more jobs and more states than jobs, the second row of
the result is the density under state number `njobs` (counting from 0) instead of state
number 1: the matrix is wrong whenever these two densities differ. -/
theorem c24_full_memory_violated (C : Codec M) (ms : List M) (f : M → List α) (c njobs : ℕ)
    (hj : 2 ≤ njobs) (hl : njobs < ms.length) (hd : f ms[njobs] ≠ f ms[1]) (fuel : ℕ)
    (hf : ms.length < fuel) :
    ∃ rows s', evalFullMem (MemColl.next C) MemColl.reset f c njobs fuel
        (ms.foldl (MemColl.collect C) MemColl.empty) = .ok (rows, s') ∧
      rows[1]? = some (f ms[njobs]) ∧ rows ≠ ms.map f := by
  obtain ⟨s', e, -⟩ := (memColl_isReader C).evalFullMem f c njobs (by omega) _ ms
    (memColl_rel_collected C ms) fuel hf
  refine ⟨_, s', e, shardRows_second f ms njobs hj hl, ?_⟩
  intro h
  have h2 := shardRows_second f ms njobs hj hl
  rw [h, List.getElem?_map, List.getElem?_eq_getElem (by omega)] at h2
  exact hd (by simpa using h2.symm)

/-- Non-vacuity: three states, two jobs. -/
example : shardRows (fun n : ℕ => [n]) [10, 11, 12] 2 = [[10], [12], [11]] := rfl

/-! ### C61: reported size of a file collector -/

/-- **C61, partial.** After one run into a new file collector the reported size is the
number of states in the file (see `c14_run_into_file`). Missing: reused collectors and
collectors opened on an existing file. -/
theorem c61_file_size_after_one_run_partial (C : Codec M) (ms : List M) (flush : List ℕ)
    (hfl : flush.length = ms.length) (chunk : ℤ) (old : List UInt8) :
    ∃ s, FileColl.receiveAll C (FileColl.make chunk old)
        ((Event.start, 0) :: ((ms.map Event.collect).zip flush ++ [(Event.finish, 0)])) = .ok s ∧
      s.size = (C.readAll s.file).length := by
  obtain ⟨s', q, e, h1, h2, h3, h4, h5⟩ := fileColl_collects C ms flush hfl
    (FileColl.make chunk old).start [] rfl
  refine ⟨s'.finish, ?_, ?_⟩
  · unfold FileColl.receiveAll at e ⊢
    simp only [receive_start, receive_finish, ok_bind, e, List.foldlM_append, List.foldlM_cons,
      List.foldlM_nil, pure_eq_ok]
  · have : s'.finish.file = chainFile C ms := by
      simpa [FileColl.finish, h1, FileColl.start] using h2
    rw [this, readAll_chainFile]
    simp [FileColl.finish, h1, h3, FileColl.start, FileColl.make]

/-- **C61, violation.** After two runs saving `ms₁` and `ms₂` into the same file collector,
the file holds `ms₂` only but the reported size counts both; a collector opened on an
existing chain file reports size 0. -/
theorem c61_file_size_violated (C : Codec M) (ms₁ ms₂ : List M) (chunk : ℤ) (old : List UInt8) :
    (∃ s, FileColl.receiveAll C (FileColl.make chunk old)
        ((Event.start, 0) :: (ms₁.map (fun m => (Event.collect m, 0)) ++ ((Event.finish, 0) ::
          (Event.start, 0) :: (ms₂.map (fun m => (Event.collect m, 0)) ++ [(Event.finish, 0)]))))
          = .ok s ∧
      C.readAll s.file = ms₂ ∧ s.size = ms₁.length + ms₂.length) ∧
    (FileColl.make chunk (chainFile C ms₂)).size = 0 := by
  refine ⟨?_, rfl⟩
  have hz : ∀ ms : List M, (ms.map Event.collect).zip (List.replicate ms.length 0) =
      ms.map (fun m => (Event.collect m, 0)) := by
    intro ms
    induction ms with
    | nil => rfl
    | cons m ms ih => simp [List.replicate_succ, ih]
  obtain ⟨s', q, e, h1, h2, h3, -⟩ := fileColl_collects C ms₁ (List.replicate ms₁.length 0)
    (by simp) (FileColl.make chunk old).start [] rfl
  obtain ⟨s2, q2, e2, g1, g2, g3, -⟩ := fileColl_collects C ms₂ (List.replicate ms₂.length 0)
    (by simp) s'.finish.start [] rfl
  rw [hz] at e e2
  refine ⟨s2.finish, ?_, ?_, ?_⟩
  · unfold FileColl.receiveAll at e e2 ⊢
    simp only [List.foldlM_cons, List.foldlM_append, receive_start, receive_finish, ok_bind, e, e2,
      List.foldlM_nil, pure_eq_ok]
  · have : s2.finish.file = chainFile C ms₂ := by
      simpa [FileColl.finish, g1, FileColl.start] using g2
    rw [this, readAll_chainFile]
  · simp [FileColl.finish, g1, g3, FileColl.start, FileColl.make, h1, h3]

/-- C61: one run saves two states, the next one one state. -/
example : ∃ s, FileColl.receiveAll idCodec (FileColl.make 100 [9, 9])
      [(Event.start, 0), (Event.collect ⟨[1, 2], by simp⟩, 0), (Event.collect ⟨[3], by simp⟩, 0),
        (Event.finish, 0), (Event.start, 0), (Event.collect ⟨[4], by simp⟩, 0), (Event.finish, 0)] =
      .ok s ∧ idCodec.readAll s.file = [⟨[4], by simp⟩] ∧ s.size = 3 :=
  (c61_file_size_violated idCodec [⟨[1, 2], by simp⟩, ⟨[3], by simp⟩] [⟨[4], by simp⟩] 100 [9, 9]).1

/-- C61: one run of two states, written at different times. -/
example : ∃ s, FileColl.receiveAll idCodec (FileColl.make 100 [9, 9])
      [(Event.start, 0), (Event.collect ⟨[1, 2], by simp⟩, 1), (Event.collect ⟨[3], by simp⟩, 0),
        (Event.finish, 0)] = .ok s ∧ s.size = (idCodec.readAll s.file).length :=
  c61_file_size_after_one_run_partial idCodec [⟨[1, 2], by simp⟩, ⟨[3], by simp⟩] [1, 0] rfl 100 [9, 9]

/-! ### C62: outputs of the command-line program -/

/-- The loop of `executables/run_mcmc.cc` 223-234: `get_size()` single reads, ignoring the
returned flag (a failed read leaves an empty message, `blank`), followed by `reset`. -/
def clusteringRows {σ : Type} (next : σ → Except Fault (Option M × σ)) (g : M → List ℕ)
    (blank : M) : ℕ → σ → Except Fault (List (List ℕ) × σ)
  | 0, s => .ok ([], s)
  | k + 1, s => do
    let (r, s) ← next s
    let (rest, s) ← clusteringRows next g blank k s
    .ok (g (r.getD blank) :: rest, s)

theorem clusteringRows_ok {σ : Type} {wrap : Bool} {next : σ → Except Fault (Option M × σ)}
    {reset : σ → σ} {R : σ → Tape M → Prop} (hR : IsReader wrap next reset R) (g : M → List ℕ)
    (blank : M) (k : ℕ) (s : σ) (t : Tape M) (h : R s t) (hk : k ≤ t.left.length) :
    ∃ s', clusteringRows next g blank k s = .ok ((t.left.take k).map g, s') ∧
      R s' { t with cursor := t.cursor + k } := by
  induction k generalizing s t with
  | zero => exact ⟨s, by simp [clusteringRows], h⟩
  | succ k ih =>
    have hc : t.cursor < t.items.length := by
      simp only [Tape.left, List.length_drop] at hk; omega
    obtain ⟨s', e, h'⟩ := hR.item h (List.getElem?_eq_getElem hc)
    have hl : t.left = t.items[t.cursor] :: Tape.left { t with cursor := t.cursor + 1 } := by
      simp only [Tape.left]; exact List.drop_eq_getElem_cons hc
    obtain ⟨s'', e', h''⟩ := ih s' _ h' (by rw [hl] at hk; simpa using hk)
    refine ⟨s'', by simp [clusteringRows, e, e', hl], ?_⟩
    simpa [Nat.add_assoc, Nat.add_comm 1] using h''

/-- The density and clustering outputs of `run_mcmc` (`executables/run_mcmc.cc` 193-234) on
the memory collector filled by the run: full-memory evaluation with the default 4 jobs,
then the clustering loop. -/
def runMcmcOutputs (C : Codec M) (f : M → List α) (g : M → List ℕ) (blank : M) (cols fuel : ℕ)
    (ms : List M) : Except Fault (List (List α) × List (List ℕ)) := do
  let s := ms.foldl (MemColl.collect C) MemColl.empty
  let (dens, s) ← evalFullMem (MemColl.next C) MemColl.reset f cols 4 fuel s
  let (cl, _) ← clusteringRows (MemColl.next C) g blank s.size s
  .ok (dens, cl)

/-- **C62, partial.** The clustering file written by the command-line program has one row
per saved state, in chain order, and the density file has the same number of rows, the
right ones up to order.  Missing: that row `i` of both files refers to the same state. -/
theorem c62_run_mcmc_outputs_partial (C : Codec M) (f : M → List α) (g : M → List ℕ) (blank : M)
    (cols fuel : ℕ) (ms : List M) (hf : ms.length < fuel) :
    ∃ dens, runMcmcOutputs C f g blank cols fuel ms = .ok (dens, ms.map g) ∧
      dens.Perm (ms.map f) := by
  obtain ⟨s', e, h'⟩ := (memColl_isReader C).evalFullMem f cols 4 (by omega) _ ms
    (memColl_rel_collected C ms) fuel hf
  have hl : (⟨ms, 0⟩ : Tape M).left = ms := by simp [Tape.left]
  obtain ⟨s'', e', -⟩ := clusteringRows_ok (memColl_isReader C) g blank ms.length s' ⟨ms, 0⟩ h'
    (by rw [hl])
  refine ⟨shardRows f ms 4, ?_, shardRows_perm f ms 4 (by omega)⟩
  have hsz : s'.size = ms.length := h'.2.1
  unfold runMcmcOutputs
  simp only
  rw [e, ok_bind]
  simp only [hsz]
  rw [e', ok_bind, hl, List.take_length]

/-- **C62, violation.** With more than four saved states, row 1 of the density file is the
density under state 4 whereas row 1 of the clustering file is the clustering of state 1. -/
theorem c62_run_mcmc_outputs_violated (C : Codec M) (f : M → List α) (g : M → List ℕ) (blank : M)
    (cols fuel : ℕ) (ms : List M) (hf : ms.length < fuel) (h4 : 4 < ms.length) :
    ∃ dens cl, runMcmcOutputs C f g blank cols fuel ms = .ok (dens, cl) ∧
      dens[1]? = some (f ms[4]) ∧ cl[1]? = some (g ms[1]) := by
  obtain ⟨s', e, h'⟩ := (memColl_isReader C).evalFullMem f cols 4 (by omega) _ ms
    (memColl_rel_collected C ms) fuel hf
  have hl : (⟨ms, 0⟩ : Tape M).left = ms := by simp [Tape.left]
  obtain ⟨s'', e', -⟩ := clusteringRows_ok (memColl_isReader C) g blank ms.length s' ⟨ms, 0⟩ h'
    (by rw [hl])
  refine ⟨shardRows f ms 4, ms.map g, ?_, shardRows_second f ms 4 (by omega) h4, ?_⟩
  · have hsz : s'.size = ms.length := h'.2.1
    unfold runMcmcOutputs
    simp only
    rw [e, ok_bind]
    simp only [hsz]
    rw [e', ok_bind, hl, List.take_length]
  · rw [List.getElem?_map, List.getElem?_eq_getElem (by omega)]; rfl

/-- C62: five states; row 1 of the densities is the one of the last state. -/
example : ∃ dens cl, runMcmcOutputs idCodec (fun m => [m.1.length]) (fun m => [m.1.length])
      ⟨[], by simp⟩ 1 10 [⟨[], by simp⟩, ⟨[1], by simp⟩, ⟨[1, 2], by simp⟩, ⟨[1, 2, 3], by simp⟩,
        ⟨[1, 2, 3, 4], by simp⟩] = .ok (dens, cl) ∧ dens[1]? = some [4] ∧ cl[1]? = some [1] :=
  c62_run_mcmc_outputs_violated idCodec (fun m => [m.1.length]) (fun m => [m.1.length]) ⟨[], by simp⟩ 1
    10 [⟨[], by simp⟩, ⟨[1], by simp⟩, ⟨[1, 2], by simp⟩, ⟨[1, 2, 3], by simp⟩,
      ⟨[1, 2, 3, 4], by simp⟩] (by simp) (by simp)

end Bayesmix

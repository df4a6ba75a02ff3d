import Verif.Collect.Framing

/-!
# Collectors and the loops that use them

`src/collectors/*`, `BaseAlgorithm::run` and the density evaluation loops.
`unsigned int` counters are modelled as natural numbers (no wrap-around at 2^32).
-/

namespace Bayesmix

variable {M : Type}

/-! ### Memory collector -/

/-- `MemoryCollector` (`src/collectors/memory_collector.h`) with the counters of
`BaseCollector` (`base_collector.h` 106-109). -/
structure MemColl where
  chain : List (List UInt8)
  size : Nat
  cur : Nat

/-- A newly constructed collector. -/
def MemColl.empty : MemColl := { chain := [], size := 0, cur := 0 }

/-- `MemoryCollector::collect` (`memory_collector.cc` 3-8). -/
def MemColl.collect (C : Codec M) (s : MemColl) (m : M) : MemColl :=
  { s with chain := s.chain ++ [C.ser m], size := s.size + 1 }

/-- `MemoryCollector::get_state` (`memory_collector.cc` 10-13).  `ParseFromString` cannot
fail on what `collect` stored; a failure would leave the output message in an unspecified
state, modelled as `none`. -/
def MemColl.getState (C : Codec M) (s : MemColl) (i : Nat) : Except Fault (Option M) := do
  let b ← vget s.chain i
  .ok (C.parse b)

/-- `MemoryCollector::reset` (`memory_collector.cc` 15). -/
def MemColl.reset (s : MemColl) : MemColl := { s with cur := 0 }

/-- `MemoryCollector::next_state` (`memory_collector.cc` 17-24); `none` is `false`. -/
def MemColl.next (C : Codec M) (s : MemColl) : Except Fault (Option M × MemColl) :=
  if s.cur = s.size then .ok (none, s)
  else do
    let b ← vget s.chain s.cur
    match C.parse b with
    | none => .error .ub -- message content unspecified
    | some m => .ok (some m, { s with cur := s.cur + 1 })

/-- `MemoryCollector::write_to_file` (`memory_collector.h` 33-54): bytes of the file. -/
def MemColl.toFile (C : Codec M) (s : MemColl) : List UInt8 :=
  s.chain.flatMap fun b => match C.parse b with
    | some m => C.frame m
    | none => []

/-- `MemoryCollector::read_from_file` (`memory_collector.h` 58-77): `chain.resize(0)`,
then `collect` of each message; `size` and `curr_iter` are not reset. -/
def MemColl.fromFile (C : Codec M) (s : MemColl) (file : List UInt8) : MemColl :=
  (C.readAll file).foldl (MemColl.collect C) { s with chain := [] }

/-! ### File collector -/

/-- `FileCollector` (`src/collectors/file_collector.h`).
* `file`: bytes of the file on disk;
* `out`: `some p` while open for writing, `p` the bytes still in the buffer of `fout`;
* `fin`: `some r` while open for reading, `r` the bytes not yet read;
* `buf`: `msg_buffer`, each future `true` if not yet retrieved.
Not modelled: the file descriptors (in particular `close(outfd)` on the member `outfd`,
which `start_collecting` shadows and never sets), failures of the file system. -/
structure FileColl where
  file : List UInt8
  out : Option (List UInt8)
  fin : Option (List UInt8)
  buf : List Bool
  pos : Nat
  chunk : Int
  size : Nat
  cur : Nat

/-- A newly constructed collector on a file with the given content
(`file_collector.h` 22-23). -/
def FileColl.make (chunk : Int) (file : List UInt8) : FileColl :=
  { file := file, out := none, fin := none, buf := [], pos := 0, chunk := chunk, size := 0, cur := 0 }

/-- `FileCollector::start_collecting` (`file_collector.cc` 7-12): `O_TRUNC`. -/
def FileColl.start (s : FileColl) : FileColl := { s with file := [], out := some [] }

/-- `FileCollector::finish_collecting` (`file_collector.cc` 14-20): `Close` flushes. -/
def FileColl.finish (s : FileColl) : FileColl :=
  match s.out with
  | none => s
  | some p => { s with file := s.file ++ p, out := none }

/-- `FileCollector::collect` (`file_collector.cc` 22-30).  The output stream is buffered:
an arbitrary number `k` of buffered bytes reaches the disk.  Without a preceding
`start_collecting` the pointer `fout` is not valid. -/
def FileColl.collect (C : Codec M) (s : FileColl) (m : M) (k : Nat) : Except Fault FileColl :=
  match s.out with
  | none => .error .ub
  | some p =>
    let q := p ++ C.frame m
    .ok { s with file := s.file ++ q.take k, out := some (q.drop k), size := s.size + 1 }

/-- `FileCollector::reset` (`file_collector.cc` 32-35, 46-52). -/
def FileColl.reset (s : FileColl) : FileColl := { s with cur := 0, fin := none }

/-- `FileCollector::populate_buffer` (`file_collector.cc` 83-94): `chunk_size` deferred
futures, none of which reads anything before `get` is called. -/
def FileColl.populate (s : FileColl) : FileColl :=
  { s with buf := List.replicate s.chunk.toNat true, pos := 0 }

/-- The opening branch of `next_state` (`file_collector.cc` 55-59, 37-44). -/
def FileColl.ensureOpen (s : FileColl) : FileColl :=
  match s.fin with
  | some _ => s
  | none => { s with fin := some s.file }.populate

/-- The cursor update of `next_state` (`file_collector.cc` 61-66). -/
def FileColl.advance (s : FileColl) : FileColl :=
  let s' := { s with cur := s.cur + 1, pos := s.pos + 1 }
  if (s'.pos : Int) = s'.chunk then s'.populate else s'

/-- `FileCollector::next_state` (`file_collector.cc` 54-81): retrieving a future runs
`read_one` (96-102) on the stream; retrieving it twice is an error. -/
def FileColl.next (C : Codec M) (s : FileColl) : Except Fault (Option M × FileColl) := do
  let s := s.ensureOpen.advance
  let fresh ← vget s.buf s.pos
  if fresh then
    let s := { s with buf := s.buf.set s.pos false }
    match s.fin with
    | none => .error .ub
    | some r =>
      match C.readFrame r with
      | some (m, r') => .ok (some m, { s with fin := some r' })
      | none => .ok (none, { s with fin := none, cur := 0, pos := 0 })
  else .error .ub

/-! ### Loops over any collector -/

section Generic
variable {σ : Type}

/-- `BaseCollector::get_chunk` (`base_collector.h` 63-75): the collected messages, the
value of `keep` and the new collector. -/
def getChunk (next : σ → Except Fault (Option M × σ)) :
    Nat → Bool → σ → Except Fault (List M × Bool × σ)
  | 0, keep, s => .ok ([], keep, s)
  | k + 1, _, s => do
    let (r, s) ← next s
    match r with
    | none => .ok ([], false, s)
    | some m => do
      let (l, keep, s) ← getChunk next k true s
      .ok (m :: l, keep, s)

/-- `BaseCollector::get_whole_chain` (`base_collector.h` 77-90). -/
def getWholeChain (next : σ → Except Fault (Option M × σ)) :
    (fuel : Nat) → σ → Except Fault (List M × σ)
  | 0, _ => .error .outOfFuel
  | k + 1, s => do
    let (r, s) ← next s
    match r with
    | none => .ok ([], s)
    | some m => do
      let (l, s) ← getWholeChain next k s
      .ok (m :: l, s)

/-- `bayesmix::stack_vectors` (`src/utils/eigen_utils.h` 36-43): reads `rows[0]`
unconditionally; assigning a row of another length fails an Eigen assertion. -/
def stackVectors {α : Type} (rows : List (List α)) : Except Fault (List (List α)) := do
  let r0 ← vget rows 0
  if rows.all (fun r => r.length == r0.length) then .ok rows else .error .assertFail

/-- `bayesmix::vstack` (`src/utils/eigen_utils.cc` 9-36); a matrix is a list of rows with
its number of columns. -/
def vstackRows {α : Type} (mats : List (Nat × List (List α))) : Except Fault (List (List α)) := do
  let m0 ← vget mats 0
  if mats.all (fun m => m.1 == m0.1) then .ok (mats.flatMap (·.2)) else .error .throw

/-- `BaseAlgorithm::eval_lpdf` (`src/algorithms/base_algorithm.cc` 16-44):
`update_state_from_collector` is `get_next_state` into the current state, and
`lpdf_from_state` is the function `f` of that state. -/
def evalLpdf {α : Type} (next : σ → Except Fault (Option M × σ)) (reset : σ → σ)
    (f : M → List α) (fuel : Nat) (s : σ) : Except Fault (List (List α) × σ) := do
  let (ms, s) ← getWholeChain next fuel s
  let out ← stackVectors (ms.map f)
  .ok (out, reset s)

/-- `#pragma omp parallel for`: iteration `i` writes `f xs[i]` into slot `i` of a vector
of `xs.length` slots; the iterations are executed in the order `order`. -/
def parallelFor {α : Type} (f : M → List α) (xs : List M) (order : List Nat) :
    Except Fault (List (List α)) :=
  order.foldlM (fun out i => do
    let x ← vget xs i
    vset out i (f x)) (List.replicate xs.length [])

/-- The `do … while (keep)` loop of `eval_lpdf_parallel_lowmemory`
(`src/utils/eval_like.cc` 24-38).  `keep` is passed by reference and only changed by
`get_chunk` when the chunk size is positive.  `sched k` is the order in which the threads
process the `k`-th chunk. -/
def lowMemLoop {α : Type} (next : σ → Except Fault (Option M × σ)) (f : M → List α)
    (chunk : Nat) (sched : Nat → List M → List Nat) :
    (fuel : Nat) → Nat → σ → Except Fault (List (List α) × σ)
  | 0, _, _ => .error .outOfFuel
  | n + 1, k, s => do
    let (ms, keep, s) ← getChunk next chunk true s
    let cur ← parallelFor f ms (sched k ms)
    if keep then do
      let (rest, s) ← lowMemLoop next f chunk sched n (k + 1) s
      .ok (cur ++ rest, s)
    else .ok (cur, s)

/-- `eval_lpdf_parallel_lowmemory` (`src/utils/eval_like.cc` 19-42). -/
def evalLowMem {α : Type} (next : σ → Except Fault (Option M × σ)) (reset : σ → σ)
    (f : M → List α) (chunk : Nat) (sched : Nat → List M → List Nat) (fuel : Nat) (s : σ) :
    Except Fault (List (List α) × σ) := do
  let (rows, s) ← lowMemLoop next f chunk sched fuel 0 s
  let out ← stackVectors rows
  .ok (out, reset s)

/-- `gen_even_slices` (`src/utils/eval_like.h` 30-38); `i % 0` is undefined. -/
def genEvenSlices (xs : List M) (num : Nat) : Except Fault (List (List M)) :=
  (List.range xs.length).foldlM (fun out i => do
    if num = 0 then .error .ub
    else do
      let x ← vget xs i
      let shard ← vget out (i % num)
      vset out (i % num) (shard ++ [x])) (List.replicate num [])

/-- `eval_lpdf_parallel_fullmemory` (`src/utils/eval_like.cc` 44-68).  Each job writes its
own slot, so the schedule does not matter; `cols` is `grid.rows()`. -/
def evalFullMem {α : Type} (next : σ → Except Fault (Option M × σ)) (reset : σ → σ)
    (f : M → List α) (cols njobs fuel : Nat) (s : σ) : Except Fault (List (List α) × σ) := do
  let (chain, s) ← getWholeChain next fuel s
  let shards ← genEvenSlices chain njobs
  let out ← vstackRows (shards.map fun sh => (cols, sh.map f))
  .ok (out, reset s)

end Generic

/-! ### The main loop -/

/-- What `BaseAlgorithm::run` does to its collector. -/
inductive Event (M : Type) where
  | start
  | collect (m : M)
  | finish

/-- The `while (iter < maxiter)` loop of `BaseAlgorithm::run`
(`src/algorithms/base_algorithm.h` 60-71), with `left = maxiter - iter`; `save` is
`get_state_as_proto(iter)`. -/
def runLoop {S : Type} (step : S → S) (save : Nat → S → M) (burnin : Nat) :
    (left iter : Nat) → S → List (Event M)
  | 0, _, _ => []
  | l + 1, iter, s =>
    let s := step s
    (if iter ≥ burnin then [Event.collect (save iter s)] else []) ++
      runLoop step save burnin l (iter + 1) s

/-- `BaseAlgorithm::run` (`base_algorithm.h` 49-78) after `initialize`. -/
def runEvents {S : Type} (step : S → S) (save : Nat → S → M) (maxiter burnin : Nat) (s : S) :
    List (Event M) :=
  [Event.start] ++ runLoop step save burnin maxiter 0 s ++ [Event.finish]

/-- A memory collector receiving the events (`start`/`finish` do nothing,
`memory_collector.h` 20-22). -/
def MemColl.receive (C : Codec M) (s : MemColl) : Event M → MemColl
  | .start => s
  | .collect m => s.collect C m
  | .finish => s

/-- A file collector receiving the events; `flush i` is the number of bytes that reach the
disk at the `i`-th event. -/
def FileColl.receive (C : Codec M) (flush : Nat) (s : FileColl) : Event M → Except Fault FileColl
  | .start => .ok s.start
  | .collect m => s.collect C m flush
  | .finish => .ok s.finish

/-- A file collector receiving a list of events, each with its flush amount. -/
def FileColl.receiveAll (C : Codec M) (s : FileColl) (es : List (Event M × Nat)) :
    Except Fault FileColl :=
  es.foldlM (fun s e => s.receive C e.2 e.1) s

end Bayesmix

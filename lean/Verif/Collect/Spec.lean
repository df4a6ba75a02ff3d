import Verif.Collect.Model

/-! Specification vocabulary for the collector properties. -/

namespace Bayesmix

variable {M : Type}

/-- Operations of a user on a collector that is being read. -/
inductive ReadOp where
  | next
  | chunk (k : Nat)
  | reset

/-- What a read operation returns: the states handed out and the flag "there was more". -/
abbrev ReadOut (M : Type) := List M × Bool

/-- A list of states with a read cursor. -/
structure Tape (M : Type) where
  items : List M
  cursor : Nat

/-- The states not yet read. -/
def Tape.left (t : Tape M) : List M := t.items.drop t.cursor

/-- Where the cursor goes when a read hits the end: to the beginning if `wrap`. -/
def Tape.atEnd (wrap : Bool) (t : Tape M) : Tape M :=
  { t with cursor := if wrap then 0 else t.items.length }

/-- Reading up to `k` states: all of them, with flag `true`, if `k` are left; otherwise
what is left, with flag `false`. -/
def Tape.take (wrap : Bool) (t : Tape M) (k : Nat) : ReadOut M × Tape M :=
  if k ≤ t.left.length then ((t.left.take k, true), { t with cursor := t.cursor + k })
  else ((t.left, false), t.atEnd wrap)

/-- The intended effect of a read operation. -/
def Tape.op (wrap : Bool) (t : Tape M) : ReadOp → ReadOut M × Tape M
  | .next => t.take wrap 1
  | .chunk k => t.take wrap k
  | .reset => (([], true), { t with cursor := 0 })

/-- Results of a sequence of read operations on a tape. -/
def Tape.ops (wrap : Bool) (t : Tape M) : List ReadOp → List (ReadOut M)
  | [] => []
  | o :: os => (t.op wrap o).1 :: Tape.ops wrap (t.op wrap o).2 os

/-- The same operations on a collector, through the public interface of `BaseCollector`
(`get_next_state`, `get_chunk`, `reset`). -/
def readOp {σ : Type} (next : σ → Except Fault (Option M × σ)) (reset : σ → σ) (s : σ) :
    ReadOp → Except Fault (ReadOut M × σ)
  | .next => do
    let (r, s) ← next s
    match r with
    | some m => .ok (([m], true), s)
    | none => .ok (([], false), s)
  | .chunk k => do
    let (l, keep, s) ← getChunk next k true s
    .ok ((l, keep), s)
  | .reset => .ok (([], true), reset s)

/-- Results of a sequence of read operations on a collector. -/
def readOps {σ : Type} (next : σ → Except Fault (Option M × σ)) (reset : σ → σ) (s : σ) :
    List ReadOp → Except Fault (List (ReadOut M))
  | [] => .ok []
  | o :: os => do
    let (r, s) ← readOp next reset s o
    let rs ← readOps next reset s os
    .ok (r :: rs)

/-- All operations on a memory collector. -/
inductive MemOp (M : Type) where
  | start
  | finish
  | collect (m : M)
  | get (i : Nat)
  | read (o : ReadOp)

/-- Intended effect on a list with a cursor; `get i` beyond the number of collected states
is a caller error. -/
def Tape.memOp (t : Tape M) : MemOp M → Except Fault (ReadOut M × Tape M)
  | .start => .ok (([], true), t)
  | .finish => .ok (([], true), t)
  | .collect m => .ok (([], true), { t with items := t.items ++ [m] })
  | .get i => match t.items[i]? with
    | some m => .ok (([m], true), t)
    | none => .error .ub
  | .read o => .ok (t.op false o)

/-- The modelled memory collector. -/
def MemColl.memOp (C : Codec M) (s : MemColl) : MemOp M → Except Fault (ReadOut M × MemColl)
  | .start => .ok (([], true), s)
  | .finish => .ok (([], true), s)
  | .collect m => .ok (([], true), s.collect C m)
  | .get i => do
    let r ← s.getState C i
    .ok ((r.toList, true), s)
  | .read o => readOp (MemColl.next C) MemColl.reset s o

/-- Runs a list of operations, collecting results. -/
def runOps {σ ο β : Type} (op : σ → ο → Except Fault (β × σ)) (s : σ) :
    List ο → Except Fault (List β × σ)
  | [] => .ok ([], s)
  | o :: os => do
    let (r, s) ← op s o
    let (rs, s) ← runOps op s os
    .ok (r :: rs, s)

/-- Bytes of a complete chain file. -/
def chainFile (C : Codec M) (ms : List M) : List UInt8 := ms.flatMap C.frame

/-- Number of states in `ms` whose bytes are entirely among the first `k` bytes of the
chain file. -/
def complete (C : Codec M) : List M → Nat → Nat
  | [], _ => 0
  | m :: ms, k => if (C.frame m).length ≤ k then complete C ms (k - (C.frame m).length) + 1 else 0

end Bayesmix

import Verif.Model.Array
import Verif.Spec

/-!
# A queue in an array, for C148

A bounded first-in first-out queue as hardware builds it: an array of 2^iw cells, and a read and a write pointer with one bit more than the
index, so that a full queue can be told from an empty one. And what a queue is.
-/

namespace Baa
open Res

/-- What can be done with a queue. -/
inductive QueueOp (α : Type) where
  | push (v : α)
  | pop
  | length

/-- What a queue answers. A push tells whether there was room. -/
inductive QueueAns (α β : Type) where
  | pushed (room : Bool)
  | popped (v : Option α)
  | size (n : β)
  deriving DecidableEq

/-- A queue with room for `cap` values is a list of values, the oldest first. -/
def queueStep {α : Type} (cap : Nat) (q : List α) : QueueOp α → List α × QueueAns α Nat
  | .push v => if q.length < cap then (q ++ [v], .pushed true) else (q, .pushed false)
  | .pop => (q.tail, .popped q.head?)
  | .length => (q, .size q.length)

/-- The answers to a list of requests. -/
def queueRun {α : Type} (cap : Nat) : List α → List (QueueOp α) → List (QueueAns α Nat)
  | _, [] => []
  | q, o :: os => (queueStep cap q o).2 :: queueRun cap (queueStep cap q o).1 os

/-- The implementation: an array and two pointers. -/
structure ArrayQueue where
  mem : ArrayValue
  rd : BitVecValue
  wr : BitVecValue

namespace ArrayQueue

/-- An empty queue in an array, for indices of `iw` bits. -/
def new (iw : Nat) (mem : ArrayValue) : ArrayQueue := ⟨mem, BitVecValue.zero (iw + 1), BitVecValue.zero (iw + 1)⟩

/-- The pointer one further on. -/
def next (m : Mode) (iw : Nat) (p : BitVecValue) : Res BitVecValue := do
  let one ← BitVecValue.fromU64 m 1#64 (iw + 1)
  BitVecValue.add m p one

def step (m : Mode) (env : HashEnv) (iw : Nat) (q : ArrayQueue) : QueueOp BitVecValue → Res (ArrayQueue × QueueAns BitVecValue BitVecValue)
  | .push v => do
    let used ← BitVecValue.sub m q.wr q.rd
    let full ← BitVecValue.isBitSet used iw
    if full then ok (q, .pushed false)
    else do
      let i ← BitVecValue.slice m q.wr (iw - 1) 0
      let mem ← q.mem.store m env i v
      let wr ← next m iw q.wr
      ok (⟨mem, q.rd, wr⟩, .pushed true)
  | .pop => do
    let empty ← BitVecValue.isEqual m q.rd q.wr
    if empty then ok (q, .popped none)
    else do
      let i ← BitVecValue.slice m q.rd (iw - 1) 0
      let v ← q.mem.select m env i
      let rd ← next m iw q.rd
      ok (⟨q.mem, rd, q.wr⟩, .popped (some v))
  | .length => do
    let used ← BitVecValue.sub m q.wr q.rd
    ok (q, .size used)

def run (m : Mode) (env : HashEnv) (iw : Nat) : ArrayQueue → List (QueueOp BitVecValue) → Res (List (QueueAns BitVecValue BitVecValue))
  | _, [] => ok []
  | q, o :: os => do
    let (q, a) ← step m env iw q o
    let as ← run m env iw q os
    ok (a :: as)

end ArrayQueue

/-- The request with the value that the library builds for each bit-vector. -/
def QueueOp.encoded {dw : Nat} : QueueOp (BitVec dw) → QueueOp BitVecValue
  | .push v => .push (encode v)
  | .pop => .pop
  | .length => .length

/-- The answer with the value that the library builds for each bit-vector; a size is a value of `iw + 1` bits. -/
def QueueAns.encoded {dw : Nat} (iw : Nat) : QueueAns (BitVec dw) Nat → QueueAns BitVecValue BitVecValue
  | .pushed b => .pushed b
  | .popped v => .popped (v.map encode)
  | .size n => .size (encode (BitVec.ofNat (iw + 1) n))

end Baa

import Verif.Model.Array
import Verif.Spec
import Verif.SpecArray

/-!
# A cache in front of a memory, for C154

A direct-mapped write-back cache as hardware builds it: one line for every index, with a tag, a flag that it is in use, a flag that it was
written, and the data. All five parts are arrays of the library. And what a memory is.
-/

namespace Baa
open Res

/-- What can be done with a memory. -/
inductive MemOp (α β : Type) where
  | read (a : α)
  | write (a : α) (d : β)

/-- The answers of a memory to the reads in a list of requests. -/
def memRun {aw dw : Nat} (f : BitVec aw → BitVec dw) : List (MemOp (BitVec aw) (BitVec dw)) → List (BitVec dw)
  | [] => []
  | .read a :: os => f a :: memRun f os
  | .write a d :: os => memRun (update f a d) os

/-- The memory after a list of requests. -/
def memAfter {aw dw : Nat} (f : BitVec aw → BitVec dw) : List (MemOp (BitVec aw) (BitVec dw)) → BitVec aw → BitVec dw
  | [] => f
  | .read _ :: os => memAfter f os
  | .write a d :: os => memAfter (update f a d) os

structure Cache where
  tags : ArrayValue
  used : ArrayValue
  dirty : ArrayValue
  data : ArrayValue
  mem : ArrayValue

namespace Cache

/-- The memory after the line `i` with tag `t` went back to it; `u` tells whether the line is in use. Only a line that was written goes back. -/
def writeBack (m : Mode) (env : HashEnv) (c : Cache) (u t i : BitVecValue) : Res ArrayValue := do
  let d ← c.dirty.select m env i
  if !u.isZero && !d.isZero then do
    let old ← c.data.select m env i
    let a ← BitVecValue.concat m t i
    c.mem.store m env a old
  else ok c.mem

/-- Puts the cell with tag `t` and index `i` into its line, unless it is there. What the line held goes back to the memory first. -/
def fetch (m : Mode) (env : HashEnv) (c : Cache) (t i : BitVecValue) : Res Cache := do
  let u ← c.used.select m env i
  let t' ← c.tags.select m env i
  let same ← BitVecValue.isEqual m t' t
  if !u.isZero && same then ok c
  else do
    let mem ← writeBack m env c u t' i
    let a ← BitVecValue.concat m t i
    let new ← mem.select m env a
    let data ← c.data.store m env i new
    let tags ← c.tags.store m env i t
    let one ← BitVecValue.tru m
    let used ← c.used.store m env i one
    let zero ← BitVecValue.fals m
    let dirty ← c.dirty.store m env i zero
    ok ⟨tags, used, dirty, data, mem⟩

/-- One request, for indices of `iw` bits and tags of `tw` bits. -/
def step (m : Mode) (env : HashEnv) (tw iw : Nat) (c : Cache) : MemOp BitVecValue BitVecValue → Res (Cache × Option BitVecValue)
  | .read a => do
    let i ← BitVecValue.slice m a (iw - 1) 0
    let t ← BitVecValue.slice m a (tw + iw - 1) iw
    let c ← fetch m env c t i
    let d ← c.data.select m env i
    ok (c, some d)
  | .write a d => do
    let i ← BitVecValue.slice m a (iw - 1) 0
    let t ← BitVecValue.slice m a (tw + iw - 1) iw
    let c ← fetch m env c t i
    let data ← c.data.store m env i d
    let one ← BitVecValue.tru m
    let dirty ← c.dirty.store m env i one
    ok ({ c with data := data, dirty := dirty }, none)

/-- A list of requests: what is left, and the answers to the reads. -/
def run (m : Mode) (env : HashEnv) (tw iw : Nat) : Cache → List (MemOp BitVecValue BitVecValue) → Res (Cache × List BitVecValue)
  | c, [] => ok (c, [])
  | c, o :: os => do
    let (c, d) ← step m env tw iw c o
    let (c, ds) ← run m env tw iw c os
    ok (c, d.toList ++ ds)

/-- Writes the listed lines back to the memory. -/
def flush (m : Mode) (env : HashEnv) (iw : Nat) : Cache → List Nat → Res Cache
  | c, [] => ok c
  | c, k :: ks => do
    let i ← BitVecValue.fromU64 m (BitVec.ofNat 64 k) iw
    let u ← c.used.select m env i
    let t ← c.tags.select m env i
    let mem ← writeBack m env c u t i
    flush m env iw { c with mem := mem } ks

end Cache

/-- The request with the value that the library builds for each bit-vector. -/
def MemOp.encoded {aw dw : Nat} : MemOp (BitVec aw) (BitVec dw) → MemOp BitVecValue BitVecValue
  | .read a => .read (encode a)
  | .write a d => .write (encode a) (encode d)

end Baa

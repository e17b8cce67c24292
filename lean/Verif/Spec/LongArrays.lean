import Verif.SpecAnyConv
import Verif.Spec.LongTables

/-!
# Arrays of either kind with more than 64 index bits

A dense array with so many index bits exists only in release builds, where its index width counts modulo 64. Converting it to a sparse array
gives a `LongTable`. Entries can not be written to it, so the conversion works only if there is nothing to write.
-/

namespace Baa
open Res

/-- The default of the sparse array that a dense array becomes, or a panic. All elements must be the same. They are read like in
`Memory.sparsified`. -/
def Memory.emptied (m : Mode) (iw dw : Nat) (mem : Memory) : Option Shape := do
  let n ← elementCount m iw
  if (List.range n).all fun k => mem.element dw k = mem.element dw 0 then
    (mem.sparsified m iw dw (mem.element dw 0)).map Table.default
  else none

/-- What an array holds. -/
inductive LongArray where
  | dense (mem : Memory)
  | sparse (t : LongTable)

/-- A new array. -/
def LongArray.create (k : Kind) (m : Mode) (iw : Nat) (v : Shape) : Option LongArray :=
  match k with
  | .dense => (Memory.create m iw v).map .dense
  | .sparse => some (.sparse (.create v))

/-- What a dense array holds after an operation, or a panic. -/
def Memory.long (m : Mode) (iw dw : Nat) (mem : Memory) : ConvOp → Option LongArray
  | .base (.store i d) => (mem.store m iw dw i.shape d.shape).map .dense
  | .base .clear => some (.dense mem.clear)
  | .makeDense => some (.dense mem)
  | .toSparse => (mem.emptied m iw dw).map fun d => .sparse (.create d)

/-- What the array holds after an operation that returns. -/
def LongArray.after (m : Mode) (iw dw : Nat) : LongArray → ConvOp → LongArray
  | .dense mem, op => (mem.long m iw dw op).getD (.dense mem)
  | .sparse t, op => .sparse (t.after dw op)

/-- The operation panics, whatever indices the hash table compares. -/
def LongArray.Stops (m : Mode) (iw dw : Nat) : LongArray → ConvOp → Prop
  | .dense mem, op => mem.long m iw dw op = none
  | .sparse t, op => t.Stops m iw dw op

/-- The operation panics if the wrong indices are compared. -/
def LongArray.Risks (m : Mode) (iw dw : Nat) : LongArray → ConvOp → Prop
  | .dense mem, op => mem.long m iw dw op = none
  | .sparse t, op => t.Risks m iw dw op

/-- What the array holds after a history that returns. -/
def LongArray.history (m : Mode) (iw dw : Nat) : LongArray → List ConvOp → LongArray
  | c, [] => c
  | c, op :: ops => (c.after m iw dw op).history m iw dw ops

/-- Some operation of the history has the property. -/
def LongArray.Somewhere (P : LongArray → ConvOp → Prop) (m : Mode) (iw dw : Nat) : LongArray → List ConvOp → Prop
  | _, [] => False
  | c, op :: ops => P c op ∨ (c.after m iw dw op).Somewhere P m iw dw ops

end Baa

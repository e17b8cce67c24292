import Verif.Model.Array
import Verif.Spec.Fields

/-!
# An array used as a memory, for C141

Programs that keep values wider than a cell in consecutive cells of an array.
-/

namespace Baa
open Res

/-- Write the values one after the other, starting at the address. -/
def storeCells (m : Mode) (env : HashEnv) : ArrayValue → BitVecValue → List BitVecValue → Res ArrayValue
  | a, _, [] => ok a
  | a, addr, c :: cs => do
    let a ← a.store m env addr c
    let one ← BitVecValue.fromU64 m 1#64 addr.width
    let next ← BitVecValue.add m addr one
    storeCells m env a next cs

/-- Read that many consecutive cells, starting at the address. -/
def loadCells (m : Mode) (env : HashEnv) (a : ArrayValue) : BitVecValue → Nat → Res (List BitVecValue)
  | _, 0 => ok []
  | addr, k + 1 => do
    let c ← a.select m env addr
    let one ← BitVecValue.fromU64 m 1#64 addr.width
    let next ← BitVecValue.add m addr one
    let cs ← loadCells m env a next k
    ok (c :: cs)

/-- The order of the parts of a value in memory. -/
inductive Endian where
  | big
  | little

/-- The cells in the order of their addresses, given with the most significant part first; and back. -/
def Endian.arrange {α : Type} : Endian → List α → List α
  | .big, l => l
  | .little, l => l.reverse

/-- Cut a value into `k` cells of width `dw` and write them. -/
def storeWide (m : Mode) (env : HashEnv) (e : Endian) (a : ArrayValue) (dw : Nat) (addr v : BitVecValue) (k : Nat) : Res ArrayValue := do
  let parts ← unpackFields m v v.width (List.replicate k dw)
  storeCells m env a addr (e.arrange parts)

/-- The parts concatenated, the first one on top. There has to be one. -/
def joinParts (m : Mode) : List BitVecValue → Res BitVecValue
  | [] => panic .bounds
  | c :: cs => packFields m c cs

/-- Read `k` cells and concatenate them. -/
def loadWide (m : Mode) (env : HashEnv) (e : Endian) (a : ArrayValue) (addr : BitVecValue) (k : Nat) : Res BitVecValue := do
  let cells ← loadCells m env a addr k
  joinParts m (e.arrange cells)

/-- The function `f` with the values at `i`, `i + 1`, … replaced by those of the list; addresses wrap around. -/
def updates {iw dw : Nat} (f : BitVec iw → BitVec dw) (i : BitVec iw) (ds : List (BitVec dw)) : BitVec iw → BitVec dw :=
  fun j => ds.getD (j - i).toNat (f j)

end Baa

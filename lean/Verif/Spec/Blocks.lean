import Verif.Model.Array

/-!
# Blocks of cells, for C147

Programs that fill, copy and move ranges of cells of an array, and what the ranges are afterwards. Addresses wrap around.
-/

namespace Baa
open Res

/-- The address `k` cells further on. -/
def offsetBy (m : Mode) (p : BitVecValue) (k : Nat) : Res BitVecValue := do
  let i ← BitVecValue.fromU64 m (BitVec.ofNat 64 k) p.width
  BitVecValue.add m p i

/-- Write the same value to the cells at these offsets. -/
def fillBlock (m : Mode) (env : HashEnv) (p v : BitVecValue) : ArrayValue → List Nat → Res ArrayValue
  | a, [] => ok a
  | a, k :: ks => do
    let i ← offsetBy m p k
    let a ← a.store m env i v
    fillBlock m env p v a ks

/-- Copy the cells at these offsets from another array. -/
def copyCells (m : Mode) (env : HashEnv) (b : ArrayValue) (src dst : BitVecValue) : ArrayValue → List Nat → Res ArrayValue
  | a, [] => ok a
  | a, k :: ks => do
    let i ← offsetBy m src k
    let j ← offsetBy m dst k
    let c ← b.select m env i
    let a ← a.store m env j c
    copyCells m env b src dst a ks

/-- Copy the cells at these offsets within one array, in this order. -/
def moveCells (m : Mode) (env : HashEnv) (src dst : BitVecValue) : ArrayValue → List Nat → Res ArrayValue
  | a, [] => ok a
  | a, k :: ks => do
    let i ← offsetBy m src k
    let j ← offsetBy m dst k
    let c ← a.select m env i
    let a ← a.store m env j c
    moveCells m env src dst a ks

/-- Move a range that may overlap its destination: upwards through the offsets if the destination is below, downwards otherwise. -/
def moveBlock (m : Mode) (env : HashEnv) (src dst : BitVecValue) (a : ArrayValue) (n : Nat) : Res ArrayValue := do
  let below ← BitVecValue.isLess m dst src
  if below then moveCells m env src dst a (List.range n) else moveCells m env src dst a (List.range n).reverse

/-- `f` where the `n` cells from `d` on are those of `g` from `s` on. -/
def blockFrom {iw dw : Nat} (f g : BitVec iw → BitVec dw) (s d : BitVec iw) (n : Nat) : BitVec iw → BitVec dw :=
  fun j => if (j - d).toNat < n then g (s + (j - d)) else f j

end Baa

import Verif.Spec.Limbs
import Verif.Spec.Algorithms

/-!
# Products of long numbers in memory, for C163
-/

namespace Baa
open Res

/-- `x + y * z + c` for digits, as its lower and its upper digit. The product is made by doubling and adding, as `mul` has no product
of more than 64 bits. -/
def digitProduct (m : Mode) (x y z c : BitVecValue) : Res (BitVecValue × BitVecValue) := do
  let w := x.width
  let x ← BitVecValue.zeroExtend m x w
  let y ← BitVecValue.zeroExtend m y w
  let z ← BitVecValue.zeroExtend m z w
  let c ← BitVecValue.zeroExtend m c w
  let t ← shiftAndAdd m z (List.range (w + w)) y (BitVecValue.zero (w + w))
  let t ← BitVecValue.add m t x
  let t ← BitVecValue.add m t c
  let low ← BitVecValue.slice m t (w - 1) 0
  let high ← BitVecValue.slice m t (w + w - 1) w
  ok (low, high)

/-- Add a multiple of the `n` cells of `b` from `q` on to the `n` cells of `a` from `p` on. -/
def addMultiple (m : Mode) (env : HashEnv) (b : ArrayValue) (z : BitVecValue) :
    Nat → BitVecValue → BitVecValue → ArrayValue → BitVecValue → Res (ArrayValue × BitVecValue)
  | 0, _, _, a, c => ok (a, c)
  | n + 1, p, q, a, c => do
    let x ← a.select m env p
    let y ← b.select m env q
    let (low, high) ← digitProduct m x y z c
    let a ← a.store m env p low
    let p ← offsetBy m p 1
    let q ← offsetBy m q 1
    addMultiple m env b z n p q a high

/-- Long multiplication: add the product of the `n` cells of `b` from `q` on and the `k` cells of `c` from `s` on to the `n` cells of
`a` from `p` on; the result has `n + k` cells. -/
def mulCells (m : Mode) (env : HashEnv) (b c : ArrayValue) (n : Nat) (q : BitVecValue) : Nat → BitVecValue → BitVecValue → ArrayValue →
    Res ArrayValue
  | 0, _, _, a => ok a
  | k + 1, p, s, a => do
    let z ← c.select m env s
    let (a, high) ← addMultiple m env b z n p q a (BitVecValue.zero z.width)
    let top ← offsetBy m p n
    let a ← a.store m env top high
    let p ← offsetBy m p 1
    let s ← offsetBy m s 1
    mulCells m env b c n q k p s a

end Baa

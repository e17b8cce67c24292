import Verif.Spec.Limbs
import Verif.Spec.Algorithms

/-!
# Quotients of long numbers in memory, for C164
-/

namespace Baa
open Res

/-- The number with the digits `r` and `x` divided by the digit `z`: quotient and remainder. The division is done bit by bit, as there
is no division among the operations. -/
def digitQuotient (m : Mode) (r x z : BitVecValue) : Res (BitVecValue × BitVecValue) := do
  let w := x.width
  let t ← BitVecValue.concat m r x
  let z ← BitVecValue.zeroExtend m z w
  let (q, r) ← longDivision m t z (w + w) (BitVecValue.zero (w + w)) (BitVecValue.zero (w + w))
  let q ← BitVecValue.slice m q (w - 1) 0
  let r ← BitVecValue.slice m r (w - 1) 0
  ok (q, r)

/-- Divide the `n` cells from `p` on by a digit, starting at the last cell; the remainder is passed on to the cell before. -/
def divCells (m : Mode) (env : HashEnv) (z p : BitVecValue) : Nat → ArrayValue → BitVecValue → Res (ArrayValue × BitVecValue)
  | 0, a, r => ok (a, r)
  | n + 1, a, r => do
    let i ← offsetBy m p n
    let x ← a.select m env i
    let (q, r) ← digitQuotient m r x z
    let a ← a.store m env i q
    divCells m env z p n a r

/-- The last `k` digits of a long number to the base `z`, the lowest digit first: divide again and again. -/
def baseCells (m : Mode) (env : HashEnv) (z p : BitVecValue) (n : Nat) : Nat → ArrayValue → Res (ArrayValue × List BitVecValue)
  | 0, a => ok (a, [])
  | k + 1, a => do
    let (a, r) ← divCells m env z p n a (BitVecValue.zero z.width)
    let (a, rs) ← baseCells m env z p n k a
    ok (a, r :: rs)

/-- The digits of a number to the base `z`: the digit at position `i` is what is left of `N / z ^ i` modulo `z`. -/
def baseDigits (z N k : Nat) : List Nat := (List.range k).map fun i => N / z ^ i % z

end Baa

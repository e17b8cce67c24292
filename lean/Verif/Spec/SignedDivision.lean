import Verif.Spec.Algorithms

/-!
# Signed division built out of the operations, for C142
-/

namespace Baa
open Res

/-- The magnitude of a two's complement number. -/
def absValue (m : Mode) (a : BitVecValue) : Res BitVecValue := do
  let neg ← BitVecValue.isNegative m a
  if neg then BitVecValue.negate m a else ok a

/-- Signed quotient and remainder, rounding towards zero: divide the magnitudes and put the signs back. -/
def signedDivision (m : Mode) (a b : BitVecValue) : Res (BitVecValue × BitVecValue) := do
  let na ← BitVecValue.isNegative m a
  let nb ← BitVecValue.isNegative m b
  let x ← absValue m a
  let y ← absValue m b
  let (q, r) ← longDivision m x y a.width (BitVecValue.zero a.width) (BitVecValue.zero a.width)
  let q ← (if na = nb then ok q else BitVecValue.negate m q)
  let r ← (if na then BitVecValue.negate m r else ok r)
  ok (q, r)

/-- Quotient and remainder, rounding down: if the signs of the remainder and the divisor differ, take one from the quotient and add the
divisor to the remainder. -/
def floorDivision (m : Mode) (a b : BitVecValue) : Res (BitVecValue × BitVecValue) := do
  let (q, r) ← signedDivision m a b
  let nr ← BitVecValue.isNegative m r
  let nb ← BitVecValue.isNegative m b
  if r.isZero || nr == nb then ok (q, r)
  else do
    let one ← BitVecValue.fromU64 m 1#64 a.width
    let q ← BitVecValue.sub m q one
    let r ← BitVecValue.add m r b
    ok (q, r)

end Baa

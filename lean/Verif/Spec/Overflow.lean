import Verif.Spec.Algorithms

/-!
# Overflow tests and saturating arithmetic with the calls of the library, for C145

What overflow means is in the core library of Lean: `BitVec.uaddOverflow` and so on compare the exact sum, difference or product with the
range of the width.
-/

namespace Baa
open Res

/-- Unsigned sum: it is below an operand. -/
def addOverflows (m : Mode) (a b : BitVecValue) : Res Bool := do
  let r ← BitVecValue.add m a b
  BitVecValue.isLess m r a

/-- Signed sum: its sign differs from both operands. -/
def addOverflowsSigned (m : Mode) (a b : BitVecValue) : Res Bool := do
  let r ← BitVecValue.add m a b
  let p ← BitVecValue.xor m a r
  let q ← BitVecValue.xor m b r
  let c ← BitVecValue.and m p q
  BitVecValue.isNegative m c

/-- Signed difference: the operands have different signs, and the result does not have that of the first. -/
def subOverflowsSigned (m : Mode) (a b : BitVecValue) : Res Bool := do
  let r ← BitVecValue.sub m a b
  let p ← BitVecValue.xor m a b
  let q ← BitVecValue.xor m a r
  let c ← BitVecValue.and m p q
  BitVecValue.isNegative m c

/-- Negation: a negative number stays negative. -/
def negateOverflows (m : Mode) (a : BitVecValue) : Res Bool := do
  let r ← BitVecValue.negate m a
  let c ← BitVecValue.and m a r
  BitVecValue.isNegative m c

/-- Unsigned product: computed at twice the width, the upper half is not zero. -/
def mulOverflows (m : Mode) (a b : BitVecValue) : Res Bool := do
  let p ← BitVecValue.zeroExtend m a a.width
  let q ← BitVecValue.zeroExtend m b a.width
  let r ← shiftAndAdd m q (List.range (a.width + a.width)) p (BitVecValue.zero (a.width + a.width))
  let h ← BitVecValue.slice m r (a.width + a.width - 1) a.width
  ok (!BitVecValue.isZero h)

/-- Signed product: computed at twice the width, it is not the extension of its lower half. -/
def mulOverflowsSigned (m : Mode) (a b : BitVecValue) : Res Bool := do
  let p ← BitVecValue.signExtend m a a.width
  let q ← BitVecValue.signExtend m b a.width
  let r ← shiftAndAdd m q (List.range (a.width + a.width)) p (BitVecValue.zero (a.width + a.width))
  let l ← BitVecValue.slice m r (a.width - 1) 0
  let s ← BitVecValue.signExtend m l a.width
  let e ← BitVecValue.isEqual m r s
  ok (!e)

/-- Unsigned sum that stops at the greatest value. -/
def addSaturating (m : Mode) (a b : BitVecValue) : Res BitVecValue := do
  let o ← addOverflows m a b
  if o then BitVecValue.ones m a.width else BitVecValue.add m a b

/-- Unsigned difference that stops at zero. -/
def subSaturating (m : Mode) (a b : BitVecValue) : Res BitVecValue := do
  let o ← BitVecValue.isLess m a b
  if o then ok (BitVecValue.zero a.width) else BitVecValue.sub m a b

/-- The least signed number for a negative operand, the greatest otherwise. -/
def signedBound (m : Mode) (a : BitVecValue) : Res BitVecValue := do
  let least ← BitVecValue.setBit (BitVecValue.zero a.width) (a.width - 1)
  let n ← BitVecValue.isNegative m a
  if n then ok least else BitVecValue.not m least

/-- Signed sum that stops at the ends of the range. -/
def addSaturatingSigned (m : Mode) (a b : BitVecValue) : Res BitVecValue := do
  let o ← addOverflowsSigned m a b
  if o then signedBound m a else BitVecValue.add m a b

/-- Signed difference that stops at the ends of the range. -/
def subSaturatingSigned (m : Mode) (a b : BitVecValue) : Res BitVecValue := do
  let o ← subOverflowsSigned m a b
  if o then signedBound m a else BitVecValue.sub m a b

/-- The number in the signed range of `w` bits that is nearest to `z`. -/
def clampSigned (w : Nat) (z : Int) : Int :=
  if z < -2 ^ (w - 1) then -2 ^ (w - 1) else if 2 ^ (w - 1) ≤ z then 2 ^ (w - 1) - 1 else z

end Baa

import Verif.Model.Ops

/-!
# Identities between arithmetic and bitwise calls, for C149
-/

namespace Baa
open Res

/-- The sum as sum without carries plus carries: `(a ^ b) + ((a & b) + (a & b))`. -/
def addByCarries (m : Mode) (a b : BitVecValue) : Res BitVecValue := do
  let x ← BitVecValue.xor m a b
  let c ← BitVecValue.and m a b
  let d ← BitVecValue.add m c c
  BitVecValue.add m x d

/-- `(a | b) + (a & b)`. -/
def addByOr (m : Mode) (a b : BitVecValue) : Res BitVecValue := do
  let x ← BitVecValue.or m a b
  let c ← BitVecValue.and m a b
  BitVecValue.add m x c

/-- `(a ^ b) + (a & b)`. -/
def orByAdd (m : Mode) (a b : BitVecValue) : Res BitVecValue := do
  let x ← BitVecValue.xor m a b
  let c ← BitVecValue.and m a b
  BitVecValue.add m x c

/-- The difference as difference without borrows minus borrows: `(a ^ b) - ((!a & b) + (!a & b))`. -/
def subByBorrows (m : Mode) (a b : BitVecValue) : Res BitVecValue := do
  let x ← BitVecValue.xor m a b
  let n ← BitVecValue.not m a
  let c ← BitVecValue.and m n b
  let d ← BitVecValue.add m c c
  BitVecValue.sub m x d

/-- `!(!a + b)`. -/
def subByNot (m : Mode) (a b : BitVecValue) : Res BitVecValue := do
  let n ← BitVecValue.not m a
  let s ← BitVecValue.add m n b
  BitVecValue.not m s

/-- `-a - 1`. -/
def notByNegate (m : Mode) (a : BitVecValue) : Res BitVecValue := do
  let n ← BitVecValue.negate m a
  let one ← BitVecValue.fromU64 m 1#64 a.width
  BitVecValue.sub m n one

/-- `a >> 1`. -/
def halve (m : Mode) (a : BitVecValue) : Res BitVecValue := do
  let one ← BitVecValue.fromU64 m 1#64 a.width
  BitVecValue.shiftRight m a one

/-- `(a & b) + ((a ^ b) >> 1)`. -/
def averageDown (m : Mode) (a b : BitVecValue) : Res BitVecValue := do
  let c ← BitVecValue.and m a b
  let x ← BitVecValue.xor m a b
  let h ← halve m x
  BitVecValue.add m c h

/-- `(a | b) - ((a ^ b) >> 1)`. -/
def averageUp (m : Mode) (a b : BitVecValue) : Res BitVecValue := do
  let c ← BitVecValue.or m a b
  let x ← BitVecValue.xor m a b
  let h ← halve m x
  BitVecValue.sub m c h

/-- `(a ^ s) - s` where `s` is the sign of `a` at every position. -/
def absolute (m : Mode) (a : BitVecValue) : Res BitVecValue := do
  let k ← BitVecValue.fromU64 m (BitVec.ofNat 64 (a.width - 1)) a.width
  let s ← BitVecValue.arithmeticShiftRight m a k
  let x ← BitVecValue.xor m a s
  BitVecValue.sub m x s

/-- A choice without a branch: `(a & s) | (b & !s)` where `s` is the one-bit condition at every position. -/
def choose (m : Mode) (c a b : BitVecValue) : Res BitVecValue := do
  let s ← BitVecValue.signExtend m c (a.width - 1)
  let n ← BitVecValue.not m s
  let x ← BitVecValue.and m a s
  let y ← BitVecValue.and m b n
  BitVecValue.or m x y

/-- The Gray code of a number: `a ^ (a >> 1)`. -/
def gray (m : Mode) (a : BitVecValue) : Res BitVecValue := do
  let h ← halve m a
  BitVecValue.xor m a h

/-- Back: `r = g ^ (r >> 1)`, as often as there are bits. -/
def ungray (m : Mode) (g : BitVecValue) : Nat → Res BitVecValue
  | 0 => ok (BitVecValue.zero g.width)
  | n + 1 => do
    let r ← ungray m g n
    let h ← halve m r
    BitVecValue.xor m g h

/-- Where the Gray codes of a number and of the next one differ. -/
def grayStep (m : Mode) (a : BitVecValue) : Res BitVecValue := do
  let one ← BitVecValue.fromU64 m 1#64 a.width
  let b ← BitVecValue.add m a one
  let g ← gray m a
  let h ← gray m b
  BitVecValue.xor m g h

end Baa

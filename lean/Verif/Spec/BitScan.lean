import Verif.Model.Ops

/-!
# Counting and finding bits with the calls of the library, for C146
-/

namespace Baa
open Res

/-- How many of the listed positions hold a one:

```text
for i in 0..a.width() { if a.is_bit_set(i) { n += 1; } }
```
-/
def popCount (a : BitVecValue) : List Nat → Res Nat
  | [] => ok 0
  | i :: is => do
    let c ← a.isBitSet i
    let n ← popCount a is
    ok (if c then n + 1 else n)

/-- The value without its lowest one: `a & (a - 1)`. -/
def clearLowest (m : Mode) (a : BitVecValue) : Res BitVecValue := do
  let one ← BitVecValue.fromU64 m 1#64 a.width
  let r ← BitVecValue.sub m a one
  BitVecValue.and m a r

/-- The lowest one alone: `a & -a`. -/
def isolateLowest (m : Mode) (a : BitVecValue) : Res BitVecValue := do
  let r ← BitVecValue.negate m a
  BitVecValue.and m a r

/-- Count the ones by removing them (`while !a.is_zero() { a = a & (a - 1); n += 1 }`), at most the given number of times. -/
def popCountFast (m : Mode) : Nat → BitVecValue → Res Nat
  | 0, _ => ok 0
  | fuel + 1, a =>
    if BitVecValue.isZero a then ok 0
    else do
      let r ← clearLowest m a
      let n ← popCountFast m fuel r
      ok (n + 1)

/-- Is the value a power of two? `!a.is_zero() && (a & (a - 1)).is_zero()`. -/
def isPowerOfTwo (m : Mode) (a : BitVecValue) : Res Bool := do
  let r ← clearLowest m a
  ok (!BitVecValue.isZero a && BitVecValue.isZero r)

/-- The position of the highest one below the given position:

```text
for i in (0..a.width()).rev() { if a.is_bit_set(i) { return Some(i); } }
```
-/
def highestOne (a : BitVecValue) : Nat → Res (Option Nat)
  | 0 => ok none
  | i + 1 => do
    let c ← a.isBitSet i
    if c then ok (some i) else highestOne a i

/-- The first of the listed positions that holds a one. -/
def lowestOne (a : BitVecValue) : List Nat → Res (Option Nat)
  | [] => ok none
  | i :: is => do
    let c ← a.isBitSet i
    if c then ok (some i) else lowestOne a is

/-- Set the mirror images of the listed positions that hold a one:

```text
for i in 0..a.width() { if a.is_bit_set(i) { r.set_bit(a.width() - 1 - i); } }
```
-/
def reverseBits (a : BitVecValue) : List Nat → BitVecValue → Res BitVecValue
  | [], r => ok r
  | i :: is, r => do
    let c ← a.isBitSet i
    let r' ← if c then r.setBit (a.width - 1 - i) else ok r
    reverseBits a is r'

/-- The number of ones of a bit-vector. -/
def onesOf {w : Nat} (x : BitVec w) : Nat := (List.range w).countP fun i => x.getLsbD i

end Baa

import Verif.Spec

/-!
# Circuits of gates, for C162

Circuits that a user builds out of operations on single bits: `slice` takes a bit out of a value, `and`, `or`, `xor` and `not` are the
gates, and `concat` puts bits together.
-/

namespace Baa
open Res

/-- The wire that carries a bit of a value. -/
def wire (m : Mode) (a : BitVecValue) (i : Nat) : Res BitVecValue := BitVecValue.slice m a i i

/-- A full adder: the sum and the carry of three bits. -/
def fullAdder (m : Mode) (a b c : BitVecValue) : Res (BitVecValue × BitVecValue) := do
  let p ← BitVecValue.xor m a b
  let s ← BitVecValue.xor m p c
  let g ← BitVecValue.and m a b
  let t ← BitVecValue.and m p c
  let c ← BitVecValue.or m g t
  ok (s, c)

/-- The cells of a ripple-carry adder from bit `i` on, after the lower bits of the sum. -/
def rippleFrom (m : Mode) (a b : BitVecValue) : (n i : Nat) → BitVecValue → BitVecValue → Res (BitVecValue × BitVecValue)
  | 0, _, low, c => ok (low, c)
  | n + 1, i, low, c => do
    let x ← wire m a i
    let y ← wire m b i
    let (s, c) ← fullAdder m x y c
    let low ← BitVecValue.concat m s low
    rippleFrom m a b n (i + 1) low c

/-- A ripple-carry adder: the sum and the carry. -/
def rippleAdder (m : Mode) (a b c : BitVecValue) : Res (BitVecValue × BitVecValue) := do
  let x ← wire m a 0
  let y ← wire m b 0
  let (s, c) ← fullAdder m x y c
  rippleFrom m a b (a.width - 1) 1 s c

/-- A subtractor: the difference, and a bit that is set when nothing was borrowed. -/
def subtractor (m : Mode) (a b : BitVecValue) : Res (BitVecValue × BitVecValue) := do
  let n ← BitVecValue.not m b
  let one ← BitVecValue.tru m
  rippleAdder m a n one

/-- A comparator: a bit that is set if no bits are different. -/
def comparator (m : Mode) (a b : BitVecValue) : List Nat → BitVecValue → Res BitVecValue
  | [], e => ok e
  | i :: is, e => do
    let x ← wire m a i
    let y ← wire m b i
    let d ← BitVecValue.xor m x y
    let s ← BitVecValue.not m d
    let e ← BitVecValue.and m e s
    comparator m a b is e

/-- A multiplexer: the first value if the bit is set, otherwise the second. -/
def multiplexer (m : Mode) (s a b : BitVecValue) : Res BitVecValue := do
  let mask ← BitVecValue.signExtend m s (a.width - 1)
  let other ← BitVecValue.not m mask
  let p ← BitVecValue.and m mask a
  let q ← BitVecValue.and m other b
  BitVecValue.or m p q

/-- The wires of a shift to the left by a constant that is not zero. -/
def shiftedWires (m : Mode) (a : BitVecValue) (s : Nat) : Res BitVecValue :=
  if s < a.width then do
    let low ← BitVecValue.slice m a (a.width - 1 - s) 0
    BitVecValue.concat m low (BitVecValue.zero s)
  else ok (BitVecValue.zero a.width)

/-- A barrel shifter: one stage for every bit of the amount. -/
def barrelShifter (m : Mode) (b : BitVecValue) : List Nat → BitVecValue → Res BitVecValue
  | [], v => ok v
  | k :: ks, v => do
    let s ← wire m b k
    let t ← shiftedWires m v (2 ^ k)
    let v ← multiplexer m s t v
    barrelShifter m b ks v

/-- A multiplier: a row of adders for every bit of the second value. -/
def arrayMultiplier (m : Mode) (a b : BitVecValue) : List Nat → BitVecValue → Res BitVecValue
  | [], sum => ok sum
  | k :: ks, sum => do
    let s ← wire m b k
    let t ← (if k = 0 then ok a else shiftedWires m a k)
    let row ← multiplexer m s t (BitVecValue.zero a.width)
    let c ← BitVecValue.fals m
    let (sum, _) ← rippleAdder m sum row c
    arrayMultiplier m a b ks sum

end Baa

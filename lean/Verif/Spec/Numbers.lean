import Verif.Spec.Algorithms

/-!
# Number theory on values (C153)

Programs as a user of the library would write them: Euclid's algorithm, modular powers and integer square roots. The library
has none of them.
-/

namespace Baa

/-- Euclid's algorithm, for at most the given number of rounds:

```text
while !b.is_zero() {
    let (_, r) = long_division(&a, &b);
    a = b;
    b = r;
}
```
-/
def euclid (m : Mode) : Nat → BitVecValue → BitVecValue → Res (Option BitVecValue)
  | 0, _, _ => .ok none
  | n + 1, a, b =>
    if b.isZero then .ok (some a)
    else do
      let (_, r) ← longDivision m a b a.width (BitVecValue.zero a.width) (BitVecValue.zero a.width)
      euclid m n b r

/-- The full product, at double width. -/
def productWide (m : Mode) (a b : BitVecValue) : Res BitVecValue := do
  let a' ← BitVecValue.zeroExtend m a a.width
  let b' ← BitVecValue.zeroExtend m b a.width
  shiftAndAdd m b' (List.range (a.width + a.width)) a' (BitVecValue.zero (a.width + a.width))

/-- The product modulo `n`: the remainder of the full product. -/
def mulMod (m : Mode) (n a b : BitVecValue) : Res BitVecValue := do
  let p ← productWide m a b
  let n' ← BitVecValue.zeroExtend m n a.width
  let (_, r) ← longDivision m p n' p.width (BitVecValue.zero p.width) (BitVecValue.zero p.width)
  BitVecValue.slice m r (a.width - 1) 0

/-- Square and multiply. The program looks at the bits of `e` whose positions are listed; `s` is the power that belongs to the
next bit, `acc` is the product so far:

```text
for i in 0..e.width() {
    if e.is_bit_set(i) { acc = mul_mod(&n, &acc, &s); }
    s = mul_mod(&n, &s, &s);
}
```
-/
def powMod (m : Mode) (n e : BitVecValue) : List Nat → BitVecValue → BitVecValue → Res BitVecValue
  | [], _, acc => .ok acc
  | i :: is, s, acc => do
    let c ← e.isBitSet i
    let acc' ← if c then mulMod m n acc s else .ok acc
    let s' ← mulMod m n s s
    powMod m n e is s' acc'

/-- The integer square root, bit by bit from position `i - 1` down; `r` holds the bits found so far:

```text
for i in (0..(a.width() + 1) / 2).rev() {
    let mut c = r.clone();
    c.set_bit(i);
    let s = product_wide(&c, &c);
    if !a.zero_extend(a.width()).is_less(&s) { r = c; }
}
```
-/
def squareRoot (m : Mode) (a : BitVecValue) : Nat → BitVecValue → Res BitVecValue
  | 0, r => .ok r
  | i + 1, r => do
    let c ← r.setBit i
    let s ← productWide m c c
    let a' ← BitVecValue.zeroExtend m a a.width
    let big ← BitVecValue.isLess m a' s
    squareRoot m a i (if big then r else c)

end Baa

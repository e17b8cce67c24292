import Verif.Model.Ops

/-!
# Multiplication and division written with the other operations

The programs of C135, as a user of the library would write them. `mul` is only implemented up to 64 bits and there is no
division.
-/

namespace Baa

/-- Multiplication by shifting and adding. The program looks at the bits of `b` whose positions are listed; `t` is the multiple
of the first factor that belongs to the next bit, `acc` is the sum so far:

```text
for i in 0..b.width() {
    if b.is_bit_set(i) { acc = acc.add(&t); }
    t = t.add(&t);
}
```
-/
def shiftAndAdd (m : Mode) (b : BitVecValue) : List Nat → BitVecValue → BitVecValue → Res BitVecValue
  | [], _, acc => .ok acc
  | i :: is, t, acc => do
    let c ← b.isBitSet i
    let acc' ← if c then BitVecValue.add m acc t else .ok acc
    let t' ← BitVecValue.add m t t
    shiftAndAdd m b is t' acc'

/-- Long division. `q` and `r` are the quotient and the remainder of the bits of `a` from position `i` up; the argument counts
the bits that are still to come:

```text
for i in (0..a.width()).rev() {
    let next = r.concat(&a.slice(i, i));
    let divisor = b.zero_extend(1);
    if next.is_less(&divisor) {
        r = next.slice(w - 1, 0);
    } else {
        r = next.sub(&divisor).slice(w - 1, 0);
        q.set_bit(i);
    }
}
```
-/
def longDivision (m : Mode) (a b : BitVecValue) : Nat → BitVecValue → BitVecValue → Res (BitVecValue × BitVecValue)
  | 0, q, r => .ok (q, r)
  | i + 1, q, r => do
    let s ← BitVecValue.slice m a i i
    let next ← BitVecValue.concat m r s
    let divisor ← BitVecValue.zeroExtend m b 1
    let less ← BitVecValue.isLess m next divisor
    if less then
      let r' ← BitVecValue.slice m next (a.width - 1) 0
      longDivision m a b i q r'
    else
      let d ← BitVecValue.sub m next divisor
      let r' ← BitVecValue.slice m d (a.width - 1) 0
      let q' ← q.setBit i
      longDivision m a b i q' r'

end Baa

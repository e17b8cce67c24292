import Verif.Model.Ops

/-!
# Checksums (C155)

A cyclic redundancy check as a user of the library would write it, for a generator of any width.
-/

namespace Baa
open Res

/-- Shifts one bit of the message into the register `r` and subtracts the generator `g` if a one falls out:

```text
let out = r.is_negative();
r = r.add(&r);
if bit { r.set_bit(0); }
if out { r = r.xor(&g); }
```
-/
def crcStep (m : Mode) (g r : BitVecValue) (bit : Bool) : Res BitVecValue := do
  let out ← BitVecValue.isNegative m r
  let d ← BitVecValue.add m r r
  let e ← if bit then d.setBit 0 else ok d
  if out then BitVecValue.xor m e g else ok e

/-- The register after a message. -/
def crc (m : Mode) (g : BitVecValue) : BitVecValue → List Bool → Res BitVecValue
  | r, [] => ok r
  | r, b :: bs => do
    let r ← crcStep m g r b
    crc m g r bs

/-- The number a list of bits spells, first bit most significant. -/
def messageNumber (bs : List Bool) : Nat := bs.foldl (fun n b => 2 * n + b.toNat) 0

/-- The product of two polynomials over the field with two elements. The first factor is given by its coefficients, highest
degree first, the second and the result by the number whose binary digits are the coefficients. -/
def polyTimes (q : List Bool) (p : Nat) : Nat := q.foldl (fun n b => (2 * n) ^^^ (if b then p else 0)) 0

end Baa

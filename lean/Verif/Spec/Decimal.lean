import Verif.Spec.Algorithms
import Verif.Spec.Text

/-!
# Decimal text with the operations that exist, for C150

`to_dec_str` stops at `todo!()` for numbers of more than 128 bits, and so does parsing in base 10 for widths of more than 128 bits. These are
the loops that a user would write instead.
-/

namespace Baa
open Res

/-- The digits of a number, in front of the digits that have been found:

```text
loop {
    let (q, r) = divide(&a, &ten);
    digits.push_front(b'0' + r.to_u64().unwrap() as u8);
    if q.is_zero() { return digits; }
    a = q;
}
```

at most the given number of times. -/
def decDigits (m : Mode) (ten : BitVecValue) : Nat → BitVecValue → List Byte → Res (List Byte)
  | 0, _, acc => ok acc
  | fuel + 1, a, acc => do
    let (q, r) ← longDivision m a ten a.width (BitVecValue.zero a.width) (BitVecValue.zero a.width)
    match BitVecValue.toU64 r with
    | none => .panic .unwrap
    | some d => if q.isZero then ok ((ch '0' + d.setWidth 8) :: acc) else decDigits m ten fuel q ((ch '0' + d.setWidth 8) :: acc)

/-- The decimal text of a value. It is extended by four bits so that ten has its width; there are at most as many digits as bits. -/
def printDec (m : Mode) (a : BitVecValue) : Res (List Byte) := do
  let b ← BitVecValue.zeroExtend m a 4
  let ten ← BitVecValue.fromU64 m 10#64 (a.width + 4)
  decDigits m ten a.width b []

/-- A decimal digit. -/
def decDigit (c : Byte) : Option Word := if ch '0' ≤ c ∧ c ≤ ch '9' then some ((c - ch '0').setWidth 64) else none

/-- `acc = 8 * acc + 2 * acc + digit` for every digit; nothing if there is a character that is no digit. -/
def parseDigits (m : Mode) (w : Nat) : BitVecValue → List Byte → Res (Option BitVecValue)
  | acc, [] => ok (some acc)
  | acc, c :: cs =>
    match decDigit c with
    | none => ok none
    | some d => do
      let two ← BitVecValue.add m acc acc
      let four ← BitVecValue.add m two two
      let eight ← BitVecValue.add m four four
      let tens ← BitVecValue.add m eight two
      let digit ← BitVecValue.fromU64 m d w
      let acc ← BitVecValue.add m tens digit
      parseDigits m w acc cs

/-- The value of a decimal text, at the given width. -/
def parseDec (m : Mode) (w : Nat) (s : List Byte) : Res (Option BitVecValue) :=
  if s = [] then ok none else parseDigits m w (BitVecValue.zero w) s

end Baa

import Verif.Model.Ops

/-!
# Fixed-point numbers (C151, C152)

The specification of C151 and C152: what rational number a fixed-point number is, and which rational numbers have one.
-/

namespace Baa
open Res

/-- The rational number a fraction (sign, numerator, denominator) stands for. -/
def Fraction.value (q : Fraction) : Rat := ((if q.neg then -(q.num : Int) else (q.num : Int) : Int) : Rat) / ((q.den : Int) : Rat)

/-- Reading `a` as a signed fixed-point number with `f` fraction bits gives the rational number `q`. -/
def ReadsSigned (m : Mode) (a : BitVecValue) (f : Nat) (q : Rat) : Prop :=
  ∃ o, BitVecValue.toSignedFixedPoint m a f = ok (some o) ∧ o.value = q

/-- The rational number `q` is a signed fixed-point number of `w` bits, `f` of them after the point. -/
def HasFixed (w f : Nat) (q : Rat) : Prop :=
  ∃ z : Int, -2 ^ (w - 1) ≤ z ∧ z < 2 ^ (w - 1) ∧ q = (z : Rat) / ((2 ^ f : Int) : Rat)

/-- Reading `a` as an unsigned fixed-point number with `f` fraction bits gives the rational number `q`. -/
def ReadsUnsigned (m : Mode) (a : BitVecValue) (f : Nat) (q : Rat) : Prop :=
  ∃ o, BitVecValue.toUnsignedFixedPoint m a f = ok (some o) ∧ o.value = q

/-- The rational number `q` is an unsigned fixed-point number of `w` bits, `f` of them after the point, and its numerator
fits into 64 bits. -/
def HasUnsigned (w f : Nat) (q : Rat) : Prop :=
  ∃ n : Nat, n < 2 ^ w ∧ n < 2 ^ 64 ∧ q = ((n : Int) : Rat) / ((2 ^ f : Int) : Rat)

end Baa

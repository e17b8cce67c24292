import Verif.SpecMalformed

/-!
# Values with the wrong number of words: what observers report and assignments write

As in `SpecMalformed`, a value is described by its width, the number of its words and the number that the words hold.
-/

namespace Baa
open Res

/-- The outcome of a call: this result, or a panic. -/
def Returns {α : Type} (x : Res α) : Option α → Prop
  | some r => x = ok r
  | none => Panics x

/-! ## Machine integers -/

/-- `to_u64`. -/
def Shape.asU64 (s : Shape) : Option Word := if s.number < 2 ^ 64 then some (BitVec.ofNat 64 s.number) else none

/-- `to_bool`. -/
def Shape.asBool (s : Shape) : Option (Option Bool) :=
  if s.width ≠ 1 then some none else if s.words = 0 then none else some (some (s.number.testBit 0))

/-- `to_i64`: below 64 bits everything from the width on is set if the sign bit is; above 64 bits the words above the first one have to be all
zeros or all ones and to agree with its sign, and a single word is never enough. -/
def Shape.asI64 (m : Mode) (s : Shape) : Option (Option Word) :=
  if s.width = 0 then some (some 0#64)
  else if s.words = 0 then none
  else if s.width < 64 then
    if m = .debug ∧ s.words ≠ 1 then none
    else some (some (BitVec.ofNat 64
      (if s.number.testBit (fitted s.width s.words - 1) = true then s.number ||| (2 ^ 64 - 2 ^ s.width) else s.number)))
  else if s.width = 64 then some (some (BitVec.ofNat 64 s.number))
  else if s.words = 1 then some none
  else some (if s.number < 2 ^ 63 ∨ 2 ^ (64 * s.words) ≤ s.number + 2 ^ 63 then some (BitVec.ofNat 64 s.number) else none)

/-! ## Texts, bytes and large integers -/

/-- `to_bit_str`. -/
def Shape.bits (s : Shape) : Option (List Byte) :=
  if s.width = 0 then some [] else if s.words = 0 then none else some (numeral 2 s.number (fitted s.width s.words))

/-- `to_hex_str`. -/
def Shape.hex (m : Mode) (s : Shape) : Option (List Byte) :=
  if m = .debug ∧ s.words ≠ need s.width then none
  else if s.width = 0 then some []
  else if s.words = 0 then none
  else some (numeral 16 s.number (16 * (s.words - 1) + ((s.width + 63) % 64 + 4) / 4))

/-- Sign and magnitude: of the two's complement if the sign bit is set. -/
def Shape.parts (m : Mode) (s : Shape) : Option (Bool × Nat) := do
  let neg ← Test.foresee m s .negative
  if neg then (masked m s.width s.words ((2 ^ (64 * s.words) - s.number) % 2 ^ (64 * s.words))).map fun K => (true, K)
  else some (false, s.number)

/-- The width without the sign bit. -/
def below (w : Nat) : Nat := if w = 0 then 2 ^ 32 - 1 else w - 1

/-- The text of a sign. -/
def minus (neg : Bool) : List Byte := if neg then [ch '-'] else []

/-- `to_bit_str_signed`. -/
def Shape.bitsSigned (m : Mode) (s : Shape) : Option (List Byte) := do
  let p ← s.parts m
  some (if s.width = 1 then [] else minus p.1 ++ numeral 2 p.2 (fitted (below s.width) s.words))

/-- `to_hex_str_signed`. -/
def Shape.hexSigned (m : Mode) (s : Shape) : Option (List Byte) := do
  let p ← s.parts m
  if s.words < need (below s.width) then none
  else some (if s.width = 1 then [] else minus p.1 ++ numeral 16 p.2 ((below s.width + 3) / 4))

/-- `to_big_int`. -/
def Shape.asInt (m : Mode) (s : Shape) : Option Int :=
  if s.width = 0 then some 0 else (s.parts m).map fun p => if p.1 then -(p.2 : Int) else p.2

/-! ## Fixed point -/

/-- `to_unsigned_fixed_point`. -/
def Shape.fraction (m : Mode) (s : Shape) (f : Nat) : Option (Option Fraction) :=
  if m = .debug ∧ (s.width < f ∨ 64 ≤ f) then none
  else some (if s.number < 2 ^ 64 then some ⟨false, s.number, 2 ^ (f % 64)⟩ else none)

/-- `to_signed_fixed_point`. -/
def Shape.fractionSigned (m : Mode) (s : Shape) (f : Nat) : Option (Option Fraction) :=
  if m = .debug ∧ s.width < f then none
  else do
    let neg ← Test.foresee m s .negative
    if neg then
      if 64 < s.width then some none
      else do
        let t ← UnOp.foresee m s .negate
        let r ← t.fraction m f
        some (r.map fun q => ⟨!q.neg, q.num, q.den⟩)
    else s.fraction m f

/-! ## Assignments of machine integers -/

/-- `assign_from_u64`: the debug build checks that the first word is the assigned one. -/
def Shape.setU64 (m : Mode) (s : Shape) (v : Nat) : Option Shape := do
  let K ← masked m s.width s.words v
  if m = .debug ∧ K % 2 ^ 64 ≠ v then none else some ⟨s.width, s.words, K⟩

/-- What `assign_from_i64` writes for the two's complement `v`. -/
def Shape.writeI64 (m : Mode) (s : Shape) (v : Nat) : Option Nat :=
  if s.words = 0 then none
  else if s.words = 1 then if 64 < s.width then none else some (if s.width = 0 then v else v % 2 ^ s.width)
  else if v < 2 ^ 63 then some v
  else masked m s.width s.words (2 ^ (64 * s.words) - 2 ^ 64 + v)

/-- `assign_from_i64`: the debug build reads the first word back and checks that it is the assigned one. -/
def Shape.setI64 (m : Mode) (s : Shape) (v : Nat) : Option Shape := do
  let K ← s.writeI64 m v
  if m = .debug ∧ (s.width = 0 ∨
      (if K.testBit (fitted s.width s.words - 1) = true ∧ s.width < 64 then K % 2 ^ 64 ||| (2 ^ 64 - 2 ^ s.width) else K % 2 ^ 64) ≠ v)
  then none
  else some ⟨s.width, s.words, K⟩

end Baa

import Verif.Model.Ops

/-!
# Specification vocabulary

What a `BitVecValue` means. The meaning of the *operations* is given by Lean's own `BitVec w`: a value of width `w` is a
number below `2^w`, `+`, `-`, `<<<`, `.extractLsb'`, … are the mathematical bit-vector operations of the Lean core
library. Nothing in this file refers to the algorithms of the code.
-/

namespace Baa

/-- The number represented by a little-endian list of 64-bit words. -/
def wordsVal : List Word → Nat
  | [] => 0
  | w :: ws => w.toNat + 2 ^ 64 * wordsVal ws

/-- Bit `i` of the number represented by a list of words. -/
def bit (ws : List Word) (i : Nat) : Bool := (wordsVal ws).testBit i

/-- The number represented by a little-endian sequence of bytes. -/
def bytesVal : List Byte → Nat
  | [] => 0
  | b :: bs => b.toNat + 2 ^ 8 * bytesVal bs

/-- The fraction `f` (sign, numerator, denominator) is the rational number `z / d`. -/
def Fraction.Is (f : Fraction) (z : Int) (d : Nat) : Prop :=
  f.den ≠ 0 ∧ d ≠ 0 ∧ (if f.neg then -(f.num : Int) else (f.num : Int)) * (d : Int) = z * (f.den : Int)

/-- The stored value `v` represents the mathematical bit-vector `x`: same width (which fits into a `u32`), exactly
`⌈w / 64⌉` words, and these words, *including the unused bits of the last word*, spell the number `x`. -/
structure Denotes (v : BitVecValue) {w : Nat} (x : BitVec w) : Prop where
  width_lt : w < 2 ^ 32
  width_eq : v.width = w
  length_eq : v.words.length = (w + 63) / 64
  val_eq : wordsVal v.words = x.toNat

/-- A value in the normal form that the library promises: the right number of words and all unused bits zero. -/
structure Canonical (v : BitVecValue) : Prop where
  width_lt : v.width < 2 ^ 32
  length_eq : v.words.length = (v.width + 63) / 64
  val_lt : wordsVal v.words < 2 ^ v.width

/-! ## Numerals -/

/-- The digit characters, lower case. -/
def lowerDigits : List Byte :=
  ['0', '1', '2', '3', '4', '5', '6', '7', '8', '9', 'a', 'b', 'c', 'd', 'e', 'f', 'g', 'h', 'i', 'j', 'k', 'l', 'm',
    'n', 'o', 'p', 'q', 'r', 's', 't', 'u', 'v', 'w', 'x', 'y', 'z'].map ch

/-- The lowest `k` digits of `N` in base `b`, most significant digit first. -/
def numeral (b N k : Nat) : List Byte := (List.range k).reverse.map fun i => lowerDigits.getD (N / b ^ i % b) (ch '?')

/-- The digit characters, upper case. -/
def upperDigits : List Byte :=
  ['0', '1', '2', '3', '4', '5', '6', '7', '8', '9', 'A', 'B', 'C', 'D', 'E', 'F', 'G', 'H', 'I', 'J', 'K', 'L', 'M',
    'N', 'O', 'P', 'Q', 'R', 'S', 'T', 'U', 'V', 'W', 'X', 'Y', 'Z'].map ch

/-- The value of a digit character in the given radix, if it is one. -/
def digitOf (radix : Nat) (c : Byte) : Option Nat :=
  match (List.range 36).find? (fun d => lowerDigits[d]? == some c || upperDigits[d]? == some c) with
  | some d => if d < radix then some d else none
  | none => none

/-- The number spelled by a digit string (most significant digit first), continuing from the prefix value `acc`. -/
def digitsFrom (radix : Nat) : Nat → List Byte → Option Nat
  | acc, [] => some acc
  | acc, c :: cs =>
    match digitOf radix c with
    | some d => digitsFrom radix (acc * radix + d) cs
    | none => none

/-- The number spelled by a digit string; `none` if some character is not a digit or there are no digits. -/
def digitsVal (radix : Nat) (s : List Byte) : Option Nat := if s = [] then none else digitsFrom radix 0 s

/-- The string without a leading minus sign. -/
def stripMinus (s : List Byte) : List Byte := if s.head? = some (ch '-') then s.tail else s

/-- The string without a leading plus sign. -/
def stripPlus (s : List Byte) : List Byte := if s.head? = some (ch '+') then s.tail else s

/-- An unsigned numeral: an optional `+` and at least one digit. -/
def unsignedVal (radix : Nat) (s : List Byte) : Option Nat := digitsVal radix (stripPlus s)

/-- A signed numeral: an optional `-`, then an unsigned numeral. -/
def signedVal (radix : Nat) (s : List Byte) : Option Int :=
  if s.head? = some (ch '-') then (unsignedVal radix s.tail).map fun (n : Nat) => -(n : Int)
  else (unsignedVal radix s).map fun (n : Nat) => (n : Int)

/-- The characters of a numeral that remain after removing an optional `-` and then an optional `+`. -/
def numeralDigits (s : List Byte) : List Byte := stripPlus (stripMinus s)

/-- The width chosen for a signed numeral with `bits` bits per digit: `bits` for each character after a leading sign,
and one more if that sign is `-`. -/
def numeralWidth (bits : Nat) (s : List Byte) : Nat :=
  if s.head? = some (ch '-') then bits * (s.length - 1) + 1
  else if s.head? = some (ch '+') then bits * (s.length - 1)
  else bits * s.length

/-! ## Exhibiting concrete values -/

/-- `n` little-endian words of the number `x`. -/
def toWords : Nat → Nat → List Word
  | 0, _ => []
  | n + 1, x => BitVec.ofNat 64 x :: toWords n (x / 2 ^ 64)

/-- The representation of a mathematical bit-vector (used to exhibit concrete values). -/
def encode {w : Nat} (x : BitVec w) : BitVecValue := ⟨w, toWords ((w + 63) / 64) x.toNat⟩

end Baa

import Verif.Spec.Text

/-!
# Bytes and hexadecimal digits of a value as groups of its bits
-/

namespace Baa

/-- The bits of `x` in groups of `k`, the lowest group first; the last group is filled up with zeros. -/
def chunks (k : Nat) {w : Nat} (x : BitVec w) : List (BitVec k) := (List.range ((w + k - 1) / k)).map fun i => x.extractLsb' (k * i) k

/-- The hexadecimal digit of four bits. -/
def nibbleText (d : BitVec 4) : Byte := lowerDigits.getD d.toNat (ch '?')

/-- The four bits of a hexadecimal digit. -/
def nibbleOf (c : Byte) : BitVec 4 := BitVec.ofNat 4 ((digitOf 16 c).getD 0)

/-- The two hexadecimal digits of a byte. -/
def hexOfByte (b : Byte) : List Byte := [nibbleText (b.extractLsb' 4 4), nibbleText (b.extractLsb' 0 4)]

/-- The four binary digits of a hexadecimal digit. -/
def bitsOfHex (c : Byte) : List Byte := text (nibbleOf c)

end Baa

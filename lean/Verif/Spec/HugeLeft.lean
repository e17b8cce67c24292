import Verif.Spec.HugeText
import Verif.Spec.Unwind

/-!
# What a panic leaves when a text has more digits than a 32-bit counter can count (C137)
-/

namespace Baa
open Res Strings

/-- The number in `n` words that held `old` after a panic on digits that are too many for the count. The counted digits have been read into the
words. Debug builds panic in binary before the lowest word is written, and do not even start if the count overflows or is 0. -/
def hugeLeft (m : Mode) (bits n old : Nat) (ds : List Byte) : Nat :=
  let len := countedDigits bits ds
  if m = .debug ∧ (len = 0 ∨ 2 ^ 32 ≤ bits * (ds.length % 2 ^ 32)) then old
  else match readInto bits n old (ds.take len) with
    | .stores N => if m = .debug ∧ bits = 1 then N - N % 2 ^ 64 + old % 2 ^ 64 else N
    | _ => old

/-- What a parse of such a text leaves, unless the destination has one or two words. -/
def Shape.leftHuge (m : Mode) (s : Shape) (radix : Nat) (t : List Byte) : Shape :=
  if m = .debug ∧ s.words ≠ need s.width then s
  else ⟨s.width, s.words, hugeLeft m (if radix = 2 then 1 else 4) s.words s.number (numeralDigits t)⟩

/-- What a parse of any text leaves. -/
def Shape.leftEvery (m : Mode) (s : Shape) (radix : Nat) (t : List Byte) : Shape :=
  if s.words ≠ 1 ∧ s.words ≠ 2 ∧ TooManyDigits radix t then s.leftHuge m radix t else s.leftParse m radix t

end Baa

import Verif.SpecParse

/-!
# Numerals with more digits than a 32-bit counter can count

The parsers for more than 128 bits keep the number of digits (binary), or four times that number (hexadecimal), in 32 bits. `hugeInto` says what
happens to a numeral for which this count does not fit: the parser sees a numeral of the remaining length, reads it, and then finds more text.
-/

namespace Baa
open Res Strings

/-- The number of digits that the 32-bit count stands for, with `bits` bits for each digit. -/
def countedDigits (bits : Nat) (ds : List Byte) : Nat := ds.length % (2 ^ 32 / bits)

/-- Reading digits that are too many for the count into `n` words that hold `old`. The counted digits are read as if they were the whole numeral.
If that succeeds, a debug build panics. A release build reads the digits of one more word and reports a bad one among them; otherwise it panics
as well. Debug builds also panic if the count itself overflows or is 0. -/
def hugeInto (m : Mode) (bits n old : Nat) (ds : List Byte) : AssignOutcome :=
  let len := countedDigits bits ds
  if m = .debug ∧ (len = 0 ∨ 2 ^ 32 ≤ bits * (ds.length % 2 ^ 32)) then .panics
  else match readInto bits n old (ds.take len) with
    | .stores N =>
      if m = .release ∧ ((ds.drop len).take (64 / bits)).any (fun c => (digitOf (2 ^ bits) c).isNone) = true then .invalid N else .panics
    | o => o

/-- The outcome of `assign_from_str_radix` with radix 2 or 16 for a text with too many digits, unless the destination has one or two words. -/
def Shape.parseHuge (m : Mode) (s : Shape) (radix : Nat) (t : List Byte) : AssignOutcome :=
  let ds := numeralDigits t
  if s.width = 0 then .exceeds s.number
  else if m = .debug ∧ s.words ≠ need s.width then .panics
  else if radix = 2 then if s.width < countedDigits 1 ds then .exceeds s.number else hugeInto m 1 s.words s.number ds
  else hugeInto m 4 s.words s.number ds

/-- The text has more digits than the count can hold. -/
def TooManyDigits (radix : Nat) (t : List Byte) : Prop :=
  radix = 2 ∧ 2 ^ 32 ≤ (numeralDigits t).length ∨ radix = 16 ∧ 2 ^ 32 ≤ 4 * (numeralDigits t).length

instance (radix : Nat) (t : List Byte) : Decidable (TooManyDigits radix t) := inferInstanceAs (Decidable (_ ∨ _))

/-- The outcome for any text: the ordinary one, unless the digits are too many for the count and more than two words are to be filled. -/
def Shape.parseEvery (m : Mode) (s : Shape) (radix : Nat) (t : List Byte) : AssignOutcome :=
  if s.words ≠ 1 ∧ s.words ≠ 2 ∧ TooManyDigits radix t then s.parseHuge m radix t else s.parse m radix t

/-- The same for a destination with the right number of words. -/
def assignEvery (m : Mode) (radix w old : Nat) (s : List Byte) : AssignOutcome :=
  if 128 < w ∧ TooManyDigits radix s then
    if radix = 2 then
      if w < countedDigits 1 (numeralDigits s) then .exceeds old else hugeInto m 1 ((w + 63) / 64) old (numeralDigits s)
    else hugeInto m 4 ((w + 63) / 64) old (numeralDigits s)
  else assignOutcome radix w old s

/-- And for a new value: what is left in the words after an error is lost. -/
def parseEvery (m : Mode) (radix w : Nat) (s : List Byte) : ParseOutcome :=
  match assignEvery m radix w 0 s with
  | .stores n => .stores n
  | .invalid _ => .invalid
  | .exceeds _ => .exceeds
  | .panics => .panics

end Baa

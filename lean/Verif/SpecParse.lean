import Verif.SpecMalformed
import Verif.Spec.Text

/-!
# Parsing into a value with any number of words

`Shape.parse` says what `assign_from_str_radix` reports and which number the words of the destination hold afterwards, from the width of the
destination, the number of its words and the number they hold before.
-/

namespace Baa
open Res Strings

/-- The digits `ds` of `bits` bits each are read into `n` words that hold `old`. Words that the digits do not reach keep their contents. With too
many digits a bad one is noticed only if it comes before the first word is full. -/
def readInto (bits n old : Nat) (ds : List Byte) : AssignOutcome :=
  let p := readDigits (2 ^ bits) 0 ds
  let k := (bits * ds.length + 63) / 64
  if n < k then if 64 / bits * ((ds.length - 1) / (64 / bits)) < p.2.length then .invalid old else .panics
  else if p.2 = [] then .stores (staleMagnitude k p.1 old)
  else .invalid (partialMagnitude bits p.1 p.2.length ds.length old)

/-- The outcome without the sign. The number of words selects the algorithm; debug builds check that it agrees with the width. -/
def Shape.magnitude (m : Mode) (s : Shape) (radix : Nat) (t : List Byte) : AssignOutcome :=
  let ds := numeralDigits t
  let p := readDigits radix 0 ds
  if s.words = 1 ∨ s.words = 2 then
    if m = .debug ∧ 64 * s.words < s.width then .panics
    else if radix < 2 ∨ 36 < radix then .panics
    else if ds = [] then .invalid s.number
    else if 2 ^ (64 * s.words) ≤ p.1 then .exceeds s.number
    else if p.2 = [] then .stores p.1 else .invalid s.number
  else if m = .debug ∧ s.words ≠ need s.width then .panics
  else if ds = [] then .invalid s.number
  else if radix = 2 then if s.width < ds.length then .exceeds s.number else readInto 1 s.words s.number ds
  else if radix = 16 then readInto 4 s.words s.number ds
  else .panics

/-- A minus sign negates the words and masks them. -/
def Shape.parse (m : Mode) (s : Shape) (radix : Nat) (t : List Byte) : AssignOutcome :=
  if t = [] then .stores s.number
  else if s.width = 0 then if stripMinus t = [ch '0'] then .stores s.number else .exceeds s.number
  else if stripMinus t = [] then .invalid s.number
  else match s.magnitude m radix t with
    | .stores N =>
      if t.head? = some (ch '-') then
        match masked m s.width s.words ((2 ^ (64 * s.words) - N) % 2 ^ (64 * s.words)) with
        | some K => .stores K
        | none => .panics
      else .stores N
    | o => o

/-- The result of a parse into the value `a`. -/
def LeavesIn (a : BitVecValue) (x : Res (BitVecValue × Except IntErrorKind Unit)) : AssignOutcome → Prop
  | .stores N => ∃ r, x = ok (r, .ok ()) ∧ r.shape = ⟨a.width, a.words.length, N⟩
  | .invalid N => ∃ r, x = ok (r, .error .invalidDigit) ∧ r.shape = ⟨a.width, a.words.length, N⟩
  | .exceeds N => ∃ r, x = ok (r, .error .exceedsWidth) ∧ r.shape = ⟨a.width, a.words.length, N⟩
  | .panics => Panics x

end Baa

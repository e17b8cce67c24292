import Verif.Spec.Expressions
import Verif.Model.Strings

/-!
# Printed and parsed texts
-/

namespace Baa

/-! ## C30 to C36: texts -/

section
open Res Strings

/-- The decimal representation of `n`, no leading zeros. -/
def IsDecimal (n : Nat) (s : List Byte) : Prop :=
  digitsVal 10 s = some n ∧ (s.head? = some (ch '0') → s = [ch '0'])

/-- `s` is an optional `-`, present iff `z` is negative, followed by digits that spell the magnitude of `z`. -/
def IsSigned (radix : Nat) (z : Int) (s : List Byte) : Prop :=
  ∃ ds, s = (if z < 0 then ch '-' :: ds else ds) ∧ digitsVal radix ds = some z.natAbs

end

/-! ## Parsing, remaining cases, and C74: failed in-place parses -/

section
open Res Strings

/-- The magnitude that an in-place parse of a well-formed numeral leaves behind: the numeral `n` in the low `64 * k` bits, above
that whatever was there before. -/
def staleMagnitude (k n old : Nat) : Nat := n + old / 2 ^ (64 * k) * 2 ^ (64 * k)

end

/-! ## Malformed numerals, exactly -/

section
open Res Strings

/-- `s` consists of valid digits spelling `p`, then a character that is no digit, then `rest` more characters. -/
def FailsAfter (radix : Nat) (s : List Byte) (p rest : Nat) : Prop :=
  ∃ pre c post, s = pre ++ c :: post ∧ digitsFrom radix 0 pre = some p ∧ digitOf radix c = none ∧ post.length = rest

/-- What a failed parse leaves of `old` after reading digits spelling `p`, with `t` unread digits of `bits` bits including the
bad one: the top word reached so far and everything below keeps its contents, the words completed so far hold `p`, the words
above the numeral keep theirs. -/
def partialMagnitude (bits p t len old : Nat) : Nat :=
  let low := 64 * ((bits * t + 63) / 64)
  let high := 64 * ((bits * len + 63) / 64)
  old % 2 ^ low + p * 2 ^ (bits * t) / 2 ^ low * 2 ^ low + old / 2 ^ high * 2 ^ high

end

/-! ## The outcome of every parse (C37) -/

section
open Res Strings

/-- Reads digits from the left: the number spelled by the digits before the first bad character, and the unread characters. -/
def readDigits (radix : Nat) : Nat → List Byte → Nat × List Byte
  | acc, [] => (acc, [])
  | acc, c :: cs =>
    match digitOf radix c with
    | some d => readDigits radix (acc * radix + d) cs
    | none => (acc, c :: cs)

/-- What a parse does. -/
inductive ParseOutcome where
  /-- A value whose words hold this number. -/
  | stores (n : Nat)
  | invalid
  | exceeds
  | panics
deriving DecidableEq, Repr

/-- The number stored for the magnitude `n` of the string `s`: negative ones are reduced to the width, others are kept. -/
def storedMagnitude (w : Nat) (s : List Byte) (n : Nat) : Nat :=
  if s.head? = some (ch '-') then (BitVec.ofInt w (-(n : Int))).toNat else n

/-- The outcome of `from_str_radix` on a string `s`; `cap` is the number of bits in the words of the result. -/
def parseOutcome (radix w : Nat) (s : List Byte) : ParseOutcome :=
  let cap := 64 * ((w + 63) / 64)
  let digits := numeralDigits s
  let n := (readDigits radix 0 digits).1
  let unread := (readDigits radix 0 digits).2
  let finish := if unread = [] then .stores (storedMagnitude w s n) else .invalid
  if s = [] then .stores 0
  else if w = 0 then if stripMinus s = [ch '0'] then .stores 0 else .exceeds
  else if stripMinus s = [] then .invalid
  else if w ≤ 128 then
    if radix < 2 ∨ 36 < radix then .panics
    else if digits = [] then .invalid
    else if 2 ^ cap ≤ n then .exceeds
    else finish
  else if digits = [] then .invalid
  else if radix = 2 then
    if w < digits.length then .exceeds else finish
  else if radix = 16 then
    if 4 * digits.length ≤ cap then finish
    -- too many digits: a bad character is only noticed among the digits of the top word
    else if 16 * ((digits.length - 1) / 16) < unread.length then .invalid else .panics
  else .panics

/-- The result `x` of a parse at width `w` is the given outcome. -/
def Yields (w : Nat) (x : Res (Except IntErrorKind BitVecValue)) : ParseOutcome → Prop
  | .stores n => ∃ r, x = ok (.ok r) ∧ r.width = w ∧ r.words.length = (w + 63) / 64 ∧ wordsVal r.words = n
  | .invalid => x = ok (.error .invalidDigit)
  | .exceeds => x = ok (.error .exceedsWidth)
  | .panics => Panics x

end

/-! ## The outcome of every in-place parse (C88) -/

section
open Res Strings

/-- What an in-place parse does: the report, and the number in the words of the destination afterwards. -/
inductive AssignOutcome where
  | stores (n : Nat)
  | invalid (left : Nat)
  | exceeds (left : Nat)
  | panics
deriving DecidableEq, Repr

/-- The outcome of `assign_from_str_radix` on a string `s` and a destination whose words hold `old`. Above 128 bits the words that
the digits (each of `bits` bits) do not reach keep their contents, also if the parse fails half way. -/
def assignOutcome (radix w old : Nat) (s : List Byte) : AssignOutcome :=
  let cap := 64 * ((w + 63) / 64)
  let digits := numeralDigits s
  let n := (readDigits radix 0 digits).1
  let unread := (readDigits radix 0 digits).2
  let finish := fun bits =>
    if unread = [] then .stores (storedMagnitude w s (staleMagnitude ((bits * digits.length + 63) / 64) n old))
    else .invalid (partialMagnitude bits n unread.length digits.length old)
  if s = [] then .stores old
  else if w = 0 then if stripMinus s = [ch '0'] then .stores old else .exceeds old
  else if stripMinus s = [] then .invalid old
  else if w ≤ 128 then
    if radix < 2 ∨ 36 < radix then .panics
    else if digits = [] then .invalid old
    else if 2 ^ cap ≤ n then .exceeds old
    else if unread = [] then .stores (storedMagnitude w s n)
    else .invalid old
  else if digits = [] then .invalid old
  else if radix = 2 then
    if w < digits.length then .exceeds old else finish 1
  else if radix = 16 then
    if 4 * digits.length ≤ cap then finish 4
    else if 16 * ((digits.length - 1) / 16) < unread.length then .invalid old else .panics
  else .panics

/-- The result `x` of an in-place parse at width `w` is the given outcome. -/
def Leaves (w : Nat) (x : Res (BitVecValue × Except IntErrorKind Unit)) : AssignOutcome → Prop
  | .stores n => ∃ r, x = ok (r, .ok ()) ∧ Raw r w n
  | .invalid n => ∃ r, x = ok (r, .error .invalidDigit) ∧ Raw r w n
  | .exceeds n => ∃ r, x = ok (r, .error .exceedsWidth) ∧ Raw r w n
  | .panics => Panics x

end

/-! ## C75: printing what was parsed -/

section
open Res Strings

/-- `u8::to_ascii_lowercase` of the Rust standard library, for the specification. -/
def asciiLower (c : Byte) : Byte := if 65 ≤ c.toNat ∧ c.toNat ≤ 90 then c + 32#8 else c

/-- The text a numeral is printed as: the sign only if it is `-` and the number is not 0. -/
def normalised (neg : Bool) (n : Nat) (ds : List Byte) : List Byte := if neg = true ∧ n ≠ 0 then ch '-' :: ds else ds

end

/-! ## C76: operations as seen on the binary text of a value -/

section
open Res Strings

/-- A binary digit flipped. -/
def flipDigit (c : Byte) : Byte := if c = ch '1' then ch '0' else ch '1'

/-- `1` if both digits are `1`. -/
def andDigit (c d : Byte) : Byte := if c = ch '1' ∧ d = ch '1' then ch '1' else ch '0'

/-- `1` if one of the digits is `1`. -/
def orDigit (c d : Byte) : Byte := if c = ch '1' ∨ d = ch '1' then ch '1' else ch '0'

/-- `1` if the digits differ. -/
def xorDigit (c d : Byte) : Byte := if c = d then ch '0' else ch '1'

/-- The character of a bit. -/
def bitText (b : Bool) : Byte := if b then ch '1' else ch '0'

/-- The text of a bit vector. -/
def text {w : Nat} (x : BitVec w) : List Byte := (List.range w).map fun k => bitText (x.getLsbD (w - 1 - k))

end

/-! ## C102: the texts of values are ordered like the values -/

section
open Res

/-- The dictionary order: the first difference decides, a proper prefix comes first. -/
def textLess : List Byte → List Byte → Bool
  | [], [] => false
  | [], _ :: _ => true
  | _ :: _, [] => false
  | c :: cs, d :: ds => if c = d then textLess cs ds else decide (c.toNat < d.toNat)

/-- Decimal numerals without leading zeros: the shorter one is smaller, and those of the same length are in dictionary order. -/
def shortLess (s t : List Byte) : Bool := decide (s.length < t.length) || (decide (s.length = t.length) && textLess s t)

end

end Baa

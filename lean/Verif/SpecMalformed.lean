import Verif.Spec.Operands

/-!
# Values with the wrong number of words: what the operations do

A value is described by its width, the number of its words and the number that the words hold. Nothing relates the three. Every operation is
a function of this description.
-/

namespace Baa
open Res

/-- What there is to know about a value. -/
structure Shape where
  width : Nat
  words : Nat
  number : Nat
deriving DecidableEq

/-- The description of a value. -/
def BitVecValue.shape (v : BitVecValue) : Shape := ⟨v.width, v.words.length, wordsVal v.words⟩

/-- The outcome of a call: a value with this description and a 32-bit width, or a panic. -/
def Makes (x : Res BitVecValue) : Option Shape → Prop
  | some s => ∃ r, x = ok r ∧ r.shape = s ∧ s.width < 2 ^ 32
  | none => Panics x

/-- The number of words a value of width `w` needs. -/
def need (w : Nat) : Nat := (w + 63) / 64

/-- The width at which `n` words are needed and the last one is used as far as at width `w`. -/
def fitted (w n : Nat) : Nat := 64 * (n - 1) + (w + 63) % 64 + 1

/-- Masking `n` words that hold the number `N`. -/
def masked (m : Mode) (w n N : Nat) : Option Nat :=
  if n = 0 ∨ (m = .debug ∧ n ≠ need w) then none else some (N % 2 ^ fitted w n)

/-- The outcome of a right shift. -/
def rightShifted (w n n' N M : Nat) : Option Nat :=
  if n' = 0 then none else if w ≤ M then some 0 else if n < need w then none else some ((N % 2 ^ w) >>> M)

/-- The position at which a concatenation puts the left operand, if the right one has width `v` and `n` words. -/
def offset (v n : Nat) : Nat := 64 * n - (64 - v % 64) % 64

/-- The highest `k` of `n` words that hold `N`. -/
def highest (k n N : Nat) : Nat := N >>> (64 * (n - k))

/-! ## Binary operations -/

/-- What an operation sees of its right operand: only the lowest word if the left operand has one word. -/
def Shape.sees (s t : Shape) : Shape := if s.words = 1 then ⟨t.width, min t.words 1, t.number % 2 ^ 64⟩ else t

/-- The number that an operation writes into `d` words of zeros. The left operand has width `w` and `n` words that hold `N`, the right one has
`k` words that hold `M`. -/
def MixedOp.write (m : Mode) (w d n k N M : Nat) : MixedOp → Option Nat
  | .add => masked m w d ((N + M) % 2 ^ (64 * min d (min n k)))
  | .sub => masked m w d ((N + (2 ^ (64 * k) - M)) % 2 ^ (64 * min d (min n k)))
  | .mul => if w = 0 ∨ 64 < w ∨ n = 0 ∨ k = 0 then none else some (N * M % 2 ^ w)
  | .and => some ((N &&& M) % 2 ^ (64 * min d (min n k)))
  | .or => some ((N ||| M) % 2 ^ (64 * min d (min n k)))
  | .xor => some ((N ^^^ M) % 2 ^ (64 * min d (min n k)))
  | .shiftLeft =>
    if k = 0 then none else if w ≤ M then some 0
    else if M % 64 = 0 then some ((N <<< M) % 2 ^ (64 * min d (M / 64 + n)))
    else masked m w d ((N <<< M) % 2 ^ (64 * min d (M / 64 + n)))
  | .shiftRight => rightShifted w n k N M
  | .arithmeticShiftRight =>
    if n = 0 ∨ (m = .debug ∧ w = 0) then none
    else if N.testBit (fitted w n - 1) = false then rightShifted w n k N M
    else if k = 0 then none
    else if w ≤ M then masked m w d (2 ^ (64 * d) - 1)
    else if n < need w then none
    else some (((N % 2 ^ w) >>> M) ||| (2 ^ w - 2 ^ (w - M)))
  | .assign => some M

/-- The outcome of a binary operation. The result has as many words as the width of the left operand needs, except that `assign` keeps the number
of words. -/
def MixedOp.foresee (m : Mode) (s t : Shape) (op : MixedOp) : Option Shape :=
  if m = .debug ∧ (s.width ≠ t.width ∨ s.words ≠ t.words) then none
  else match op with
    | .assign => if s.words = t.words then some ⟨s.width, s.words, t.number⟩ else none
    | op =>
      if s.words = 1 ∧ (s.width = 0 ∨ t.words = 0) then none
      else (op.write m s.width (if s.words = 1 then 1 else need s.width) s.words (s.sees t).words s.number (s.sees t).number).map
        fun K => ⟨s.width, need s.width, K⟩

/-! ## Comparisons -/

/-- `is_greater` compares the highest words that both operands have. -/
def Shape.greater (s t : Shape) : Option Bool :=
  let u := s.sees t
  if s.words = 1 ∧ t.words = 0 then none
  else some (decide (highest (min s.words u.words) u.words u.number < highest (min s.words u.words) s.words s.number))

/-- `is_greater_or_equal` is strict unless the left operand has one word. -/
def Shape.greaterOrEqual (s t : Shape) : Option Bool :=
  let u := s.sees t
  if s.words = 1 then
    if t.words = 0 then none
    else some (decide (highest (min s.words u.words) u.words u.number ≤ highest (min s.words u.words) s.words s.number))
  else s.greater t

/-- The signed comparisons; `strict` tells whether equal numbers are excluded. The sign is the bit of the last word at the position that belongs to
the width of the left operand. -/
def Shape.signed (m : Mode) (strict : Bool) (s t : Shape) : Option Bool :=
  let u := s.sees t
  if s.words = 0 ∨ u.words = 0 ∨ (m = .debug ∧ s.width = 0) then none
  else if s.number.testBit (fitted s.width s.words - 1) = u.number.testBit (fitted s.width u.words - 1) then
    let x := highest (min s.words u.words) s.words s.number
    let y := highest (min s.words u.words) u.words u.number
    some (if strict then decide (y < x) else decide (y ≤ x))
  else some (u.number.testBit (fitted s.width u.words - 1))

/-- `is_equal` compares the words that both operands have. -/
def Shape.equal (s t : Shape) : Bool := decide (s.number % 2 ^ (64 * min s.words t.words) = t.number % 2 ^ (64 * min s.words t.words))

/-- The answer of a comparison, or a panic. -/
def MixedCmp.foresee (m : Mode) (s t : Shape) : MixedCmp → Option Bool
  | .eqOwned => if m = .debug ∧ s.width = t.width ∧ s.words ≠ t.words then none else some (decide (s = t))
  | .eqRef =>
    if s.width ≠ t.width then some false else if m = .debug ∧ s.words ≠ t.words then none else some (s.equal t)
  | op =>
    if m = .debug ∧ (s.width ≠ t.width ∨ s.words ≠ t.words) then none
    else match op with
      | .equal => some (s.equal t)
      | .notEqual => some (!s.equal t)
      | .greater => s.greater t
      | .greaterOrEqual => s.greaterOrEqual t
      | .less => t.greater s
      | .lessOrEqual => t.greaterOrEqual s
      | .greaterSigned => s.signed m true t
      | .greaterOrEqualSigned => s.signed m false t
      | .lessSigned => t.signed m true s
      | .lessOrEqualSigned => t.signed m false s
      | .eqOwned | .eqRef => none

/-- The answer to a question, or a panic. -/
def Test.foresee (m : Mode) (s : Shape) : Test → Option Bool
  | .negative => if s.words = 0 ∨ (m = .debug ∧ s.width = 0) then none else some (s.number.testBit (fitted s.width s.words - 1))
  | .zero => some (decide (s.number = 0))
  | .tru => if s.width ≠ 1 then some false else if s.words = 0 then none else some (decide (s.number % 2 ^ 64 = 1))
  | .fals => if s.width ≠ 1 then some false else if s.words = 0 then none else some (decide (s.number % 2 ^ 64 = 0))
  | .bit pos => if pos < 64 * s.words then some (s.number.testBit pos) else none

/-! ## Operations on one value -/

/-- The sum of two widths. -/
def widthSum (m : Mode) (w n : Nat) : Option Nat :=
  if w + n < 2 ^ 32 then some (w + n) else if m = .debug then none else some (w + n - 2 ^ 32)

/-- `slice(msb, lsb)`. -/
def Shape.slice (m : Mode) (s : Shape) (msb lsb : Nat) : Option Shape :=
  if 64 * s.words ≤ msb then none
  else if lsb ≤ msb then
    if (m = .debug ∧ s.width < msb) ∨ msb - lsb + 1 = 2 ^ 32 then none
    else some ⟨msb - lsb + 1, need (msb - lsb + 1), (s.number >>> lsb) % 2 ^ (msb - lsb + 1)⟩
  else if m = .debug ∨ lsb = msb + 1 ∨ 64 * (msb / 64 + 1) < lsb then none
  else some ⟨2 ^ 32 + msb + 1 - lsb, need (2 ^ 32 + msb + 1 - lsb), (s.number % 2 ^ (64 * (msb / 64 + 1))) >>> lsb⟩

/-- `zero_extend` to the width `W`. -/
def Shape.zeroExtend (s : Shape) (W : Nat) : Option Shape :=
  if W = 0 then none
  else if W ≤ 64 then if s.words = 0 then none else some ⟨W, 1, s.number % 2 ^ 64⟩
  else if need W < s.words then none else some ⟨W, need W, s.number⟩

/-- Filling `need W` words with the sign of `k` words that hold `N` and belong to a value of width `w`. -/
def signFilled (w W k N : Nat) : Nat :=
  if N.testBit (fitted w k - 1) = true then (N ||| (2 ^ (64 * need W) - 2 ^ fitted w k)) % 2 ^ W else N

/-- `sign_extend` to the width `W`. -/
def Shape.signExtend (m : Mode) (s : Shape) (W : Nat) : Option Shape :=
  if W = 0 ∨ s.words = 0 ∨ (m = .debug ∧ s.width = 0) then none
  else if W ≤ 64 then some ⟨W, 1, signFilled s.width W 1 (s.number % 2 ^ 64)⟩
  else if need W < s.words then none
  else some ⟨W, need W, signFilled s.width W s.words s.number⟩

/-- `concat` to the width `W`. -/
def Shape.concat (s t : Shape) (W : Nat) : Option Shape :=
  if W = 0 then none
  else if W ≤ 64 then
    if s.words = 0 ∨ t.words = 0 then none
    else some ⟨W, 1, (t.number % 2 ^ 64 ||| (s.number % 2 ^ 64) <<< offset t.width 1) % 2 ^ 64⟩
  else if t.width % 64 ≠ 0 ∧ (t.words = 0 ∨ need W < t.words) then none
  else some ⟨W, need W, (t.number ||| s.number <<< offset t.width t.words) % 2 ^ (64 * need W)⟩

/-- The outcome of an operation on one value. -/
def UnOp.foresee (m : Mode) (s : Shape) : UnOp → Option Shape
  | .not =>
    if s.words = 0 ∨ s.width = 0 then none
    else
      let d := if s.words = 1 then 1 else need s.width
      (masked m s.width d (2 ^ (64 * min d s.words) - 1 - s.number % 2 ^ (64 * min d s.words))).map fun K => ⟨s.width, need s.width, K⟩
  | .negate =>
    if s.words = 0 ∨ s.width = 0 ∨ (s.words ≠ 1 ∧ s.words ≠ need s.width) then none
    else (masked m s.width s.words ((2 ^ (64 * s.words) - s.number) % 2 ^ (64 * s.words))).map fun K => ⟨s.width, need s.width, K⟩
  | .maskMsb => (masked m s.width s.words s.number).map fun K => ⟨s.width, s.words, K⟩
  | .clear => some ⟨s.width, s.words, 0⟩
  | .assignOnes => (masked m s.width s.words (2 ^ (64 * s.words) - 1)).map fun K => ⟨s.width, s.words, K⟩
  | .setBit pos => if pos < 64 * s.words then some ⟨s.width, s.words, s.number ||| 2 ^ pos⟩ else none
  | .clearBit pos =>
    if pos < 64 * s.words then some ⟨s.width, s.words, if s.number.testBit pos then s.number ^^^ 2 ^ pos else s.number⟩ else none
  | .zeroExtend n => (widthSum m s.width n).bind s.zeroExtend
  | .signExtend n => (widthSum m s.width n).bind (s.signExtend m)
  | .slice msb lsb => s.slice m msb lsb

/-! ## Expressions -/

/-- What the evaluation of an expression gives, or `none` if it panics. -/
def Term.foresee (m : Mode) : Term → Option Shape
  | .value v => some v.shape
  | .un op a => do let s ← a.foresee m; op.foresee m s
  | .bin op a b => do let s ← a.foresee m; let t ← b.foresee m; op.foresee m s t
  | .concat a b => do let s ← a.foresee m; let t ← b.foresee m; let W ← widthSum m s.width t.width; s.concat t W
  | .cmp op a b => do let s ← a.foresee m; let t ← b.foresee m; let r ← op.foresee m s t; some ⟨1, 1, r.toNat⟩
  | .test op a => do let s ← a.foresee m; let r ← op.foresee m s; some ⟨1, 1, r.toNat⟩
  | .ite c a b => do let s ← c.foresee m; let r ← Test.foresee m s .tru; if r then a.foresee m else b.foresee m

/-- The values at the leaves have 32-bit widths, extensions and slices have 32-bit arguments. Words are arbitrary, and so is their number. -/
def Term.Typed : Term → Prop
  | .value v => v.width < 2 ^ 32
  | .un op a => op.Args ∧ a.Typed
  | .bin _ a b => a.Typed ∧ b.Typed
  | .concat a b => a.Typed ∧ b.Typed
  | .cmp _ a b => a.Typed ∧ b.Typed
  | .test _ a => a.Typed
  | .ite c a b => c.Typed ∧ a.Typed ∧ b.Typed

end Baa

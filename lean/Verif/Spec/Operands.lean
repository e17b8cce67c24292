import Verif.Spec.Expressions

/-!
# Operands of any widths
-/

namespace Baa

/-! ## C92: operands of different widths in a release build -/

section
open Res BitVecValue

/-- The binary operations. -/
inductive MixedOp where
  | add | sub | mul | and | or | xor | shiftLeft | shiftRight | arithmeticShiftRight | assign

/-- Running an operation in a release build. -/
def MixedOp.run (a b : BitVecValue) : MixedOp → Res BitVecValue
  | .add => BitVecValue.add .release a b
  | .sub => BitVecValue.sub .release a b
  | .mul => BitVecValue.mul .release a b
  | .and => BitVecValue.and .release a b
  | .or => BitVecValue.or .release a b
  | .xor => BitVecValue.xor .release a b
  | .shiftLeft => BitVecValue.shiftLeft .release a b
  | .shiftRight => BitVecValue.shiftRight .release a b
  | .arithmeticShiftRight => BitVecValue.arithmeticShiftRight .release a b
  | .assign => BitVecValue.assign .release a b

/-- The part of the right operand that is looked at when the left one fits into one word. -/
def seen (w M : Nat) : Nat := if w ≤ 64 then M % 2 ^ 64 else M

/-- The number of bits in the words that both operands have. -/
def shared (w v : Nat) : Nat := min (capacity w) (capacity v)

/-- The number in the words of the result, or a panic. The left operand has width `w` and holds `N`, the right one has width `v` and
holds `M`. The result has the width of the left operand. Addition, subtraction and the bitwise operations only work on the words that both
operands have, and the rest of the result is zero. Bitwise operations do not mask the result. -/
def MixedOp.number (w v N M : Nat) : MixedOp → Option Nat
  | .add => some ((N + M) % 2 ^ min w (capacity v))
  | .sub => some ((N + (2 ^ capacity v - M)) % 2 ^ min w (capacity v))
  | .mul => if w ≤ 64 then some (N * M % 2 ^ w) else none
  | .and => some ((N &&& M) % 2 ^ shared w v)
  | .or => some ((N ||| M) % 2 ^ shared w v)
  | .xor => some ((N ^^^ M) % 2 ^ shared w v)
  | .shiftLeft => some (if w ≤ seen w M then 0 else if seen w M % 64 = 0 then (N <<< seen w M) % 2 ^ capacity w
      else (N <<< seen w M) % 2 ^ w)
  | .shiftRight => some ((N % 2 ^ w) >>> seen w M)
  | .arithmeticShiftRight => some ((low w N).sshiftRight (seen w M)).toNat
  | .assign => if capacity w = capacity v then some M else none

/-- The comparisons. -/
inductive MixedCmp where
  | equal | notEqual | greater | greaterOrEqual | less | lessOrEqual
  | greaterSigned | greaterOrEqualSigned | lessSigned | lessOrEqualSigned | eqOwned | eqRef

/-- Running a comparison in a release build. -/
def MixedCmp.run (a b : BitVecValue) : MixedCmp → Res Bool
  | .equal => BitVecValue.isEqual .release a b
  | .notEqual => BitVecValue.isNotEqual .release a b
  | .greater => BitVecValue.isGreater .release a b
  | .greaterOrEqual => BitVecValue.isGreaterOrEqual .release a b
  | .less => BitVecValue.isLess .release a b
  | .lessOrEqual => BitVecValue.isLessOrEqual .release a b
  | .greaterSigned => BitVecValue.isGreaterSigned .release a b
  | .greaterOrEqualSigned => BitVecValue.isGreaterOrEqualSigned .release a b
  | .lessSigned => BitVecValue.isLessSigned .release a b
  | .lessOrEqualSigned => BitVecValue.isLessOrEqualSigned .release a b
  | .eqOwned => BitVecValue.eqOwned .release a b
  | .eqRef => BitVecValue.eqRef .release a b

/-- What the unsigned order looks at in the left operand: as many of its highest words as the right operand has. -/
def leftPart (w v N : Nat) : Nat := N >>> (capacity w - shared w v)

/-- What the order looks at in the right operand: the lowest word if the left operand has one word, otherwise as many of its highest words as
the left operand has. -/
def rightPart (w v M : Nat) : Nat := if w ≤ 64 then M % 2 ^ 64 else M >>> (capacity v - shared w v)

/-- The bit that is taken for the sign of the right operand: the position of the left operand's sign in its word, but in the last
word of the right operand that is looked at. -/
def rightSign (w v M : Nat) : Bool := if w ≤ 64 then M.testBit (w - 1) else M.testBit (capacity v - 64 + (w - 1) % 64)

/-- `is_greater` -/
def mixedGreater (w v N M : Nat) : Bool := decide (rightPart w v M < leftPart w v N)

/-- `is_greater_or_equal`, which is strict if the left operand has more than one word (C17). -/
def mixedGreaterOrEqual (w v N M : Nat) : Bool := if w ≤ 64 then decide (rightPart w v M ≤ leftPart w v N) else mixedGreater w v N M

/-- `is_greater_signed` -/
def mixedGreaterSigned (w v N M : Nat) : Bool :=
  if N.testBit (w - 1) = rightSign w v M then decide (rightPart w v M < leftPart w v N) else rightSign w v M

/-- `is_greater_or_equal_signed` -/
def mixedGreaterOrEqualSigned (w v N M : Nat) : Bool :=
  if N.testBit (w - 1) = rightSign w v M then decide (rightPart w v M ≤ leftPart w v N) else rightSign w v M

/-- The answer of a comparison. -/
def MixedCmp.answer (w v N M : Nat) : MixedCmp → Bool
  | .equal => decide (N % 2 ^ shared w v = M % 2 ^ shared w v)
  | .notEqual => decide (N % 2 ^ shared w v ≠ M % 2 ^ shared w v)
  | .greater => mixedGreater w v N M
  | .greaterOrEqual => mixedGreaterOrEqual w v N M
  | .less => mixedGreater v w M N
  | .lessOrEqual => mixedGreaterOrEqual v w M N
  | .greaterSigned => mixedGreaterSigned w v N M
  | .greaterOrEqualSigned => mixedGreaterOrEqualSigned w v N M
  | .lessSigned => mixedGreaterSigned v w M N
  | .lessOrEqualSigned => mixedGreaterOrEqualSigned v w M N
  | .eqOwned => decide (w = v ∧ N = M)
  | .eqRef => decide (w = v ∧ N = M)

end

/-! ## C103: slices, extensions and concatenations with any arguments -/

section
open Res

/-- The outcome of a call: a value of the given width whose words hold the given number, or a panic. -/
def Gives (x : Res BitVecValue) : Option (Nat × Nat) → Prop
  | some (W, V) => ∃ r, x = ok r ∧ Raw r W V
  | none => Panics x

/-- `slice(msb, lsb)` of a value of width `w` whose words hold the number `N`. -/
def sliceOutcome (m : Mode) (w N msb lsb : Nat) : Option (Nat × Nat) :=
  if capacity w ≤ msb then none
  else if lsb ≤ msb then
    if (m = .debug ∧ w < msb) ∨ msb - lsb + 1 = 2 ^ 32 then none
    else some (msb - lsb + 1, (N >>> lsb) % 2 ^ (msb - lsb + 1))
  else if m = .debug ∨ lsb = msb + 1 ∨ 64 * (msb / 64 + 1) < lsb then none
  else some (2 ^ 32 + msb + 1 - lsb, (N % 2 ^ (64 * (msb / 64 + 1))) >>> lsb)

/-- `zero_extend(n)`. -/
def zeroExtendOutcome (m : Mode) (w N n : Nat) : Option (Nat × Nat) :=
  if w + n < 2 ^ 32 then if w = 0 ∧ n ≤ 64 then none else some (w + n, N)
  else if m = .debug ∨ w + n = 2 ^ 32 then none
  else
    let W := w + n - 2 ^ 32
    if W ≤ 64 then some (W, N % 2 ^ 64) else if capacity W = capacity w then some (W, N) else none

/-- `sign_extend(n)`. -/
def signExtendOutcome (m : Mode) (w N n : Nat) : Option (Nat × Nat) :=
  if w = 0 then none
  else if w + n < 2 ^ 32 then some (w + n, if N.testBit (w - 1) = true then ((low w N).signExtend (w + n)).toNat else N)
  else if m = .debug ∨ w + n = 2 ^ 32 then none
  else
    let W := w + n - 2 ^ 32
    let k := (w - 1) % 64 + 1
    if W ≤ 64 then some (W, if N.testBit (k - 1) = true then ((N % 2 ^ 64) ||| (2 ^ 64 - 2 ^ k)) % 2 ^ W else N % 2 ^ 64)
    else if capacity W = capacity w then some (W, if N.testBit (w - 1) = true then N % 2 ^ W else N) else none

/-- `concat` of values of the widths `w` and `v` whose words hold `N` and `M`. -/
def concatOutcome (m : Mode) (w v N M : Nat) : Option (Nat × Nat) :=
  if w + v < 2 ^ 32 then
    if (w = 0 ∨ v = 0) ∧ w + v ≤ 64 then none else some (w + v, (N <<< v ||| M) % 2 ^ capacity (w + v))
  else if m = .debug ∨ w + v = 2 ^ 32 then none
  else
    let W := w + v - 2 ^ 32
    if W ≤ 64 then some (W, if v % 64 = 0 then M % 2 ^ 64 else (N <<< (v % 64) ||| M) % 2 ^ 64)
    else if v % 64 = 0 then some (W, M % 2 ^ capacity W)
    else if capacity W = capacity v then some (W, (N <<< v ||| M) % 2 ^ capacity W) else none

end

/-! ## C104: every computation is predictable, legal or not -/

section
open Res BitVecValue

/-- A binary operation in either build mode. -/
def MixedOp.runIn (m : Mode) (a b : BitVecValue) : MixedOp → Res BitVecValue
  | .add => BitVecValue.add m a b
  | .sub => BitVecValue.sub m a b
  | .mul => BitVecValue.mul m a b
  | .and => BitVecValue.and m a b
  | .or => BitVecValue.or m a b
  | .xor => BitVecValue.xor m a b
  | .shiftLeft => BitVecValue.shiftLeft m a b
  | .shiftRight => BitVecValue.shiftRight m a b
  | .arithmeticShiftRight => BitVecValue.arithmeticShiftRight m a b
  | .assign => BitVecValue.assign m a b

/-- Operations on a left operand of zero bits; `v` is the width of the right operand. -/
def MixedOp.ofNothing (v : Nat) : MixedOp → Option Nat
  | .and | .or | .xor => some 0
  | .shiftLeft | .shiftRight => if v = 0 then none else some 0
  | .assign => if v = 0 then some 0 else none
  | .add | .sub | .mul | .arithmeticShiftRight => none

/-- Operations of a left operand of positive width `w` with a right operand of zero bits. -/
def MixedOp.byNothing (w : Nat) : MixedOp → Option Nat
  | .add | .sub | .and | .or | .xor => if w ≤ 64 then none else some 0
  | .mul | .shiftLeft | .shiftRight | .arithmeticShiftRight | .assign => none

/-- The number in the words of the result, which has the width of the left operand. -/
def MixedOp.outcome (m : Mode) (w v N M : Nat) (op : MixedOp) : Option Nat :=
  if m = .debug ∧ w ≠ v then none
  else if w = 0 then op.ofNothing v
  else if v = 0 then op.byNothing w
  else op.number w v N M

/-- A comparison in either build mode. -/
def MixedCmp.runIn (m : Mode) (a b : BitVecValue) : MixedCmp → Res Bool
  | .equal => BitVecValue.isEqual m a b
  | .notEqual => BitVecValue.isNotEqual m a b
  | .greater => BitVecValue.isGreater m a b
  | .greaterOrEqual => BitVecValue.isGreaterOrEqual m a b
  | .less => BitVecValue.isLess m a b
  | .lessOrEqual => BitVecValue.isLessOrEqual m a b
  | .greaterSigned => BitVecValue.isGreaterSigned m a b
  | .greaterOrEqualSigned => BitVecValue.isGreaterOrEqualSigned m a b
  | .lessSigned => BitVecValue.isLessSigned m a b
  | .lessOrEqualSigned => BitVecValue.isLessOrEqualSigned m a b
  | .eqOwned => BitVecValue.eqOwned m a b
  | .eqRef => BitVecValue.eqRef m a b

/-- Comparisons of which one operand has zero bits. -/
def MixedCmp.withNothing (w v : Nat) : MixedCmp → Option Bool
  | .equal => some true
  | .notEqual => some false
  | .greater | .greaterOrEqual => if 0 < w ∧ w ≤ 64 then none else some false
  | .less | .lessOrEqual => if 0 < v ∧ v ≤ 64 then none else some false
  | .greaterSigned | .greaterOrEqualSigned | .lessSigned | .lessOrEqualSigned => none
  | .eqOwned | .eqRef => some (decide (w = v))

/-- The answer of a comparison, or a panic. -/
def MixedCmp.outcome (m : Mode) (w v N M : Nat) (op : MixedCmp) : Option Bool :=
  match op with
  | .eqOwned => some (decide (w = v ∧ N = M))
  | .eqRef => some (decide (w = v ∧ N = M))
  | op =>
    if m = .debug ∧ w ≠ v then none
    else if w = 0 ∨ v = 0 then op.withNothing w v
    else some (op.answer w v N M)

/-- Questions about one value. -/
inductive Test where
  | negative | zero | tru | fals
  | bit (pos : Nat)

/-- Asking a question. -/
def Test.run (m : Mode) (a : BitVecValue) : Test → Res Bool
  | .negative => BitVecValue.isNegative m a
  | .zero => ok (BitVecValue.isZero a)
  | .tru => BitVecValue.isTru a
  | .fals => BitVecValue.isFals a
  | .bit pos => BitVecValue.isBitSet a pos

/-- The answer, or a panic. -/
def Test.outcome (w N : Nat) : Test → Option Bool
  | .negative => if w = 0 then none else some (N.testBit (w - 1))
  | .zero => some (decide (N = 0))
  | .tru => some (decide (w = 1 ∧ N = 1))
  | .fals => some (decide (w = 1 ∧ N = 0))
  | .bit pos => if pos < capacity w then some (N.testBit pos) else none

/-- Operations on one value. -/
inductive UnOp where
  | not | negate | maskMsb | clear | assignOnes
  | setBit (pos : Nat) | clearBit (pos : Nat)
  | zeroExtend (n : Nat) | signExtend (n : Nat) | slice (msb lsb : Nat)

/-- Applying an operation. -/
def UnOp.run (m : Mode) (a : BitVecValue) : UnOp → Res BitVecValue
  | .not => BitVecValue.not m a
  | .negate => BitVecValue.negate m a
  | .maskMsb => BitVecValue.maskMsb m a
  | .clear => ok (BitVecValue.clear a)
  | .assignOnes => BitVecValue.assignOnes m a
  | .setBit pos => BitVecValue.setBit a pos
  | .clearBit pos => BitVecValue.clearBit a pos
  | .zeroExtend n => BitVecValue.zeroExtend m a n
  | .signExtend n => BitVecValue.signExtend m a n
  | .slice msb lsb => BitVecValue.slice m a msb lsb

/-- The width and the number in the words of the result, or a panic. -/
def UnOp.outcome (m : Mode) (w N : Nat) : UnOp → Option (Nat × Nat)
  | .not => if w = 0 then none else some (w, (~~~low w N).toNat)
  | .negate => if w = 0 then none else some (w, (-low w N).toNat)
  | .maskMsb => if w = 0 then none else some (w, N % 2 ^ w)
  | .clear => some (w, 0)
  | .assignOnes => if w = 0 then none else some (w, 2 ^ w - 1)
  | .setBit pos => if pos < capacity w then some (w, N ||| 2 ^ pos) else none
  | .clearBit pos => if pos < capacity w then some (w, if N.testBit pos then N ^^^ 2 ^ pos else N) else none
  | .zeroExtend n => zeroExtendOutcome m w N n
  | .signExtend n => signExtendOutcome m w N n
  | .slice msb lsb => sliceOutcome m w N msb lsb

/-- The arguments are 32-bit numbers. -/
def UnOp.Args : UnOp → Prop
  | .zeroExtend n => n < 2 ^ 32
  | .signExtend n => n < 2 ^ 32
  | .slice msb lsb => msb < 2 ^ 32 ∧ lsb < 2 ^ 32
  | _ => True

/-- Expressions. -/
inductive Term where
  | value (v : BitVecValue)
  | un (op : UnOp) (a : Term)
  | bin (op : MixedOp) (a b : Term)
  | concat (a b : Term)
  /-- `from_bool` of the answer of a comparison -/
  | cmp (op : MixedCmp) (a b : Term)
  /-- `from_bool` of the answer of a question -/
  | test (op : Test) (a : Term)
  /-- `if c.is_tru() { a } else { b }` -/
  | ite (c a b : Term)

/-- Evaluating an expression. -/
def Term.run (m : Mode) : Term → Res BitVecValue
  | .value v => ok v
  | .un op a => do let x ← a.run m; op.run m x
  | .bin op a b => do let x ← a.run m; let y ← b.run m; op.runIn m x y
  | .concat a b => do let x ← a.run m; let y ← b.run m; BitVecValue.concat m x y
  | .cmp op a b => do let x ← a.run m; let y ← b.run m; let r ← op.runIn m x y; BitVecValue.fromBool m r
  | .test op a => do let x ← a.run m; let r ← op.run m x; BitVecValue.fromBool m r
  | .ite c a b => do let x ← c.run m; let t ← BitVecValue.isTru x; if t then a.run m else b.run m

/-- The width of the result and the number in its words, or `none` if the evaluation panics. -/
def Term.predict (m : Mode) : Term → Option (Nat × Nat)
  | .value v => some (v.width, wordsVal v.words)
  | .un op a => do let x ← a.predict m; op.outcome m x.1 x.2
  | .bin op a b => do
    let x ← a.predict m; let y ← b.predict m
    let N ← op.outcome m x.1 y.1 x.2 y.2
    some (x.1, N)
  | .concat a b => do let x ← a.predict m; let y ← b.predict m; concatOutcome m x.1 y.1 x.2 y.2
  | .cmp op a b => do
    let x ← a.predict m; let y ← b.predict m
    let r ← op.outcome m x.1 y.1 x.2 y.2
    some (1, r.toNat)
  | .test op a => do let x ← a.predict m; let r ← op.outcome x.1 x.2; some (1, r.toNat)
  | .ite c a b => do let x ← c.predict m; if x = (1, 1) then a.predict m else b.predict m

/-- The values at the leaves have a 32-bit width and the number of words that belongs to it; their words are arbitrary. Extensions and
slices have 32-bit arguments. -/
def Term.Sane : Term → Prop
  | .value v => v.width < 2 ^ 32 ∧ v.words.length = (v.width + 63) / 64
  | .un op a => op.Args ∧ a.Sane
  | .bin _ a b => a.Sane ∧ b.Sane
  | .concat a b => a.Sane ∧ b.Sane
  | .cmp _ a b => a.Sane ∧ b.Sane
  | .test _ a => a.Sane
  | .ite c a b => c.Sane ∧ a.Sane ∧ b.Sane

variable {w v N M : Nat} {a b : BitVecValue}

/-- `o` is the outcome of a question. -/
def Answers (r : Res Bool) : Option Bool → Prop
  | some c => r = ok c
  | none => Panics r

end

end Baa

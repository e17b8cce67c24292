import Verif.Spec.SignedDivision
import Verif.Spec.Arrays
import Verif.SpecArray

/-!
# Terms of bit-vectors and arrays, for C143

The operators of the SMT-LIB theories of fixed-size bit-vectors and arrays, what they mean, and an evaluator that computes them with the
calls of the library. The library has no division, no wide multiplication, and shifts and comparisons that are wrong on some operands (C09,
C12, C17); the evaluator goes around them.
-/

namespace Baa
open Res

/-- Bit-vectors of a width; arrays of an index and a data width. -/
inductive Srt where
  | bv (w : Nat)
  | arr (iw dw : Nat)

/-- The mathematical values. -/
@[reducible] def Srt.Val : Srt → Type
  | .bv w => BitVec w
  | .arr iw dw => BitVec iw → BitVec dw

/-- The values of the library. -/
@[reducible] def Srt.Obj : Srt → Type
  | .bv _ => BitVecValue
  | .arr _ _ => ArrayValue

/-- Operators on two bit-vectors of the same width. -/
inductive SmtBin where
  | and | or | xor | add | sub | mul | udiv | urem | sdiv | srem | smod | shl | lshr | ashr

/-- Comparisons. -/
inductive SmtCmp where
  | eq | ult | ule | slt | sle

/-- Terms. A truth value is a bit-vector of one bit. -/
inductive SmtTerm : Srt → Type where
  | const {w : Nat} (x : BitVec w) : SmtTerm (.bv w)
  | var (s : Srt) (n : Nat) : SmtTerm s
  | not {w : Nat} (a : SmtTerm (.bv w)) : SmtTerm (.bv w)
  | neg {w : Nat} (a : SmtTerm (.bv w)) : SmtTerm (.bv w)
  | bin {w : Nat} (op : SmtBin) (a b : SmtTerm (.bv w)) : SmtTerm (.bv w)
  | cmp {w : Nat} (op : SmtCmp) (a b : SmtTerm (.bv w)) : SmtTerm (.bv 1)
  | concat {w v : Nat} (a : SmtTerm (.bv w)) (b : SmtTerm (.bv v)) : SmtTerm (.bv (w + v))
  | extract {w : Nat} (hi lo : Nat) (a : SmtTerm (.bv w)) : SmtTerm (.bv (hi - lo + 1))
  | zeroExtend {w : Nat} (n : Nat) (a : SmtTerm (.bv w)) : SmtTerm (.bv (w + n))
  | signExtend {w : Nat} (n : Nat) (a : SmtTerm (.bv w)) : SmtTerm (.bv (w + n))
  | rotateLeft {w : Nat} (k : Nat) (a : SmtTerm (.bv w)) : SmtTerm (.bv w)
  | rotateRight {w : Nat} (k : Nat) (a : SmtTerm (.bv w)) : SmtTerm (.bv w)
  | repeat {w : Nat} (n : Nat) (a : SmtTerm (.bv w)) : SmtTerm (.bv (w * (n + 1)))
  | ite {s : Srt} (c : SmtTerm (.bv 1)) (a b : SmtTerm s) : SmtTerm s
  | fill {iw dw : Nat} (a : SmtTerm (.bv dw)) : SmtTerm (.arr iw dw)
  | store {iw dw : Nat} (a : SmtTerm (.arr iw dw)) (i : SmtTerm (.bv iw)) (d : SmtTerm (.bv dw)) : SmtTerm (.arr iw dw)
  | select {iw dw : Nat} (a : SmtTerm (.arr iw dw)) (i : SmtTerm (.bv iw)) : SmtTerm (.bv dw)
  | same {iw dw : Nat} (a b : SmtTerm (.arr iw dw)) : SmtTerm (.bv 1)

/-! ## Meaning -/

/-- The meaning of an operator, as in SMT-LIB: dividing by zero gives all ones, and the remainder is the dividend. -/
def SmtBin.sem {w : Nat} (x y : BitVec w) : SmtBin → BitVec w
  | .and => x &&& y
  | .or => x ||| y
  | .xor => x ^^^ y
  | .add => x + y
  | .sub => x - y
  | .mul => x * y
  | .udiv => x.smtUDiv y
  | .urem => x % y
  | .sdiv => x.smtSDiv y
  | .srem => x.srem y
  | .smod => x.smod y
  | .shl => x <<< y.toNat
  | .lshr => x >>> y.toNat
  | .ashr => x.sshiftRight y.toNat

/-- The meaning of a comparison. -/
def SmtCmp.sem {w : Nat} (x y : BitVec w) : SmtCmp → Bool
  | .eq => decide (x = y)
  | .ult => decide (x.toNat < y.toNat)
  | .ule => decide (x.toNat ≤ y.toNat)
  | .slt => decide (x.toInt < y.toInt)
  | .sle => decide (x.toInt ≤ y.toInt)

open Classical in
/-- Two arrays are equal when all their elements are. -/
noncomputable def sameArray {iw dw : Nat} (f g : BitVec iw → BitVec dw) : BitVec 1 :=
  if ∀ i, f i = g i then 1#1 else 0#1

/-- The value of a term; `σ` gives the values of the variables. -/
noncomputable def SmtTerm.denote (σ : (s : Srt) → Nat → s.Val) : {s : Srt} → SmtTerm s → s.Val
  | _, .const x => x
  | s, .var _ n => σ s n
  | _, .not a => ~~~(a.denote σ)
  | _, .neg a => -(a.denote σ)
  | _, .bin op a b => op.sem (a.denote σ) (b.denote σ)
  | _, .cmp op a b => BitVec.ofBool (op.sem (a.denote σ) (b.denote σ))
  | _, .concat a b => a.denote σ ++ b.denote σ
  | _, .extract hi lo a => (a.denote σ).extractLsb hi lo
  | _, .zeroExtend (w := w) n a => (a.denote σ).zeroExtend (w + n)
  | _, .signExtend (w := w) n a => (a.denote σ).signExtend (w + n)
  | _, .rotateLeft k a => (a.denote σ).rotateLeft k
  | _, .rotateRight k a => (a.denote σ).rotateRight k
  | _, .repeat n a => (a.denote σ).replicate (n + 1)
  | _, .ite c a b => if c.denote σ = 1#1 then a.denote σ else b.denote σ
  | _, .fill a => fun _ => a.denote σ
  | _, .store a i d => update (a.denote σ) (i.denote σ) (d.denote σ)
  | _, .select a i => a.denote σ (i.denote σ)
  | _, .same a b => sameArray (a.denote σ) (b.denote σ)

/-- Widths that the evaluator handles: a bit-vector has at least one bit and fewer than `2^32 - 1`; the index of an array has at most
64 bits. -/
def Srt.Sane : Srt → Prop
  | .bv w => 0 < w ∧ w + 1 < 2 ^ 32
  | .arr iw dw => 0 < iw ∧ iw ≤ 64 ∧ 0 < dw ∧ dw + 1 < 2 ^ 32

/-- Terms with sensible widths: every bit-vector has at least one bit and fewer than `2^32 - 1`, an extract is inside its operand, and the
index of an array has at most 64 bits. -/
def SmtTerm.Legal : {s : Srt} → SmtTerm s → Prop
  | _, .const (w := w) _ => Srt.Sane (.bv w)
  | s, .var _ _ => s.Sane
  | _, .not a => a.Legal
  | _, .neg a => a.Legal
  | _, .bin _ a b => a.Legal ∧ b.Legal
  | _, .cmp _ a b => a.Legal ∧ b.Legal
  | _, .concat (w := w) (v := v) a b => a.Legal ∧ b.Legal ∧ w + v + 1 < 2 ^ 32
  | _, .extract (w := w) hi lo a => a.Legal ∧ lo ≤ hi ∧ hi < w
  | _, .zeroExtend (w := w) n a => a.Legal ∧ w + n + 1 < 2 ^ 32
  | _, .signExtend (w := w) n a => a.Legal ∧ w + n + 1 < 2 ^ 32
  | _, .rotateLeft _ a => a.Legal
  | _, .rotateRight _ a => a.Legal
  | _, .repeat (w := w) n a => a.Legal ∧ w * (n + 1) + 1 < 2 ^ 32
  | _, .ite c a b => c.Legal ∧ a.Legal ∧ b.Legal
  | _, .fill (iw := iw) a => a.Legal ∧ 0 < iw ∧ iw ≤ 64
  | _, .store a i d => a.Legal ∧ i.Legal ∧ d.Legal
  | _, .select a i => a.Legal ∧ i.Legal
  | _, .same a b => a.Legal ∧ b.Legal

/-! ## Evaluation with the library -/

/-- An operator with the calls of the library. -/
def SmtBin.run (m : Mode) (a b : BitVecValue) : SmtBin → Res BitVecValue
  | .and => BitVecValue.and m a b
  | .or => BitVecValue.or m a b
  | .xor => BitVecValue.xor m a b
  | .add => BitVecValue.add m a b
  | .sub => BitVecValue.sub m a b
  | .mul => shiftAndAdd m b (List.range b.width) a (BitVecValue.zero a.width)
  | .udiv => do
    let p ← longDivision m a b a.width (BitVecValue.zero a.width) (BitVecValue.zero a.width)
    ok p.1
  | .urem => do
    let p ← longDivision m a b a.width (BitVecValue.zero a.width) (BitVecValue.zero a.width)
    ok p.2
  | .sdiv => do
    let p ← signedDivision m a b
    ok p.1
  | .srem => do
    let p ← signedDivision m a b
    ok p.2
  | .smod => do
    let p ← floorDivision m a b
    ok p.2
  | .shl => do
    let r ← BitVecValue.shiftLeft m a b
    BitVecValue.slice m r (a.width - 1) 0
  | .lshr => BitVecValue.shiftRight m a b
  | .ashr => BitVecValue.arithmeticShiftRight m a b

/-- A comparison with the calls of the library. -/
def SmtCmp.run (m : Mode) (a b : BitVecValue) : SmtCmp → Res Bool
  | .eq => BitVecValue.isEqual m a b
  | .ult => BitVecValue.isLess m a b
  | .ule => do
    let g ← BitVecValue.isGreater m a b
    ok (!g)
  | .slt => BitVecValue.isLessSigned m a b
  | .sle => BitVecValue.isLessOrEqualSigned m a b

/-- Rotate by two slices and a concatenation. -/
def rotateValue (m : Mode) (a : BitVecValue) (k : Nat) : Res BitVecValue :=
  if k % a.width = 0 then ok a
  else do
    let low ← BitVecValue.slice m a (a.width - 1 - k % a.width) 0
    let high ← BitVecValue.slice m a (a.width - 1) (a.width - k % a.width)
    BitVecValue.concat m low high

/-- `n + 1` copies. -/
def repeatValue (m : Mode) (a : BitVecValue) : Nat → Res BitVecValue
  | 0 => ok a
  | n + 1 => do
    let r ← repeatValue m a n
    BitVecValue.concat m a r

/-- Compare the elements at the indices of a list. -/
def sameElements (m : Mode) (env : HashEnv) (a b : ArrayValue) (iw : Nat) : List Nat → Res Bool
  | [] => ok true
  | k :: ks => do
    let i ← BitVecValue.fromU64 m (BitVec.ofNat 64 k) iw
    let x ← a.select m env i
    let y ← b.select m env i
    let e ← BitVecValue.isEqual m x y
    if e then sameElements m env a b iw ks else ok false

/-- Evaluate a term; `V` holds the variables. -/
def SmtTerm.eval (m : Mode) (env : HashEnv) (V : (s : Srt) → Nat → s.Obj) : {s : Srt} → SmtTerm s → Res s.Obj
  | _, .const x => ok (encode x)
  | s, .var _ n => ok (V s n)
  | _, .not a => do
    let x ← a.eval m env V
    BitVecValue.not m x
  | _, .neg a => do
    let x ← a.eval m env V
    BitVecValue.negate m x
  | _, .bin op a b => do
    let x ← a.eval m env V
    let y ← b.eval m env V
    op.run m x y
  | _, .cmp op a b => do
    let x ← a.eval m env V
    let y ← b.eval m env V
    let r ← op.run m x y
    BitVecValue.fromBool m r
  | _, .concat a b => do
    let x ← a.eval m env V
    let y ← b.eval m env V
    BitVecValue.concat m x y
  | _, .extract hi lo a => do
    let x ← a.eval m env V
    BitVecValue.slice m x hi lo
  | _, .zeroExtend n a => do
    let x ← a.eval m env V
    BitVecValue.zeroExtend m x n
  | _, .signExtend n a => do
    let x ← a.eval m env V
    BitVecValue.signExtend m x n
  | _, .rotateLeft k a => do
    let x ← a.eval m env V
    rotateValue m x k
  | _, .rotateRight k a => do
    let x ← a.eval m env V
    rotateValue m x (x.width - k % x.width)
  | _, .repeat n a => do
    let x ← a.eval m env V
    repeatValue m x n
  | _, .ite c a b => do
    let x ← c.eval m env V
    let t ← BitVecValue.isTru x
    if t then a.eval m env V else b.eval m env V
  | .arr iw _, .fill a => do
    let x ← a.eval m env V
    ArrayValue.newSparse iw x
  | _, .store a i d => do
    let t ← a.eval m env V
    let i ← i.eval m env V
    let d ← d.eval m env V
    t.store m env i d
  | _, .select a i => do
    let t ← a.eval m env V
    let i ← i.eval m env V
    t.select m env i
  | _, .same (iw := iw) a b => do
    let t ← a.eval m env V
    let u ← b.eval m env V
    let r ← sameElements m env t u iw (List.range (2 ^ iw))
    BitVecValue.fromBool m r

/-- A value of the library stands for a mathematical one: the bits of a bit-vector, the elements of an array of any origin that can be
read. -/
def Means (m : Mode) : (s : Srt) → s.Obj → s.Val → Prop
  | .bv _, v, x => Denotes v x
  | .arr iw dw, a, f => Reachable m a f ∧ Usable a iw dw

end Baa

import Verif.Spec
import Verif.Model.Array

/-!
# A stack machine, for C159

Expressions, what they mean, their translation into the code of a stack machine, and the machine, with an array of the library as
its stack and another one for the variables.
-/

namespace Baa
open Res

inductive UnaryOp where
  | not
  | negate
deriving DecidableEq, Repr

inductive BinaryOp where
  | add
  | sub
  | and
  | or
  | xor
  | shiftRight
  | arithmeticShiftRight
deriving DecidableEq, Repr

/-- Expressions over values of `dw` bits with variables numbered by `vw` bits. -/
inductive Expression (vw dw : Nat) where
  | literal (x : BitVec dw)
  | cell (i : BitVec vw)
  | unary (o : UnaryOp) (e : Expression vw dw)
  | binary (o : BinaryOp) (e₁ e₂ : Expression vw dw)

/-- What a unary operation means. -/
def UnaryOp.apply {dw : Nat} : UnaryOp → BitVec dw → BitVec dw
  | .not, x => ~~~x
  | .negate, x => -x

/-- What a binary operation means. -/
def BinaryOp.apply {dw : Nat} : BinaryOp → BitVec dw → BitVec dw → BitVec dw
  | .add, x, y => x + y
  | .sub, x, y => x - y
  | .and, x, y => x &&& y
  | .or, x, y => x ||| y
  | .xor, x, y => x ^^^ y
  | .shiftRight, x, y => x >>> y.toNat
  | .arithmeticShiftRight, x, y => x.sshiftRight y.toNat

/-- What an expression means. -/
def Expression.value {vw dw : Nat} (h : BitVec vw → BitVec dw) : Expression vw dw → BitVec dw
  | .literal x => x
  | .cell i => h i
  | .unary o e => o.apply (e.value h)
  | .binary o e₁ e₂ => o.apply (e₁.value h) (e₂.value h)

/-- The cells of the stack that an expression needs. -/
def Expression.height {vw dw : Nat} : Expression vw dw → Nat
  | .literal _ => 1
  | .cell _ => 1
  | .unary _ e => e.height
  | .binary _ e₁ e₂ => max e₁.height (e₂.height + 1)

/-- The instructions of the machine. -/
inductive StackCode where
  | push (v : BitVecValue)
  | load (i : BitVecValue)
  | unary (o : UnaryOp)
  | binary (o : BinaryOp)

/-- The translation. -/
def Expression.compile {vw dw : Nat} : Expression vw dw → List StackCode
  | .literal x => [.push (encode x)]
  | .cell i => [.load (encode i)]
  | .unary o e => e.compile ++ [.unary o]
  | .binary o e₁ e₂ => e₁.compile ++ e₂.compile ++ [.binary o]

/-- The call of the library for a unary operation. -/
def UnaryOp.call (m : Mode) : UnaryOp → BitVecValue → Res BitVecValue
  | .not, x => BitVecValue.not m x
  | .negate, x => BitVecValue.negate m x

/-- The call of the library for a binary operation. -/
def BinaryOp.call (m : Mode) : BinaryOp → BitVecValue → BitVecValue → Res BitVecValue
  | .add, x, y => BitVecValue.add m x y
  | .sub, x, y => BitVecValue.sub m x y
  | .and, x, y => BitVecValue.and m x y
  | .or, x, y => BitVecValue.or m x y
  | .xor, x, y => BitVecValue.xor m x y
  | .shiftRight, x, y => BitVecValue.shiftRight m x y
  | .arithmeticShiftRight, x, y => BitVecValue.arithmeticShiftRight m x y

/-- The machine: the stack and the address of its first free cell. -/
structure StackMachine where
  stack : ArrayValue
  top : BitVecValue

/-- Put a value on the stack. -/
def StackMachine.push (m : Mode) (env : HashEnv) (s : StackMachine) (v : BitVecValue) : Res StackMachine := do
  let one ← BitVecValue.fromU64 m 1#64 s.top.width
  let stack ← s.stack.store m env s.top v
  let top ← BitVecValue.add m s.top one
  ok ⟨stack, top⟩

/-- Take a value from the stack. -/
def StackMachine.pop (m : Mode) (env : HashEnv) (s : StackMachine) : Res (BitVecValue × StackMachine) := do
  let one ← BitVecValue.fromU64 m 1#64 s.top.width
  let top ← BitVecValue.sub m s.top one
  let v ← s.stack.select m env top
  ok (v, ⟨s.stack, top⟩)

/-- One instruction. -/
def StackMachine.step (m : Mode) (env : HashEnv) (vars : ArrayValue) (s : StackMachine) : StackCode → Res StackMachine
  | .push v => s.push m env v
  | .load i => do
    let v ← vars.select m env i
    s.push m env v
  | .unary o => do
    let (x, s) ← s.pop m env
    let r ← o.call m x
    s.push m env r
  | .binary o => do
    let (y, s) ← s.pop m env
    let (x, s) ← s.pop m env
    let r ← o.call m x y
    s.push m env r

/-- A run. -/
def StackMachine.exec (m : Mode) (env : HashEnv) (vars : ArrayValue) : StackMachine → List StackCode → Res StackMachine
  | s, [] => ok s
  | s, c :: cs => do
    let s ← s.step m env vars c
    exec m env vars s cs

end Baa

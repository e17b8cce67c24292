import Verif.Spec.BitScan

/-!
# Sets of small numbers, for C160

Bit-vectors used as sets of the numbers below their width: commands and questions, their implementation by calls of the library, and
what they mean for sets.
-/

namespace Baa
open Res

/-- Commands and questions about sets that are named by numbers. -/
inductive SetCommand where
  | insert (r k : Nat)
  | remove (r k : Nat)
  | empty (r : Nat)
  | all (r : Nat)
  | union (r a b : Nat)
  | intersection (r a b : Nat)
  | difference (r a b : Nat)
  | complement (r a : Nat)
  | has (a k : Nat)
  | isEmpty (a : Nat)
  | same (a b : Nat)
  | subset (a b : Nat)
  | disjoint (a b : Nat)
  | size (a : Nat)
deriving DecidableEq, Repr

/-- Only numbers below the width are mentioned. -/
def SetCommand.Within (w : Nat) : SetCommand → Prop
  | .insert _ k | .remove _ k | .has _ k => k < w
  | _ => True

/-- Assign one variable. -/
def assignVar {α : Type} (s : Nat → α) (r : Nat) (v : α) : Nat → α := fun i => if i = r then v else s i

/-- With bit-vectors: the new variables, and the answer to a question as a number (no and yes are 0 and 1). -/
def SetCommand.run (m : Mode) (w : Nat) (s : Nat → BitVecValue) : SetCommand → Res ((Nat → BitVecValue) × Option Nat)
  | .insert r k => do
    let v ← (s r).setBit k
    ok (assignVar s r v, none)
  | .remove r k => do
    let v ← (s r).clearBit k
    ok (assignVar s r v, none)
  | .empty r => ok (assignVar s r (BitVecValue.zero w), none)
  | .all r => do
    let v ← BitVecValue.ones m w
    ok (assignVar s r v, none)
  | .union r a b => do
    let v ← BitVecValue.or m (s a) (s b)
    ok (assignVar s r v, none)
  | .intersection r a b => do
    let v ← BitVecValue.and m (s a) (s b)
    ok (assignVar s r v, none)
  | .difference r a b => do
    let n ← BitVecValue.not m (s b)
    let v ← BitVecValue.and m (s a) n
    ok (assignVar s r v, none)
  | .complement r a => do
    let v ← BitVecValue.not m (s a)
    ok (assignVar s r v, none)
  | .has a k => do
    let b ← (s a).isBitSet k
    ok (s, some b.toNat)
  | .isEmpty a => ok (s, some (s a).isZero.toNat)
  | .same a b => do
    let e ← BitVecValue.isEqual m (s a) (s b)
    ok (s, some e.toNat)
  | .subset a b => do
    let v ← BitVecValue.and m (s a) (s b)
    let e ← BitVecValue.isEqual m v (s a)
    ok (s, some e.toNat)
  | .disjoint a b => do
    let v ← BitVecValue.and m (s a) (s b)
    ok (s, some v.isZero.toNat)
  | .size a => do
    let n ← popCount (s a) (List.range w)
    ok (s, some n)

/-- With sets, given by their members. -/
def SetCommand.meaning (w : Nat) (s : Nat → Nat → Bool) : SetCommand → (Nat → Nat → Bool) × Option Nat
  | .insert r k => (assignVar s r fun i => i == k || s r i, none)
  | .remove r k => (assignVar s r fun i => i != k && s r i, none)
  | .empty r => (assignVar s r fun _ => false, none)
  | .all r => (assignVar s r fun _ => true, none)
  | .union r a b => (assignVar s r fun i => s a i || s b i, none)
  | .intersection r a b => (assignVar s r fun i => s a i && s b i, none)
  | .difference r a b => (assignVar s r fun i => s a i && !s b i, none)
  | .complement r a => (assignVar s r fun i => !s a i, none)
  | .has a k => (s, some (s a k).toNat)
  | .isEmpty a => (s, some ((List.range w).all fun i => !s a i).toNat)
  | .same a b => (s, some ((List.range w).all fun i => s a i == s b i).toNat)
  | .subset a b => (s, some ((List.range w).all fun i => !s a i || s b i).toNat)
  | .disjoint a b => (s, some ((List.range w).all fun i => !(s a i && s b i)).toNat)
  | .size a => (s, some ((List.range w).filter fun i => s a i).length)

/-- The answers of a run with bit-vectors. -/
def setAnswers (m : Mode) (w : Nat) : (Nat → BitVecValue) → List SetCommand → Res (List (Option Nat))
  | _, [] => ok []
  | s, c :: cs => do
    let r ← c.run m w s
    let rest ← setAnswers m w r.1 cs
    ok (r.2 :: rest)

/-- The answers of a run with sets. -/
def setMeanings (w : Nat) : (Nat → Nat → Bool) → List SetCommand → List (Option Nat)
  | _, [] => []
  | s, c :: cs => (c.meaning w s).2 :: setMeanings w (c.meaning w s).1 cs

end Baa

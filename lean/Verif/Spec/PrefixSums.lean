import Verif.Spec.Links

/-!
# Sums of ranges of cells, for C170

A second array holds sums of ranges of the cells of a first one, which need not be kept: the cell `p` holds the sum of as many cells,
up to `p`, as the lowest one of `p` says (a binary indexed tree). The cell zero is not used.
-/

namespace Baa
open Res

variable {w dw : Nat}

/-- The sum of the `n` cells after the cell `l`. -/
def sumCells (A : BitVec w → BitVec dw) (l : Nat) : Nat → BitVec dw
  | 0 => 0#dw
  | n + 1 => sumCells A l n + A (BitVec.ofNat w (l + n + 1))

/-- `T` holds the sums of ranges of `A`. -/
def HoldsSums (A T : BitVec w → BitVec dw) : Prop :=
  ∀ p, p ≠ 0#w → T p = sumCells A (p.toNat - (p &&& -p).toNat) (p &&& -p).toNat

/-- The lowest one of `p`, as a bit-vector of its own. -/
def lowestBit (m : Mode) (p : BitVecValue) : Res BitVecValue := do
  let n ← BitVecValue.negate m p
  BitVecValue.and m p n

/-- Add `x` to a cell of the first array:

```text
while p != 0 { sums[p] += x; p += p & -p; }
```
-/
def addToSums (m : Mode) (env : HashEnv) (x : BitVecValue) : Nat → ArrayValue → BitVecValue → Res (Option ArrayValue)
  | 0, _, _ => ok none
  | n + 1, a, p => do
    let e ← isEnd m p
    if e then ok (some a)
    else
      let y ← a.select m env p
      let y ← BitVecValue.add m y x
      let a ← a.store m env p y
      let b ← lowestBit m p
      let p ← BitVecValue.add m p b
      addToSums m env x n a p

/-- The sum of the cells of the first array from one up to `p`:

```text
while p != 0 { acc += sums[p]; p -= p & -p; }
```
-/
def readSum (m : Mode) (env : HashEnv) (a : ArrayValue) : Nat → BitVecValue → BitVecValue → Res (Option BitVecValue)
  | 0, _, _ => ok none
  | n + 1, p, acc => do
    let e ← isEnd m p
    if e then ok (some acc)
    else
      let y ← a.select m env p
      let acc ← BitVecValue.add m acc y
      let b ← lowestBit m p
      let p ← BitVecValue.sub m p b
      readSum m env a n p acc

/-- Additions to several cells of the first array, in turn. -/
def addAllToSums (m : Mode) (env : HashEnv) (n : Nat) : ArrayValue → List (BitVecValue × BitVecValue) → Res (Option ArrayValue)
  | a, [] => ok (some a)
  | a, (p, x) :: l => do
    match ← addToSums m env x n a p with
    | none => ok none
    | some a => addAllToSums m env n a l

/-- The sum of all that is added to the cells from one up to `p`. -/
def addedUpTo (p : BitVec w) (l : List (BitVec w × BitVec dw)) : BitVec dw :=
  ((l.filter fun e => e.1 ≠ 0#w ∧ e.1.toNat ≤ p.toNat).map Prod.snd).foldr (· + ·) 0#dw

end Baa

import Verif.Spec.Blocks

/-!
# Sorting and searching a range of cells, for C156

Programs that sort a range of cells of an array, and search in it. Addresses wrap around.
-/

namespace Baa
open Res

/-- Exchange the cells at the offsets `k` and `k + 1` if they are in the wrong order:

```text
let x = a.select(p + k);
let y = a.select(p + (k + 1));
if x.is_greater(&y) {
    a.store(p + k, &y);
    a.store(p + (k + 1), &x);
}
```
-/
def exchange (m : Mode) (env : HashEnv) (p : BitVecValue) (a : ArrayValue) (k : Nat) : Res ArrayValue := do
  let i ← offsetBy m p k
  let j ← offsetBy m p (k + 1)
  let x ← a.select m env i
  let y ← a.select m env j
  let wrong ← BitVecValue.isGreater m x y
  if wrong then do
    let a ← a.store m env i y
    a.store m env j x
  else ok a

/-- Exchanges at these offsets, one after the other. -/
def exchanges (m : Mode) (env : HashEnv) (p : BitVecValue) : ArrayValue → List Nat → Res ArrayValue
  | a, [] => ok a
  | a, k :: ks => do
    let a ← exchange m env p a k
    exchanges m env p a ks

/-- Insertion sort: the cell at each of these offsets sinks to its place below. -/
def sortCells (m : Mode) (env : HashEnv) (p : BitVecValue) : ArrayValue → List Nat → Res ArrayValue
  | a, [] => ok a
  | a, k :: ks => do
    let a ← exchanges m env p a (List.range k).reverse
    sortCells m env p a ks

/-- Sort the `n` cells from `p` on. -/
def sortBlock (m : Mode) (env : HashEnv) (p : BitVecValue) (a : ArrayValue) (n : Nat) : Res ArrayValue :=
  sortCells m env p a (List.range n)

/-- Binary search among the offsets from `lo` to below `hi`; a range of `n` cells takes at most `n` rounds, the first argument. -/
def bisect (m : Mode) (env : HashEnv) (p v : BitVecValue) (a : ArrayValue) : Nat → Nat → Nat → Res Nat
  | 0, lo, _ => ok lo
  | n + 1, lo, hi =>
    if lo < hi then do
      let i ← offsetBy m p ((lo + hi) / 2)
      let x ← a.select m env i
      let less ← BitVecValue.isLess m x v
      if less then bisect m env p v a n ((lo + hi) / 2 + 1) hi else bisect m env p v a n lo ((lo + hi) / 2)
    else ok lo

/-- The first of the `n` cells from `p` on that is not less than `v`. -/
def lowerBound (m : Mode) (env : HashEnv) (p v : BitVecValue) (a : ArrayValue) (n : Nat) : Res Nat := bisect m env p v a n 0 n

/-- The `n` cells from `d` on. -/
def cellsFrom {iw dw : Nat} (f : BitVec iw → BitVec dw) (d : BitVec iw) (n : Nat) : List (BitVec dw) :=
  (List.range n).map fun k => f (d + BitVec.ofNat iw k)

end Baa

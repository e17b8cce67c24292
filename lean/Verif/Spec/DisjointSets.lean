import Verif.Spec.Smt

/-!
# Joining sets of cells, for C172

Each cell of an array holds the address of a cell of the same set; a cell that holds its own address stands for its set.
-/

namespace Baa
open Res

variable {w : Nat}

/-- The two are the same or are linked by some of the pairs. -/
inductive Joined (l : List (BitVec w × BitVec w)) : BitVec w → BitVec w → Prop where
  | pair {p q} : (p, q) ∈ l → Joined l p q
  | same (p) : Joined l p p
  | swap {p q} : Joined l p q → Joined l q p
  | chain {p q r} : Joined l p q → Joined l q r → Joined l p r

/-- Put its own address into each of the given cells. -/
def singleSets (m : Mode) (env : HashEnv) (w : Nat) : List Nat → ArrayValue → Res ArrayValue
  | [], a => ok a
  | k :: ks, a => do
    let p ← BitVecValue.fromU64 m (BitVec.ofNat 64 k) w
    let a ← a.store m env p p
    singleSets m env w ks a

/-- The cell that stands for the set of `p`:

```text
while a[p] != p { p = a[p]; }
```
-/
def setOf (m : Mode) (env : HashEnv) (a : ArrayValue) : Nat → BitVecValue → Res (Option BitVecValue)
  | 0, _ => ok none
  | n + 1, p => do
    let q ← a.select m env p
    let e ← BitVecValue.isEqual m q p
    if e then ok (some p) else setOf m env a n q

/-- Join the sets of `p` and `q`: `a[set_of(p)] = set_of(q)`. -/
def joinSets (m : Mode) (env : HashEnv) (n : Nat) (a : ArrayValue) (p q : BitVecValue) : Res (Option ArrayValue) := do
  match ← setOf m env a n p with
  | none => ok none
  | some r => do
    match ← setOf m env a n q with
    | none => ok none
    | some s => do
      let a ← a.store m env r s
      ok (some a)

/-- Join the sets of several pairs. -/
def joinAll (m : Mode) (env : HashEnv) (n : Nat) : List (BitVec w × BitVec w) → ArrayValue → Res (Option ArrayValue)
  | [], a => ok (some a)
  | (p, q) :: l, a => do
    match ← joinSets m env n a (encode p) (encode q) with
    | none => ok none
    | some a => joinAll m env n l a

/-- Are `p` and `q` in the same set? -/
def sameSet (m : Mode) (env : HashEnv) (n : Nat) (a : ArrayValue) (p q : BitVecValue) : Res (Option Bool) := do
  match ← setOf m env a n p with
  | none => ok none
  | some r => do
    match ← setOf m env a n q with
    | none => ok none
    | some s => do
      let e ← BitVecValue.isEqual m r s
      ok (some e)

end Baa

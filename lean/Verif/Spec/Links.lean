import Verif.SpecArray

/-!
# Linked lists in an array, for C165

A cell holds the address of the next cell; the address zero ends a list.
-/

namespace Baa
open Res

variable {w : Nat}

/-- The list that starts at `p` has the cells `xs`, in this order. -/
def Chain (f : BitVec w → BitVec w) : BitVec w → List (BitVec w) → Prop
  | p, [] => p = 0#w
  | p, x :: xs => p = x ∧ x ≠ 0#w ∧ Chain f (f x) xs

/-- Is this the end of a list? -/
def isEnd (m : Mode) (p : BitVecValue) : Res Bool := BitVecValue.isEqual m p (BitVecValue.zero p.width)

/-- Reverse the list that starts at `p` and put it before the list that starts at `q`. The first argument bounds the number of turns of
the loop; `none` is a loop that has not ended by then.

```text
while p != 0 { let t = next[p]; next[p] = q; q = p; p = t; }
```
-/
def reverseLinks (m : Mode) (env : HashEnv) : Nat → ArrayValue → BitVecValue → BitVecValue → Res (Option (ArrayValue × BitVecValue))
  | 0, _, _, _ => ok none
  | n + 1, a, p, q => do
    let e ← isEnd m p
    if e then ok (some (a, q))
    else
      let t ← a.select m env p
      let a ← a.store m env p q
      reverseLinks m env n a t p

/-- The number of cells of the list that starts at `p`. -/
def countLinks (m : Mode) (env : HashEnv) (a : ArrayValue) : Nat → BitVecValue → Res (Option Nat)
  | 0, _ => ok none
  | n + 1, p => do
    let e ← isEnd m p
    if e then ok (some 0)
    else
      let t ← a.select m env p
      let k ← countLinks m env a n t
      ok (k.map (· + 1))

/-- Put the list that starts at `q` after the cell in which the list that starts at `p` ends; `p` itself is not the end. -/
def linkLast (m : Mode) (env : HashEnv) (a : ArrayValue) (q : BitVecValue) : Nat → BitVecValue → Res (Option ArrayValue)
  | 0, _ => ok none
  | n + 1, p => do
    let t ← a.select m env p
    let e ← isEnd m t
    if e then
      let a ← a.store m env p q
      ok (some a)
    else linkLast m env a q n t

/-- Put the list that starts at `q` after the list that starts at `p`. -/
def appendLinks (m : Mode) (env : HashEnv) (n : Nat) (a : ArrayValue) (p q : BitVecValue) : Res (Option (ArrayValue × BitVecValue)) := do
  let e ← isEnd m p
  if e then ok (some (a, q))
  else
    let r ← linkLast m env a q n p
    ok (r.map (·, p))

end Baa

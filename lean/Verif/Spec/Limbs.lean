import Verif.Spec.Sorting

/-!
# Long numbers in memory, for C158

Numbers that are spread over several cells of an array, the lowest digit first, and the school algorithms for their sum and difference.
-/

namespace Baa
open Res

/-- `0` or `1` of a width. -/
def carryValue (m : Mode) (c : Bool) (width : Nat) : Res BitVecValue := BitVecValue.fromU64 m (if c then 1#64 else 0#64) width

/-- Add the `n` cells of `b` from `q` on to the `n` cells of `a` from `p` on, with a carry that comes in and one that goes out:

```text
let x = a.select(&p);
let y = b.select(&q);
let s = x.add(&y);
let t = s.add(&carry);
a.store(&p, &t);
carry = s.is_less(&x) || t.is_less(&s);
p = p.add(&one); q = q.add(&one);
```
-/
def addCells (m : Mode) (env : HashEnv) (b : ArrayValue) : Nat → BitVecValue → BitVecValue → ArrayValue → Bool → Res (ArrayValue × Bool)
  | 0, _, _, a, c => ok (a, c)
  | n + 1, p, q, a, c => do
    let x ← a.select m env p
    let y ← b.select m env q
    let s ← BitVecValue.add m x y
    let c ← carryValue m c x.width
    let t ← BitVecValue.add m s c
    let a ← a.store m env p t
    let over ← BitVecValue.isLess m s x
    let over' ← BitVecValue.isLess m t s
    let p ← offsetBy m p 1
    let q ← offsetBy m q 1
    addCells m env b n p q a (over || over')

/-- Subtract the `n` cells of `b` from `q` on from the `n` cells of `a` from `p` on, with a borrow. -/
def subCells (m : Mode) (env : HashEnv) (b : ArrayValue) : Nat → BitVecValue → BitVecValue → ArrayValue → Bool → Res (ArrayValue × Bool)
  | 0, _, _, a, c => ok (a, c)
  | n + 1, p, q, a, c => do
    let x ← a.select m env p
    let y ← b.select m env q
    let s ← BitVecValue.sub m x y
    let c ← carryValue m c x.width
    let t ← BitVecValue.sub m s c
    let a ← a.store m env p t
    let under ← BitVecValue.isLess m x y
    let under' ← BitVecValue.isLess m s c
    let p ← offsetBy m p 1
    let q ← offsetBy m q 1
    subCells m env b n p q a (under || under')

/-- The number that a list of digits spells, lowest digit first. -/
def limbsNumber {dw : Nat} : List (BitVec dw) → Nat
  | [] => 0
  | x :: xs => x.toNat + 2 ^ dw * limbsNumber xs

end Baa

import Verif.SpecArray

/-!
# Searching the states of a system, for C166

A system has states of `w` bits and inputs of `v` bits. Its transitions are kept in an array: the cell whose index is a state with an
input behind it holds the next state.
-/

namespace Baa
open Res

variable {w v : Nat}

/-- The states that the system can get to from the states `S`, with any inputs. -/
inductive Reaches (f : BitVec (w + v) → BitVec w) (S : List (BitVec w)) : BitVec w → Prop
  | start {p : BitVec w} : p ∈ S → Reaches f S p
  | step {p : BitVec w} (i : BitVec v) : Reaches f S p → Reaches f S (f (p ++ i))

/-- The next states of `p`, for all the given inputs. -/
def nextStates (m : Mode) (env : HashEnv) (t : ArrayValue) (v : Nat) (p : BitVecValue) : List Nat → Res (List BitVecValue)
  | [] => ok []
  | k :: ks => do
    let i ← BitVecValue.fromU64 m (BitVec.ofNat 64 k) v
    let c ← BitVecValue.concat m p i
    let s ← t.select m env c
    let rest ← nextStates m env t v p ks
    ok (s :: rest)

/-- Search: mark the states in `seen` that are found. The list holds the states that have still to be looked at. The first argument
bounds the number of turns of the loop; `none` is a loop that has not ended by then.

```text
while let Some(p) = todo.pop() {
    if !seen.select(&p).is_tru() {
        seen.store(&p, &BitVecValue::tru());
        for i in 0..(1 << v) { todo.push(t.select(&p.concat(&BitVecValue::from_u64(i, v)))); }
    }
}
```
-/
def searchStates (m : Mode) (env : HashEnv) (t : ArrayValue) (v : Nat) : Nat → ArrayValue → List BitVecValue → Res (Option ArrayValue)
  | 0, _, _ => ok none
  | _ + 1, seen, [] => ok (some seen)
  | n + 1, seen, p :: todo => do
    let b ← seen.select m env p
    let one ← BitVecValue.tru m
    let known ← BitVecValue.isEqual m b one
    if known then searchStates m env t v n seen todo
    else
      let seen ← seen.store m env p one
      let next ← nextStates m env t v p (List.range (2 ^ v))
      searchStates m env t v n seen (next ++ todo)

end Baa

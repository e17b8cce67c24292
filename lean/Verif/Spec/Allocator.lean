import Verif.Spec.Links
import Verif.Spec.Blocks

/-!
# A memory allocator in an array, for C167

The free cells of the array form a linked list. A cell that is taken from it belongs to the client until it is given back.
-/

namespace Baa
open Res

variable {w : Nat}

/-- What a client does. It names its cells by their position in the list of the cells it has, the newest one first. -/
inductive CellRequest (w : Nat)
  | take
  | giveBack (i : Nat)
  | write (i : Nat) (d : BitVec w)
  | read (i : Nat)

/-- The client with its cells, `live`, and the allocator, which has the array and the start of the list of free cells. The answers are
the addresses of the cells taken (`none`: there is none left) and the data read. -/
def runAllocator (m : Mode) (env : HashEnv) : List (CellRequest w) → ArrayValue → BitVecValue → List BitVecValue →
    Res (List (Option BitVecValue))
  | [], _, _, _ => ok []
  | .take :: rs, a, h, live => do
    let e ← isEnd m h
    if e then
      let as ← runAllocator m env rs a h live
      ok (none :: as)
    else
      let t ← a.select m env h
      let as ← runAllocator m env rs a t (h :: live)
      ok (some h :: as)
  | .giveBack i :: rs, a, h, live =>
    match live[i]? with
    | none => runAllocator m env rs a h live
    | some p => do
      let a ← a.store m env p h
      runAllocator m env rs a p (live.eraseIdx i)
  | .write i d :: rs, a, h, live =>
    match live[i]? with
    | none => runAllocator m env rs a h live
    | some p => do
      let a ← a.store m env p (encode d)
      runAllocator m env rs a h live
  | .read i :: rs, a, h, live =>
    match live[i]? with
    | none => runAllocator m env rs a h live
    | some p => do
      let x ← a.select m env p
      let as ← runAllocator m env rs a h live
      ok (some x :: as)

/-- Put the address of the next cell into each of the given cells; the cell after the last one is zero. -/
def linkAll (m : Mode) (env : HashEnv) (w : Nat) : List Nat → ArrayValue → Res ArrayValue
  | [], a => ok a
  | k :: ks, a => do
    let p ← BitVecValue.fromU64 m (BitVec.ofNat 64 k) w
    let q ← offsetBy m p 1
    let a ← a.store m env p q
    linkAll m env w ks a

/-- The answers that a client may get that has the cells `live`, each with what it holds, if the cells `pool` can be given away: a cell
that is given away is one that the client does not have, there is one as long as the client does not have them all, and a cell holds
what the client has written to it. -/
def FairAnswers (pool : List (BitVec w)) : List (BitVec w × BitVec w) → List (CellRequest w) → List (Option (BitVec w)) → Prop
  | _, [], as => as = []
  | live, .take :: rs, none :: as => (∀ p, p ∈ pool → p ∈ live.map Prod.fst) ∧ FairAnswers pool live rs as
  | live, .take :: rs, some p :: as => p ∈ pool ∧ p ∉ live.map Prod.fst ∧ ∃ x, FairAnswers pool ((p, x) :: live) rs as
  | _, .take :: _, [] => False
  | live, .giveBack i :: rs, as => FairAnswers pool (live.eraseIdx i) rs as
  | live, .write i d :: rs, as =>
    FairAnswers pool (match live[i]? with | none => live | some c => live.set i (c.1, d)) rs as
  | live, .read i :: rs, as =>
    match live[i]? with
    | none => FairAnswers pool live rs as
    | some c => ∃ rest, as = some c.2 :: rest ∧ FairAnswers pool live rs rest

end Baa

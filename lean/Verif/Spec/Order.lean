import Verif.Model.Ops
import Verif.Spec

/-!
# What sorting means for bit-vectors

The order of values is not the order of numbers (src/bv/owned.rs:13). Here is what it is, and two uses of an order: a sorted
sequence, and a search in one.
-/

namespace Baa

/-- The number whose `n` words of 64 bits are those of `x` in the opposite order: the least significant word of `x` is its most
significant word. -/
def flipWords : Nat → Nat → Nat
  | 0, _ => 0
  | n + 1, x => x % 2 ^ 64 * 2 ^ (64 * n) + flipWords n (x / 2 ^ 64)

/-- A sequence in which no element is greater than a later one. -/
def SortedValues (vs : List BitVecValue) : Prop := vs.Pairwise fun a b => a.cmp b ≠ .gt

/-- Binary search, as on a sorted vector: between the positions `lo` and `lo + n`, look at the one in the middle. The result is
the position of an equal element, or the position where the value could be inserted. -/
def searchSorted (vs : List BitVecValue) (v : BitVecValue) (lo n : Nat) : Except Nat Nat :=
  if _h : n = 0 then .error lo
  else
    match vs[lo + n / 2]? with
    | none => .error lo
    | some u =>
      match u.cmp v with
      | .eq => .ok (lo + n / 2)
      | .lt => searchSorted vs v (lo + n / 2 + 1) (n - n / 2 - 1)
      | .gt => searchSorted vs v lo (n / 2)
termination_by n

/-- How two entries of an array compare: by their indices, and by their elements if the indices are the same. -/
def compareEntries (a b : BitVecValue × BitVecValue) : Ordering := (a.1.cmp b.1).then (a.2.cmp b.2)

/-- A sequence of entries in which none is greater than a later one. -/
def SortedEntries (l : List (BitVecValue × BitVecValue)) : Prop := l.Pairwise fun a b => compareEntries a b ≠ .gt

/-- A sequence of entries whose indices, as numbers, increase. -/
def IncreasingEntries (l : List (BitVecValue × BitVecValue)) : Prop :=
  l.Pairwise fun a b => ∀ (w : Nat) (i j : BitVec w), Denotes a.1 i → Denotes b.1 j → i.toNat < j.toNat

/-- The entries of an array with the contents `f`, without those that are `x`: one looks at the indices 0, 1, 2 and so on. -/
def entriesInTurn {iw dw : Nat} (f : BitVec iw → BitVec dw) (x : BitVec dw) : List (BitVecValue × BitVecValue) :=
  ((List.range (2 ^ iw)).filter fun k => f (BitVec.ofNat iw k) ≠ x).map fun k =>
    (encode (BitVec.ofNat iw k), encode (f (BitVec.ofNat iw k)))

end Baa

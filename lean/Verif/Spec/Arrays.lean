import Verif.SpecArray

/-!
# Laws and orders of arrays
-/

namespace Baa

/-! ## Conversions and entry lists of arrays: C52, C53, C57 -/

section
open Res

/-- `l` lists every index whose element differs from `x`, exactly once, with the element. -/
def ListsEntries {iw dw : Nat} (l : List (BitVecValue × BitVecValue)) (f : BitVec iw → BitVec dw) (x : BitVec dw) : Prop :=
  (l.map Prod.fst).Nodup ∧ ∀ k v, (k, v) ∈ l ↔ ∃ i, f i ≠ x ∧ Denotes k i ∧ Denotes v (f i)

end

/-! ## Exact behaviour of arrays where C49, C50, C52, C53, C56, C57, C58, C59 and C73 fail -/

section
open Res

variable {iw dw : Nat}

/-- The limit that the size check of a debug build enforces: 1 GiB, but 8 GiB for data of more than 64 bits. -/
def guardLimit (dw : Nat) : Nat := if dw ≤ 64 then 2 ^ 30 else 2 ^ 33

end

/-! ## C72, C73: laws of arrays -/

section
open Res

/-- The shapes whose elements can be read: data of width zero, sparse arrays with an index of more than 64 bits and
dense 1-bit arrays with an index of 32 bits or more are excluded (see C49, C50). -/
structure Usable (a : ArrayValue) (iw dw : Nat) : Prop where
  data_pos : 0 < dw
  data_lt : dw < 2 ^ 32
  index_le : iw ≤ 64
  bits : a.isDense = true → dw ≠ 1 ∨ iw < 32

end

/-! ## C78, C79: the default of a converted array; independence of hash order -/

section
open Res

variable {iw dw : Nat}

/-- The elements of the counterexample: 2^20 + 1 different numbers, then zeros. -/
def C78_list : List Word := (List.range (2 ^ 20 + 1)).map fun k => BitVec.ofNat 64 (k + 1)

/-- The first `n` elements of an array, in the order of their indices. -/
def firstElements (f : BitVec iw → BitVec dw) (n : Nat) : List (BitVec dw) := (List.range n).map fun k => f (BitVec.ofNat iw k)

/-- Two runs end in the same way: both return the same result, or both panic. -/
def SameOutcome {α : Type} (x y : Res α) : Prop := (∃ r, x = ok r ∧ y = ok r) ∨ (Panics x ∧ Panics y)

/-- Two runs of a conversion to a sparse array: both panic, or both return arrays that are equal. -/
def SameSparse (m : Mode) (x y : Res SparseArrayValue) : Prop :=
  (∃ s t, x = ok s ∧ y = ok t ∧ ∀ env, s.isEqual m env t = ok (some true)) ∨ (Panics x ∧ Panics y)

end

end Baa

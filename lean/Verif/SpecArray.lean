import Verif.Model.Array
import Verif.Spec

/-!
# What an array means

An array of index width `iw` and data width `dw` is a total function `BitVec iw → BitVec dw`.
-/

namespace Baa
open Res

/-- A particular hash environment, for examples: entries are visited in the order of the list, and a key is
compared exactly with an equal one. -/
def listEnv : HashEnv where
  order := fun l => l
  order_perm := fun l => .refl l
  compared := fun keys key => keys.filter fun k => k = key
  compared_stored := fun keys key k h => (List.mem_filter.mp h).1
  compared_mem := fun keys key h => List.mem_filter.mpr ⟨h, by simp⟩

/-- The function `f` with the value at `i` replaced by `d`. -/
def update {iw dw : Nat} (f : BitVec iw → BitVec dw) (i : BitVec iw) (d : BitVec dw) : BitVec iw → BitVec dw :=
  fun j => if j = i then d else f j

/-- The mutating operations of an array. -/
inductive ArrayOp (iw dw : Nat) where
  | store (i : BitVec iw) (d : BitVec dw)
  | clear

/-- What an operation does to the function. -/
def ArrayOp.effect {iw dw : Nat} (f : BitVec iw → BitVec dw) : ArrayOp iw dw → (BitVec iw → BitVec dw)
  | .store i d => update f i d
  | .clear => fun _ => 0#dw

/-- The function after a history of operations, starting from an array that is filled with `x`: the last value stored at
the index since the last `clear`, or else zero (after a `clear`) or `x`. -/
def contents {iw dw : Nat} (x : BitVec dw) (ops : List (ArrayOp iw dw)) : BitVec iw → BitVec dw :=
  ops.foldl ArrayOp.effect fun _ => x

/-- Perform one operation on an array value. -/
def ArrayOp.run {iw dw : Nat} (m : Mode) (env : HashEnv) (a : ArrayValue) : ArrayOp iw dw → Res ArrayValue
  | .store i d => a.store m env (encode i) (encode d)
  | .clear => ok a.clear

/-- Perform a history of operations. -/
def runOps {iw dw : Nat} (m : Mode) (env : HashEnv) : ArrayValue → List (ArrayOp iw dw) → Res ArrayValue
  | a, [] => ok a
  | a, op :: ops => do
    let a ← op.run m env a
    runOps m env a ops

/-- The array can be read at every index and shows the function `f`. -/
def Reads {iw dw : Nat} (m : Mode) (env : HashEnv) (a : ArrayValue) (f : BitVec iw → BitVec dw) : Prop :=
  ∀ (i : BitVec iw) (v : BitVecValue), Denotes v i → ∃ r, a.select m env v = ok r ∧ Denotes r (f i)

/-- Number of bytes that the elements of a dense array take: one bit each for 1-bit data, one byte each for up to 8 bits,
whole 64-bit words otherwise. -/
def storageBytes (iw dw : Nat) : Nat :=
  if dw = 1 then (2 ^ iw + 7) / 8
  else if dw ≤ 8 then 2 ^ iw
  else 2 ^ iw * (8 * ((dw + 63) / 64))

/-- The size that the guard of dense arrays compares with the limit: words instead of bytes for wide data. -/
def guardSize (iw dw : Nat) : Nat :=
  if dw = 1 then (2 ^ iw + 7) / 8
  else if dw ≤ 8 then 2 ^ iw
  else 2 ^ iw * (if dw ≤ 64 then 8 else (dw + 63) / 64)

/-- The elements can be counted with a `usize` and fit into a Rust allocation, which is limited to `isize::MAX` bytes. -/
def Addressable (iw dw : Nat) : Prop := iw < 64 ∧ storageBytes iw dw < 2 ^ 63

/-- `k` bits are just enough to number `n` elements. -/
def LeastWidth (k n : Nat) : Prop := n ≤ 2 ^ k ∧ ∀ j, n ≤ 2 ^ j → k ≤ j

/-- The arrays that a program can make with the library, with the function that each of them is meant to represent. Each
step has its own hash-table behaviour. -/
inductive Reachable (m : Mode) : {iw dw : Nat} → ArrayValue → (BitVec iw → BitVec dw) → Prop where
  | newDense {iw dw : Nat} (x : BitVec dw) (a : ArrayValue) : Addressable iw dw →
      ArrayValue.newDense m iw (encode x) = ok a → Reachable m a (fun _ : BitVec iw => x)
  | newSparse {iw dw : Nat} (x : BitVec dw) (a : ArrayValue) :
      ArrayValue.newSparse iw (encode x) = ok a → Reachable m a (fun _ : BitVec iw => x)
  | store {iw dw : Nat} {env : HashEnv} (f : BitVec iw → BitVec dw) (a b : ArrayValue) (i : BitVec iw) (d : BitVec dw) :
      Reachable m a f → a.store m env (encode i) (encode d) = ok b → Reachable m b (update f i d)
  | clear {iw dw : Nat} (f : BitVec iw → BitVec dw) (a : ArrayValue) :
      Reachable m a f → Reachable m a.clear (fun _ : BitVec iw => 0#dw)
  | makeDense {iw dw : Nat} {env : HashEnv} (f : BitVec iw → BitVec dw) (a b : ArrayValue) : Addressable iw dw →
      Reachable m a f → a.makeDense m env = ok b → Reachable m b f
  | toSparse {iw dw : Nat} {env : HashEnv} (f : BitVec iw → BitVec dw) (a : ArrayValue) (s : SparseArrayValue) :
      Reachable m a f → a.toSparse m env = ok s → Reachable m (.sparse s) f
  | ofBools {iw : Nat} (vs : List Bool) (a : ArrayValue) : vs.length < 2 ^ 63 → LeastWidth iw vs.length →
      ArrayValue.ofBools m vs = ok a → Reachable m a (fun i : BitVec iw => BitVec.ofBool (vs.getD i.toNat false))
  | ofU8s {iw : Nat} (vs : List Byte) (a : ArrayValue) : vs.length < 2 ^ 63 → LeastWidth iw vs.length →
      ArrayValue.ofU8s m vs = ok a → Reachable m a (fun i : BitVec iw => vs.getD i.toNat 0#8)
  | ofU64s {iw : Nat} (vs : List Word) (a : ArrayValue) : vs.length < 2 ^ 63 → LeastWidth iw vs.length →
      ArrayValue.ofU64s m vs = ok a → Reachable m a (fun i : BitVec iw => vs.getD i.toNat 0#64)

/-- How often `y` occurs among the elements of an array. -/
def occurrences {iw dw : Nat} (f : BitVec iw → BitVec dw) (y : BitVec dw) : Nat :=
  (List.range (2 ^ iw)).countP fun k => f (BitVec.ofNat iw k) = y

/-- A hash environment that visits the entries in the opposite order, for examples. -/
def reverseEnv : HashEnv where
  order := fun l => l.reverse
  order_perm := fun l => l.reverse_perm
  compared := listEnv.compared
  compared_stored := listEnv.compared_stored
  compared_mem := listEnv.compared_mem

end Baa

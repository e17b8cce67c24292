import Verif.SpecAnyArray
import Verif.Spec.Histories

/-!
# Sparse arrays with more than 64 index bits that are given any values: what they hold

Like in `SpecAnyArray`, values are described by their `Shape`. The hash table of such an array compares indices. It always compares an index
with itself if it is stored. Which other stored indices it compares depends on hash bits, so the specification tells what an operation does
whatever is compared, and what it can do if the wrong indices are compared.
-/

namespace Baa
open Res

/-- A default, and for every index perhaps a stored value. -/
structure LongTable where
  default : Shape
  stored : Shape → Option Shape

/-- A new array. -/
def LongTable.create (v : Shape) : LongTable := ⟨v, fun _ => none⟩

/-- Something is stored. -/
def LongTable.Used (t : LongTable) : Prop := ∃ k, t.stored k ≠ none

/-- What the array holds after a store that returns. Storing the default changes nothing. -/
def LongTable.put (t : LongTable) (i d : Shape) : LongTable :=
  if d.equal t.default then t else { t with stored := fun k => if k = i then some d else t.stored k }

/-- What the array holds after an operation that returns. -/
def LongTable.after (dw : Nat) (t : LongTable) : ConvOp → LongTable
  | .base (.store i d) => t.put i.shape d.shape
  | .base .clear => .create ⟨dw, need dw, 0⟩
  | .makeDense => t
  | .toSparse => t

/-- What a debug build does not accept: another width than that of the array, or another number of words than that of the default. -/
def LongTable.Refused (m : Mode) (iw dw : Nat) (t : LongTable) (i d : Shape) : Prop :=
  m = .debug ∧ (i.width ≠ iw ∨ d.width ≠ dw ∨ d.words ≠ t.default.words)

/-- Storing panics, whatever is compared: if a value is refused, or if it is the default and something is stored there. -/
def LongTable.PutStops (m : Mode) (iw dw : Nat) (t : LongTable) (i d : Shape) : Prop :=
  t.Refused m iw dw i d ∨ (d.equal t.default = true ∧ t.stored i ≠ none)

/-- Storing panics if the wrong indices are compared: in addition, if it is the default while anything is stored, and in a debug build if it is
something else while an index with another number of words is stored. -/
def LongTable.PutRisks (m : Mode) (iw dw : Nat) (t : LongTable) (i d : Shape) : Prop :=
  t.Refused m iw dw i d ∨ if d.equal t.default then t.Used else m = .debug ∧ ∃ k, t.stored k ≠ none ∧ k.words ≠ i.words

/-- The operation panics, whatever is compared. Making the array dense always does. -/
def LongTable.Stops (m : Mode) (iw dw : Nat) (t : LongTable) : ConvOp → Prop
  | .base (.store i d) => t.PutStops m iw dw i.shape d.shape
  | .base .clear => False
  | .makeDense => True
  | .toSparse => False

/-- The operation panics if the wrong indices are compared. -/
def LongTable.Risks (m : Mode) (iw dw : Nat) (t : LongTable) : ConvOp → Prop
  | .base (.store i d) => t.PutRisks m iw dw i.shape d.shape
  | .base .clear => False
  | .makeDense => True
  | .toSparse => False

/-- What the array holds after a history that returns. -/
def LongTable.history (dw : Nat) : LongTable → List ConvOp → LongTable
  | t, [] => t
  | t, op :: ops => (t.after dw op).history dw ops

/-- Some operation of the history has the property. -/
def LongTable.Somewhere (P : LongTable → ConvOp → Prop) (dw : Nat) : LongTable → List ConvOp → Prop
  | _, [] => False
  | t, op :: ops => P t op ∨ (t.after dw op).Somewhere P dw ops

/-- The number of stored values. -/
def LongTable.Size (t : LongTable) (n : Nat) : Prop := ∃ L : List Shape, L.Nodup ∧ (∀ k, k ∈ L ↔ t.stored k ≠ none) ∧ L.length = n

/-- Comparing two arrays panics, whatever indices are compared. -/
def LongTable.Clash (m : Mode) (a b : LongTable) : Prop := m = .debug ∧ a.default.words ≠ b.default.words

/-- Comparing two arrays panics if the wrong indices are compared. -/
def LongTable.MayClash (m : Mode) (a b : LongTable) : Prop :=
  m = .debug ∧ a.default = b.default ∧ (∃ n, a.Size n ∧ b.Size n) ∧
    ∃ k k', a.stored k ≠ none ∧ b.stored k' ≠ none ∧ k.words ≠ k'.words

/-- A hash table that compares every stored index, and lists entries starting at position `n`. -/
def crowdedEnv (n : Nat) : HashEnv where
  order := fun l => l.drop n ++ l.take n
  order_perm := fun l => List.perm_append_comm.trans (.of_eq (List.take_append_drop n l))
  compared := fun keys _ => keys
  compared_stored := fun _ _ _ h => h
  compared_mem := fun _ _ h => h

end Baa

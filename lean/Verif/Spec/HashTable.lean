import Verif.Spec
import Verif.Spec.Blocks

/-!
# A hash table in arrays, for C161

A table with linear probing that a user builds out of arrays of the library: flags, keys and values. The hash function is any
computation with values.
-/

namespace Baa
open Res

/-- The arrays of the table: which cells are in use, their keys and their values. -/
structure HashTable where
  used : ArrayValue
  keys : ArrayValue
  vals : ArrayValue

/-- Look for a key at these offsets from its hash: the first cell that is free (`false`) or holds the key (`true`). -/
def HashTable.probe (m : Mode) (env : HashEnv) (t : HashTable) (h key : BitVecValue) : List Nat → Res (Option (BitVecValue × Bool))
  | [] => ok none
  | k :: ks => do
    let i ← offsetBy m h k
    let u ← t.used.select m env i
    if u.isZero then ok (some (i, false))
    else do
      let key' ← t.keys.select m env i
      let same ← BitVecValue.isEqual m key' key
      if same then ok (some (i, true)) else probe m env t h key ks

/-- Write a cell. -/
def HashTable.fill (m : Mode) (env : HashEnv) (t : HashTable) (i key v : BitVecValue) : Res HashTable := do
  let one ← BitVecValue.tru m
  let used ← t.used.store m env i one
  let keys ← t.keys.store m env i key
  let vals ← t.vals.store m env i v
  ok ⟨used, keys, vals⟩

/-- Requests to the table. -/
inductive TableRequest where
  | put (key v : BitVecValue)
  | get (key : BitVecValue)

/-- The answers: whether there was room, or what was found. -/
inductive TableAnswer where
  | stored (b : Bool)
  | found (v : Option BitVecValue)
deriving DecidableEq

/-- One request; the table has `2 ^ iw` cells. -/
def HashTable.serve (m : Mode) (env : HashEnv) (iw : Nat) (hash : BitVecValue → Res BitVecValue) (t : HashTable) :
    TableRequest → Res (HashTable × TableAnswer)
  | .put key v => do
    let h ← hash key
    match ← t.probe m env h key (List.range (2 ^ iw)) with
    | none => ok (t, .stored false)
    | some (i, _) => do
      let t ← t.fill m env i key v
      ok (t, .stored true)
  | .get key => do
    let h ← hash key
    match ← t.probe m env h key (List.range (2 ^ iw)) with
    | some (i, true) => do
      let v ← t.vals.select m env i
      ok (t, .found (some v))
    | _ => ok (t, .found none)

/-- A sequence of requests. -/
def HashTable.run (m : Mode) (env : HashEnv) (iw : Nat) (hash : BitVecValue → Res BitVecValue) :
    HashTable → List TableRequest → Res (List TableAnswer)
  | _, [] => ok []
  | t, r :: rs => do
    let (t, a) ← t.serve m env iw hash r
    let as ← HashTable.run m env iw hash t rs
    ok (a :: as)

/-- Requests for keys of `kw` and values of `dw` bits, as mathematical objects. -/
inductive MapRequest (kw dw : Nat) where
  | put (key : BitVec kw) (v : BitVec dw)
  | get (key : BitVec kw)

/-- The request to the table. -/
def MapRequest.encoded {kw dw : Nat} : MapRequest kw dw → TableRequest
  | .put key v => .put (encode key) (encode v)
  | .get key => .get (encode key)

/-- The answers of a map with room for `room` more keys. -/
def mapAnswers {kw dw : Nat} : (room : Nat) → (BitVec kw → Option (BitVec dw)) → List (MapRequest kw dw) → List TableAnswer
  | _, _, [] => []
  | room, f, .get key :: rs => .found ((f key).map encode) :: mapAnswers room f rs
  | room, f, .put key v :: rs =>
    if (f key).isSome then .stored true :: mapAnswers room (fun k => if k = key then some v else f k) rs
    else match room with
      | 0 => .stored false :: mapAnswers 0 f rs
      | room + 1 => .stored true :: mapAnswers room (fun k => if k = key then some v else f k) rs

end Baa

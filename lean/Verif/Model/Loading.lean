import Verif.Model.Serde

/-!
# Reading arrays: the comparisons of indices

`Model/Serde.lean` says which array a document stands for. While a table with indices of more than 64 bits is read, every entry is put into the
hash table by `HashMap::insert`, and that compares indices by `==` of `BitVecValue`, which has a debug assertion (src/bv/owned.rs:127-132). A
document can contain indices that violate it, so reading can panic. Here documents are read in the order in which they are written, because an
error that comes first prevents the panic. Everything else that is read cannot panic and is taken from `Model/Serde.lean`.
-/

namespace Baa
namespace Serde
open Res

/-- The loop of `visit_map` for `HashMap<BitVecValue, BitVecValue>`: an index, a value, one `insert`. -/
def loadEntries (m : Mode) (env : HashEnv) : HMap BitVecValue BitVecValue → List (Serde × Serde) →
    Res (Option (HMap BitVecValue BitVecValue))
  | acc, [] => ok (some acc)
  | acc, e :: es =>
    match readBitVec e.1 with
    | none => ok none
    | some k => match readBitVec e.2 with
      | none => ok none
      | some v => do
        lookupOwned m env acc k
        loadEntries m env (acc.insert k v) es

/-- `HashMap<BitVecValue, BitVecValue>`. -/
def loadHMap (m : Mode) (env : HashEnv) : Serde → Res (Option (HMap BitVecValue BitVecValue))
  | .map es => loadEntries m env HMap.empty es
  | _ => ok none

/-- `Deserialize for SparseArrayImpl` (derived, src/array/owned.rs:588-593). Items that are left over are noticed at the end. -/
def loadSparseImpl (m : Mode) (env : HashEnv) : Serde → Res (Option SparseArrayImpl)
  | .variant name (.seq (d :: table :: rest)) =>
    if name = "BigBig" then
      match readBitVec d with
      | none => ok none
      | some d => do
        let table ← loadHMap m env table
        ok (if rest.isEmpty then table.map (.bigbig d) else none)
    else ok (readSparseImpl (.variant name (.seq (d :: table :: rest))))
  | doc => ok (readSparseImpl doc)

/-- Derived `visit_map` of `SparseArrayValue` (src/array/owned.rs:574-579): field after field. A duplicate is an error before its value is
read, unknown fields are ignored, and missing fields are noticed at the end. -/
def loadFields {α : Type} (load : Serde → Res (Option α)) : Option Nat → Option Nat → Option α → List (String × Serde) →
    Res (Option (Nat × Nat × α))
  | iw, dw, data, [] => ok (do
    let iw ← iw
    let dw ← dw
    let data ← data
    some (iw, dw, data))
  | iw, dw, data, f :: fs =>
    if f.1 = "index_width" then
      if iw.isSome then ok none
      else match readNum U32 f.2 with
        | none => ok none
        | some n => loadFields load (some n) dw data fs
    else if f.1 = "data_width" then
      if dw.isSome then ok none
      else match readNum U32 f.2 with
        | none => ok none
        | some n => loadFields load iw (some n) data fs
    else if f.1 = "data" then
      if data.isSome then ok none
      else do
        match ← load f.2 with
        | none => ok none
        | some x => loadFields load iw dw (some x) fs
    else loadFields load iw dw data fs

/-- Derived `visit_seq` of `SparseArrayValue` and its choice between the two forms (src/array/owned.rs:574-579). -/
def loadArrayFields {α : Type} (load : Serde → Res (Option α)) : Serde → Res (Option (Nat × Nat × α))
  | .fields fs => loadFields load none none none fs
  | .seq (iw :: dw :: data :: rest) =>
    match readNum U32 iw with
    | none => ok none
    | some iw => match readNum U32 dw with
      | none => ok none
      | some dw => do
        let data ← load data
        ok (if rest.isEmpty then data.map fun x => (iw, dw, x) else none)
  | _ => ok none

/-- `Deserialize for SparseArrayValue` (derived, src/array/owned.rs:574-579). -/
def loadSparse (m : Mode) (env : HashEnv) (d : Serde) : Res (Option SparseArrayValue) := do
  let r ← loadArrayFields (loadSparseImpl m env) d
  ok (r.map fun r => ⟨r.1, r.2.1, r.2.2⟩)

/-- `Deserialize for ArrayImpl` (derived, src/array/owned.rs:21-25). -/
def loadArrayImpl (m : Mode) (env : HashEnv) : Serde → Res (Option ArrayValue)
  | .variant name d =>
    if name = "Sparse" then do
      let s ← loadSparse m env d
      ok (s.map .sparse)
    else ok (readArrayImpl (.variant name d))
  | doc => ok (readArrayImpl doc)

/-- Derived `visit_map` of `ArrayValue` (src/array/owned.rs:15-18). -/
def loadOuter (m : Mode) (env : HashEnv) : Option ArrayValue → List (String × Serde) → Res (Option ArrayValue)
  | data, [] => ok data
  | data, f :: fs =>
    if f.1 = "data" then
      if data.isSome then ok none
      else do
        match ← loadArrayImpl m env f.2 with
        | none => ok none
        | some a => loadOuter m env (some a) fs
    else loadOuter m env data fs

/-- `Deserialize for ArrayValue` (derived, src/array/owned.rs:15-18). -/
def loadArray (m : Mode) (env : HashEnv) : Serde → Res (Option ArrayValue)
  | .fields fs => loadOuter m env none fs
  | .seq (data :: rest) => do
    let a ← loadArrayImpl m env data
    ok (if rest.isEmpty then a else none)
  | _ => ok none

end Serde
end Baa

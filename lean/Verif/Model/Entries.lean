import Verif.Model.Array

/-! # The iterator over the entries of a sparse array, call by call -/

namespace Baa
open Res

/-- `SparseArrayIterImpl` (src/array/owned.rs:733-737). An iterator over a hash map is modelled by the entries that it has not visited yet, in the
order in which it is going to visit them. -/
inductive EntryRest where
  | u64u64 (rest : List (Word × Word))
  | u64big (rest : List (Word × BitVecValue))
  | bigbig (rest : List (BitVecValue × BitVecValue))

/-- `SparseArrayEntryIter` (src/array/owned.rs:727-731). -/
structure EntryIter where
  indexWidth : Nat
  dataWidth : Nat
  underlying : EntryRest

/-- `SparseArrayValue::non_default_entries` (src/array/owned.rs:712-724). The order is the one of the hash map. -/
def SparseArrayValue.entryIter (env : HashEnv) (a : SparseArrayValue) : EntryIter :=
  let underlying := match a.data with
    | .u64u64 _ m => EntryRest.u64u64 (env.order m.entries)
    | .u64big _ m => EntryRest.u64big (env.order m.entries)
    | .bigbig _ m => EntryRest.bigbig (env.order m.entries)
  ⟨a.indexWidth, a.dataWidth, underlying⟩

namespace EntryIter

/-- `SparseArrayEntryIter::next` (src/array/owned.rs:742-763): the result, and the iterator after the call. The iterator of the hash map advances
before values are made, hence it has also advanced when making a value panics and the panic is caught. At the end, the iterator of the hash map
returns `None` and stays where it is. -/
def next (m : Mode) (it : EntryIter) : Res (Option (BitVecValue × BitVecValue)) × EntryIter :=
  match it.underlying with
  | .u64u64 [] => (ok none, it)
  | .u64u64 (e :: rest) =>
    (do let i ← BitVecValue.fromU64 m e.1 it.indexWidth
        let v ← BitVecValue.fromU64 m e.2 it.dataWidth
        ok (some (i, v)), { it with underlying := .u64u64 rest })
  | .u64big [] => (ok none, it)
  | .u64big (e :: rest) =>
    (do let i ← BitVecValue.fromU64 m e.1 it.indexWidth
        ok (some (i, e.2)), { it with underlying := .u64big rest })
  | .bigbig [] => (ok none, it)
  | .bigbig (e :: rest) => (ok (some (e.1, e.2)), { it with underlying := .bigbig rest })

/-- The results of `n` calls of `next` (src/array/owned.rs:742-763), one after another, where panics are caught. -/
def calls (m : Mode) : Nat → EntryIter → List (Res (Option (BitVecValue × BitVecValue)))
  | 0, _ => []
  | n + 1, it => (it.next m).1 :: calls m n (it.next m).2

end EntryIter

end Baa

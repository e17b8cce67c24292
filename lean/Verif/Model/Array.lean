import Verif.Model.Ops
import Verif.Model.HMap

/-!
# Model of src/array/ops.rs and src/array/owned.rs, and of `Value` in src/lib.rs
-/

namespace Baa
open Res

/-- Behaviour of hash tables that is not determined by their contents. -/
structure HashEnv where
  /-- iteration order of a hash map with the given entries -/
  order : {α : Type} → List α → List α
  /-- the iteration visits every entry exactly once -/
  order_perm : ∀ {α : Type} (l : List α), (order l).Perm l
  /-- The stored keys that a lookup of `key` in a table holding `keys` compares with it, in this order, unless a comparison panics. (These
  are the keys on the probe sequence that have the same hash tag.) -/
  compared : (keys : List BitVecValue) → (key : BitVecValue) → List BitVecValue
  /-- only stored keys are compared -/
  compared_stored : ∀ keys key k, k ∈ compared keys key → k ∈ keys
  /-- a stored key is always compared, because equal values have equal hashes -/
  compared_mem : ∀ keys key, key ∈ keys → key ∈ compared keys key

/-- Does a lookup compare any key at all? -/
def HashEnv.probe (env : HashEnv) (keys : List BitVecValue) (key : BitVecValue) : Bool := !(env.compared keys key).isEmpty

/-- `SparseArrayImpl` (src/array/owned.rs:589-593). -/
inductive SparseArrayImpl where
  | u64u64 (default : Word) (map : HMap Word Word)
  | u64big (default : BitVecValue) (map : HMap Word BitVecValue)
  | bigbig (default : BitVecValue) (map : HMap BitVecValue BitVecValue)

/-- `SparseArrayValue` (src/array/owned.rs:575-579). -/
structure SparseArrayValue where
  indexWidth : Nat
  dataWidth : Nat
  data : SparseArrayImpl

/-- `DenseArrayImpl` (src/array/owned.rs:254-259). -/
inductive DenseArrayImpl where
  | bit (value : BitVecValue)
  | u8 (values : List Byte)
  | u64 (values : List Word)
  | big (values : List Word)

/-- `DenseArrayValue` (src/array/owned.rs:176-180). -/
structure DenseArrayValue where
  indexWidth : Nat
  dataWidth : Nat
  data : DenseArrayImpl

/-- `ArrayValue` / `ArrayImpl` (src/array/owned.rs:16-25). -/
inductive ArrayValue where
  | sparse (s : SparseArrayValue)
  | dense (d : DenseArrayValue)

/-- Lookup of a borrowed key in `HashMap<BitVecValue, _>`: comparing with a stored key calls
`Borrow<BitVecValueRef> for BitVecValue`, which is `todo!()` (src/bv/borrowed.rs:95-99). If nothing is compared, the key is
not found. -/
def lookupBorrowed {V : Type} (env : HashEnv) (map : HMap BitVecValue V) (key : BitVecValue) : Res Unit :=
  if env.probe (map.entries.map Prod.fst) key then panic .todo else ok ()

/-- Comparing a key with stored keys by `PartialEq for BitVecValue`. -/
def compareKeys (m : Mode) (key : BitVecValue) : List BitVecValue → Res Unit
  | [] => ok ()
  | k :: ks => do
    let _ ← BitVecValue.eqOwned m key k
    compareKeys m key ks

/-- Lookup of an owned key in `HashMap<BitVecValue, _>`, by `get` and `insert`: the comparisons, without the result. -/
def lookupOwned {V : Type} (m : Mode) (env : HashEnv) (map : HMap BitVecValue V) (key : BitVecValue) : Res Unit :=
  compareKeys m key (env.compared (map.entries.map Prod.fst) key)

/-- The loop of `impl PartialEq for HashMap` for values of type `BitVecValue`: every entry is looked up in `other` and compared by `==`. -/
def eqEntries {K : Type} [DecidableEq K] (m : Mode) (lookup : K → Res Unit) (other : HMap K BitVecValue) :
    List (K × BitVecValue) → Res Bool
  | [] => ok true
  | e :: es => do
    lookup e.1
    match other.get e.1 with
    | none => ok false
    | some v => do
      let b ← BitVecValue.eqOwned m e.2 v
      if b then eqEntries m lookup other es else ok false

/-- `map_a == map_b` for maps with values of type `BitVecValue`. -/
def eqMaps {K : Type} [DecidableEq K] (m : Mode) (env : HashEnv) (lookup : K → Res Unit) (a b : HMap K BitVecValue) : Res Bool :=
  if a.len = b.len then eqEntries m lookup b (env.order a.entries) else ok false

/-- `1usize << index_width` (src/array/ops.rs:19-21 `num_elements`, src/array/owned.rs:198-200, 265, 291). -/
def numElements (m : Mode) (indexWidth : Nat) : Res Nat := do
  let n ← shiftAmount64 m indexWidth
  ok (2 ^ n)

namespace SparseArrayValue

/-- `new` (src/array/owned.rs:596-611). -/
def new (indexWidth : Nat) (default : BitVecValue) : Res SparseArrayValue := do
  let dataWidth := default.width
  let data ←
    (if indexWidth > BITS then ok (.bigbig default HMap.empty)
    else if dataWidth > BITS then ok (.u64big default HMap.empty)
    else do
      let d ← unwrap default.toU64
      ok (.u64u64 d HMap.empty))
  ok ⟨indexWidth, dataWidth, data⟩

/-- `is_equal` (src/array/owned.rs:614-659). Defaults of type `BitVecValue` are compared with `==`. The map comparison
`map_a == map_b` looks up owned keys, which does not go through the unimplemented `Borrow`. -/
def isEqual (m : Mode) (env : HashEnv) (a b : SparseArrayValue) : Res (Option Bool) :=
  if b.indexWidth ≠ a.indexWidth ∨ b.dataWidth ≠ a.dataWidth then ok none
  else match a.data, b.data with
    | .u64u64 da ma, .u64u64 db mb =>
      if da = db then (if ma.len = mb.len then ok (some (ma.beq mb)) else ok (some false))
      else ok (some false)
    | .u64big da ma, .u64big db mb => do
      let e ← BitVecValue.eqOwned m da db
      if e then
        (if ma.len = mb.len then do
          let r ← eqMaps m env (fun _ => ok ()) ma mb
          ok (some r)
        else ok (some false))
      else ok (some false)
    | .bigbig da ma, .bigbig db mb => do
      let e ← BitVecValue.eqOwned m da db
      if e then
        (if ma.len = mb.len then do
          let r ← eqMaps m env (lookupOwned m env mb) ma mb
          ok (some r)
        else ok (some false))
      else ok (some false)
    | _, _ => panic .unreachable

/-- `default` (src/array/owned.rs:661-667). -/
def default (m : Mode) (a : SparseArrayValue) : Res BitVecValue :=
  match a.data with
  | .u64u64 d _ => BitVecValue.fromU64 m d a.dataWidth
  | .u64big d _ => ok d
  | .bigbig d _ => ok d

/-- `store_u64_u64` (src/array/owned.rs:669-681). -/
def storeU64U64 (a : SparseArrayValue) (index data : Word) : Res SparseArrayValue :=
  match a.data with
  | .u64u64 d map =>
    if data = d then ok { a with data := .u64u64 d (map.remove index) }
    else ok { a with data := .u64u64 d (map.insert index data) }
  | _ => panic .explicit

/-- `store_u64_big` (src/array/owned.rs:683-707). -/
def storeU64Big (m : Mode) (a : SparseArrayValue) (index : Word) (data : BitVecValue) : Res SparseArrayValue :=
  match a.data with
  | .u64u64 d map => do
    let data ← unwrap data.toU64
    if data = d then ok { a with data := .u64u64 d (map.remove index) }
    else ok { a with data := .u64u64 d (map.insert index data) }
  | .u64big d map => do
    let e ← BitVecValue.isEqual m data d
    if e then ok { a with data := .u64big d (map.remove index) }
    else ok { a with data := .u64big d (map.insert index data) }
  | .bigbig _ _ => panic .explicit

/-- `select` (src/array/owned.rs:773-792). -/
def select (m : Mode) (env : HashEnv) (a : SparseArrayValue) (index : BitVecValue) : Res BitVecValue := do
  debugAssert m (index.width == a.indexWidth)
  match a.data with
  | .u64u64 d map =>
    let i ← unwrap index.toU64
    BitVecValue.fromU64 m ((map.get i).getD d) a.dataWidth
  | .u64big d map =>
    let i ← unwrap index.toU64
    ok ((map.get i).getD d)
  | .bigbig d map =>
    lookupBorrowed env map index
    ok d

/-- `store` (src/array/owned.rs:796-834). `map.insert(index.into(), …)` compares owned keys. -/
def store (m : Mode) (env : HashEnv) (a : SparseArrayValue) (index data : BitVecValue) : Res SparseArrayValue := do
  debugAssert m (index.width == a.indexWidth)
  debugAssert m (data.width == a.dataWidth)
  match a.data with
  | .u64u64 d map =>
    let i ← unwrap index.toU64
    let v ← unwrap data.toU64
    if v = d then ok { a with data := .u64u64 d (map.remove i) }
    else ok { a with data := .u64u64 d (map.insert i v) }
  | .u64big d map =>
    let i ← unwrap index.toU64
    let e ← BitVecValue.isEqual m data d
    if e then ok { a with data := .u64big d (map.remove i) }
    else ok { a with data := .u64big d (map.insert i data) }
  | .bigbig d map =>
    let e ← BitVecValue.isEqual m data d
    if e then
      lookupBorrowed env map index
      ok { a with data := .bigbig d map }
    else
      lookupOwned m env map index
      ok { a with data := .bigbig d (map.insert index data) }

/-- `clear` (src/array/owned.rs:836-851). -/
def clear (a : SparseArrayValue) : SparseArrayValue :=
  match a.data with
  | .u64u64 _ _ => { a with data := .u64u64 0#64 HMap.empty }
  | .u64big _ _ => { a with data := .u64big (BitVecValue.zero a.dataWidth) HMap.empty }
  | .bigbig _ _ => { a with data := .bigbig (BitVecValue.zero a.dataWidth) HMap.empty }

/-- Run `f` over a list of hash-map entries, collecting results; a panic aborts. -/
def mapRes {α β : Type} (f : α → Res β) : List α → Res (List β)
  | [] => ok []
  | x :: xs => do
    let y ← f x
    let ys ← mapRes f xs
    ok (y :: ys)

/-- Exhausting `non_default_entries` (src/array/owned.rs:712-764). -/
def nonDefaultEntries (m : Mode) (env : HashEnv) (a : SparseArrayValue) : Res (List (BitVecValue × BitVecValue)) :=
  match a.data with
  | .u64u64 _ map => mapRes (fun e => do
      let i ← BitVecValue.fromU64 m e.1 a.indexWidth
      let v ← BitVecValue.fromU64 m e.2 a.dataWidth
      ok (i, v)) (env.order map.entries)
  | .u64big _ map => mapRes (fun e => do
      let i ← BitVecValue.fromU64 m e.1 a.indexWidth
      ok (i, e.2)) (env.order map.entries)
  | .bigbig _ map => ok (env.order map.entries)

end SparseArrayValue

namespace DenseArrayValue

/-- `index_width_from_len` (src/array/owned.rs:189-195): `usize::BITS - (len - 1).leading_zeros()`. -/
def indexWidthFromLen (len : Nat) : Nat :=
  if len = 0 then 0 else if len - 1 = 0 then 0 else Nat.log2 (len - 1) + 1

/-- `approx_dense_storage_size` (src/array/owned.rs:264-279). -/
def approxStorageSize (m : Mode) (indexWidth dataWidth : Nat) : Res Nat := do
  let elements ← numElements m indexWidth
  if dataWidth = 1 then ok (divCeil elements 8)
  else if dataWidth ≤ 8 then ok elements
  else if dataWidth ≤ 64 then mulC m U64 elements 8
  else mulC m U64 elements (divCeil dataWidth BITS)

/-- `DENSE_ARRAY_MAX_BYTES` (src/array/owned.rs:262). -/
abbrev maxBytes : Nat := 1024 * 1024 * 1024

/-- `new` (src/array/owned.rs:282-317). -/
def new (m : Mode) (indexWidth : Nat) (default : BitVecValue) : Res DenseArrayValue := do
  let dataWidth := default.width
  let storageSize ← approxStorageSize m indexWidth dataWidth
  debugAssert m (decide (storageSize ≤ maxBytes))
  let elements ← numElements m indexWidth
  let data ←
    (if dataWidth = 1 then do
      let t ← default.isTru
      if t then do
        let v ← BitVecValue.ones m (elements % U32)
        ok (DenseArrayImpl.bit v)
      else do
        match m with
        | .debug => do
          let f ← default.isFals
          debugAssert .debug f
        | .release => ok ()
        ok (.bit (BitVecValue.zero (elements % U32)))
    else if dataWidth ≤ 8 then do
      let d ← unwrap default.toU64
      ok (.u8 (List.replicate elements (d.setWidth 8)))
    else if dataWidth ≤ 64 then do
      let d ← unwrap default.toU64
      ok (.u64 (List.replicate elements d))
    else do
      let _ ← mulC m U64 elements default.words.length
      ok (.big (List.replicate elements default.words).flatten))
  ok ⟨indexWidth, dataWidth, data⟩

/-- `From<&[bool]>` (src/array/owned.rs:202-218). -/
def ofBools (m : Mode) (values : List Bool) : Res DenseArrayValue := do
  let indexWidth := indexWidthFromLen values.length
  let n ← numElements m indexWidth
  let data ← go 0 values (BitVecValue.zero (n % U32))
  ok ⟨indexWidth, 1, .bit data⟩
where
  /-- the loop of src/array/owned.rs:207-211 -/
  go : Nat → List Bool → BitVecValue → Res BitVecValue
    | _, [], data => ok data
    | ii, v :: vs, data => do
      let data ← (if v then data.setBit (ii % U32) else ok data)
      go (ii + 1) vs data

/-- `Vec::resize(n, x)`. -/
def resize {α : Type} (l : List α) (n : Nat) (x : α) : List α := l.take n ++ List.replicate (n - l.length) x

/-- `From<&[u8]>` (src/array/owned.rs:220-234). -/
def ofU8s (m : Mode) (values : List Byte) : Res DenseArrayValue := do
  let indexWidth := indexWidthFromLen values.length
  let n ← numElements m indexWidth
  ok ⟨indexWidth, 8, .u8 (resize values n 0#8)⟩

/-- `From<&[u64]>` (src/array/owned.rs:236-250). -/
def ofU64s (m : Mode) (values : List Word) : Res DenseArrayValue := do
  let indexWidth := indexWidthFromLen values.length
  let n ← numElements m indexWidth
  ok ⟨indexWidth, 64, .u64 (resize values n 0#64)⟩

/-- `is_equal` (src/array/owned.rs:320-341). -/
def isEqual (m : Mode) (a b : DenseArrayValue) : Res (Option Bool) :=
  if b.indexWidth ≠ a.indexWidth ∨ b.dataWidth ≠ a.dataWidth then ok none
  else match a.data, b.data with
    | .bit va, .bit vb => do
      let e ← BitVecValue.isEqual m va vb
      ok (some e)
    | .u8 va, .u8 vb => ok (some (va == vb))
    | .u64 va, .u64 vb => ok (some (va == vb))
    | .big va, .big vb => ok (some (va == vb))
    | _, _ => panic .unreachable

/-- `words_per_element` (src/array/ops.rs:15-17). -/
def wordsPerElement (a : DenseArrayValue) : Nat := divCeil a.dataWidth BITS

/-- `select_usize` (src/array/owned.rs:343-357). -/
def selectUsize (m : Mode) (a : DenseArrayValue) (index : Nat) : Res BitVecValue :=
  match a.data with
  | .bit value => do
    let b ← value.isBitSet (index % U32)
    BitVecValue.fromBool m b
  | .u8 values => do
    let v ← idx values index
    BitVecValue.fromU64 m (v.setWidth 64) a.dataWidth
  | .u64 values => do
    let v ← idx values index
    BitVecValue.fromU64 m v a.dataWidth
  | .big values => do
    let start ← mulC m U64 a.wordsPerElement index
    let end_ ← addC m U64 start a.wordsPerElement
    let ws ← sliceR values start end_
    ok ⟨a.dataWidth, ws⟩

/-- `select` (src/array/owned.rs:369-373). -/
def select (m : Mode) (a : DenseArrayValue) (index : BitVecValue) : Res BitVecValue := do
  debugAssert m (index.width == a.indexWidth)
  let i ← unwrap index.toU64
  selectUsize m a i.toNat

/-- `store` (src/array/owned.rs:377-410). -/
def store (m : Mode) (a : DenseArrayValue) (index data : BitVecValue) : Res DenseArrayValue := do
  debugAssert m (index.width == a.indexWidth)
  let i ← unwrap index.toU64
  let index := i.toNat
  debugAssert m (data.width == a.dataWidth)
  match a.data with
  | .bit value =>
    let t ← data.isTru
    let value ← (if t then value.setBit (index % U32) else value.clearBit (index % U32))
    ok { a with data := .bit value }
  | .u8 values =>
    let v ← unwrap data.toU64
    let values ← setIdx values index (v.setWidth 8)
    ok { a with data := .u8 values }
  | .u64 values =>
    let v ← unwrap data.toU64
    let values ← setIdx values index v
    ok { a with data := .u64 values }
  | .big values =>
    let start ← mulC m U64 a.wordsPerElement index
    let end_ ← addC m U64 start a.wordsPerElement
    let values ← modifyRange values start end_ fun ws => do
      let r ← BitVecValue.assign m ⟨a.dataWidth, ws⟩ data
      ok r.words
    ok { a with data := .big values }

/-- `clear` (src/array/owned.rs:412-419). -/
def clear (a : DenseArrayValue) : DenseArrayValue :=
  match a.data with
  | .bit value => { a with data := .bit value.clear }
  | .u8 values => { a with data := .u8 (values.map fun _ => 0#8) }
  | .u64 values => { a with data := .u64 (values.map fun _ => 0#64) }
  | .big values => { a with data := .big (values.map fun _ => 0#64) }

/-- One iteration of the `U64U64` loop in `From<&SparseArrayValue>` (src/array/owned.rs:429-449). -/
def putU64 (m : Mode) (d : DenseArrayValue) (index v : Word) : Res DenseArrayValue :=
  match d.data with
  | .bit value =>
    if v = 1#64 then do
      let value ← value.setBit (index.toNat % U32)
      ok { d with data := .bit value }
    else do
      debugAssert m (v == 0#64)
      let value ← value.clearBit (index.toNat % U32)
      ok { d with data := .bit value }
  | .u8 values => do
    let values ← setIdx values index.toNat (v.setWidth 8)
    ok { d with data := .u8 values }
  | .u64 values => do
    let values ← setIdx values index.toNat v
    ok { d with data := .u64 values }
  | .big _ => panic .unreachable

/-- The `U64U64` loop. -/
def putAllU64 (m : Mode) : DenseArrayValue → List (Word × Word) → Res DenseArrayValue
  | d, [] => ok d
  | d, e :: es => do
    let d ← putU64 m d e.1 e.2
    putAllU64 m d es

/-- The `U64Big` loop (src/array/owned.rs:452-456). `index_bv` is reused between iterations. -/
def putAllBig (m : Mode) : DenseArrayValue → BitVecValue → List (Word × BitVecValue) → Res DenseArrayValue
  | d, _, [] => ok d
  | d, indexBv, e :: es => do
    let indexBv ← indexBv.assignFromU64 m e.1
    let d ← store m d indexBv e.2
    putAllBig m d indexBv es

/-- `From<&SparseArrayValue> for DenseArrayValue` (src/array/owned.rs:422-466). `index_bv` has the *data* width, as in
the source. -/
def ofSparse (m : Mode) (env : HashEnv) (value : SparseArrayValue) : Res DenseArrayValue := do
  let dflt ← value.default m
  let dense ← new m value.indexWidth dflt
  debugAssert m (value.dataWidth == dense.dataWidth)
  debugAssert m (value.indexWidth == dense.indexWidth)
  match value.data with
  | .u64u64 _ map => putAllU64 m dense (env.order map.entries)
  | .u64big _ map => putAllBig m dense (BitVecValue.zero value.dataWidth) (env.order map.entries)
  | .bigbig _ _ => panic .unreachable

/-- `Iterator::max_by_key(|(_, count)| *count)`: the last of the maximal elements. -/
def maxByCount {α : Type} : List (α × Nat) → Option (α × Nat)
  | [] => none
  | x :: xs =>
    match maxByCount xs with
    | none => some x
    | some y => if x.2 > y.2 then some x else some y

/-- `MAX_HASH_TABLE_SIZE_FOR_DEFAULT_SEARCH` (src/array/owned.rs:468). -/
abbrev maxSearch : Nat := 1024 * 1024

/-- `*count.entry(k).or_insert(0) += 1`. -/
def bump {K : Type} [DecidableEq K] (count : HMap K Nat) (k : K) : HMap K Nat :=
  count.insert k ((count.get k).getD 0 + 1)

/-- Counting loop with early exit (src/array/owned.rs:516-524 and 543-552). -/
def countLoop {K : Type} [DecidableEq K] : HMap K Nat → List K → HMap K Nat
  | count, [] => count
  | count, k :: ks =>
    let count := bump count k
    if count.len > maxSearch then count else countLoop count ks

/-- Bit counting loop (src/array/owned.rs:475-478): `(count[0], count[1])` over `0..n`, starting at `bit`. -/
def countBits (data : BitVecValue) : Nat → Nat → Nat × Nat → Res (Nat × Nat)
  | _, 0, c => ok c
  | bit, n + 1, c => do
    let b ← data.isBitSet (bit % U32)
    countBits data (bit + 1) n (if b then (c.1, c.2 + 1) else (c.1 + 1, c.2))

/-- Second bit loop (src/array/owned.rs:484-488). -/
def storeBits (data : BitVecValue) (dflt : Bool) : Nat → Nat → SparseArrayValue → Res SparseArrayValue
  | _, 0, out => ok out
  | bit, n + 1, out => do
    let b ← data.isBitSet (bit % U32)
    let out ← (if b ≠ dflt then out.storeU64U64 (BitVec.ofNat 64 bit) (if dflt then 0#64 else 1#64) else ok out)
    storeBits data dflt (bit + 1) n out

/-- `u8` counting loop (src/array/owned.rs:493-496); `count` has `u8::BITS` = 8 slots, as in the source. -/
def countU8 (data : List Byte) : Nat → Nat → List Nat → Res (List Nat)
  | _, 0, count => ok count
  | bit, n + 1, count => do
    let d ← idx data bit
    let c ← idx count d.toNat
    let count ← setIdx count d.toNat (c + 1)
    countU8 data (bit + 1) n count

/-- Store loop for `u8` and `u64` data (src/array/owned.rs:507-511, 534-538). -/
def storeWords (dflt : Word) : Nat → List Word → SparseArrayValue → Res SparseArrayValue
  | _, [], out => ok out
  | bit, d :: ds, out => do
    let out ← (if d ≠ dflt then out.storeU64U64 (BitVec.ofNat 64 bit) d else ok out)
    storeWords dflt (bit + 1) ds out

/-- `(0..n).map(select_usize)` as used by the two `Big` loops. -/
def selectAll (m : Mode) (a : DenseArrayValue) : Nat → Nat → Res (List BitVecValue)
  | _, 0 => ok []
  | i, n + 1 => do
    let v ← selectUsize m a i
    let vs ← selectAll m a (i + 1) n
    ok (v :: vs)

/-- Store loop for `Big` data (src/array/owned.rs:561-566); `value != default` is the owned `==`. -/
def storeBigs (m : Mode) (dflt : BitVecValue) : Nat → List BitVecValue → SparseArrayValue → Res SparseArrayValue
  | _, [], out => ok out
  | bit, d :: ds, out => do
    let e ← BitVecValue.eqOwned m d dflt
    let out ← (if e then ok out else out.storeU64Big m (BitVec.ofNat 64 bit) d)
    storeBigs m dflt (bit + 1) ds out

/-- `From<&DenseArrayValue> for SparseArrayValue` (src/array/owned.rs:470-571). For `Big` the elements are first
collected in a list; in the source the counting loop may stop early, which only saves `select_usize` calls that
the second loop performs anyway. -/
def toSparse (m : Mode) (env : HashEnv) (value : DenseArrayValue) : Res SparseArrayValue :=
  match value.data with
  | .bit data => do
    let n ← numElements m value.indexWidth
    let c ← countBits data 0 n (0, 0)
    let dflt := decide (c.2 > c.1)
    let bv ← BitVecValue.fromBool m dflt
    let out ← SparseArrayValue.new value.indexWidth bv
    storeBits data dflt 0 n out
  | .u8 data => do
    let n ← numElements m value.indexWidth
    let count ← countU8 data 0 n (List.replicate 8 0)
    let mx ← unwrap (maxByCount ((List.range 8).zip count))
    let dflt : Byte := BitVec.ofNat 8 mx.1
    let bv ← BitVecValue.fromU64 m (dflt.setWidth 64) value.dataWidth
    let out ← SparseArrayValue.new value.indexWidth bv
    storeWords (dflt.setWidth 64) 0 (data.map fun b => b.setWidth 64) out
  | .u64 data => do
    let count := countLoop HMap.empty data
    let mx ← unwrap (maxByCount (env.order count.entries))
    let dflt := mx.1
    let bv ← BitVecValue.fromU64 m dflt value.dataWidth
    let out ← SparseArrayValue.new value.indexWidth bv
    storeWords dflt 0 data out
  | .big _ => do
    let n ← numElements m value.indexWidth
    let elems ← selectAll m value 0 n
    let count := countLoop HMap.empty elems
    let mx ← unwrap (maxByCount (env.order count.entries))
    let dflt := mx.1
    let out ← SparseArrayValue.new value.indexWidth dflt
    storeBigs m dflt 0 elems out

end DenseArrayValue

/-- `is_equal_mixed` (src/array/owned.rs:120-129). -/
def isEqualMixed (m : Mode) (env : HashEnv) (dense : DenseArrayValue) (sparse : SparseArrayValue) :
    Res (Option Bool) :=
  if dense.indexWidth ≠ sparse.indexWidth ∨ dense.dataWidth ≠ sparse.dataWidth then ok none
  else do
    let otherDense ← DenseArrayValue.ofSparse m env sparse
    DenseArrayValue.isEqual m otherDense dense

namespace ArrayValue

/-- `new_dense` (src/array/owned.rs:37-40). -/
def newDense (m : Mode) (indexWidth : Nat) (default : BitVecValue) : Res ArrayValue := do
  let d ← DenseArrayValue.new m indexWidth default
  ok (.dense d)

/-- `new_sparse` (src/array/owned.rs:41-44). -/
def newSparse (indexWidth : Nat) (default : BitVecValue) : Res ArrayValue := do
  let s ← SparseArrayValue.new indexWidth default
  ok (.sparse s)

/-- `is_dense` (src/array/owned.rs:46-48). -/
def isDense : ArrayValue → Bool
  | .dense _ => true
  | .sparse _ => false

/-- `is_sparse` (src/array/owned.rs:50-52). -/
def isSparse : ArrayValue → Bool
  | .dense _ => false
  | .sparse _ => true

/-- `make_dense` (src/array/owned.rs:55-68). -/
def makeDense (m : Mode) (env : HashEnv) : ArrayValue → Res ArrayValue
  | .dense d => ok (.dense d)
  | .sparse s => do
    let d ← DenseArrayValue.ofSparse m env s
    ok (.dense d)

/-- `is_equal` (src/array/owned.rs:71-78). -/
def isEqual (m : Mode) (env : HashEnv) (a b : ArrayValue) : Res (Option Bool) :=
  match a, b with
  | .dense a, .dense b => DenseArrayValue.isEqual m a b
  | .sparse a, .sparse b => SparseArrayValue.isEqual m env a b
  | .sparse a, .dense b => isEqualMixed m env b a
  | .dense a, .sparse b => isEqualMixed m env a b

/-- `PartialEq` (src/array/owned.rs:114-118). -/
def eq (m : Mode) (env : HashEnv) (a b : ArrayValue) : Res Bool := do
  let r ← isEqual m env a b
  ok (r.getD false)

/-- `From<ArrayValue> for SparseArrayValue` (src/array/owned.rs:105-112). -/
def toSparse (m : Mode) (env : HashEnv) : ArrayValue → Res SparseArrayValue
  | .sparse s => ok s
  | .dense d => d.toSparse m env

/-- `From<&[bool]>` (src/array/owned.rs:81-87). -/
def ofBools (m : Mode) (values : List Bool) : Res ArrayValue := do
  let d ← DenseArrayValue.ofBools m values
  ok (.dense d)

/-- `From<&[u8]>` (src/array/owned.rs:89-95). -/
def ofU8s (m : Mode) (values : List Byte) : Res ArrayValue := do
  let d ← DenseArrayValue.ofU8s m values
  ok (.dense d)

/-- `From<&[u64]>` (src/array/owned.rs:97-103). -/
def ofU64s (m : Mode) (values : List Word) : Res ArrayValue := do
  let d ← DenseArrayValue.ofU64s m values
  ok (.dense d)

/-- `index_width` (src/array/owned.rs:132-137, 361-363, 767-769). -/
def indexWidth : ArrayValue → Nat
  | .dense d => d.indexWidth
  | .sparse s => s.indexWidth

/-- `data_width` (src/array/owned.rs:139-144, 365-367, 770-772). -/
def dataWidth : ArrayValue → Nat
  | .dense d => d.dataWidth
  | .sparse s => s.dataWidth

/-- `select` (src/array/owned.rs:146-151). -/
def select (m : Mode) (env : HashEnv) (a : ArrayValue) (index : BitVecValue) : Res BitVecValue :=
  match a with
  | .sparse v => v.select m env index
  | .dense v => v.select m index

/-- `store` (src/array/owned.rs:155-164). -/
def store (m : Mode) (env : HashEnv) (a : ArrayValue) (index data : BitVecValue) : Res ArrayValue :=
  match a with
  | .sparse v => do
    let v ← v.store m env index data
    ok (.sparse v)
  | .dense v => do
    let v ← v.store m index data
    ok (.dense v)

/-- `clear` (src/array/owned.rs:166-171). -/
def clear : ArrayValue → ArrayValue
  | .sparse v => .sparse v.clear
  | .dense v => .dense v.clear

end ArrayValue

/-- `Value` (src/lib.rs:12-15). -/
inductive Value where
  | array (a : ArrayValue)
  | bitVec (b : BitVecValue)

/-- `TryFrom<Value> for ArrayValue` (src/lib.rs:17-26). -/
def Value.toArray : Value → Except Unit ArrayValue
  | .array v => .ok v
  | .bitVec _ => .error ()

/-- `TryFrom<Value> for BitVecValue` (src/lib.rs:28-37). -/
def Value.toBitVec : Value → Except Unit BitVecValue
  | .bitVec v => .ok v
  | .array _ => .error ()

/-- Derived `PartialEq` (src/lib.rs:11). -/
def Value.eq (m : Mode) (env : HashEnv) : Value → Value → Res Bool
  | .array a, .array b => ArrayValue.eq m env a b
  | .bitVec a, .bitVec b => BitVecValue.eqOwned m a b
  | _, _ => ok false

end Baa

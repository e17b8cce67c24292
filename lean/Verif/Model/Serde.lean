import Verif.Model.Array

/-!
# Model of the derived serde implementations (feature `serde1`)

The source contains only `derive(serde::Serialize, serde::Deserialize)`. What these derives do is modelled on documents of a
self-describing format: numbers, sequences, maps, structs (field names with values) and enum variants. Formats that write
structs as plain sequences are covered by the `seq` case of the struct readers. Serialising to a number, a sequence, a map or a
variant cannot fail in this data model; formats that restrict map keys are modelled in `Model/Json.lean`.
-/

namespace Baa

/-- A serialised document. -/
inductive Serde where
  | num (n : Nat)
  | seq (items : List Serde)
  | map (entries : List (Serde × Serde))
  | fields (fs : List (String × Serde))
  | variant (name : String) (content : Serde)

namespace Serde

/-- Derived `visit_map`: the value of a field. A missing or a duplicate field is an error; unknown fields are ignored. -/
def field (fs : List (String × Serde)) (name : String) : Option Serde :=
  match fs.filter fun f => f.1 = name with
  | [f] => some f.2
  | _ => none

/-- `Deserialize` of an unsigned integer type with the given number of values. -/
def readNum (bound : Nat) : Serde → Option Nat
  | .num n => if n < bound then some n else none
  | _ => none

/-- `u64`. -/
def ofWord (w : Word) : Serde := .num w.toNat
/-- `u64`. -/
def readWord (d : Serde) : Option Word := (readNum U64 d).map (BitVec.ofNat 64)
/-- `u8`. -/
def ofByte (b : Byte) : Serde := .num b.toNat
/-- `u8`. -/
def readByte (d : Serde) : Option Byte := (readNum 256 d).map (BitVec.ofNat 8)

/-- Read all items of a list. -/
def readAll {α : Type} (read : Serde → Option α) : List Serde → Option (List α)
  | [] => some []
  | d :: ds => do
    let x ← read d
    let xs ← readAll read ds
    some (x :: xs)

/-- `Vec<T>` and `SmallVec`. -/
def ofList {α : Type} (write : α → Serde) (l : List α) : Serde := .seq (l.map write)
/-- `Vec<T>` and `SmallVec`. -/
def readList {α : Type} (read : Serde → Option α) : Serde → Option (List α)
  | .seq items => readAll read items
  | _ => none

/-- `HashMap<K, V>`: the entries in iteration order. -/
def ofHMap {K V : Type} (env : HashEnv) (wk : K → Serde) (wv : V → Serde) (map : HMap K V) : Serde :=
  .map ((env.order map.entries).map fun e => (wk e.1, wv e.2))

/-- The loop of `visit_map` for `HashMap<K, V>`: one `insert` per entry. -/
def readEntries {K V : Type} [DecidableEq K] (rk : Serde → Option K) (rv : Serde → Option V) :
    HMap K V → List (Serde × Serde) → Option (HMap K V)
  | acc, [] => some acc
  | acc, e :: es => do
    let k ← rk e.1
    let v ← rv e.2
    readEntries rk rv (acc.insert k v) es

/-- `HashMap<K, V>`. -/
def readHMap {K V : Type} [DecidableEq K] (rk : Serde → Option K) (rv : Serde → Option V) : Serde → Option (HMap K V)
  | .map es => readEntries rk rv HMap.empty es
  | _ => none

/-- `Serialize for BitVecValue` (derived, src/bv/owned.rs:15-19). -/
def ofBitVec (v : BitVecValue) : Serde := .fields [("width", .num v.width), ("words", ofList ofWord v.words)]

/-- `Deserialize for BitVecValue` (derived, src/bv/owned.rs:15-19). -/
def readBitVec : Serde → Option BitVecValue
  | .fields fs => do
    let width ← (field fs "width").bind (readNum U32)
    let words ← (field fs "words").bind (readList readWord)
    some ⟨width, words⟩
  | .seq [width, words] => do
    let width ← readNum U32 width
    let words ← readList readWord words
    some ⟨width, words⟩
  | _ => none

/-- `Serialize for DenseArrayImpl` (derived, src/array/owned.rs:253-259). -/
def ofDenseImpl : DenseArrayImpl → Serde
  | .bit v => .variant "Bit" (ofBitVec v)
  | .u8 l => .variant "U8" (ofList ofByte l)
  | .u64 l => .variant "U64" (ofList ofWord l)
  | .big l => .variant "Big" (ofList ofWord l)

/-- `Deserialize for DenseArrayImpl` (derived, src/array/owned.rs:253-259). -/
def readDenseImpl : Serde → Option DenseArrayImpl
  | .variant name d =>
    if name = "Bit" then (readBitVec d).map .bit
    else if name = "U8" then (readList readByte d).map .u8
    else if name = "U64" then (readList readWord d).map .u64
    else if name = "Big" then (readList readWord d).map .big
    else none
  | _ => none

/-- `Serialize for SparseArrayImpl` (derived, src/array/owned.rs:588-593): tuple variants are sequences. -/
def ofSparseImpl (env : HashEnv) : SparseArrayImpl → Serde
  | .u64u64 d table => .variant "U64U64" (.seq [ofWord d, ofHMap env ofWord ofWord table])
  | .u64big d table => .variant "U64Big" (.seq [ofBitVec d, ofHMap env ofWord ofBitVec table])
  | .bigbig d table => .variant "BigBig" (.seq [ofBitVec d, ofHMap env ofBitVec ofBitVec table])

/-- `Deserialize for SparseArrayImpl` (derived, src/array/owned.rs:588-593). -/
def readSparseImpl : Serde → Option SparseArrayImpl
  | .variant name (.seq [d, table]) =>
    if name = "U64U64" then do
      let d ← readWord d
      let table ← readHMap readWord readWord table
      some (.u64u64 d table)
    else if name = "U64Big" then do
      let d ← readBitVec d
      let table ← readHMap readWord readBitVec table
      some (.u64big d table)
    else if name = "BigBig" then do
      let d ← readBitVec d
      let table ← readHMap readBitVec readBitVec table
      some (.bigbig d table)
    else none
  | _ => none

/-- The three fields that the derived code of both array structs writes (src/array/owned.rs:175-180, 574-579). -/
def ofArrayFields (indexWidth dataWidth : Nat) (data : Serde) : Serde :=
  .fields [("index_width", .num indexWidth), ("data_width", .num dataWidth), ("data", data)]

/-- Read the three fields of an array struct. -/
def readArrayFields {α : Type} (read : Serde → Option α) : Serde → Option (Nat × Nat × α)
  | .fields fs => do
    let iw ← (field fs "index_width").bind (readNum U32)
    let dw ← (field fs "data_width").bind (readNum U32)
    let data ← (field fs "data").bind read
    some (iw, dw, data)
  | .seq [iw, dw, data] => do
    let iw ← readNum U32 iw
    let dw ← readNum U32 dw
    let data ← read data
    some (iw, dw, data)
  | _ => none

/-- `Serialize for SparseArrayValue` (derived, src/array/owned.rs:574-579). -/
def ofSparse (env : HashEnv) (s : SparseArrayValue) : Serde := ofArrayFields s.indexWidth s.dataWidth (ofSparseImpl env s.data)

/-- `Deserialize for SparseArrayValue` (derived, src/array/owned.rs:574-579). -/
def readSparse (d : Serde) : Option SparseArrayValue :=
  (readArrayFields readSparseImpl d).map fun r => ⟨r.1, r.2.1, r.2.2⟩

/-- `Serialize for DenseArrayValue` (derived, src/array/owned.rs:175-180). -/
def ofDense (s : DenseArrayValue) : Serde := ofArrayFields s.indexWidth s.dataWidth (ofDenseImpl s.data)

/-- `Deserialize for DenseArrayValue` (derived, src/array/owned.rs:175-180). -/
def readDense (d : Serde) : Option DenseArrayValue :=
  (readArrayFields readDenseImpl d).map fun r => ⟨r.1, r.2.1, r.2.2⟩

/-- `Serialize for ArrayValue` and `ArrayImpl` (derived, src/array/owned.rs:15-25). -/
def ofArray (env : HashEnv) : ArrayValue → Serde
  | .sparse s => .fields [("data", .variant "Sparse" (ofSparse env s))]
  | .dense d => .fields [("data", .variant "Dense" (ofDense d))]

/-- `Deserialize for ArrayImpl` (derived, src/array/owned.rs:21-25). -/
def readArrayImpl : Serde → Option ArrayValue
  | .variant name d =>
    if name = "Sparse" then (readSparse d).map .sparse
    else if name = "Dense" then (readDense d).map .dense
    else none
  | _ => none

/-- `Deserialize for ArrayValue` (derived, src/array/owned.rs:15-18). -/
def readArray : Serde → Option ArrayValue
  | .fields fs => (field fs "data").bind readArrayImpl
  | .seq [data] => readArrayImpl data
  | _ => none

end Serde
end Baa

import Verif.Model.Serde

/-!
# Model of the derived serde implementations with a format whose map keys are text

`Model/Serde.lean` describes the calls that the derived implementations make. This file is what a format like JSON makes of
them: structs, maps and enum variants all become objects, and the keys of an object are text. Numbers are accepted as keys and
written in decimal; any other key is an error. Reading is driven by the type: the derived code asks for a struct, a map or a
variant, and gets it from an object. The text of the format (brackets, commas, escapes) is not modelled.
-/

namespace Baa

/-- A document of a format with text keys. `other` stands for everything the derived code never asks for: strings, negative
numbers, fractions, `true`, `false`, `null`. -/
inductive Json where
  | num (n : Nat)
  | arr (items : List Json)
  | obj (entries : List (String × Json))
  | other

namespace Json

/-- A number as a key. -/
def keyText (n : Nat) : String := String.ofList (Nat.toDigits 10 n)

/-- The number that the digits spell, after those that spell `acc`. -/
def digits : Nat → List Char → Option Nat
  | acc, [] => some acc
  | acc, c :: cs => if 48 ≤ c.toNat ∧ c.toNat ≤ 57 then digits (acc * 10 + (c.toNat - 48)) cs else none

/-- Read a key as a number: digits without leading zeros. -/
def keyNum (s : String) : Option Nat :=
  match s.toList with
  | [] => none
  | c :: cs => if c.toNat = 48 ∧ cs ≠ [] then none else digits 0 (c :: cs)

/-- The key of a map. -/
def key : Serde → Option String
  | .num n => some (keyText n)
  | _ => none

mutual
/-- Writing. The only error is a key that is not a number. -/
def write : Serde → Option Json
  | .num n => some (.num n)
  | .seq items => (writeAll items).map .arr
  | .map entries => (writeEntries entries).map .obj
  | .fields fs => (writeFields fs).map .obj
  | .variant name content => (write content).map fun j => .obj [(name, j)]
/-- All items of a sequence. -/
def writeAll : List Serde → Option (List Json)
  | [] => some []
  | d :: ds => do
    let j ← write d
    let js ← writeAll ds
    some (j :: js)
/-- All fields of a struct. -/
def writeFields : List (String × Serde) → Option (List (String × Json))
  | [] => some []
  | (name, d) :: fs => do
    let j ← write d
    let js ← writeFields fs
    some ((name, j) :: js)
/-- All entries of a map. -/
def writeEntries : List (Serde × Serde) → Option (List (String × Json))
  | [] => some []
  | (k, d) :: es => do
    let s ← key k
    let j ← write d
    let js ← writeEntries es
    some ((s, j) :: js)
end

/-- Derived `visit_map`: the value of a field. A missing or a duplicate field is an error; unknown fields are ignored. -/
def field (es : List (String × Json)) (name : String) : Option Json :=
  match es.filter fun f => f.1 = name with
  | [f] => some f.2
  | _ => none

/-- `Deserialize` of an unsigned integer type with the given number of values. -/
def readNum (bound : Nat) : Json → Option Nat
  | .num n => if n < bound then some n else none
  | _ => none

/-- `u64`. -/
def readWord (j : Json) : Option Word := (readNum U64 j).map (BitVec.ofNat 64)
/-- `u8`. -/
def readByte (j : Json) : Option Byte := (readNum 256 j).map (BitVec.ofNat 8)
/-- `u64` as a key. -/
def readWordKey (s : String) : Option Word :=
  (keyNum s).bind fun n => if n < U64 then some (BitVec.ofNat 64 n) else none

/-- Read all items of a list. -/
def readAll {α : Type} (read : Json → Option α) : List Json → Option (List α)
  | [] => some []
  | d :: ds => do
    let x ← read d
    let xs ← readAll read ds
    some (x :: xs)

/-- `Vec<T>` and `SmallVec`. -/
def readList {α : Type} (read : Json → Option α) : Json → Option (List α)
  | .arr items => readAll read items
  | _ => none

/-- The loop of `visit_map` for `HashMap<K, V>`: one `insert` per entry. -/
def readEntries {K V : Type} [DecidableEq K] (rk : String → Option K) (rv : Json → Option V) :
    HMap K V → List (String × Json) → Option (HMap K V)
  | acc, [] => some acc
  | acc, e :: es => do
    let k ← rk e.1
    let v ← rv e.2
    readEntries rk rv (acc.insert k v) es

/-- `HashMap<K, V>`. -/
def readHMap {K V : Type} [DecidableEq K] (rk : String → Option K) (rv : Json → Option V) : Json → Option (HMap K V)
  | .obj es => readEntries rk rv HMap.empty es
  | _ => none

/-- `Deserialize for BitVecValue` (derived, src/bv/owned.rs:15-19). -/
def readBitVec : Json → Option BitVecValue
  | .obj es => do
    let width ← (field es "width").bind (readNum U32)
    let words ← (field es "words").bind (readList readWord)
    some ⟨width, words⟩
  | .arr [width, words] => do
    let width ← readNum U32 width
    let words ← readList readWord words
    some ⟨width, words⟩
  | _ => none

/-- `Deserialize for DenseArrayImpl` (derived, src/array/owned.rs:253-259): an object with one entry. -/
def readDenseImpl : Json → Option DenseArrayImpl
  | .obj [(name, d)] =>
    if name = "Bit" then (readBitVec d).map .bit
    else if name = "U8" then (readList readByte d).map .u8
    else if name = "U64" then (readList readWord d).map .u64
    else if name = "Big" then (readList readWord d).map .big
    else none
  | _ => none

/-- `Deserialize for SparseArrayImpl` (derived, src/array/owned.rs:588-593). A struct cannot be read from a key. -/
def readSparseImpl : Json → Option SparseArrayImpl
  | .obj [(name, .arr [d, table])] =>
    if name = "U64U64" then do
      let d ← readWord d
      let table ← readHMap readWordKey readWord table
      some (.u64u64 d table)
    else if name = "U64Big" then do
      let d ← readBitVec d
      let table ← readHMap readWordKey readBitVec table
      some (.u64big d table)
    else if name = "BigBig" then do
      let d ← readBitVec d
      let table ← readHMap (fun _ => none) readBitVec table
      some (.bigbig d table)
    else none
  | _ => none

/-- Read the three fields of an array struct (src/array/owned.rs:175-180, 574-579). -/
def readArrayFields {α : Type} (read : Json → Option α) : Json → Option (Nat × Nat × α)
  | .obj es => do
    let iw ← (field es "index_width").bind (readNum U32)
    let dw ← (field es "data_width").bind (readNum U32)
    let data ← (field es "data").bind read
    some (iw, dw, data)
  | .arr [iw, dw, data] => do
    let iw ← readNum U32 iw
    let dw ← readNum U32 dw
    let data ← read data
    some (iw, dw, data)
  | _ => none

/-- `Deserialize for SparseArrayValue` (derived, src/array/owned.rs:574-579). -/
def readSparse (j : Json) : Option SparseArrayValue :=
  (readArrayFields readSparseImpl j).map fun r => ⟨r.1, r.2.1, r.2.2⟩

/-- `Deserialize for DenseArrayValue` (derived, src/array/owned.rs:175-180). -/
def readDense (j : Json) : Option DenseArrayValue :=
  (readArrayFields readDenseImpl j).map fun r => ⟨r.1, r.2.1, r.2.2⟩

/-- `Deserialize for ArrayImpl` (derived, src/array/owned.rs:21-25). -/
def readArrayImpl : Json → Option ArrayValue
  | .obj [(name, d)] =>
    if name = "Sparse" then (readSparse d).map .sparse
    else if name = "Dense" then (readDense d).map .dense
    else none
  | _ => none

/-- `Deserialize for ArrayValue` (derived, src/array/owned.rs:15-18). -/
def readArray : Json → Option ArrayValue
  | .obj es => (field es "data").bind readArrayImpl
  | .arr [data] => readArrayImpl data
  | _ => none

end Json
end Baa

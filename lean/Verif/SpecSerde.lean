import Verif.Model.Serde
import Verif.SpecArray

/-!
# What the serialised documents look like

The documents of bit-vectors and arrays, written from the mathematical value alone.
-/

namespace Baa
open Serde

/-- The 64-bit digits of a number as a list of numbers, least significant first. -/
def wordDocs (n x : Nat) : List Serde := (List.range n).map fun j => .num (x / 2 ^ (64 * j) % 2 ^ 64)

/-- The document of the bit-vector of width `w` and value `x`. -/
def bitVecDoc (w x : Nat) : Serde := .fields [("width", .num w), ("words", .seq (wordDocs ((w + 63) / 64) x))]

/-- All elements of an array in the order of their indices. -/
def elementsOf {iw dw : Nat} (f : BitVec iw → BitVec dw) : List Nat :=
  (List.range (2 ^ iw)).map fun k => (f (BitVec.ofNat iw k)).toNat

/-- The number with the given bits, least significant first. -/
def bitsNumber : List Nat → Nat
  | [] => 0
  | b :: bs => b + 2 * bitsNumber bs

/-- The elements of a dense array: 1-bit data as one long bit-vector, data of up to 8 bits as bytes, of up to 64 bits as
words, and wider data as the words of all elements. -/
def denseData {iw dw : Nat} (f : BitVec iw → BitVec dw) : Serde :=
  if dw = 1 then .variant "Bit" (bitVecDoc (2 ^ iw) (bitsNumber (elementsOf f)))
  else if dw ≤ 8 then .variant "U8" (.seq ((elementsOf f).map .num))
  else if dw ≤ 64 then .variant "U64" (.seq ((elementsOf f).map .num))
  else .variant "Big" (.seq ((elementsOf f).flatMap fun x => wordDocs ((dw + 63) / 64) x))

/-- The document of an array. -/
def arrayDoc (kind : String) (iw dw : Nat) (data : Serde) : Serde :=
  .fields [("data", .variant kind (.fields [("index_width", .num iw), ("data_width", .num dw), ("data", data)]))]

/-- The document of a dense array that holds `f`. -/
def denseDoc {iw dw : Nat} (f : BitVec iw → BitVec dw) : Serde := arrayDoc "Dense" iw dw (denseData f)

/-- An element of a sparse array: a plain number if it fits into 64 bits. -/
def valueDoc (dw v : Nat) : Serde := if dw ≤ 64 then .num v else bitVecDoc dw v

/-- The document of a sparse array with an index of up to 64 bits, the given default and the given entries. -/
def sparseDoc (iw dw dflt : Nat) (entries : List (Nat × Nat)) : Serde :=
  arrayDoc "Sparse" iw dw (.variant (if dw ≤ 64 then "U64U64" else "U64Big")
    (.seq [valueDoc dw dflt, .map (entries.map fun e => (.num e.1, valueDoc dw e.2))]))

/-- The value of the last entry with key `k`, or else the default. -/
def lastValue (dflt : Nat) (entries : List (Nat × Nat)) (k : Nat) : Nat :=
  entries.foldl (fun acc e => if e.1 = k then e.2 else acc) dflt

/-- What an accepted document can yield: any widths below 2^32, together with any storage whose bit-vectors have widths below
2^32 and whose hash table has no key twice. Nothing is compared with the declared widths. -/
def Acceptable : ArrayValue → Prop
  | .dense d => d.indexWidth < 2 ^ 32 ∧ d.dataWidth < 2 ^ 32 ∧
    match d.data with
    | .bit v => v.width < 2 ^ 32
    | _ => True
  | .sparse s => s.indexWidth < 2 ^ 32 ∧ s.dataWidth < 2 ^ 32 ∧
    match s.data with
    | .u64u64 _ table => table.Nodup
    | .u64big d table => d.width < 2 ^ 32 ∧ table.Nodup ∧ ∀ e ∈ table.entries, e.2.width < 2 ^ 32
    | .bigbig d table => d.width < 2 ^ 32 ∧ table.Nodup ∧ ∀ e ∈ table.entries, e.1.width < 2 ^ 32 ∧ e.2.width < 2 ^ 32

end Baa

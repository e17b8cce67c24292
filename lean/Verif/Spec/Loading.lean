import Verif.Model.Loading
import Verif.Spec.DocumentsConv

/-!
# C129: the indices that reading a document compares

While an array with indices of more than 64 bits is read, the indices that were read are entered into a hash table one after the other.
-/

namespace Baa
open Serde

/-- The list contains two values with the same width and different numbers of words. -/
def Discordant (l : List BitVecValue) : Prop := ∃ k ∈ l, ∃ k' ∈ l, k.width = k'.width ∧ k.words.length ≠ k'.words.length

/-- The indices of the entries up to the first one that is rejected. -/
def enteredIndices : List (Serde × Serde) → List BitVecValue
  | [] => []
  | e :: es =>
    match readBitVec e.1, readBitVec e.2 with
    | some k, some _ => k :: enteredIndices es
    | _, _ => []

/-- The indices that are entered while a document is read as the storage of a sparse array. -/
def storageIndices : Serde → List BitVecValue
  | .variant "BigBig" (.seq (dflt :: .map es :: _)) => if (readBitVec dflt).isSome then enteredIndices es else []
  | _ => []

/-- The fields with this name can be read: there is at most one, and it is a 32-bit number. -/
def widthReadable (name : String) (fs : List (String × Serde)) : Bool :=
  match fs.filter fun f => f.1 = name with
  | [] => true
  | [f] => (readNum (2 ^ 32) f.2).isSome
  | _ => false

/-- The content of the first field `data`, with the fields before it. -/
def splitAtData : List (String × Serde) → Option (List (String × Serde) × Serde)
  | [] => none
  | f :: fs => if f.1 = "data" then some ([], f.2) else (splitAtData fs).map fun r => (f :: r.1, r.2)

/-- The indices that are entered while a document is read as a sparse array: none if a width before the storage is rejected. -/
def sparseIndices : Serde → List BitVecValue
  | .fields fs => match splitAtData fs with
    | some (before, storage) =>
      if widthReadable "index_width" before && widthReadable "data_width" before then storageIndices storage else []
    | none => []
  | .seq (iw :: dw :: storage :: _) => if (readNum (2 ^ 32) iw).isSome && (readNum (2 ^ 32) dw).isSome then storageIndices storage else []
  | _ => []

/-- The indices that are entered while a document is read as either kind of array. -/
def variantIndices : Serde → List BitVecValue
  | .variant "Sparse" d => sparseIndices d
  | _ => []

/-- The indices that are entered while a document is read as an array. -/
def indicesEntered : Serde → List BitVecValue
  | .fields fs => match splitAtData fs with
    | some (_, d) => variantIndices d
    | none => []
  | .seq (d :: _) => variantIndices d
  | _ => []

/-- An array holds entries for two indices with the same width and different numbers of words. -/
def Account.Discordant (x : Account) : Prop :=
  match x.hoard with
  | .long t => ∃ k k', t.entry k ≠ none ∧ t.entry k' ≠ none ∧ k.width = k'.width ∧ k.words ≠ k'.words
  | _ => False

end Baa

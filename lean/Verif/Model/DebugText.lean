import Verif.Model.Array
import Verif.Model.Indexed

/-!
# The remaining `Debug` texts

The texts of `{:?}`, and for derived instances those of the alternate form `{:#?}`. The other instances print the same text in both forms.
-/

namespace Baa
open Res Strings

/-- Derived `Debug` of `BitVecValueIndex` (src/bv/indexed.rs:16-20): the fields in the order of their declaration. -/
def BitVecValueIndex.debugText (self : BitVecValueIndex) : List Byte :=
  "BitVecValueIndex { width: ".toList.map ch ++ decimal self.width ++ ", index: ".toList.map ch ++ decimal self.index ++
    " }".toList.map ch

/-- `Debug for DenseArrayValue` (src/array/owned.rs:182-186). -/
def DenseArrayValue.debugText (_ : DenseArrayValue) : List Byte := "DenseArrayValue(..)".toList.map ch

/-- `Debug for SparseArrayValue` (src/array/owned.rs:581-585). -/
def SparseArrayValue.debugText (_ : SparseArrayValue) : List Byte := "SparseArrayValue(..)".toList.map ch

/-- `Debug for ArrayValue` (src/array/owned.rs:27-34). -/
def ArrayValue.debugText : ArrayValue → List Byte
  | .sparse s => s.debugText
  | .dense d => d.debugText

/-- Derived `Debug` of `Value` (src/lib.rs:11-15). -/
def Value.debugText : Value → Res (List Byte)
  | .array a => ok ("Array(".toList.map ch ++ a.debugText ++ [ch ')'])
  | .bitVec b => do
    let s ← b.debugOwned
    ok ("BitVec(".toList.map ch ++ s ++ [ch ')'])

/-- Derived `Debug` of `IntErrorKind` (src/bv/io/strings.rs:14-20). -/
def IntErrorKind.debugText : IntErrorKind → List Byte
  | .invalidDigit => "InvalidDigit".toList.map ch
  | .exceedsWidth => "ExceedsWidth".toList.map ch

/-- Derived `Debug` of `ParseIntError` (src/bv/io/strings.rs:9-12); the error is modelled by its kind. -/
def parseIntErrorText (kind : IntErrorKind) : List Byte :=
  "ParseIntError { kind: ".toList.map ch ++ kind.debugText ++ " }".toList.map ch

/-! ## The alternate form -/

/-- `PadAdapter` (core::fmt::builders): four spaces before every line. The state tells whether a line begins. -/
def padLines : Bool → List Byte → List Byte
  | _, [] => []
  | start, c :: s => (if start then "    ".toList.map ch else []) ++ c :: padLines (c == ch '\n') s

/-- `DebugStruct::field` in the alternate form: every field is a padded line of its own, with a comma. -/
def prettyField (name : String) (value : List Byte) : List Byte :=
  padLines true (name.toList.map ch ++ ": ".toList.map ch ++ value ++ ",\n".toList.map ch)

/-- `DebugStruct` with at least one field in the alternate form; `fields` are texts of `prettyField`. -/
def prettyStruct (name : String) (fields : List (List Byte)) : List Byte :=
  name.toList.map ch ++ " {\n".toList.map ch ++ fields.flatten ++ "}".toList.map ch

/-- `DebugTuple` with one field in the alternate form. -/
def prettyTuple (name : String) (value : List Byte) : List Byte :=
  name.toList.map ch ++ "(\n".toList.map ch ++ padLines true (value ++ ",\n".toList.map ch) ++ ")".toList.map ch

/-- Derived `Debug` of `BitVecValueIndex` (src/bv/indexed.rs:16-20), alternate form. -/
def BitVecValueIndex.prettyText (self : BitVecValueIndex) : List Byte :=
  prettyStruct "BitVecValueIndex" [prettyField "width" (decimal self.width), prettyField "index" (decimal self.index)]

/-- Derived `Debug` of `Value` (src/lib.rs:11-15), alternate form. -/
def Value.prettyText : Value → Res (List Byte)
  | .array a => ok (prettyTuple "Array" a.debugText)
  | .bitVec b => do
    let s ← b.debugOwned
    ok (prettyTuple "BitVec" s)

/-- Derived `Debug` of `ParseIntError` (src/bv/io/strings.rs:9-12), alternate form. -/
def parseIntErrorPretty (kind : IntErrorKind) : List Byte := prettyStruct "ParseIntError" [prettyField "kind" kind.debugText]

end Baa

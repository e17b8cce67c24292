import Verif.SpecSerde
import Verif.Model.Json

/-!
# What values look like in a format with text keys

The documents of bit-vectors and of sparse arrays, written from the mathematical value alone.
-/

namespace Baa
open Json

/-- The document of the bit-vector of width `w` and value `x`: the width and the 64-bit digits, least significant first. -/
def bitVecJson (w x : Nat) : Json :=
  .obj [("width", .num w), ("words", .arr ((List.range ((w + 63) / 64)).map fun j => .num (x / 2 ^ (64 * j) % 2 ^ 64)))]

/-- An element of a sparse array: a plain number if it fits into 64 bits. -/
def valueJson (dw v : Nat) : Json := if dw ≤ 64 then .num v else bitVecJson dw v

/-- The document of a sparse array with an index of up to 64 bits, the given default and the given entries. -/
def sparseJson (iw dw dflt : Nat) (entries : List (Nat × Nat)) : Json :=
  .obj [("data", .obj [("Sparse", .obj [("index_width", .num iw), ("data_width", .num dw),
    ("data", .obj [(if dw ≤ 64 then "U64U64" else "U64Big",
      .arr [valueJson dw dflt, .obj (entries.map fun e => (toString e.1, valueJson dw e.2))])])])])]

/-- The array has a table of entries whose keys are not numbers. -/
def KeyedByStructs : ArrayValue → Prop
  | .dense _ => False
  | .sparse s =>
    match s.data with
    | .bigbig _ table => table.entries ≠ []
    | _ => False

end Baa

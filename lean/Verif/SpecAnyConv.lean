import Verif.SpecAnyArray
import Verif.Spec.Histories

/-!
# Arrays that are given any values whatsoever: conversions

This continues `SpecAnyArray`: what making an array dense, converting it to a sparse array and listing its entries do with the contents.
-/

namespace Baa
open Res

/-! ## From sparse to dense -/

/-- The list names every index that does not hold the default, once, in some order. -/
def Table.Lists (t : Table) (L : List Nat) : Prop := L.Nodup ∧ ∀ I, I ∈ L ↔ I < 2 ^ 64 ∧ t.cell I ≠ t.default

/-- One entry is written to a dense array, or a panic. Data of up to 64 bits goes directly to the cell; a debug build refuses a bit that is
neither 0 nor 1. Wide data is stored with an index that has the width of the data, which a debug build refuses. -/
def Memory.put (m : Mode) (iw dw : Nat) (mem : Memory) (I : Nat) (s : Shape) : Option Memory :=
  if 64 < dw then mem.store m iw dw ⟨dw, need dw, I⟩ s
  else (mem.locate m dw I).bind fun n =>
    if dw = 1 ∧ 1 < s.number ∧ m = .debug then none
    else some { mem with cell := setCell mem.cell n (
      if dw = 1 then (if s.number = 1 then 1 else 0) else if dw ≤ 8 then s.number % 2 ^ 8 else s.number) }

/-- All entries are written, in the order of the list. -/
def Memory.fill (m : Mode) (iw dw : Nat) (t : Table) : Memory → List Nat → Option Memory
  | mem, [] => some mem
  | mem, I :: L => do
    let mem ← mem.put m iw dw I (t.cell I)
    mem.fill m iw dw t L

/-- The conversion: read the default, create a dense array with it, and write the entries. -/
def Table.densified (m : Mode) (iw dw : Nat) (t : Table) (L : List Nat) : Option Memory := do
  let d ← t.default.unfiled m dw
  let mem ← Memory.create m iw d
  mem.fill m iw dw t L

/-! ## From dense to sparse -/

/-- How many cells an element takes. -/
def perElement (dw : Nat) : Nat := if dw ≤ 64 then 1 else need dw

/-- The number in element `k`. -/
def Memory.element (dw : Nat) (mem : Memory) (k : Nat) : Nat :=
  if dw ≤ 64 then mem.cell k else gather mem.cell (need dw * k) (need dw)

/-- The conversion, if the number `c` is picked as the default. There must be cells for all elements, and elements of 2 to 8 bits must be less
than 8. The default is `c` as it is read. -/
def Memory.sparsified (m : Mode) (iw dw : Nat) (mem : Memory) (c : Nat) : Option Table := do
  let n ← elementCount m iw
  if mem.count < n * perElement dw ∨ (dw ≠ 1 ∧ dw ≤ 8 ∧ (List.range n).any fun k => decide (8 ≤ mem.cell k)) then none
  else do
    let d ← (⟨dw, need dw, c⟩ : Shape).unfiled m dw
    some ⟨d, fun k => if k < n ∧ mem.element dw k ≠ c then ⟨dw, need dw, mem.element dw k⟩ else d⟩

/-! ## Histories and comparisons -/

/-- The possible outcomes of an operation: contents, or a panic. -/
def Contents.Next (m : Mode) (iw dw : Nat) : Contents → ConvOp → Option Contents → Prop
  | c, .base op, r => r = c.after m iw dw op
  | .dense mem, .makeDense, r => r = some (.dense mem)
  | .sparse t, .makeDense, r => ∃ L, t.Lists L ∧ r = (t.densified m iw dw L).map .dense
  | .sparse t, .toSparse, r => r = some (.sparse t)
  | .dense mem, .toSparse, r => (r = none ∧ ∀ c, mem.sparsified m iw dw c = none) ∨
      ∃ c, Picked (iw % 64) dw (mem.element dw) c ∧ r = (mem.sparsified m iw dw c).map .sparse

/-- The possible outcomes of a history. -/
def Contents.Runs (m : Mode) (iw dw : Nat) : List ConvOp → Contents → Option Contents → Prop
  | [], c, r => r = some c
  | op :: ops, c, r => ∃ mid, c.Next m iw dw op mid ∧
    match mid with
    | none => r = none
    | some c' => c'.Runs m iw dw ops r

/-- The possible outcomes of a comparison. To compare a sparse array with a dense one, it is made dense. -/
def Contents.Compared (m : Mode) (iw dw : Nat) (c e : Contents) (r : Res Bool) : Prop :=
  match c, e with
  | .dense _, .dense _ | .sparse _, .sparse _ =>
    (c.Clash m dw e → Panics r) ∧ (¬ c.Clash m dw e → ∃ b, r = ok b ∧ (b = true ↔ c.Same e))
  | .sparse t, .dense mem | .dense mem, .sparse t => ∃ L, t.Lists L ∧
    match t.densified m iw dw L with
    | none => Panics r
    | some out => ∃ b, r = ok b ∧ (b = true ↔ out.Same mem)

/-- `non_default_entries` in some order: index and data are made from numbers, like everywhere. -/
def Table.entries (m : Mode) (iw dw : Nat) (t : Table) : List Nat → Option (List (Shape × Shape))
  | [] => some []
  | I :: L => do
    let i ← shownAs m iw I
    let d ← (t.cell I).unfiled m dw
    let es ← t.entries m iw dw L
    some ((i, d) :: es)

/-- The arrays this is about: an index of up to 64 bits, and with wide data both a dense array with the words of the default and one with the
words that the width needs fit into the address space. -/
def Convertible (m : Mode) (iw : Nat) (v : Shape) : Prop :=
  iw ≤ 64 ∧ Storable .dense m iw v ∧ Storable .dense m iw ⟨v.width, need v.width, 0⟩

/-- Data has a 32-bit width. -/
def ConvOp.Sized : ConvOp → Prop
  | .base op => op.Sized
  | _ => True

end Baa

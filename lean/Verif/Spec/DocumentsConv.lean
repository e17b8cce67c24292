import Verif.Spec.Documents
import Verif.SpecAnyConv

/-!
# C118: arrays from documents: conversions

This continues `Spec.Documents`: what making an array dense, converting it to a sparse array, and comparing a dense array with a sparse one do
with arrays whose storage need not belong to their widths.
-/

namespace Baa
open Res

/-- The cells of a dense array are fewer than the address space has room for. -/
def Account.InMemory (x : Account) : Prop :=
  match x.hoard with
  | .dense .bytes _ mem | .dense .words _ mem => mem.count < 2 ^ 64
  | .dense .wide _ mem => mem.count < 2 ^ 60
  | _ => True

/-! ## From sparse to dense -/

/-- How a new dense array keeps data of this width. -/
def CellLayout.of (dw : Nat) : CellLayout := if dw = 1 then .bits else if dw ≤ 8 then .bytes else if dw ≤ 64 then .words else .wide

/-- Nothing beyond the last cell. -/
def Memory.within (mem : Memory) : Memory := { mem with cell := fun k => if k < mem.count then mem.cell k else 0 }

/-- A number is written to cell `n`, or a panic. A debug build refuses a bit that is neither 0 nor 1. A number is never written to several
words. -/
def CellLayout.put (m : Mode) (cell : Nat → Nat) (n v : Nat) : CellLayout → Option (Nat → Nat)
  | .bits => if m = .debug ∧ 1 < v then none else some (setCell cell n (if v = 1 then 1 else 0))
  | .bytes => some (setCell cell n (v % 2 ^ 8))
  | .words => some (setCell cell n v)
  | .wide => none

/-- All numbers are written, in the order of the list. -/
def CellLayout.fill (m : Mode) (dw : Nat) (l : CellLayout) (t : Sheet Nat Nat) : Memory → List Nat → Option Memory
  | mem, [] => some mem
  | mem, I :: L => (l.locate m dw mem.count I).bind fun n => (l.put m mem.cell n (t.read I)).bind fun cell =>
    l.fill m dw t ⟨mem.count, cell⟩ L

/-- All values are stored, in the order of the list. The index has the width `vw` that was declared for the data. -/
def CellLayout.fillWide (m : Mode) (iw vw dw : Nat) (l : CellLayout) (t : Sheet Nat Shape) : Memory → List Nat → Option Memory
  | mem, [] => some mem
  | mem, I :: L => (numberAs m vw I).bind fun i => (i.points m iw).bind fun J => (l.locate m dw mem.count J).bind fun n =>
    if m = .debug ∧ (t.read I).width ≠ dw then none
    else (l.write dw mem.cell n (t.read I)).bind fun cell => l.fillWide m iw vw dw t ⟨mem.count, cell⟩ L

/-- The conversion, if the entries are visited in this order: read the default, create a dense array with it, and write the entries. Only a debug
build wants the default to have the declared width. -/
def Account.densified (m : Mode) (x : Account) (L : List Nat) : Option Account :=
  (x.standard m).bind fun d => (elementCount m x.iw).bind fun n => (Memory.create m x.iw d).bind fun mem =>
    if m = .debug ∧ x.dw ≠ d.width then none
    else (match x.hoard with
      | .narrow t => (CellLayout.of d.width).fill m d.width t mem.within L
      | .broad t => (CellLayout.of d.width).fillWide m x.iw x.dw d.width t mem.within L
      | _ => none).map fun mem => ⟨x.iw, d.width, .dense (CellLayout.of d.width) (if d.width = 1 then n % 2 ^ 32 else 0) mem⟩

/-- The possible outcomes of `make_dense`. -/
def Account.MakesDense (m : Mode) (x : Account) (r : Option Account) : Prop :=
  match x.hoard with
  | .dense _ _ _ => r = some x
  | .narrow t => ∃ L, t.Lists L ∧ r = x.densified m L
  | .broad t => ∃ L, t.Lists L ∧ r = x.densified m L
  | .long _ => r = none

/-! ## From dense to sparse -/

/-- How many elements are looked at to pick a default. Where there is one word for every element, those are all cells, otherwise as many as the
index width says. -/
def CellLayout.elements (m : Mode) (iw count : Nat) : CellLayout → Option Nat
  | .words => some count
  | _ => elementCount m iw

/-- The number in element `k`. -/
def CellLayout.element (dw : Nat) (cell : Nat → Nat) (k : Nat) : CellLayout → Nat
  | .bits => cell (k % 2 ^ 32)
  | .bytes | .words => cell k
  | .wide => gather cell (need dw * k) (need dw)

/-- There are cells for all elements, and bytes are less than 8. -/
def CellLayout.Legible (dw n : Nat) (mem : Memory) : CellLayout → Prop
  | .bits => ∀ k, k < n → k % 2 ^ 32 < mem.count
  | .bytes => n ≤ mem.count ∧ ∀ k, k < n → mem.cell k < 8
  | .words => 0 < n
  | .wide => n * need dw ≤ mem.count

/-- How many elements are copied. Of bytes, those are all cells. -/
def CellLayout.copied (n count : Nat) : CellLayout → Nat
  | .bytes => count
  | _ => n

/-- The first `n` of `N` elements are counted: all of them or, for words, those up to the one with which there are more than 2^20 different
numbers. -/
structure Tallied (l : CellLayout) (N : Nat) (el : Nat → Nat) (n : Nat) : Prop where
  le : n ≤ N
  few : l = .words ∨ l = .wide → ∀ k, k < n → FewUpTo k el
  stop : n = N ∨ ((l = .words ∨ l = .wide) ∧ ¬ FewUpTo n el)

/-- The number that can be picked as default: it occurs, and it is a most frequent one of those that are counted. Among equally frequent ones it
is the smaller bit, and the largest byte. -/
structure Elected (l : CellLayout) (N : Nat) (el : Nat → Nat) (c : Nat) : Prop where
  occurs : ∃ k, k < N ∧ el k = c
  frequent : ∃ n, Tallied l N el n ∧ ∀ y, cellsUpTo n el y ≤ cellsUpTo n el c
  bit : l = .bits → ∀ y, cellsUpTo N el y = cellsUpTo N el c → c ≤ y
  byte : l = .bytes → ∀ y, cellsUpTo N el y = cellsUpTo N el c → y ≤ c

/-- The default as a value. A bit has width 1. -/
def CellLayout.standard (m : Mode) (dw c : Nat) : CellLayout → Option Shape
  | .bits => some ⟨1, 1, c⟩
  | .bytes | .words => numberAs m dw c
  | .wide => some ⟨dw, need dw, c⟩

/-- A sparse array with the default `d`, which was picked as the number `c`, and the first `N` elements. Elements that are not `c` are stored. That
panics if the index has more than 64 bits, or if numbers are stored where there should be wide values. -/
def gathered (l : CellLayout) (iw dw N : Nat) (el : Nat → Nat) (c : Nat) (d : Shape) : Option Hoard :=
  if 64 < iw then if ∀ k, k < N → el k = c then some (.long (.blank d)) else none
  else if 64 < d.width then
    if l = .wide ∨ ∀ k, k < N → el k = c then
      some (.broad ⟨d, fun k => if k < N ∧ el k ≠ c then some ⟨dw, need dw, el k⟩ else none⟩)
    else none
  else some (.narrow ⟨d.number, fun k => if k < N ∧ el k ≠ c ∧ el k ≠ d.number then some (el k) else none⟩)

/-- The possible outcomes of the conversion to a sparse array. -/
def Account.MakesSparse (m : Mode) (x : Account) (r : Option Account) : Prop :=
  match x.hoard with
  | .dense l _ mem =>
    (r = none ∧ ∀ n, l.elements m x.iw mem.count = some n → ¬ l.Legible x.dw n mem) ∨
    ∃ n c, l.elements m x.iw mem.count = some n ∧ l.Legible x.dw n mem ∧ Elected l n (l.element x.dw mem.cell ·) c ∧
      r = (l.standard m x.dw c).bind fun d =>
        (gathered l x.iw x.dw (l.copied n mem.count) (l.element x.dw mem.cell ·) c d).map fun h => ⟨x.iw, d.width, h⟩
  | _ => r = some x

/-! ## Histories and comparisons -/

/-- An operation. -/
def Account.Steps (m : Mode) (x : Account) (op : ConvOp) (r : Option Account) : Prop :=
  match op with
  | .base op => x.Follows m op r
  | .makeDense => x.MakesDense m r
  | .toSparse => x.MakesSparse m r

/-- A history. -/
def Account.Travels (m : Mode) : List ConvOp → Account → Option Account → Prop
  | [], x, r => r = some x
  | op :: ops, x, r => ∃ mid, x.Steps m op mid ∧
    match mid with
    | none => r = none
    | some y => Account.Travels m ops y r

/-- Widths of operands are 32-bit numbers. -/
def ConvOp.Typed : ConvOp → Prop
  | .base op => op.Typed
  | _ => True

/-- A dense array with wide data that is made from this array fits into the address space. -/
def Account.Roomy (m : Mode) (x : Account) : Prop :=
  ∀ d n, x.standard m = some d → elementCount m x.iw = some n → 64 < d.width → n * d.words < 2 ^ 60

/-- Whenever the history makes an array dense, the result fits into the address space. -/
def Account.RoomyAlong (m : Mode) : List ConvOp → Account → Prop
  | [], _ => True
  | op :: ops, x => (op = .makeDense → x.Roomy m) ∧ ∀ y, x.Steps m op (some y) → Account.RoomyAlong m ops y

/-- Indices and data have at most 64 bits, and the storage is dense or a table of numbers. -/
def Account.Plain (x : Account) : Prop :=
  x.iw ≤ 64 ∧ x.dw ≤ 64 ∧
  match x.hoard with
  | .dense _ _ _ | .narrow _ => True
  | _ => False

/-- Running a history. Every operation meets its own behaviour of hash tables. -/
def runConvEach (m : Mode) (env : Nat → HashEnv) : ArrayValue → List ConvOp → Res ArrayValue
  | a, [] => ok a
  | a, op :: ops => do
    let a ← op.run m (env ops.length) a
    runConvEach m env a ops

/-- The possible outcomes of comparing a sparse array with a dense one: if the widths are the same, it is made dense, and the result is compared. -/
def Account.ComparesMixed (m : Mode) (sparse dense : Account) (r : Option Bool) : Prop :=
  if sparse.iw = dense.iw ∧ sparse.dw = dense.dw then
    ∃ z, sparse.MakesDense m z ∧
      match z with
      | none => r = none
      | some z => z.Compares m dense r
  else r = some false

end Baa

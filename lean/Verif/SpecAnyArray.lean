import Verif.SpecMalformed
import Verif.Spec.Histories

/-!
# Arrays that are given any values whatsoever: what they hold

An index, data or a default is described by its `Shape`: width, number of words and number. Nothing relates the three. A dense array is a
list of numbered cells, a sparse array a table of descriptions. The specification says what every operation makes of them.
-/

namespace Baa

/-- The number of elements of a dense array, or a panic. A release build takes the index width modulo 64. -/
def elementCount (m : Mode) (iw : Nat) : Option Nat :=
  if iw < 64 then some (2 ^ iw) else if m = .debug then none else some (2 ^ (iw % 64))

/-- The number of an index, or a panic. Only debug builds check the width. -/
def Shape.points (m : Mode) (iw : Nat) (i : Shape) : Option Nat :=
  if (m = .debug ∧ i.width ≠ iw) ∨ 2 ^ 64 ≤ i.number then none else some i.number

/-- The value that an array of data of up to 64 bits makes from the number `c`. There is none without bits. A number that does not fit is
refused by a debug build and cut by a release build. -/
def shownAs (m : Mode) (dw c : Nat) : Option Shape :=
  if dw = 0 then none
  else if c < 2 ^ dw then some ⟨dw, 1, c⟩
  else if m = .debug then none else some ⟨dw, 1, c % 2 ^ dw⟩

/-! ## Dense arrays -/

/-- The cells of a dense array: bits if the data has one bit, bytes up to 8 bits, and otherwise words. -/
structure Memory where
  count : Nat
  cell : Nat → Nat

/-- The estimate of the size of a dense array. -/
def guardBytes (n dw : Nat) : Nat :=
  if dw = 1 then (n + 7) / 8 else if dw ≤ 8 then n else if dw ≤ 64 then n * 8 else n * need dw

/-- What a cell keeps of data, if the array has data of up to 64 bits, or a panic. A bit is set only by a one-bit value whose lowest word is
1. -/
def Shape.datum (dw : Nat) (d : Shape) : Option Nat :=
  if dw = 1 then
    if d.width ≠ 1 then some 0 else if d.words = 0 then none else some (if d.number % 2 ^ 64 = 1 then 1 else 0)
  else if 2 ^ 64 ≤ d.number then none
  else some (if dw ≤ 8 then d.number % 2 ^ 8 else d.number)

/-- A new dense array with the default `v`. With wide data, all words of the default are repeated, however many there are. -/
def Memory.create (m : Mode) (iw : Nat) (v : Shape) : Option Memory := do
  let n ← elementCount m iw
  if m = .debug ∧ 2 ^ 30 < guardBytes n v.width then none
  else if v.width = 1 then do
    let c ← v.datum 1
    if c = 1 then
      if n % 2 ^ 32 = 0 then none else some ⟨64 * need (n % 2 ^ 32), fun k => if k < n % 2 ^ 32 then 1 else 0⟩
    else if m = .debug ∧ v.number % 2 ^ 64 ≠ 0 then none
    else some ⟨64 * need (n % 2 ^ 32), fun _ => 0⟩
  else if v.width ≤ 64 then (v.datum v.width).map fun c => ⟨n, fun _ => c⟩
  else some ⟨n * v.words, fun k => v.number / 2 ^ (64 * (k % v.words)) % 2 ^ 64⟩

/-- The first cell that an index with the number `I` reaches, or a panic. -/
def Memory.locate (m : Mode) (dw : Nat) (mem : Memory) (I : Nat) : Option Nat :=
  if dw = 1 then (if I % 2 ^ 32 < mem.count then some (I % 2 ^ 32) else none)
  else if dw ≤ 64 then (if I < mem.count then some I else none)
  else place m (need dw) mem.count I

/-- `select`. -/
def Memory.select (m : Mode) (iw dw : Nat) (mem : Memory) (i : Shape) : Option Shape := do
  let I ← i.points m iw
  let n ← mem.locate m dw I
  if dw ≤ 64 then shownAs m dw (mem.cell n) else some ⟨dw, need dw, gather mem.cell n (need dw)⟩

/-- `store`. Wide data needs exactly the words of an element. -/
def Memory.store (m : Mode) (iw dw : Nat) (mem : Memory) (i d : Shape) : Option Memory := do
  let I ← i.points m iw
  let n ← mem.locate m dw I
  if m = .debug ∧ d.width ≠ dw then none
  else if dw ≤ 64 then (d.datum dw).map fun c => { mem with cell := setCell mem.cell n c }
  else if d.words = need dw then some { mem with cell := scatter mem.cell n (need dw) d.number }
  else none

/-- `clear`. -/
def Memory.clear (mem : Memory) : Memory := { mem with cell := fun _ => 0 }

/-- Two dense arrays hold the same. -/
def Memory.Same (a b : Memory) : Prop := a.count = b.count ∧ ∀ k, k < a.count → a.cell k = b.cell k

/-! ## Sparse arrays with an index of up to 64 bits -/

/-- A default, and what every index holds. -/
structure Table where
  default : Shape
  cell : Nat → Shape

/-- What a table keeps of data, or a panic. Up to 64 bits only a word is kept, otherwise the whole value. -/
def Shape.filed (dw : Nat) (d : Shape) : Option Shape :=
  if 64 < dw then some d else if 2 ^ 64 ≤ d.number then none else some ⟨dw, 1, d.number⟩

/-- A new sparse array with the default `v`. -/
def Table.create (v : Shape) : Option Table := (v.filed v.width).map fun s => ⟨s, fun _ => s⟩

/-- The value that is read from a table. -/
def Shape.unfiled (m : Mode) (dw : Nat) (s : Shape) : Option Shape := if 64 < dw then some s else shownAs m dw s.number

/-- `select`. -/
def Table.select (m : Mode) (iw dw : Nat) (t : Table) (i : Shape) : Option Shape := do
  let I ← i.points m iw
  (t.cell I).unfiled m dw

/-- `store`. Data that agrees with the default in the words that both have is replaced by the default. A debug build wants wide data to have as
many words as the default. -/
def Table.store (m : Mode) (iw dw : Nat) (t : Table) (i d : Shape) : Option Table := do
  let I ← i.points m iw
  let s ← d.filed dw
  if m = .debug ∧ (d.width ≠ dw ∨ s.words ≠ t.default.words) then none
  else some { t with cell := fun k => if k = I then (if s.equal t.default then t.default else s) else t.cell k }

/-- The default after `clear`. -/
def zeroFiled (dw : Nat) : Shape := ⟨dw, if 64 < dw then need dw else 1, 0⟩

/-- `clear`. -/
def Table.clear (dw : Nat) : Table := ⟨zeroFiled dw, fun _ => zeroFiled dw⟩

/-- Two sparse arrays hold the same. -/
def Table.Same (a b : Table) : Prop := a.default = b.default ∧ ∀ k, k < 2 ^ 64 → a.cell k = b.cell k

/-! ## Arrays of either kind -/

/-- What an array holds. -/
inductive Contents where
  | dense (mem : Memory)
  | sparse (t : Table)

/-- A new array. -/
def Contents.create (k : Kind) (m : Mode) (iw : Nat) (v : Shape) : Option Contents :=
  match k with
  | .dense => (Memory.create m iw v).map .dense
  | .sparse => (Table.create v).map .sparse

/-- `select`. -/
def Contents.select (m : Mode) (iw dw : Nat) (i : Shape) : Contents → Option Shape
  | .dense mem => mem.select m iw dw i
  | .sparse t => t.select m iw dw i

/-- An operation. -/
def Contents.after (m : Mode) (iw dw : Nat) : Contents → RawOp → Option Contents
  | .dense mem, .store i d => (mem.store m iw dw i.shape d.shape).map .dense
  | .dense mem, .clear => some (.dense mem.clear)
  | .sparse t, .store i d => (t.store m iw dw i.shape d.shape).map .sparse
  | .sparse _, .clear => some (.sparse (Table.clear dw))

/-- A history. -/
def Contents.history (m : Mode) (iw dw : Nat) : Contents → List RawOp → Option Contents
  | c, [] => some c
  | c, op :: ops => do
    let c ← c.after m iw dw op
    c.history m iw dw ops

/-- Two arrays hold the same. -/
def Contents.Same : Contents → Contents → Prop
  | .dense a, .dense b => a.Same b
  | .sparse a, .sparse b => a.Same b
  | _, _ => False

/-- Comparing them panics: in a debug build, if the defaults of sparse arrays with wide data differ in the number of words. -/
def Contents.Clash (m : Mode) (dw : Nat) : Contents → Contents → Prop
  | .sparse a, .sparse b => m = .debug ∧ 64 < dw ∧ a.default.words ≠ b.default.words
  | _, _ => False

/-- The arrays this is about: sparse arrays with an index of up to 64 bits, and dense arrays that fit into the address space if the data is
wide. -/
def Storable (k : Kind) (m : Mode) (iw : Nat) (v : Shape) : Prop :=
  match k with
  | .sparse => iw ≤ 64
  | .dense => ∀ n, elementCount m iw = some n → 64 < v.width → n * v.words < 2 ^ 60

/-- Data has a 32-bit width. Nothing else is required of it, and nothing of an index. -/
def RawOp.Sized : RawOp → Prop
  | .store _ d => d.width < 2 ^ 32
  | .clear => True

end Baa

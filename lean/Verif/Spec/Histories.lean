import Verif.SpecArray
import Verif.Spec.Operands

/-!
# Histories of arrays that hold arbitrary words
-/

namespace Baa

/-! ## C89: arrays of arbitrary words -/

section
open Res BitVecValue

/-- The two representations. -/
inductive Kind where
  | dense
  | sparse
deriving DecidableEq

/-- Number of cells of a dense array. One-bit elements live in a bit-vector of `2^iw` bits, which has whole words. -/
def cellCount (iw dw : Nat) : Nat := if dw = 1 then capacity (2 ^ iw) else 2 ^ iw

/-- The cell reached by an index whose words hold the number `I`, or nothing (a panic). In a sparse array every number is a cell. In a
dense array of one-bit elements the number is cut to 32 bits. -/
def reached (k : Kind) (iw dw I : Nat) : Option Nat :=
  match k with
  | .sparse => some I
  | .dense =>
    if dw = 1 then (if I % 2 ^ 32 < cellCount iw dw then some (I % 2 ^ 32) else none)
    else (if I < cellCount iw dw then some I else none)

/-- The number a cell keeps when a value whose words hold `D` is stored. In a dense array, one-bit elements only recognise the number 1,
and elements of up to 8 bits keep a byte. -/
def kept (k : Kind) (dw D : Nat) : Nat :=
  match k with
  | .sparse => D
  | .dense => if dw = 1 then (if D = 1 then 1 else 0) else if dw ≤ 8 then D % 2 ^ 8 else D

/-- The number in the words of the value that reading a cell holding `c` gives. Up to 64 bits a debug build panics if the number does not
fit, and a release build reduces it. Wider elements are returned as they are. -/
def shown (m : Mode) (dw c : Nat) : Option Nat :=
  if dw ≤ 64 ∧ 2 ^ dw ≤ c then (if m = .debug then none else some (c % 2 ^ dw)) else some c

/-- The cells of a new array with the default `D`. -/
def startCells (k : Kind) (iw dw D : Nat) : Nat → Nat := fun n =>
  if k = .dense ∧ dw = 1 ∧ 2 ^ iw ≤ n then 0 else kept k dw D

/-- The cells after writing one of them. -/
def setCell (mem : Nat → Nat) (n c : Nat) : Nat → Nat := fun j => if j = n then c else mem j

/-- An operation on an array, with values whose words are arbitrary. -/
inductive RawOp where
  | store (index data : BitVecValue)
  | clear

/-- The values have the widths of the array and the number of words of their width. -/
def RawOp.Fits (iw dw : Nat) : RawOp → Prop
  | .store i d => Slot i iw ∧ Slot d dw
  | .clear => True

/-- The effect of an operation on the cells, or a panic. -/
def RawOp.effect (k : Kind) (iw dw : Nat) (mem : Nat → Nat) : RawOp → Option (Nat → Nat)
  | .store i d => (reached k iw dw (wordsVal i.words)).map fun n => setCell mem n (kept k dw (wordsVal d.words))
  | .clear => some fun _ => 0

/-- The cells after a history, or a panic. -/
def cellsAfter (k : Kind) (iw dw : Nat) (mem : Nat → Nat) : List RawOp → Option (Nat → Nat)
  | [] => some mem
  | op :: ops => (op.effect k iw dw mem).bind fun mem' => cellsAfter k iw dw mem' ops

/-- The default of a sparse array after a history: `clear` makes it zero. -/
def defaultAfter : Nat → List RawOp → Nat
  | D, [] => D
  | D, .store _ _ :: ops => defaultAfter D ops
  | _, .clear :: ops => defaultAfter 0 ops

/-- Running an operation. -/
def RawOp.run (m : Mode) (env : HashEnv) (a : ArrayValue) : RawOp → Res ArrayValue
  | .store i d => a.store m env i d
  | .clear => ok a.clear

/-- Running a history. -/
def runRaw (m : Mode) (env : HashEnv) : ArrayValue → List RawOp → Res ArrayValue
  | a, [] => ok a
  | a, op :: ops => do
    let a ← op.run m env a
    runRaw m env a ops

/-- The index does not make the position of a multi-word element wrap around in a release build. -/
def NoWrap (m : Mode) (k : Kind) (dw I : Nat) : Prop :=
  m = .debug ∨ k = .sparse ∨ dw ≤ 64 ∨ (dw + 63) / 64 * I + (dw + 63) / 64 < 2 ^ 64

/-- The same for the indices of a history. -/
def RawOp.NoWrap (m : Mode) (k : Kind) (dw : Nat) : RawOp → Prop
  | .store i _ => Baa.NoWrap m k dw (wordsVal i.words)
  | .clear => True

variable {iw dw : Nat}

variable {V : Type} {R : V → Nat → Prop} {map map' : HMap Word V} {mem mem' : Nat → Nat} {D c : Nat}

/-- A new array of either kind. -/
def newOf (k : Kind) (m : Mode) (iw : Nat) (default : BitVecValue) : Res ArrayValue :=
  match k with
  | .dense => ArrayValue.newDense m iw default
  | .sparse => ArrayValue.newSparse iw default

/-- Index and data widths this file is about: dense arrays that fit into the address space (C49 says what happens to one-bit elements
with an index of 32 bits or more), and sparse arrays with an index of up to 64 bits (C50 is about longer ones). -/
def Admissible (k : Kind) (iw dw : Nat) : Prop :=
  0 < dw ∧ match k with
    | .dense => Addressable iw dw ∧ (dw ≠ 1 ∨ iw < 32)
    | .sparse => iw ≤ 64

/-- The cells after a history on a new array, for the default value `v`. -/
def finalCells (k : Kind) (iw dw : Nat) (v : BitVecValue) (ops : List RawOp) : Option (Nat → Nat) :=
  cellsAfter k iw dw (startCells k iw dw (wordsVal v.words)) ops

end

/-! ## C94: dense arrays of wide data are a memory of words -/

section
open Res BitVecValue

/-- The number of words of an element. -/
def elementWords (dw : Nat) : Nat := (dw + 63) / 64

/-- The position of the element with index `I` if an element has `c` words. Release builds compute modulo 2^64. -/
def position (c I : Nat) : Mode → Nat
  | .debug => c * I
  | .release => c * I % 2 ^ 64

/-- The first word that index `I` reaches, out of `total` words with `c` words per element, or a panic. -/
def place (m : Mode) (c total I : Nat) : Option Nat := if position c I m + c ≤ total then some (position c I m) else none

/-- The number in `c` words starting at word `s`. -/
def gather (mem : Nat → Nat) : Nat → Nat → Nat
  | _, 0 => 0
  | s, c + 1 => mem s + 2 ^ 64 * gather mem (s + 1) c

/-- Writing the number `D` to `c` words starting at word `s`. -/
def scatter (mem : Nat → Nat) (s c D : Nat) : Nat → Nat := fun k =>
  if s ≤ k ∧ k < s + c then D / 2 ^ (64 * (k - s)) % 2 ^ 64 else mem k

/-- The first word that an index of any width reaches, or a panic. A debug build checks the width. -/
def addressed (m : Mode) (iw dw : Nat) (i : BitVecValue) : Option Nat :=
  if m = .debug ∧ i.width ≠ iw then none
  else if wordsVal i.words < 2 ^ 64 then place m (elementWords dw) (elementWords dw * 2 ^ iw) (wordsVal i.words) else none

/-- The effect of an operation with values of any width. A debug build checks the width of the data, a release build the number of
words. -/
def RawOp.wordEffect (m : Mode) (iw dw : Nat) (mem : Nat → Nat) : RawOp → Option (Nat → Nat)
  | .store i d =>
    if (m = .debug ∧ d.width ≠ dw) ∨ elementWords d.width ≠ elementWords dw then none
    else (addressed m iw dw i).map fun s => scatter mem s (elementWords dw) (wordsVal d.words)
  | .clear => some fun _ => 0

/-- The words after a history, or a panic. -/
def wordsAfter (m : Mode) (iw dw : Nat) (mem : Nat → Nat) : List RawOp → Option (Nat → Nat)
  | [] => some mem
  | op :: ops => (op.wordEffect m iw dw mem).bind fun mem' => wordsAfter m iw dw mem' ops

/-- The words of a new array with the default `D`. -/
def startWords (dw D : Nat) : Nat → Nat := fun k => D / 2 ^ (64 * (k % elementWords dw)) % 2 ^ 64

end

/-! ## C93: array operations with values of the wrong width in a release build -/

section
open Res BitVecValue

/-- The array has an index of up to 64 bits, as far as its representation goes. -/
def NarrowIndex : ArrayValue → Prop
  | .dense _ => True
  | .sparse s =>
    match s.data with
    | .bigbig _ _ => False
    | _ => True

/-- Widths up to which each representation is used. -/
def DenseShape (d : DenseArrayValue) : Prop :=
  match d.data with
  | .bit _ => d.dataWidth = 1
  | .u8 _ => d.dataWidth ≠ 1 ∧ d.dataWidth ≤ 8
  | .u64 _ => 8 < d.dataWidth ∧ d.dataWidth ≤ 64
  | .big _ => 64 < d.dataWidth ∧ d.dataWidth < U32

/-- The number that is stored in an array of `dw`-bit data when the data is `v` bits wide and holds `D`, or a panic. Dense arrays of
one-bit data take everything that is not one bit wide for 0. Data of up to 64 bits is taken as a number below 2^64. Wider dense data needs
the right number of words. -/
def foreignData (k : Kind) (dw v D : Nat) : Option Nat :=
  if k = .dense ∧ dw = 1 then some (if v = 1 then D else 0)
  else if dw ≤ 64 then (if D < 2 ^ 64 then some D else none)
  else if capacity v = capacity dw then some D else none

/-- The values of the operation have the number of words of their own width, whatever that is. -/
def RawOp.Words : RawOp → Prop
  | .store i d => Slot i i.width ∧ Slot d d.width
  | .clear => True

/-- The cell reached by an index of any width. -/
def foreignReached (k : Kind) (iw dw I : Nat) : Option Nat := if I < 2 ^ 64 then reached k iw dw I else none

/-- The effect of an operation with values of any width on the cells of an array, in a release build. -/
def RawOp.foreignEffect (k : Kind) (iw dw : Nat) (mem : Nat → Nat) : RawOp → Option (Nat → Nat)
  | .store i d => (foreignReached k iw dw (wordsVal i.words)).bind fun n =>
      (foreignData k dw d.width (wordsVal d.words)).map fun E => setCell mem n (kept k dw E)
  | .clear => some fun _ => 0

/-- The cells after a history, or a panic. -/
def foreignAfter (k : Kind) (iw dw : Nat) (mem : Nat → Nat) : List RawOp → Option (Nat → Nat)
  | [] => some mem
  | op :: ops => (op.foreignEffect k iw dw mem).bind fun mem' => foreignAfter k iw dw mem' ops

/-- The cells of a sparse array with data of more than 64 bits: every cell keeps a width and a number, and there is a default number.
A store that agrees with the default in the words that both have resets the cell to the default. Any other store puts the value into the
cell together with its own width. -/
structure WideCells where
  cell : Nat → Nat × Nat
  default : Nat

/-- The effect of an operation with values of any width on the cells, in a release build. -/
def RawOp.wideEffect (dw : Nat) (c : WideCells) : RawOp → Option WideCells
  | .store i d =>
    if wordsVal i.words < 2 ^ 64 then
      some ⟨fun n =>
        if n = wordsVal i.words then
          (if wordsVal d.words % 2 ^ shared d.width dw = c.default % 2 ^ shared d.width dw then (dw, c.default)
            else (d.width, wordsVal d.words))
        else c.cell n, c.default⟩
    else none
  | .clear => some ⟨fun _ => (dw, 0), 0⟩

/-- The cells after a history, or a panic. -/
def wideAfter (dw : Nat) : WideCells → List RawOp → Option WideCells
  | c, [] => some c
  | c, op :: ops => (op.wideEffect dw c).bind fun c' => wideAfter dw c' ops

end

/-! ## C98: sparse arrays with more than 64 index bits, on arbitrary words -/

section
open Res BitVecValue

/-- A value, given by its width and the number in its words. -/
def nameOf (v : BitVecValue) : Nat × Nat := (v.width, wordsVal v.words)

/-- What the array holds: the number of the default, and for every index perhaps a stored value. -/
structure LongCells where
  default : Nat
  stored : Nat × Nat → Option (Nat × Nat)

/-- The data agrees with the default in the words that both have. -/
def LongCells.IsDefault (dw : Nat) (c : LongCells) (d : BitVecValue) : Prop :=
  wordsVal d.words % 2 ^ shared d.width dw = c.default % 2 ^ shared d.width dw

instance (dw : Nat) (c : LongCells) (d : BitVecValue) : Decidable (c.IsDefault dw d) := inferInstanceAs (Decidable (_ = _))

/-- What the array holds after an operation that returns. Storing the default changes nothing. -/
def RawOp.longEffect (dw : Nat) (c : LongCells) : RawOp → LongCells
  | .store i d => if c.IsDefault dw d then c else ⟨c.default, fun k => if k = nameOf i then some (nameOf d) else c.stored k⟩
  | .clear => ⟨0, fun _ => none⟩

/-- Operations that can only panic: putting the default back over a stored element. -/
def RawOp.Blocked (dw : Nat) (c : LongCells) : RawOp → Prop
  | .store i d => c.IsDefault dw d ∧ c.stored (nameOf i) ≠ none
  | .clear => False

/-- What the array holds after a history that returns. -/
def longAfter (dw : Nat) : LongCells → List RawOp → LongCells
  | c, [] => c
  | c, op :: ops => longAfter dw (op.longEffect dw c) ops

/-- Some operation of the history can only panic. -/
def SomeBlocked (dw : Nat) : LongCells → List RawOp → Prop
  | _, [] => False
  | c, op :: ops => op.Blocked dw c ∨ SomeBlocked dw (op.longEffect dw c) ops

/-- The array before any operation. -/
def longStart (v : BitVecValue) : LongCells := ⟨wordsVal v.words, fun _ => none⟩

/-- The values of the operation have the number of words of their own width. In a debug build they also have the widths of the array. -/
def RawOp.Allowed (m : Mode) (iw dw : Nat) : RawOp → Prop
  | .store i d => Slot i i.width ∧ Slot d d.width ∧ (m = .debug → i.width = iw ∧ d.width = dw)
  | .clear => True

end

/-! ## C91: conversions between arrays of arbitrary words -/

section
open Res BitVecValue

/-- Making an array dense panics: in a debug build if the default cannot be read, if the dense array is too large, if a one-bit element is
neither 0 nor 1, or if there is any element wider than 64 bits; in both builds if the dense array has no cell for an element. Elements are
the cells that differ from the default. -/
def DensePanics (m : Mode) (iw dw : Nat) (mem : Nat → Nat) (D : Nat) : Prop :=
  (m = .debug ∧ ((dw ≤ 64 ∧ 2 ^ dw ≤ D) ∨ 2 ^ 30 < guardSize iw dw ∨
    ∃ I, I < 2 ^ 64 ∧ mem I ≠ D ∧ ((dw = 1 ∧ 1 < mem I) ∨ 64 < dw))) ∨
  ∃ I, I < 2 ^ 64 ∧ mem I ≠ D ∧ reached .dense iw dw I = none

/-- Possible cells after making an array dense. The default is read, and every element is written to the cell that its index reaches. If
several elements reach the same cell, the order of the hash map decides. -/
def Densified (m : Mode) (iw dw : Nat) (mem : Nat → Nat) (D : Nat) (out : Nat → Nat) : Prop :=
  ∃ x, shown m dw D = some x ∧ ∀ n, n < cellCount iw dw →
    (out n = startCells .dense iw dw x n ∧ ∀ I, I < 2 ^ 64 → mem I ≠ D → reached .dense iw dw I ≠ some n) ∨
    ∃ I, I < 2 ^ 64 ∧ mem I ≠ D ∧ reached .dense iw dw I = some n ∧ out n = kept .dense dw (mem I)

/-- How many of the first `n` cells hold a number. -/
def cellsUpTo (n : Nat) (mem : Nat → Nat) (y : Nat) : Nat := (List.range n).countP fun k => mem k = y

/-- How many of the first `2^iw` cells hold a number. -/
def cellsHolding (iw : Nat) (mem : Nat → Nat) (y : Nat) : Nat := cellsUpTo (2 ^ iw) mem y

/-- The first `n` cells hold at most 2^20 different numbers. -/
def FewUpTo (n : Nat) (mem : Nat → Nat) : Prop := ∃ L : List Nat, L.length ≤ 2 ^ 20 ∧ ∀ k, k < n → mem k ∈ L

/-- The first `n` cells are counted: all of them or, if data is wider than 8 bits, those up to the one with which there are more than 2^20
different numbers. -/
structure Counted (iw dw : Nat) (mem : Nat → Nat) (n : Nat) : Prop where
  le : n ≤ 2 ^ iw
  few : 8 < dw → ∀ k, k < n → FewUpTo k mem
  stop : n = 2 ^ iw ∨ (8 < dw ∧ ¬ FewUpTo n mem)

/-- The number picked as default when a dense array is converted: it occurs, and it is a most frequent one of those that are counted. Among
equally frequent ones it is the smaller one for one-bit data and the largest one for data of up to 8 bits. -/
structure Picked (iw dw : Nat) (mem : Nat → Nat) (c : Nat) : Prop where
  occurs : ∃ n, n < 2 ^ iw ∧ mem n = c
  frequent : ∃ n, Counted iw dw mem n ∧ ∀ y, cellsUpTo n mem y ≤ cellsUpTo n mem c
  bit : dw = 1 → ∀ y, cellsHolding iw mem y = cellsHolding iw mem c → c ≤ y
  byte : dw ≠ 1 → dw ≤ 8 → ∀ y, cellsHolding iw mem y = cellsHolding iw mem c → y ≤ c

/-- The cells of the sparse array: the first `2^iw` cells are copied, except that those that hold the picked number `c` get the
default `x`, which is `c` as it is read. -/
def sparsified (iw : Nat) (mem : Nat → Nat) (c x : Nat) : Nat → Nat := fun n => if n < 2 ^ iw ∧ mem n ≠ c then mem n else x

variable {iw dw : Nat}

/-- Converting to a sparse array panics in both builds: an element of 2 to 8 bits is 8 or more. -/
def SparsePanics (iw dw : Nat) (mem : Nat → Nat) : Prop := dw ≠ 1 ∧ dw ≤ 8 ∧ ∃ n, n < 2 ^ iw ∧ 8 ≤ mem n

/-- The state of an array: its kind, its cells and (if sparse) its default. -/
structure Cells where
  kind : Kind
  mem : Nat → Nat
  dflt : Nat

/-- An operation on an array. -/
inductive ConvOp where
  | base (op : RawOp)
  | makeDense
  | toSparse

/-- Running an operation. -/
def ConvOp.run (m : Mode) (env : HashEnv) (a : ArrayValue) : ConvOp → Res ArrayValue
  | .base op => op.run m env a
  | .makeDense => a.makeDense m env
  | .toSparse => do
    let s ← a.toSparse m env
    ok (.sparse s)

/-- Running a history. -/
def runConv (m : Mode) (env : HashEnv) : ArrayValue → List ConvOp → Res ArrayValue
  | a, [] => ok a
  | a, op :: ops => do
    let a ← op.run m env a
    runConv m env a ops

/-- The possible outcomes of an operation: a state, or a panic. -/
def Next (m : Mode) (iw dw : Nat) (st : Cells) : ConvOp → Option Cells → Prop
  | .base op, r => r = (op.effect st.kind iw dw st.mem).map fun mem => ⟨st.kind, mem, defaultAfter st.dflt [op]⟩
  | .makeDense, r =>
    match st.kind with
    | .dense => r = some st
    | .sparse => (DensePanics m iw dw st.mem st.dflt ∧ r = none) ∨
      (¬ DensePanics m iw dw st.mem st.dflt ∧ ∃ out, Densified m iw dw st.mem st.dflt out ∧ r = some ⟨.dense, out, st.dflt⟩)
  | .toSparse, r =>
    match st.kind with
    | .sparse => r = some st
    | .dense => (SparsePanics iw dw st.mem ∧ r = none) ∨
      (¬ SparsePanics iw dw st.mem ∧ ∃ c, Picked iw dw st.mem c ∧
        r = (shown m dw c).map fun x => ⟨.sparse, sparsified iw st.mem c x, x⟩)

/-- The possible outcomes of a history. -/
def Runs (m : Mode) (iw dw : Nat) : List ConvOp → Cells → Option Cells → Prop
  | [], st, r => r = some st
  | op :: ops, st, r => ∃ mid, Next m iw dw st op mid ∧
    match mid with
    | none => r = none
    | some st' => Runs m iw dw ops st' r

/-- The values have the widths of the array. -/
def ConvOp.Fits (iw dw : Nat) : ConvOp → Prop
  | .base op => op.Fits iw dw
  | _ => True

/-- Indices do not wrap around in a dense array. -/
def ConvOp.NoWrap (m : Mode) (dw : Nat) : ConvOp → Prop
  | .base op => op.NoWrap m .dense dw
  | _ => True

/-- The state of a new array. -/
def startState (k : Kind) (iw dw : Nat) (v : BitVecValue) : Cells := ⟨k, startCells k iw dw (wordsVal v.words), wordsVal v.words⟩

/-- The possible outcomes of a comparison. Arrays of different kinds are compared after making the sparse one dense. -/
def EqualSpec (m : Mode) (iw dw : Nat) (s t : Cells) (r : Res Bool) : Prop :=
  let mixed := fun (dense sparse : Cells) =>
    (DensePanics m iw dw sparse.mem sparse.dflt → Panics r) ∧
    (¬ DensePanics m iw dw sparse.mem sparse.dflt → ∃ out b, Densified m iw dw sparse.mem sparse.dflt out ∧ r = ok b ∧
      (b = true ↔ ∀ n, n < cellCount iw dw → out n = dense.mem n))
  match s.kind, t.kind with
  | .dense, .dense => ∃ b, r = ok b ∧ (b = true ↔ ∀ n, n < cellCount iw dw → s.mem n = t.mem n)
  | .sparse, .sparse => ∃ b, r = ok b ∧ (b = true ↔ s.dflt = t.dflt ∧ ∀ n, n < 2 ^ 64 → s.mem n = t.mem n)
  | .dense, .sparse => mixed s t
  | .sparse, .dense => mixed t s

end

end Baa

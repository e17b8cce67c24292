import Verif.SpecAnyArray
import Verif.SpecSerde

/-!
# C117: arrays from documents: what they hold

A document that is read as an array declares an index width and a data width, and gives some storage. Nothing relates the three. A dense array
has one of four layouts, whatever the data width is. A sparse array has a default and entries, some of which may be the default; the entries are
numbers, or values under numbers, or values under values, whatever the widths are. The specification says what every operation makes of this.
-/

namespace Baa
open Res

/-- How a dense array keeps its elements: as bits of one long bit-vector, as bytes, as words, or as several words for every element. -/
inductive CellLayout where
  | bits
  | bytes
  | words
  | wide
deriving DecidableEq

/-- A default and entries. -/
structure Sheet (κ α : Type) where
  default : α
  entry : κ → Option α

/-- What an array holds. The `span` is the width of the long bit-vector. -/
inductive Hoard where
  | dense (l : CellLayout) (span : Nat) (mem : Memory)
  | narrow (t : Sheet Nat Nat)
  | broad (t : Sheet Nat Shape)
  | long (t : Sheet Shape Shape)

/-- What there is to know about an array: the declared widths and what it holds. -/
structure Account where
  iw : Nat
  dw : Nat
  hoard : Hoard

/-! ## The account of an array -/

/-- A list of numbers as cells. -/
def cellsOf {k : Nat} (l : List (BitVec k)) : Memory := ⟨l.length, fun n => (l[n]?.map BitVec.toNat).getD 0⟩

/-- The bits of all words of a bit-vector as cells. -/
def bitsOf (v : BitVecValue) : Memory := ⟨64 * v.words.length, fun k => ((wordsVal v.words).testBit k).toNat⟩

/-- What the storage of a dense array holds. -/
def DenseArrayImpl.hoard : DenseArrayImpl → Hoard
  | .bit v => .dense .bits v.width (bitsOf v)
  | .u8 l => .dense .bytes 0 (cellsOf l)
  | .u64 l => .dense .words 0 (cellsOf l)
  | .big l => .dense .wide 0 (cellsOf l)

/-- The entries of a hash table that is indexed by 64-bit words. -/
def entriesOf {V α : Type} (f : V → α) (map : HMap Word V) (k : Nat) : Option α :=
  if k < 2 ^ 64 then (map.get (BitVec.ofNat 64 k)).map f else none

/-- The entries of a hash table that is indexed by values. -/
def valuesOf (map : HMap BitVecValue BitVecValue) (s : Shape) : Option Shape :=
  (map.entries.find? fun e => e.1.shape = s).map fun e => e.2.shape

/-- What the storage of a sparse array holds. -/
def SparseArrayImpl.hoard : SparseArrayImpl → Hoard
  | .u64u64 d map => .narrow ⟨d.toNat, entriesOf BitVec.toNat map⟩
  | .u64big d map => .broad ⟨d.shape, entriesOf BitVecValue.shape map⟩
  | .bigbig d map => .long ⟨d.shape, valuesOf map⟩

/-- The account of an array. -/
def ArrayValue.account : ArrayValue → Account
  | .dense d => ⟨d.indexWidth, d.dataWidth, d.data.hoard⟩
  | .sparse s => ⟨s.indexWidth, s.dataWidth, s.data.hoard⟩

/-- The words of a dense array with several words per element are fewer than the address space has room for. -/
def ArrayValue.InMemory : ArrayValue → Prop
  | .dense ⟨_, _, .big l⟩ => l.length < 2 ^ 60
  | _ => True

/-! ## Dense arrays -/

/-- The value of width `w` that is made from the number `c`. There is none without bits. A number that does not fit is refused by a debug build
and cut by a release build. -/
def numberAs (m : Mode) (w c : Nat) : Option Shape :=
  if w = 0 then none
  else if c < 2 ^ w then some ⟨w, need w, c⟩
  else if m = .debug then none else some ⟨w, need w, c % 2 ^ w⟩

/-- The first cell that an index with the number `I` reaches, or a panic. -/
def CellLayout.locate (m : Mode) (dw count I : Nat) : CellLayout → Option Nat
  | .bits => if I % 2 ^ 32 < count then some (I % 2 ^ 32) else none
  | .bytes | .words => if I < count then some I else none
  | .wide => place m (need dw) count I

/-- The value that is read from cell `n` on. A bit always has width 1. -/
def CellLayout.read (m : Mode) (dw : Nat) (cell : Nat → Nat) (n : Nat) : CellLayout → Option Shape
  | .bits => some ⟨1, 1, cell n⟩
  | .bytes | .words => numberAs m dw (cell n)
  | .wide => some ⟨dw, need dw, gather cell n (need dw)⟩

/-- The cells after data is written from cell `n` on, or a panic. -/
def CellLayout.write (dw : Nat) (cell : Nat → Nat) (n : Nat) (d : Shape) : CellLayout → Option (Nat → Nat)
  | .bits => (d.datum 1).map (setCell cell n)
  | .bytes => (d.datum 8).map (setCell cell n)
  | .words => (d.datum 64).map (setCell cell n)
  | .wide => if d.words = need dw then some (scatter cell n (need dw) d.number) else none

/-! ## Sparse arrays -/

section
variable {κ α : Type} [DecidableEq κ]

/-- What an index holds. -/
def Sheet.read (t : Sheet κ α) (k : κ) : α := (t.entry k).getD t.default

/-- Set the entry of an index, or remove it. -/
def Sheet.set (t : Sheet κ α) (k : κ) (v : Option α) : Sheet κ α := { t with entry := fun k' => if k' = k then v else t.entry k' }

/-- There is an entry. -/
def Sheet.Used (t : Sheet κ α) : Prop := ∃ k, t.entry k ≠ none

/-- The list names every index with an entry, once, in some order. -/
def Sheet.Lists (t : Sheet κ α) (L : List κ) : Prop := L.Nodup ∧ ∀ k, k ∈ L ↔ t.entry k ≠ none

/-- No entries. -/
def Sheet.blank (d : α) : Sheet κ α := ⟨d, fun _ => none⟩

end

/-- A debug build refuses to compare values of the same width that have different numbers of words. -/
abbrev Shape.Odd (m : Mode) (s t : Shape) : Prop := m = .debug ∧ s.width = t.width ∧ s.words ≠ t.words

/-- Data that a debug build refuses to compare with the default. -/
abbrev Shape.Unlike (m : Mode) (dw : Nat) (default d : Shape) : Prop :=
  m = .debug ∧ (d.width ≠ dw ∨ d.width ≠ default.width ∨ d.words ≠ default.words)

/-! ## Operations

The hash table of a `long` array compares indices. It always compares an index with itself if it is stored; which other stored indices it
compares depends on hash bits. So operations can have several outcomes: `none` is a panic. -/

/-- `select`. -/
def Account.Selects (m : Mode) (x : Account) (i : Shape) (r : Option Shape) : Prop :=
  match x.hoard with
  | .dense l _ mem => r = (i.points m x.iw).bind fun I => (l.locate m x.dw mem.count I).bind fun n => l.read m x.dw mem.cell n
  | .narrow t => r = (i.points m x.iw).bind fun I => numberAs m x.dw (t.read I)
  | .broad t => r = (i.points m x.iw).map t.read
  | .long t => (((m = .debug ∧ i.width ≠ x.iw) ∨ t.Used) ∧ r = none) ∨
      (¬ (m = .debug ∧ i.width ≠ x.iw) ∧ t.entry i = none ∧ r = some t.default)

/-- What an array holds after `store`. -/
def Account.Stores (m : Mode) (x : Account) (i d : Shape) (r : Option Hoard) : Prop :=
  match x.hoard with
  | .dense l span mem => r = (i.points m x.iw).bind fun I => (l.locate m x.dw mem.count I).bind fun n =>
      if m = .debug ∧ d.width ≠ x.dw then none
      else (l.write x.dw mem.cell n d).map fun cell => .dense l span ⟨mem.count, cell⟩
  | .narrow t => r = (i.points m x.iw).bind fun I =>
      if (m = .debug ∧ d.width ≠ x.dw) ∨ 2 ^ 64 ≤ d.number then none
      else some (.narrow (t.set I (if d.number = t.default then none else some d.number)))
  | .broad t => r = if t.default.Unlike m x.dw d then none
      else (i.points m x.iw).map fun I => .broad (t.set I (if d.equal t.default then none else some d))
  | .long t => (((m = .debug ∧ i.width ≠ x.iw) ∨ t.default.Unlike m x.dw d) ∧ r = none) ∨
      (¬ (m = .debug ∧ i.width ≠ x.iw) ∧ ¬ t.default.Unlike m x.dw d ∧
        if d.equal t.default then (t.Used ∧ r = none) ∨ (t.entry i = none ∧ r = some (.long t))
        else ((∃ k, t.entry k ≠ none ∧ i.Odd m k) ∧ r = none) ∨ r = some (.long (t.set i (some d))))

/-- What an array holds after `clear`. -/
def Account.cleared (x : Account) : Hoard :=
  match x.hoard with
  | .dense l span mem => .dense l span mem.clear
  | .narrow _ => .narrow (.blank 0)
  | .broad _ => .broad (.blank ⟨x.dw, need x.dw, 0⟩)
  | .long _ => .long (.blank ⟨x.dw, need x.dw, 0⟩)

/-- An operation. -/
def Account.Follows (m : Mode) (x : Account) (op : RawOp) (r : Option Account) : Prop :=
  match op with
  | .store i d => ∃ h, x.Stores m i.shape d.shape h ∧ r = h.map fun h => { x with hoard := h }
  | .clear => r = some { x with hoard := x.cleared }

/-- A history. -/
def Account.Runs (m : Mode) : List RawOp → Account → Option Account → Prop
  | [], x, r => r = some x
  | op :: ops, x, r => ∃ mid, x.Follows m op mid ∧
    match mid with
    | none => r = none
    | some y => Account.Runs m ops y r

/-- The widths of the operands are 32-bit numbers, as all widths are. -/
def RawOp.Typed : RawOp → Prop
  | .store i d => i.width < 2 ^ 32 ∧ d.width < 2 ^ 32
  | .clear => True

/-- Running a history. Every operation meets its own behaviour of hash tables. -/
def runEach (m : Mode) (env : Nat → HashEnv) : ArrayValue → List RawOp → Res ArrayValue
  | a, [] => ok a
  | a, op :: ops => do
    let a ← op.run m (env ops.length) a
    runEach m env a ops

/-- An execution ends as described: with an array that has this account, or with a panic. -/
def Account.Describes (x : Res ArrayValue) : Option Account → Prop
  | some y => ∃ a, x = ok a ∧ a.account = y
  | none => Panics x

/-! ## Comparisons -/

/-- The same default and the same entries. -/
def Sheet.Same {κ α : Type} (t t' : Sheet κ α) : Prop := t.default = t'.default ∧ ∀ k, t.entry k = t'.entry k

/-- As many entries. -/
def Sheet.AsMany {κ α : Type} (t t' : Sheet κ α) : Prop := ∃ L L', t.Lists L ∧ t'.Lists L' ∧ L.length = L'.length

/-- The comparison of two sparse arrays whose entries are values. The defaults are compared first, then the numbers of entries, then the entries
in some order. A look at the index `k` may panic if the other array has an index that is `Bad` for it. -/
def Sheet.Compares {κ : Type} (m : Mode) (Bad : κ → κ → Prop) (t t' : Sheet κ Shape) (r : Option Bool) : Prop :=
  (t.default.Odd m t'.default ∧ r = none) ∨
  (¬ t.default.Odd m t'.default ∧ (t.default ≠ t'.default ∨ ¬ t.AsMany t') ∧ r = some false) ∨
  (t.default = t'.default ∧ t.AsMany t' ∧
    ((t.Same t' ∧ r = some true) ∨
    (∃ k v, t.entry k = some v ∧ t'.entry k ≠ some v ∧ (∀ v', t'.entry k = some v' → ¬ v.Odd m v') ∧ r = some false) ∨
    (∃ k v, t.entry k = some v ∧ ((∃ v', t'.entry k = some v' ∧ v.Odd m v') ∨ ∃ k', t'.entry k' ≠ none ∧ Bad k k') ∧ r = none)))

/-- The comparison of two arrays with the same widths. Two dense arrays, or two sparse arrays, can only be compared if they are kept in the same
way. Of two arrays of bits, a release build compares the cells that both have. -/
def Hoard.Compares (m : Mode) : Hoard → Hoard → Option Bool → Prop
  | .dense l span mem, .dense l' span' mem', r =>
    if l ≠ l' ∨ (l = .bits ∧ m = .debug ∧ (span ≠ span' ∨ mem.count ≠ mem'.count)) then r = none
    else ∃ b, r = some b ∧ (b = true ↔
      if l = .bits then ∀ k, k < min mem.count mem'.count → mem.cell k = mem'.cell k else mem.Same mem')
  | .narrow t, .narrow t', r => ∃ b, r = some b ∧ (b = true ↔ t.Same t')
  | .broad t, .broad t', r => t.Compares m (fun _ _ => False) t' r
  | .long t, .long t', r => t.Compares m (fun k k' => k.Odd m k') t' r
  | _, _, r => r = none

/-- The comparison of two dense or two sparse arrays. -/
def Account.Compares (m : Mode) (x y : Account) (r : Option Bool) : Prop :=
  if x.iw = y.iw ∧ x.dw = y.dw then x.hoard.Compares m y.hoard r else r = some false

/-! ## The entries of a sparse array -/

/-- `default`, or a panic. -/
def Account.standard (m : Mode) (x : Account) : Option Shape :=
  match x.hoard with
  | .dense _ _ _ => none
  | .narrow t => numberAs m x.dw t.default
  | .broad t => some t.default
  | .long t => some t.default

/-- One entry as it is listed, or a panic. -/
def listed (i d : Option Shape) : Option (Shape × Shape) := i.bind fun i => d.map fun d => (i, d)

/-- The possible outcomes of `non_default_entries`. Indices and numbers are made into values of the declared widths. -/
def Account.Shows (m : Mode) (x : Account) (r : Option (List (Shape × Shape))) : Prop :=
  match x.hoard with
  | .dense _ _ _ => False
  | .narrow t => ∃ L, t.Lists L ∧ r = L.mapM fun I => listed (numberAs m x.iw I) (numberAs m x.dw (t.read I))
  | .broad t => ∃ L, t.Lists L ∧ r = L.mapM fun I => listed (numberAs m x.iw I) (some (t.read I))
  | .long t => ∃ L, t.Lists L ∧ r = some (L.map fun i => (i, t.read i))

/-- A list of entries is as described. -/
def EntriesAre (x : Res (List (BitVecValue × BitVecValue))) : Option (List (Shape × Shape)) → Prop
  | some ss => ∃ es, x = ok es ∧ es.map (fun e => (e.1.shape, e.2.shape)) = ss
  | none => Panics x

end Baa

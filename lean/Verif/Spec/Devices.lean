import Verif.Spec.LongArrays
import Verif.SpecObserve
import Verif.SpecParse

/-!
# C112: programs over any values and arrays

A device has numbered registers that hold values, numbered array variables, a program counter and an output. Its program is a list of actions,
with jumps. The first part says how a device calls the library. The second part is the specification: it only knows the `Shape` of a register
and the `Stock` of an array.
-/

namespace Baa
open Res

/-! ## Devices -/

/-- An action of a device. `r`, `a`, `b`, `i`, `d` are registers, `A` and `B` are array variables, `target` is a position in the program. -/
inductive Action where
  | value (r : Nat) (v : BitVecValue)
  | un (r : Nat) (op : UnOp) (a : Nat)
  | bin (r : Nat) (op : MixedOp) (a b : Nat)
  | concat (r a b : Nat)
  /-- `from_bool` of the answer of a comparison -/
  | cmp (r : Nat) (op : MixedCmp) (a b : Nat)
  /-- `from_bool` of the answer of a question -/
  | test (r : Nat) (op : Test) (a : Nat)
  | setU64 (r : Nat) (v : Word)
  | setI64 (r : Nat) (v : Word)
  /-- `assign_from_str_radix`; continue at `target` if it reports an error -/
  | parse (r radix : Nat) (text : List Byte) (target : Nat)
  /-- append `to_bit_str` to the output -/
  | print (a : Nat)
  | jump (target : Nat)
  /-- jump if `is_tru` -/
  | branch (a target : Nat)
  | create (A : Nat) (k : Kind) (iw : Nat) (a : Nat)
  | copy (A B : Nat)
  | store (A i d : Nat)
  | clear (A : Nat)
  | makeDense (A : Nat)
  | toSparse (A : Nat)
  | select (r A i : Nat)
  /-- `from_bool` of the comparison of two arrays -/
  | same (r A B : Nat)

/-- The state of a device. An array variable is an `Option`, and using one without an array is a panic. -/
structure Device where
  pc : Nat
  reg : Nat → BitVecValue
  arr : Nat → Option ArrayValue
  out : List (List Byte)

/-- Go on with a value in register `r`. -/
def Device.write (s : Device) (r : Nat) (v : BitVecValue) : Device :=
  { s with pc := s.pc + 1, reg := fun k => if k = r then v else s.reg k }

/-- Go on with an array in variable `A`. -/
def Device.hold (s : Device) (A : Nat) (a : ArrayValue) : Device :=
  { s with pc := s.pc + 1, arr := fun k => if k = A then some a else s.arr k }

/-- An action in place on an array. -/
def Device.change (m : Mode) (env : HashEnv) (s : Device) (A : Nat) (op : ConvOp) : Res Device := do
  let a ← unwrap (s.arr A)
  let a ← op.run m env a
  ok (s.hold A a)

/-- Performing an action. -/
def Action.run (m : Mode) (env : HashEnv) (s : Device) : Action → Res Device
  | .value r v => ok (s.write r v)
  | .un r op a => do let x ← op.run m (s.reg a); ok (s.write r x)
  | .bin r op a b => do let x ← op.runIn m (s.reg a) (s.reg b); ok (s.write r x)
  | .concat r a b => do let x ← BitVecValue.concat m (s.reg a) (s.reg b); ok (s.write r x)
  | .cmp r op a b => do let t ← op.runIn m (s.reg a) (s.reg b); let x ← BitVecValue.fromBool m t; ok (s.write r x)
  | .test r op a => do let t ← op.run m (s.reg a); let x ← BitVecValue.fromBool m t; ok (s.write r x)
  | .setU64 r v => do let x ← BitVecValue.assignFromU64 m (s.reg r) v; ok (s.write r x)
  | .setI64 r v => do let x ← BitVecValue.assignFromI64 m (s.reg r) v; ok (s.write r x)
  | .parse r radix text target => do
    let p ← BitVecValue.assignFromStrRadix m (s.reg r) text radix
    match p.2 with
    | .ok () => ok (s.write r p.1)
    | .error _ => ok { s.write r p.1 with pc := target }
  | .print a => do let t ← BitVecValue.toBitStr (s.reg a); ok { s with pc := s.pc + 1, out := s.out ++ [t] }
  | .jump target => ok { s with pc := target }
  | .branch a target => do let t ← BitVecValue.isTru (s.reg a); ok { s with pc := if t then target else s.pc + 1 }
  | .create A k iw a => do let x ← newOf k m iw (s.reg a); ok (s.hold A x)
  | .copy A B => do let x ← unwrap (s.arr B); ok (s.hold A x)
  | .store A i d => s.change m env A (.base (.store (s.reg i) (s.reg d)))
  | .clear A => s.change m env A (.base .clear)
  | .makeDense A => s.change m env A .makeDense
  | .toSparse A => s.change m env A .toSparse
  | .select r A i => do let x ← unwrap (s.arr A); let v ← x.select m env (s.reg i); ok (s.write r v)
  | .same r A B => do
    let x ← unwrap (s.arr A)
    let y ← unwrap (s.arr B)
    let t ← x.eq m env y
    let v ← BitVecValue.fromBool m t
    ok (s.write r v)

/-- At most `n` actions. The device stops when the program counter leaves the program. Every action meets its own behaviour of hash tables. -/
def Device.run (m : Mode) (env : Nat → HashEnv) (prog : List Action) : Nat → Device → Res Device
  | 0, s => ok s
  | n + 1, s => match prog[s.pc]? with
    | none => ok s
    | some a => do
      let s ← a.run m (env n) s
      Device.run m env prog n s

/-! ## What arrays do -/

/-- What something can lead to: a value, a panic, or a dense array that does not fit into the address space, about which nothing is said. -/
inductive Upshot (α : Type) where
  | value (a : α)
  | panic
  | outside

/-- The value, or a panic. -/
def Upshot.of {α : Type} : Option α → Upshot α
  | some a => .value a
  | none => .panic

/-- Do something with the value. -/
def Upshot.map {α β : Type} (f : α → β) : Upshot α → Upshot β
  | .value a => .value (f a)
  | .panic => .panic
  | .outside => .outside

/-- What an array holds. A `Table` is a sparse array with an index of up to 64 bits, a `LongTable` one with more. -/
inductive Stock where
  | dense (mem : Memory)
  | table (t : Table)
  | long (t : LongTable)

/-- A new array. -/
def Stock.Created (k : Kind) (m : Mode) (iw : Nat) (v : Shape) (u : Upshot Stock) : Prop :=
  match k with
  | .dense => (¬ Storable .dense m iw v ∧ u = .outside) ∨ (Storable .dense m iw v ∧ u = .of ((Memory.create m iw v).map .dense))
  | .sparse => if iw ≤ 64 then u = .of ((Table.create v).map .table) else u = .value (.long (.create v))

/-- `store`. -/
def Stock.Stored (m : Mode) (iw dw : Nat) (i d : Shape) : Stock → Upshot Stock → Prop
  | .dense mem, u => u = .of ((mem.store m iw dw i d).map .dense)
  | .table t, u => u = .of ((t.store m iw dw i d).map .table)
  | .long t, u => (t.PutRisks m iw dw i d ∧ u = .panic) ∨ (¬ t.PutStops m iw dw i d ∧ u = .value (.long (t.put i d)))

/-- `clear`. -/
def Stock.cleared (dw : Nat) : Stock → Stock
  | .dense mem => .dense mem.clear
  | .table _ => .table (Table.clear dw)
  | .long _ => .long (.create ⟨dw, need dw, 0⟩)

/-- `make_dense`. -/
def Stock.MadeDense (m : Mode) (iw dw : Nat) : Stock → Upshot Stock → Prop
  | .dense mem, u => u = .value (.dense mem)
  | .table t, u => (¬ Storable .dense m iw t.default ∧ u = .outside) ∨
      (Storable .dense m iw t.default ∧ ∃ L, t.Lists L ∧ u = .of ((t.densified m iw dw L).map .dense))
  | .long _, u => u = .panic

/-- The conversion to a sparse array. -/
def Stock.MadeSparse (m : Mode) (iw dw : Nat) : Stock → Upshot Stock → Prop
  | .dense mem, u => if iw ≤ 64 then (u = .panic ∧ ∀ c, mem.sparsified m iw dw c = none) ∨
        ∃ c, Picked (iw % 64) dw (mem.element dw) c ∧ u = .of ((mem.sparsified m iw dw c).map .table)
      else u = .of ((mem.emptied m iw dw).map fun d => .long (.create d))
  | .table t, u => u = .value (.table t)
  | .long t, u => u = .value (.long t)

/-- `select`. -/
def Stock.Selected (m : Mode) (iw dw : Nat) (i : Shape) : Stock → Upshot Shape → Prop
  | .dense mem, u => u = .of (mem.select m iw dw i)
  | .table t, u => u = .of (t.select m iw dw i)
  | .long t, u => (((m = .debug ∧ i.width ≠ iw) ∨ t.Used) ∧ u = .panic) ∨
      (¬ (m = .debug ∧ i.width ≠ iw) ∧ t.stored i = none ∧ u = .value t.default)

/-- A table is made dense and compared with a dense array. -/
def Table.MixedCompared (m : Mode) (iw dw : Nat) (t : Table) (mem : Memory) (u : Upshot Bool) : Prop :=
  (¬ Storable .dense m iw t.default ∧ u = .outside) ∨
  (Storable .dense m iw t.default ∧ ∃ L, t.Lists L ∧
    match t.densified m iw dw L with
    | none => u = .panic
    | some out => ∃ b, u = .value b ∧ (b = true ↔ out.Same mem))

/-- The comparison of two arrays with the same widths. -/
def Stock.Compared (m : Mode) (iw dw : Nat) : Stock → Stock → Upshot Bool → Prop
  | .dense mem, .dense mem', u => ∃ b, u = .value b ∧ (b = true ↔ mem.Same mem')
  | .table t, .dense mem, u | .dense mem, .table t, u => t.MixedCompared m iw dw mem u
  | .long _, .dense _, u | .dense _, .long _, u => u = .panic
  | .table t, .table t', u => ((Contents.sparse t).Clash m dw (.sparse t') ∧ u = .panic) ∨
      (¬ (Contents.sparse t).Clash m dw (.sparse t') ∧ ∃ b, u = .value b ∧ (b = true ↔ t.Same t'))
  | .long t, .long t', u => ((t.Clash m t' ∨ t.MayClash m t') ∧ u = .panic) ∨ (¬ t.Clash m t' ∧ ∃ b, u = .value b ∧ (b = true ↔ t = t'))
  | .table _, .long _, _ | .long _, .table _, _ => False

/-! ## What devices do -/

/-- What there is to know about an array. -/
structure Known where
  iw : Nat
  dw : Nat
  stock : Stock

/-- What there is to know about the state of a device. -/
structure Sketch where
  pc : Nat
  reg : Nat → Shape
  arr : Nat → Option Known
  out : List (List Byte)

/-- Go on with a value in register `r`. -/
def Sketch.write (σ : Sketch) (r : Nat) (v : Shape) : Sketch :=
  { σ with pc := σ.pc + 1, reg := fun k => if k = r then v else σ.reg k }

/-- Go on with an array in variable `A`. -/
def Sketch.hold (σ : Sketch) (A : Nat) (a : Known) : Sketch :=
  { σ with pc := σ.pc + 1, arr := fun k => if k = A then some a else σ.arr k }

/-- The one-bit value that stands for an answer. -/
def Shape.ofBool (b : Bool) : Shape := ⟨1, 1, b.toNat⟩

/-- The comparison of two arrays. Arrays of different widths are different. -/
def Known.Answers (m : Mode) (x y : Known) (u : Upshot Bool) : Prop :=
  if x.iw = y.iw ∧ x.dw = y.dw then x.stock.Compared m x.iw x.dw y.stock u else u = .value false

/-- Change an array in place, if there is one. -/
def Sketch.Changes (σ : Sketch) (A : Nat) (f : Known → Upshot Stock → Prop) (e : Upshot Sketch) : Prop :=
  match σ.arr A with
  | none => e = .panic
  | some x => ∃ u, f x u ∧ e = u.map fun c => σ.hold A { x with stock := c }

/-- What an action can lead to. -/
def Action.Leads (m : Mode) (σ : Sketch) (e : Upshot Sketch) : Action → Prop
  | .value r v => e = .value (σ.write r v.shape)
  | .un r op a => e = .of ((op.foresee m (σ.reg a)).map (σ.write r))
  | .bin r op a b => e = .of ((op.foresee m (σ.reg a) (σ.reg b)).map (σ.write r))
  | .concat r a b => e = .of (((widthSum m (σ.reg a).width (σ.reg b).width).bind ((σ.reg a).concat (σ.reg b))).map (σ.write r))
  | .cmp r op a b => e = .of ((op.foresee m (σ.reg a) (σ.reg b)).map fun t => σ.write r (.ofBool t))
  | .test r op a => e = .of ((op.foresee m (σ.reg a)).map fun t => σ.write r (.ofBool t))
  | .setU64 r v => e = .of (((σ.reg r).setU64 m v.toNat).map (σ.write r))
  | .setI64 r v => e = .of (((σ.reg r).setI64 m v.toNat).map (σ.write r))
  | .parse r radix text target => e =
    match (σ.reg r).parse m radix text with
    | .stores N => .value (σ.write r { σ.reg r with number := N })
    | .invalid N | .exceeds N => .value { σ.write r { σ.reg r with number := N } with pc := target }
    | .panics => .panic
  | .print a => e = .of ((σ.reg a).bits.map fun t => { σ with pc := σ.pc + 1, out := σ.out ++ [t] })
  | .jump target => e = .value { σ with pc := target }
  | .branch a target => e = .of ((Test.foresee m (σ.reg a) .tru).map fun t => { σ with pc := if t then target else σ.pc + 1 })
  | .create A k iw a => ∃ u, Stock.Created k m iw (σ.reg a) u ∧ e = u.map fun c => σ.hold A ⟨iw, (σ.reg a).width, c⟩
  | .copy A B => e = .of ((σ.arr B).map (σ.hold A))
  | .store A i d => σ.Changes A (fun x => x.stock.Stored m x.iw x.dw (σ.reg i) (σ.reg d)) e
  | .clear A => σ.Changes A (fun x u => u = .value (x.stock.cleared x.dw)) e
  | .makeDense A => σ.Changes A (fun x => x.stock.MadeDense m x.iw x.dw) e
  | .toSparse A => σ.Changes A (fun x => x.stock.MadeSparse m x.iw x.dw) e
  | .select r A i => match σ.arr A with
    | none => e = .panic
    | some x => ∃ u, x.stock.Selected m x.iw x.dw (σ.reg i) u ∧ e = u.map (σ.write r)
  | .same r A B => match σ.arr A, σ.arr B with
    | some x, some y => ∃ u, x.Answers m y u ∧ e = u.map fun b => σ.write r (.ofBool b)
    | _, _ => e = .panic

/-- What at most `n` actions can lead to. -/
def Sketch.Runs (m : Mode) (prog : List Action) : Nat → Sketch → Upshot Sketch → Prop
  | 0, σ, e => e = .value σ
  | n + 1, σ, e => match prog[σ.pc]? with
    | none => e = .value σ
    | some a => ∃ mid, a.Leads m σ mid ∧
      match mid with
      | .value σ' => Sketch.Runs m prog n σ' e
      | .panic => e = .panic
      | .outside => e = .outside

/-- An array does what is known about it: it has these widths and this kind, and every `select` gives what it should. For more than 64 index bits
it is also known when `select` depends on the indices that the hash table compares. -/
def Known.Fits (m : Mode) (a : ArrayValue) (x : Known) : Prop :=
  a.indexWidth = x.iw ∧ a.dataWidth = x.dw ∧
  match x.stock with
  | .dense mem => a.isDense = true ∧ ∀ env i, Makes (a.select m env i) (mem.select m x.iw x.dw i.shape)
  | .table t => a.isDense = false ∧ ∀ env i, Makes (a.select m env i) (t.select m x.iw x.dw i.shape)
  | .long t => a.isDense = false ∧ ∀ i : BitVecValue,
    ((∀ env, Panics (a.select m env i)) ↔ (m = .debug ∧ i.width ≠ x.iw) ∨ t.stored i.shape ≠ none) ∧
    ((∀ env, ∃ r, a.select m env i = ok r) ↔ ¬ (m = .debug ∧ i.width ≠ x.iw) ∧ ¬ t.Used) ∧
    (∀ env r, a.select m env i = ok r → r.shape = t.default)

/-- A device is in a state. -/
structure Device.Matches (m : Mode) (s : Device) (σ : Sketch) : Prop where
  pc : s.pc = σ.pc
  out : s.out = σ.out
  reg : ∀ r, (s.reg r).shape = σ.reg r
  arr : ∀ A, match s.arr A, σ.arr A with
    | some a, some x => x.Fits m a
    | none, none => True
    | _, _ => False

/-- What an execution must be to end like this. -/
def Upshot.Describes (m : Mode) (x : Res Device) : Upshot Sketch → Prop
  | .value σ => ∃ s, x = ok s ∧ s.Matches m σ
  | .panic => Panics x
  | .outside => True

/-- The state of a device without arrays. -/
def Device.sketch (s : Device) : Sketch := ⟨s.pc, fun r => (s.reg r).shape, fun _ => none, s.out⟩

/-- Constants have 32-bit widths, slices and extensions 32-bit arguments, and the digits of a text can be counted with 32 bits. Nothing else is
required. -/
def Action.Sized : Action → Prop
  | .value _ v => v.width < 2 ^ 32
  | .un _ op _ => op.Args
  | .parse _ radix text _ => (radix = 2 → (numeralDigits text).length < 2 ^ 32) ∧ (radix = 16 → 4 * (numeralDigits text).length < 2 ^ 32)
  | _ => True

/-- The action does not convert or compare arrays, and does not create a sparse array with more than 64 index bits. -/
def Action.Plain : Action → Prop
  | .makeDense _ | .toSparse _ | .same _ _ _ => False
  | .create _ k iw _ => k = .dense ∨ iw ≤ 64
  | _ => True

end Baa

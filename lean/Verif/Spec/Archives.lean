import Verif.Spec.Devices
import Verif.Spec.DocumentsConv
import Verif.Spec.Loading

/-!
# C119: programs that read documents

The devices of `Spec.Devices` get commands that read values and arrays from documents, write arrays to documents and read them again, and look
at sparse arrays. The first part says how such a device calls the library. The second part is the specification: it only knows the `Shape` of
a register and the `Account` of an array.
-/

namespace Baa
open Res Serde

/-! ## Commands -/

/-- A command is an action of C112, or one of these. -/
inductive Command where
  | act (a : Action)
  /-- read a document as an array; continue at `target` if it is rejected -/
  | load (A : Nat) (doc : Serde) (target : Nat)
  /-- read a document as a value; continue at `target` if it is rejected -/
  | read (r : Nat) (doc : Serde) (target : Nat)
  /-- write array `B` to a document and read it as array `A`; continue at `target` if it is rejected -/
  | resend (A B target : Nat)
  /-- write register `a` to a document and read it into register `r`; continue at `target` if it is rejected -/
  | reread (r a target : Nat)
  /-- the default of a sparse array; continue at `target` if the array is dense -/
  | standard (r A target : Nat)
  /-- append `to_bit_str` of all indices and data that a sparse array lists to the output; continue at `target` if the array is dense -/
  | list (A target : Nat)

/-- The texts of a list of entries. -/
def printEntries : List (BitVecValue × BitVecValue) → Res (List (List Byte))
  | [] => ok []
  | e :: es => do
    let i ← BitVecValue.toBitStr e.1
    let d ← BitVecValue.toBitStr e.2
    let l ← printEntries es
    ok (i :: d :: l)

/-- Performing a command. -/
def Command.run (m : Mode) (env : HashEnv) (s : Device) : Command → Res Device
  | .act a => a.run m env s
  | .load A doc target => do
    match ← loadArray m env doc with
    | some a => ok (s.hold A a)
    | none => ok { s with pc := target }
  | .read r doc target => match readBitVec doc with
    | some v => ok (s.write r v)
    | none => ok { s with pc := target }
  | .resend A B target => do
    let b ← unwrap (s.arr B)
    match ← loadArray m env (ofArray env b) with
    | some a => ok (s.hold A a)
    | none => ok { s with pc := target }
  | .reread r a target => match readBitVec (ofBitVec (s.reg a)) with
    | some v => ok (s.write r v)
    | none => ok { s with pc := target }
  | .standard r A target => do
    let a ← unwrap (s.arr A)
    match a with
    | .sparse a => do let v ← a.default m; ok (s.write r v)
    | .dense _ => ok { s with pc := target }
  | .list A target => do
    let a ← unwrap (s.arr A)
    match a with
    | .sparse a => do
      let es ← a.nonDefaultEntries m env
      let l ← printEntries es
      ok { s with pc := s.pc + 1, out := s.out ++ l }
    | .dense _ => ok { s with pc := target }

/-- At most `n` commands. The device stops when the program counter leaves the program. Every command meets its own behaviour of hash tables. -/
def Device.obey (m : Mode) (env : Nat → HashEnv) (prog : List Command) : Nat → Device → Res Device
  | 0, s => ok s
  | n + 1, s => match prog[s.pc]? with
    | none => ok s
    | some c => do
      let s ← c.run m (env n) s
      Device.obey m env prog n s

/-! ## What there is to know -/

/-- What there is to know about the state of a device. -/
structure Ledger where
  pc : Nat
  reg : Nat → Shape
  arr : Nat → Option Account
  out : List (List Byte)

/-- The ledger of a device. -/
def Device.ledger (s : Device) : Ledger := ⟨s.pc, fun r => (s.reg r).shape, fun A => (s.arr A).map ArrayValue.account, s.out⟩

/-- Go on with a value in register `r`. -/
def Ledger.write (σ : Ledger) (r : Nat) (v : Shape) : Ledger :=
  { σ with pc := σ.pc + 1, reg := fun k => if k = r then v else σ.reg k }

/-- Go on with an array in variable `A`. -/
def Ledger.hold (σ : Ledger) (A : Nat) (x : Account) : Ledger :=
  { σ with pc := σ.pc + 1, arr := fun k => if k = A then some x else σ.arr k }

/-- Everything but the arrays. -/
def Ledger.desk (σ : Ledger) : Sketch := ⟨σ.pc, σ.reg, fun _ => none, σ.out⟩

/-- Everything but the arrays is replaced. -/
def Ledger.atDesk (σ : Ledger) (τ : Sketch) : Ledger := ⟨τ.pc, τ.reg, σ.arr, τ.out⟩

/-- It is a dense array. -/
def Account.Dense (x : Account) : Prop :=
  match x.hoard with
  | .dense _ _ _ => True
  | _ => False

/-- A new array. -/
def Account.Created (k : Kind) (m : Mode) (iw : Nat) (v : Shape) (u : Upshot Account) : Prop :=
  match k with
  | .dense => (¬ Storable .dense m iw v ∧ u = .outside) ∨
      (Storable .dense m iw v ∧ u = .of ((elementCount m iw).bind fun n => (Memory.create m iw v).map fun mem =>
        ⟨iw, v.width, .dense (CellLayout.of v.width) (if v.width = 1 then n % 2 ^ 32 else 0) mem.within⟩))
  | .sparse => u =
      if 64 < iw then .value ⟨iw, v.width, .long (.blank v)⟩
      else if 64 < v.width then .value ⟨iw, v.width, .broad (.blank v)⟩
      else if 2 ^ 64 ≤ v.number then .panic
      else .value ⟨iw, v.width, .narrow (.blank v.number)⟩

/-- The comparison of two arrays. Arrays of different widths are different. A sparse array that is compared with a dense one is made dense. -/
def Account.Answers (m : Mode) (x y : Account) (u : Upshot Bool) : Prop :=
  if x.iw = y.iw ∧ x.dw = y.dw then
    ((x.Dense ↔ y.Dense) ∧ ∃ r, x.Compares m y r ∧ u = .of r) ∨
    (¬ x.Dense ∧ y.Dense ∧ ((¬ x.Roomy m ∧ u = .outside) ∨ (x.Roomy m ∧ ∃ r, x.ComparesMixed m y r ∧ u = .of r))) ∨
    (x.Dense ∧ ¬ y.Dense ∧ ((¬ y.Roomy m ∧ u = .outside) ∨ (y.Roomy m ∧ ∃ r, y.ComparesMixed m x r ∧ u = .of r)))
  else u = .value false

/-- Change an array in place, if there is one. -/
def Ledger.Changes (σ : Ledger) (A : Nat) (f : Account → Upshot Account → Prop) (e : Upshot Ledger) : Prop :=
  match σ.arr A with
  | none => e = .panic
  | some x => ∃ u, f x u ∧ e = u.map (σ.hold A)

/-- What an action can lead to. An action that does not use arrays does what C112 says. -/
def Action.Yields (m : Mode) (σ : Ledger) (e : Upshot Ledger) : Action → Prop
  | .create A k iw a => ∃ u, Account.Created k m iw (σ.reg a) u ∧ e = u.map (σ.hold A)
  | .copy A B => e = .of ((σ.arr B).map (σ.hold A))
  | .store A i d => σ.Changes A (fun x u => ∃ h, x.Stores m (σ.reg i) (σ.reg d) h ∧ u = .of (h.map fun h => { x with hoard := h })) e
  | .clear A => σ.Changes A (fun x u => u = .value { x with hoard := x.cleared }) e
  | .makeDense A => σ.Changes A (fun x u => (¬ x.Roomy m ∧ u = .outside) ∨ (x.Roomy m ∧ ∃ r, x.MakesDense m r ∧ u = .of r)) e
  | .toSparse A => σ.Changes A (fun x u => ∃ r, x.MakesSparse m r ∧ u = .of r) e
  | .select r A i => match σ.arr A with
    | none => e = .panic
    | some x => ∃ v, x.Selects m (σ.reg i) v ∧ e = .of (v.map (σ.write r))
  | .same r A B => match σ.arr A, σ.arr B with
    | some x, some y => ∃ u, x.Answers m y u ∧ e = u.map fun b => σ.write r (.ofBool b)
    | _, _ => e = .panic
  | a => ∃ u, a.Leads m σ.desk u ∧ e = u.map σ.atDesk

/-- The texts of a list of entries, or a panic. -/
def entryTexts : List (Shape × Shape) → Option (List (List Byte))
  | [] => some []
  | e :: es => e.1.bits.bind fun i => e.2.bits.bind fun d => (entryTexts es).map fun l => i :: d :: l

/-- What a command can lead to. -/
def Command.Leads (m : Mode) (σ : Ledger) (e : Upshot Ledger) : Command → Prop
  | .act a => a.Yields m σ e
  | .load A doc target => (m = .debug ∧ Discordant (indicesEntered doc) ∧ e = .panic) ∨ match readArray doc with
    | some a => (¬ a.account.InMemory ∧ e = .outside) ∨ (a.account.InMemory ∧ e = .value (σ.hold A a.account))
    | none => e = .value { σ with pc := target }
  | .read r doc target => match readBitVec doc with
    | some v => e = .value (σ.write r v.shape)
    | none => e = .value { σ with pc := target }
  | .resend A B _ => match σ.arr B with
    | none => e = .panic
    | some x => e = .value (σ.hold A x) ∨ (m = .debug ∧ x.Discordant ∧ e = .panic)
  | .reread r a _ => e = .value (σ.write r (σ.reg a))
  | .standard r A target => match σ.arr A with
    | none => e = .panic
    | some x => (x.Dense ∧ e = .value { σ with pc := target }) ∨ (¬ x.Dense ∧ e = .of ((x.standard m).map (σ.write r)))
  | .list A target => match σ.arr A with
    | none => e = .panic
    | some x => (x.Dense ∧ e = .value { σ with pc := target }) ∨
      (¬ x.Dense ∧ ∃ r, x.Shows m r ∧ e = .of ((r.bind entryTexts).map fun l => { σ with pc := σ.pc + 1, out := σ.out ++ l }))

/-- What at most `n` commands can lead to. -/
def Ledger.Runs (m : Mode) (prog : List Command) : Nat → Ledger → Upshot Ledger → Prop
  | 0, σ, e => e = .value σ
  | n + 1, σ, e => match prog[σ.pc]? with
    | none => e = .value σ
    | some c => ∃ mid, c.Leads m σ mid ∧
      match mid with
      | .value σ' => Ledger.Runs m prog n σ' e
      | .panic => e = .panic
      | .outside => e = .outside

/-- What an execution must be to end like this. -/
def Upshot.Reports (x : Res Device) : Upshot Ledger → Prop
  | .value σ => ∃ s, x = ok s ∧ s.ledger = σ
  | .panic => Panics x
  | .outside => True

/-- Index widths of new arrays are 32-bit numbers, and actions meet the condition of C112. -/
def Command.Sized : Command → Prop
  | .act (.create _ _ iw _) => iw < 2 ^ 32
  | .act a => a.Sized
  | _ => True

/-- A device that can be started: widths are 32-bit numbers, and its arrays can be read from documents and fit into the address space. -/
structure Device.Ready (s : Device) : Prop where
  reg : ∀ r, (s.reg r).width < 2 ^ 32
  arr : ∀ A a, s.arr A = some a → (∃ doc, readArray doc = some a) ∧ a.account.InMemory

end Baa

import Verif.Spec.Archives
import Verif.Spec.Unwind

/-!
# C122: programs that catch panics

The programs of C119 get handlers: a command can name a place where the program goes on if the command panics. The first part says how such a device
calls the library, with the programs of `Model/Unwind.lean` for calls that change something in place. The second part is the specification; what is
left of a register after a panic is given by the formulas of C121.
-/

namespace Baa
open Res Serde

/-! ## Devices with handlers -/

/-- Another value in a register. -/
def Device.put (s : Device) (r : Nat) (v : BitVecValue) : Device := { s with reg := fun k => if k = r then v else s.reg k }

/-- A call with `&mut` on a register. -/
def Device.inRegister {α : Type} (r : Nat) (x : Eff BitVecValue α) : Eff Device α := .zoom (fun s => s.reg r) (fun s v => s.put r v) x

/-- A call with `&mut` on an array. It is a panic if there is no array. -/
def Device.inArray (A : Nat) (x : Eff ArrayValue Unit) : Eff Device Unit := do
  let s ← Eff.get
  let a ← Eff.lift (unwrap (s.arr A))
  .zoom (fun _ => a) (fun s a => { s with arr := fun k => if k = A then some a else s.arr k }) x

/-- Going to the next command. -/
def Device.advance : Eff Device Unit := do
  let s ← Eff.get
  .set { s with pc := s.pc + 1 }

/-- Operations that can be done in place. -/
def UnOp.inPlace (m : Mode) : UnOp → Option (Eff BitVecValue Unit)
  | .maskMsb => some do
    let v ← Eff.get
    Unwind.onWords (Unwind.maskMsb m v.width)
  | .clear => some (Unwind.onWords (Unwind.fill 0#64))
  | .assignOnes => some (Unwind.assignOnes m)
  | .setBit pos => some (Unwind.onWords (Unwind.setBit pos))
  | .clearBit pos => some (Unwind.onWords (Unwind.clearBit pos))
  | _ => none

/-- A command that makes a new state out of the old one; the old one is there until then. -/
def Command.whole (m : Mode) (env : HashEnv) (c : Command) : Eff Device Unit := do
  let s ← Eff.get
  let s ← Eff.lift (c.run m env s)
  .set s

/-- Performing a command, with the state that a panic leaves. An operation that can be done in place is done in place if its operand is the register
for the result. -/
def Command.attempt (m : Mode) (env : HashEnv) : Command → Eff Device Unit
  | .act (.un r op a) => match op.inPlace m with
    | some x => if r = a then (do Device.inRegister r x; Device.advance) else Command.whole m env (.act (.un r op a))
    | none => Command.whole m env (.act (.un r op a))
  | .act (.setU64 r v) => do
    Device.inRegister r (Unwind.assignFromU64 m v)
    Device.advance
  | .act (.setI64 r v) => do
    Device.inRegister r (Unwind.assignFromI64 m v)
    Device.advance
  | .act (.parse r radix text target) => do
    match ← Device.inRegister r (Unwind.assignFromStrRadix m text radix) with
    | .ok () => Device.advance
    | .error _ =>
      let s ← Eff.get
      .set { s with pc := target }
  | .act (.store A i d) => do
    let s ← Eff.get
    Device.inArray A (Unwind.store m env (s.reg i) (s.reg d))
    Device.advance
  | .act (.clear A) => do
    Device.inArray A Unwind.clear
    Device.advance
  | .act (.makeDense A) => do
    Device.inArray A (Unwind.makeDense m env)
    Device.advance
  | c => Command.whole m env c

/-- A command, and where to go on if it panics. -/
structure Guarded where
  command : Command
  handler : Option Nat

/-- At most `n` commands. A panic ends the execution, unless the command has a handler. -/
def Device.endure (m : Mode) (env : Nat → HashEnv) (prog : List Guarded) : Nat → Device → Res Device
  | 0, s => ok s
  | n + 1, s => match prog[s.pc]? with
    | none => ok s
    | some g => match g.command.attempt m (env n) s with
      | (ok (), s) => Device.endure m env prog n s
      | (.panic p, s) => match g.handler with
        | none => .panic p
        | some target => Device.endure m env prog n { s with pc := target }

/-! ## What there is to know -/

/-- Other contents of a register. -/
def Ledger.put (σ : Ledger) (r : Nat) (v : Shape) : Ledger := { σ with reg := fun k => if k = r then v else σ.reg k }

/-- What is left if a command panics: everything, except that a number or a numeral may have been written into a register. -/
def Command.Left (m : Mode) (σ : Ledger) : Command → Ledger
  | .act (.un r .assignOnes a) => if r = a then σ.put r (σ.reg r).leftOnes else σ
  | .act (.setU64 r v) => σ.put r ((σ.reg r).leftU64 m v.toNat)
  | .act (.setI64 r v) => σ.put r ((σ.reg r).leftI64 m v.toNat)
  | .act (.parse r radix text _) => σ.put r ((σ.reg r).leftParse m radix text)
  | _ => σ

/-- What at most `n` commands can lead to. -/
def Ledger.Endures (m : Mode) (prog : List Guarded) : Nat → Ledger → Upshot Ledger → Prop
  | 0, σ, e => e = .value σ
  | n + 1, σ, e => match prog[σ.pc]? with
    | none => e = .value σ
    | some g => ∃ mid, g.command.Leads m σ mid ∧
      match mid with
      | .value σ' => Ledger.Endures m prog n σ' e
      | .outside => e = .outside
      | .panic => match g.handler with
        | none => e = .panic
        | some target => Ledger.Endures m prog n { g.command.Left m σ with pc := target } e

end Baa

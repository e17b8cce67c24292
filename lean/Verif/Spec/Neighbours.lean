import Verif.Model.Buffers
import Verif.Spec.Unwind
import Verif.SpecIndexed

/-!
# Values in one word buffer and values in variables (C123)

A client works with `n` values. It sees what the operations answer, whether they panic, and the values that it reads, and may let everything it does
next depend on that. The values are either stored in one word buffer and accessed with `get_ref` and `get_mut_ref`, or each in a variable of its own.
-/

namespace Baa
open Res

/-- The operations that change a value in place (src/bv/ops.rs:389-517). -/
inductive InPlace where
  | clear
  | ones
  | mask
  | setBit (pos : Nat)
  | clearBit (pos : Nat)
  | u64 (v : Word)
  | i64 (v : Word)
  | parse (text : List Byte) (radix : Nat)
  | assign (v : BitVecValue)

/-- What an operation does to a value, also if it panics. Only `parse` can answer with an error. -/
def InPlace.run (m : Mode) : InPlace → Eff BitVecValue (Except IntErrorKind Unit)
  | .clear => do Unwind.onWords (Unwind.fill 0#64); Eff.pure (.ok ())
  | .ones => do Unwind.assignOnes m; Eff.pure (.ok ())
  | .mask => do let v ← Eff.get; Unwind.onWords (Unwind.maskMsb m v.width); Eff.pure (.ok ())
  | .setBit pos => do Unwind.onWords (Unwind.setBit pos); Eff.pure (.ok ())
  | .clearBit pos => do Unwind.onWords (Unwind.clearBit pos); Eff.pure (.ok ())
  | .u64 v => do Unwind.assignFromU64 m v; Eff.pure (.ok ())
  | .i64 v => do Unwind.assignFromI64 m v; Eff.pure (.ok ())
  | .parse text radix => Unwind.assignFromStrRadix m text radix
  | .assign v => do Unwind.assign m v; Eff.pure (.ok ())

/-- The numerals in an operation have less than 2^32 digits. -/
def InPlace.Short : InPlace → Prop
  | .parse t radix => (radix = 2 → (numeralDigits t).length < 2 ^ 32) ∧ (radix = 16 → 4 * (numeralDigits t).length < 2 ^ 32)
  | _ => True

/-- What a panicking operation leaves of a value `a`: `a` itself, except that a number was assigned as a release build assigns it, if there are bits. -/
def InPlace.Left (a b : BitVecValue) : InPlace → Prop
  | .u64 v => if a.width = 0 then b = a else a.assignFromU64 .release v = ok b
  | .i64 v => if a.width = 0 then b = a else a.assignFromI64 .release v = ok b
  | _ => b = a

/-- One thing that a client does. -/
inductive Request (n : Nat) where
  /-- reads a value: `get_ref(r)` -/
  | read (r : Fin n)
  /-- changes a value in place: `get_mut_ref(r)` and an operation on it -/
  | change (r : Fin n) (op : InPlace)
  /-- `let (r, a) = get_mut_ref((r, a)); r.assign(f(a))`, where `f` is any calculation -/
  | map (r a : Fin n) (f : BitVecValue → Res BitVecValue)
  /-- `let (r, a, b) = get_mut_ref((r, a, b)); r.assign(f(a, b))`, where `f` is any calculation -/
  | combine (r a b : Fin n) (f : BitVecValue → BitVecValue → Res BitVecValue)

/-- What a client sees. -/
inductive Reply where
  | done
  | failed (e : IntErrorKind)
  | value (v : BitVecValue)
  | panicked

/-- The answer of an operation. -/
def Reply.of : Except IntErrorKind Unit → Reply
  | .ok () => .done
  | .error e => .failed e

/-- A client: it stops, or requests something and goes on with the answer. If `caught` is set, it catches a panic of this request. -/
inductive Client (n : Nat) where
  | stop
  | ask (request : Request n) (caught : Bool) (next : Reply → Client n)

/-- Everything that a client sees, or `none` if it ends with a panic; and the state afterwards. -/
def Client.run {n : Nat} {σ : Type} (serve : Request n → Eff σ Reply) : Client n → σ → Option (List Reply) × σ
  | .stop, s => (some [], s)
  | .ask request caught next, s =>
    match serve request s with
    | (ok r, s') => (((next r).run serve s').1.map (r :: ·), ((next r).run serve s').2)
    | (.panic _, s') =>
      if caught then (((next .panicked).run serve s').1.map (.panicked :: ·), ((next .panicked).run serve s').2) else (none, s')

/-- The values in variables: a request for one changeable and other readable ones panics if the changeable one is among the others, unless it has no
bits. -/
def Request.onVariables {n : Nat} (m : Mode) : Request n → Eff (Fin n → BitVecValue) Reply
  | .read r => do
    let ρ ← Eff.get
    Eff.pure (.value (ρ r))
  | .change r op => do
    let e ← Eff.zoom (fun ρ => ρ r) (fun ρ v k => if k = r then v else ρ k) (op.run m)
    Eff.pure (.of e)
  | .map r a f => do
    let ρ ← Eff.get
    if r = a ∧ (ρ r).width ≠ 0 then Eff.lift (.panic .bounds)
    else
      let v ← Eff.lift (f (ρ a))
      Eff.zoom (fun ρ => ρ r) (fun ρ v k => if k = r then v else ρ k) (Unwind.assign m v)
      Eff.pure .done
  | .combine r a b f => do
    let ρ ← Eff.get
    if (r = a ∨ r = b) ∧ (ρ r).width ≠ 0 then Eff.lift (.panic .bounds)
    else
      let v ← Eff.lift (f (ρ a) (ρ b))
      Eff.zoom (fun ρ => ρ r) (fun ρ v k => if k = r then v else ρ k) (Unwind.assign m v)
      Eff.pure .done

/-- The values in a word buffer, at the places given by `L`. -/
def Request.onBuffer {n : Nat} (L : Fin n → BitVecValueIndex) (m : Mode) : Request n → Eff (List Word) Reply
  | .read r => do
    let data ← Eff.get
    let v ← Eff.lift (Indexed.getRef data (L r))
    Eff.pure (.value v)
  | .change r op => do
    let e ← Unwind.through (L r) (op.run m)
    Eff.pure (.of e)
  | .map r a f => do
    Unwind.through2 (L r) (L a) fun va => do
      let v ← Eff.lift (f va)
      Unwind.assign m v
    Eff.pure .done
  | .combine r a b f => do
    Unwind.through3 (L r) (L a) (L b) fun va vb => do
      let v ← Eff.lift (f va vb)
      Unwind.assign m v
    Eff.pure .done

/-- The buffer has room for all values, and they do not overlap. -/
structure Placed {n : Nat} (L : Fin n → BitVecValueIndex) (data : List Word) : Prop where
  inBounds : ∀ k, InBounds data (L k)
  apart : ∀ j k, j ≠ k → Apart (L j) (L k)

/-- Every value in the buffer reads as the one in the variable. -/
def Mirrors {n : Nat} (L : Fin n → BitVecValueIndex) (data : List Word) (ρ : Fin n → BitVecValue) : Prop :=
  ∀ k, Indexed.getRef data (L k) = ok (ρ k)

/-- Nothing but the values has changed. -/
def OnlyWithin {n : Nat} (L : Fin n → BitVecValueIndex) (data data' : List Word) : Prop :=
  data'.length = data.length ∧ ∀ k, (∀ r, k < (L r).index ∨ pastEnd (L r) ≤ k) → data'[k]? = data[k]?

end Baa

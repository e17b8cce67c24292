import Verif.Spec.Smt

/-!
# Clocked systems, for C144

Registers and memories that all change at once, as in synchronous hardware, and a simulator that computes them with the library. Next
states are the terms of `Spec/Smt.lean`.
-/

namespace Baa
open Res

/-- A register or a memory: the variable that holds it, what it starts with, and what it holds after the next tick. -/
structure Register where
  srt : Srt
  num : Nat
  init : SmtTerm srt
  next : SmtTerm srt

/-- Registers and observed signals. All other variables are inputs. -/
structure ClockedSystem where
  registers : List Register
  outputs : List ((w : Nat) × SmtTerm (.bv w))

/-- The variable that holds a register. -/
def Register.slot (r : Register) : Srt × Nat := (r.srt, r.num)

/-- All widths are sensible, and no two registers share a variable. -/
def ClockedSystem.Legal (sys : ClockedSystem) : Prop :=
  (∀ r ∈ sys.registers, r.init.Legal ∧ r.next.Legal) ∧ (∀ o ∈ sys.outputs, o.2.Legal) ∧ (sys.registers.map Register.slot).Nodup

/-! ## Meaning -/

/-- `τ` follows a tick: every register holds what `value` says in the valuation `σ`, and every other variable holds the input `ι`. -/
def Follows (registers : List Register) (value : (r : Register) → SmtTerm r.srt) (σ ι τ : (s : Srt) → Nat → s.Val) : Prop :=
  (∀ r ∈ registers, τ r.srt r.num = (value r).denote σ) ∧ ∀ s n, (s, n) ∉ registers.map Register.slot → τ s n = ι s n

/-- `σ` is a run: `σ k` are the values of all variables between tick `k` and tick `k + 1`, and `ι k` are the inputs at that time. -/
def ClockedSystem.IsRun (sys : ClockedSystem) (ι σ : Nat → (s : Srt) → Nat → s.Val) : Prop :=
  Follows sys.registers Register.init (ι 0) (ι 0) (σ 0) ∧ ∀ k, Follows sys.registers Register.next (σ k) (ι (k + 1)) (σ (k + 1))

/-! ## Simulation with the library -/

deriving instance DecidableEq for Srt

/-- Change one variable. -/
def setVar (V : (s : Srt) → Nat → s.Obj) (s : Srt) (n : Nat) (x : s.Obj) : (s : Srt) → Nat → s.Obj :=
  fun s' n' => if h : s = s' then (if n = n' then h ▸ x else V s' n') else V s' n'

/-- Evaluate a term for every register with the variables `V`, and write the results over the inputs `I`. -/
def tick (m : Mode) (env : HashEnv) (value : (r : Register) → SmtTerm r.srt) (V I : (s : Srt) → Nat → s.Obj) :
    List Register → Res ((s : Srt) → Nat → s.Obj)
  | [] => ok I
  | r :: rs => do
    let x ← (value r).eval m env V
    let W ← tick m env value V I rs
    ok (setVar W r.srt r.num x)

/-- Evaluate the outputs. -/
def observe (m : Mode) (env : HashEnv) (V : (s : Srt) → Nat → s.Obj) : List ((w : Nat) × SmtTerm (.bv w)) → Res (List BitVecValue)
  | [] => ok []
  | o :: os => do
    let x ← o.2.eval m env V
    let xs ← observe m env V os
    ok (x :: xs)

/-- `n` times: observe the outputs, then tick. -/
def ClockedSystem.steps (m : Mode) (env : HashEnv) (sys : ClockedSystem) (I : Nat → (s : Srt) → Nat → s.Obj) :
    (n k : Nat) → (V : (s : Srt) → Nat → s.Obj) → Res (List (List BitVecValue))
  | 0, _, _ => ok []
  | n + 1, k, V => do
    let o ← observe m env V sys.outputs
    let W ← tick m env Register.next V (I (k + 1)) sys.registers
    let os ← sys.steps m env I n (k + 1) W
    ok (o :: os)

/-- Simulate for `n` ticks from the initial values. -/
def ClockedSystem.simulate (m : Mode) (env : HashEnv) (sys : ClockedSystem) (I : Nat → (s : Srt) → Nat → s.Obj) (n : Nat) :
    Res (List (List BitVecValue)) := do
  let V ← tick m env Register.init (I 0) (I 0) sys.registers
  sys.steps m env I n 0 V

end Baa

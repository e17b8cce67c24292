/-!
# Rust run-time behaviour used by the model

Words, build modes, panics, checked integer arithmetic, and slice access.
-/

namespace Baa

/-- `pub type Word = u64` (src/lib.rs:8). -/
abbrev Word := BitVec 64

/-- Rust `u8`. Strings are modelled as their UTF-8 bytes. -/
abbrev Byte := BitVec 8

/-- Cargo build profile: `debug_assert!` and integer overflow checks are only active in `debug`. -/
inductive Mode where
  | debug
  | release
deriving DecidableEq, Repr

/-- Reasons why a Rust function may panic. -/
inductive Panic where
  /-- arithmetic overflow check (debug builds only) -/
  | overflow
  /-- index or slice range out of bounds -/
  | bounds
  /-- `unwrap` on `None` / `Err` -/
  | unwrap
  /-- `assert!` -/
  | assert
  /-- `debug_assert!` (debug builds only) -/
  | debugAssert
  /-- `todo!()` -/
  | todo
  /-- `unreachable!()` -/
  | unreachable
  /-- `copy_from_slice` / `clone_from_slice` with different lengths -/
  | lenMismatch
  /-- explicit `panic!` -/
  | explicit
deriving DecidableEq, Repr

/-- Outcome of a Rust computation: it returns or it panics. -/
inductive Res (α : Type) where
  | ok (a : α)
  | panic (p : Panic)
deriving DecidableEq, Repr

namespace Res

/-- Sequencing: a panic aborts the rest of the computation. -/
def bind {α β : Type} (x : Res α) (f : α → Res β) : Res β :=
  match x with
  | ok a => f a
  | panic p => panic p

instance : Monad Res where
  pure := ok
  bind := bind

/-- The computation panics (for whatever reason). -/
def Panics {α : Type} (x : Res α) : Prop := ∃ p, x = panic p

@[simp] theorem ok_bind {α β : Type} (a : α) (f : α → Res β) : (ok a >>= f) = f a := rfl
@[simp] theorem panic_bind {α β : Type} (p : Panic) (f : α → Res β) :
    ((panic p : Res α) >>= f) = panic p := rfl
@[simp] theorem pure_eq {α : Type} (a : α) : (pure a : Res α) = ok a := rfl

end Res

open Res

/-- `debug_assert!(b)`. -/
def debugAssert (m : Mode) (b : Bool) : Res Unit :=
  match m, b with
  | .debug, false => panic .debugAssert
  | _, _ => ok ()

/-- `assert!(b)`. -/
def assert (b : Bool) : Res Unit := if b then ok () else panic .assert

/-- `u32::MAX + 1`. -/
abbrev U32 : Nat := 4294967296

/-- `u64::MAX + 1` (also `usize::MAX + 1`, 64-bit target). -/
abbrev U64 : Nat := 18446744073709551616

/-- `u128::MAX + 1`. -/
abbrev U128 : Nat := 340282366920938463463374607431768211456

/-- `Word::BITS` -/
abbrev BITS : Nat := 64

/-- `a + b` on an unsigned type with `M` values: overflow panics in debug, wraps in release. -/
def addC (m : Mode) (M a b : Nat) : Res Nat :=
  if a + b < M then ok (a + b)
  else match m with
    | .debug => panic .overflow
    | .release => ok ((a + b) % M)

/-- `a - b` on an unsigned type with `M` values: underflow panics in debug, wraps in release. -/
def subC (m : Mode) (M a b : Nat) : Res Nat :=
  if b ≤ a then ok (a - b)
  else match m with
    | .debug => panic .overflow
    | .release => ok ((M + a - b) % M)

/-- `a * b` on an unsigned type with `M` values: overflow panics in debug, wraps in release. -/
def mulC (m : Mode) (M a b : Nat) : Res Nat :=
  if a * b < M then ok (a * b)
  else match m with
    | .debug => panic .overflow
    | .release => ok ((a * b) % M)

/-- Amount check of a 64-bit `<<`/`>>`: an amount `≥ 64` panics in debug and is reduced modulo 64 in release. -/
def shiftAmount64 (m : Mode) (n : Nat) : Res Nat :=
  if n < 64 then ok n
  else match m with
    | .debug => panic .overflow
    | .release => ok (n % 64)

/-- `a.div_ceil(b)`. -/
def divCeil (a b : Nat) : Nat := (a + b - 1) / b

/-- `&l[lo..hi]`. -/
def sliceR {α : Type} (l : List α) (lo hi : Nat) : Res (List α) :=
  if lo ≤ hi ∧ hi ≤ l.length then ok ((l.drop lo).take (hi - lo)) else panic .bounds

/-- Mutating `&mut l[lo..hi]` in place with `f` (the function's write-back into the parent slice). -/
def modifyRange {α : Type} (l : List α) (lo hi : Nat) (f : List α → Res (List α)) : Res (List α) := do
  let s ← sliceR l lo hi
  let s' ← f s
  ok (l.take lo ++ s' ++ l.drop hi)

/-- `l[i]`. -/
def idx {α : Type} (l : List α) (i : Nat) : Res α :=
  match l[i]? with
  | some x => ok x
  | none => panic .bounds

/-- `l[i] = x`. -/
def setIdx {α : Type} (l : List α) (i : Nat) (x : α) : Res (List α) :=
  if i < l.length then ok (l.set i x) else panic .bounds

/-- `l.last().unwrap()`. -/
def lastU {α : Type} (l : List α) : Res α :=
  match l.getLast? with
  | some x => ok x
  | none => panic .unwrap

/-- `o.unwrap()`. -/
def unwrap {α : Type} (o : Option α) : Res α :=
  match o with
  | some x => ok x
  | none => panic .unwrap

end Baa

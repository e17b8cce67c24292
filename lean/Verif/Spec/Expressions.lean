import Verif.Spec

/-!
# Expressions over values, and values with arbitrary words
-/

namespace Baa

/-! ## C01 – C05, C25, C26: constructors, machine integers, predicates, in-place assignment -/

section
open Res BitVecValue

/-- A destination of width `w`: the right number of words, with arbitrary (even non-canonical) contents. -/
structure Slot (s : BitVecValue) (w : Nat) : Prop where
  width_lt : w < 2 ^ 32
  width_eq : s.width = w
  length_eq : s.words.length = (w + 63) / 64

/-- The integer `z` is representable in `w`-bit two's complement. -/
def FitsSigned (z : Int) (w : Nat) : Prop := -(2 ^ (w - 1) : Int) ≤ z ∧ z < 2 ^ (w - 1)

instance (z : Int) (w : Nat) : Decidable (FitsSigned z w) := by unfold FitsSigned; infer_instance

end

/-! ## C27: closure of the operations under arbitrary composition -/

section
open Res

/-- Computations with a result of the given width. -/
inductive Expr : Nat → Type where
  /-- a value that is already there -/
  | leaf (v : BitVecValue) : Expr v.width
  | add {w : Nat} (a b : Expr w) : Expr w
  | sub {w : Nat} (a b : Expr w) : Expr w
  | mul {w : Nat} (a b : Expr w) : Expr w
  | and {w : Nat} (a b : Expr w) : Expr w
  | or {w : Nat} (a b : Expr w) : Expr w
  | xor {w : Nat} (a b : Expr w) : Expr w
  | shl {w : Nat} (a b : Expr w) : Expr w
  | shr {w : Nat} (a b : Expr w) : Expr w
  | ashr {w : Nat} (a b : Expr w) : Expr w
  | neg {w : Nat} (a : Expr w) : Expr w
  | not {w : Nat} (a : Expr w) : Expr w
  | slice {w : Nat} (a : Expr w) (msb lsb : Nat) : Expr (msb - lsb + 1)
  | concat {w v : Nat} (a : Expr w) (b : Expr v) : Expr (w + v)
  | zext {w : Nat} (a : Expr w) (n : Nat) : Expr (w + n)
  | sext {w : Nat} (a : Expr w) (n : Nat) : Expr (w + n)
  | eq {w : Nat} (a b : Expr w) : Expr 1
  | ugt {w : Nat} (a b : Expr w) : Expr 1
  | sgt {w : Nat} (a b : Expr w) : Expr 1
  | sge {w : Nat} (a b : Expr w) : Expr 1
  /-- `if c.is_tru() { a } else { b }` -/
  | ite {w : Nat} (c : Expr 1) (a b : Expr w) : Expr w

/-- Run the computation with the code. -/
def Expr.eval (m : Mode) : {w : Nat} → Expr w → Res BitVecValue
  | _, .leaf v => ok v
  | _, .add a b => do let x ← a.eval m; let y ← b.eval m; BitVecValue.add m x y
  | _, .sub a b => do let x ← a.eval m; let y ← b.eval m; BitVecValue.sub m x y
  | _, .mul a b => do let x ← a.eval m; let y ← b.eval m; BitVecValue.mul m x y
  | _, .and a b => do let x ← a.eval m; let y ← b.eval m; BitVecValue.and m x y
  | _, .or a b => do let x ← a.eval m; let y ← b.eval m; BitVecValue.or m x y
  | _, .xor a b => do let x ← a.eval m; let y ← b.eval m; BitVecValue.xor m x y
  | _, .shl a b => do let x ← a.eval m; let y ← b.eval m; BitVecValue.shiftLeft m x y
  | _, .shr a b => do let x ← a.eval m; let y ← b.eval m; BitVecValue.shiftRight m x y
  | _, .ashr a b => do let x ← a.eval m; let y ← b.eval m; BitVecValue.arithmeticShiftRight m x y
  | _, .neg a => do let x ← a.eval m; BitVecValue.negate m x
  | _, .not a => do let x ← a.eval m; BitVecValue.not m x
  | _, .slice a msb lsb => do let x ← a.eval m; BitVecValue.slice m x msb lsb
  | _, .concat a b => do let x ← a.eval m; let y ← b.eval m; BitVecValue.concat m x y
  | _, .zext a n => do let x ← a.eval m; BitVecValue.zeroExtend m x n
  | _, .sext a n => do let x ← a.eval m; BitVecValue.signExtend m x n
  | _, .eq a b => do let x ← a.eval m; let y ← b.eval m; let r ← BitVecValue.isEqual m x y; BitVecValue.fromBool m r
  | _, .ugt a b => do let x ← a.eval m; let y ← b.eval m; let r ← BitVecValue.isGreater m x y; BitVecValue.fromBool m r
  | _, .sgt a b => do let x ← a.eval m; let y ← b.eval m; let r ← BitVecValue.isGreaterSigned m x y; BitVecValue.fromBool m r
  | _, .sge a b => do let x ← a.eval m; let y ← b.eval m; let r ← BitVecValue.isGreaterOrEqualSigned m x y; BitVecValue.fromBool m r
  | _, .ite c a b => do let x ← c.eval m; let t ← x.isTru; if t then a.eval m else b.eval m

/-- The mathematical result. -/
def Expr.denote : {w : Nat} → Expr w → BitVec w
  | _, .leaf v => BitVec.ofNat v.width (wordsVal v.words)
  | _, .add a b => a.denote + b.denote
  | _, .sub a b => a.denote - b.denote
  | _, .mul a b => a.denote * b.denote
  | _, .and a b => a.denote &&& b.denote
  | _, .or a b => a.denote ||| b.denote
  | _, .xor a b => a.denote ^^^ b.denote
  | _, .shl a b => a.denote <<< b.denote.toNat
  | _, .shr a b => a.denote >>> b.denote.toNat
  | _, .ashr a b => a.denote.sshiftRight b.denote.toNat
  | _, .neg a => -a.denote
  | _, .not a => ~~~a.denote
  | _, .slice a msb lsb => a.denote.extractLsb' lsb (msb - lsb + 1)
  | _, .concat a b => a.denote ++ b.denote
  | _, @Expr.zext w a n => a.denote.setWidth (w + n)
  | _, @Expr.sext w a n => a.denote.signExtend (w + n)
  | _, .eq a b => BitVec.ofBool (decide (a.denote = b.denote))
  | _, .ugt a b => BitVec.ofBool (decide (a.denote.toNat > b.denote.toNat))
  | _, .sgt a b => BitVec.ofBool (decide (a.denote.toInt > b.denote.toInt))
  | _, .sge a b => BitVec.ofBool (decide (a.denote.toInt ≥ b.denote.toInt))
  | _, .ite c a b => if c.denote = 1#1 then a.denote else b.denote

/-- Legal computations: the leaves are canonical values of positive width, slices are in range, widths fit into a `u32`. -/
def Expr.Legal : {w : Nat} → Expr w → Prop
  | _, .leaf v => Canonical v ∧ 0 < v.width
  | _, .add a b => a.Legal ∧ b.Legal
  | _, .sub a b => a.Legal ∧ b.Legal
  | _, .mul a b => a.Legal ∧ b.Legal
  | _, .and a b => a.Legal ∧ b.Legal
  | _, .or a b => a.Legal ∧ b.Legal
  | _, .xor a b => a.Legal ∧ b.Legal
  | _, .shl a b => a.Legal ∧ b.Legal
  | _, .shr a b => a.Legal ∧ b.Legal
  | _, .ashr a b => a.Legal ∧ b.Legal
  | _, .neg a => a.Legal
  | _, .not a => a.Legal
  | _, @Expr.slice w a msb lsb => a.Legal ∧ msb < w ∧ lsb ≤ msb
  | _, @Expr.concat w v a b => a.Legal ∧ b.Legal ∧ w + v < 2 ^ 32
  | _, @Expr.zext w a n => a.Legal ∧ w + n < 2 ^ 32
  | _, @Expr.sext w a n => a.Legal ∧ w + n < 2 ^ 32
  | _, .eq a b => a.Legal ∧ b.Legal
  | _, .ugt a b => a.Legal ∧ b.Legal
  | _, .sgt a b => a.Legal ∧ b.Legal
  | _, .sge a b => a.Legal ∧ b.Legal
  | _, .ite c a b => c.Legal ∧ a.Legal ∧ b.Legal

/-- The two things the code does not get right: products wider than 64 bits, and left shifts by a multiple of 64 that move
bits beyond the width. -/
def Expr.Supported : {w : Nat} → Expr w → Prop
  | _, .leaf _ => True
  | _, .add a b => a.Supported ∧ b.Supported
  | _, .sub a b => a.Supported ∧ b.Supported
  | _, @Expr.mul w a b => a.Supported ∧ b.Supported ∧ w ≤ 64
  | _, .and a b => a.Supported ∧ b.Supported
  | _, .or a b => a.Supported ∧ b.Supported
  | _, .xor a b => a.Supported ∧ b.Supported
  | _, @Expr.shl w a b => a.Supported ∧ b.Supported ∧
      (b.denote.toNat % 64 ≠ 0 ∨ b.denote.toNat = 0 ∨ w ≤ b.denote.toNat ∨ w % 64 = 0 ∨
        a.denote.toNat * 2 ^ b.denote.toNat < 2 ^ w)
  | _, .shr a b => a.Supported ∧ b.Supported
  | _, .ashr a b => a.Supported ∧ b.Supported
  | _, .neg a => a.Supported
  | _, .not a => a.Supported
  | _, .slice a _ _ => a.Supported
  | _, .concat a b => a.Supported ∧ b.Supported
  | _, .zext a _ => a.Supported
  | _, .sext a _ => a.Supported
  | _, .eq a b => a.Supported ∧ b.Supported
  | _, .ugt a b => a.Supported ∧ b.Supported
  | _, .sgt a b => a.Supported ∧ b.Supported
  | _, .sge a b => a.Supported ∧ b.Supported
  | _, .ite c a b => c.Supported ∧ a.Supported ∧ b.Supported

end

/-! ## C77: values with stray bits above their width -/

section
open Res BitVecValue

/-- The value `v` has the width and the number of words of `x`, and its bits below the width are those of `x`. Nothing is said about
the bits above the width. -/
structure Shows (v : BitVecValue) {w : Nat} (x : BitVec w) : Prop where
  width_lt : w < 2 ^ 32
  width_eq : v.width = w
  length_eq : v.words.length = (w + 63) / 64
  low : ∀ i, i < w → bit v.words i = x.getLsbD i

/-- Computations the code gets right. `clean` says whether the result must be free of stray bits. Only products wider than 64 bits, and
values with stray bits where they are looked at, are excluded. -/
def Expr.Safe : (clean : Bool) → {w : Nat} → Expr w → Prop
  | _, _, .leaf _ => True
  | _, _, .add a b => a.Safe false ∧ b.Safe false
  | _, _, .sub a b => a.Safe false ∧ b.Safe false
  | _, w, .mul a b => a.Safe false ∧ b.Safe false ∧ w ≤ 64
  | clean, _, .and a b => (a.Safe clean ∧ b.Safe false) ∨ (a.Safe false ∧ b.Safe clean)
  | clean, _, .or a b => a.Safe clean ∧ b.Safe clean
  | clean, _, .xor a b => a.Safe clean ∧ b.Safe clean
  | clean, w, .shl a b => b.Safe true ∧
      if clean = true then
        (a.Safe false ∧ (b.denote.toNat % 64 ≠ 0 ∨ w ≤ b.denote.toNat ∨ w % 64 = 0)) ∨
        (a.Safe true ∧ (b.denote.toNat = 0 ∨ a.denote.toNat * 2 ^ b.denote.toNat < 2 ^ w))
      else a.Safe false
  | _, _, .shr a b => a.Safe false ∧ b.Safe true
  | _, _, .ashr a b => a.Safe false ∧ b.Safe true
  | _, _, .neg a => a.Safe false
  | _, _, .not a => a.Safe false
  | _, _, .slice a _ _ => a.Safe false
  | _, _, .concat a b => a.Safe true ∧ b.Safe true
  | _, _, .zext a _ => a.Safe true
  | _, _, .sext a _ => a.Safe true
  | _, _, .eq a b => a.Safe true ∧ b.Safe true
  | _, _, .ugt a b => a.Safe true ∧ b.Safe true
  | _, _, .sgt a b => a.Safe true ∧ b.Safe true
  | _, _, .sge a b => a.Safe true ∧ b.Safe true
  | clean, _, .ite c a b => c.Safe true ∧ a.Safe clean ∧ b.Safe clean

/-- `Denotes` if the result must be free of stray bits, `Shows` otherwise. -/
def Result (clean : Bool) (r : BitVecValue) {w : Nat} (x : BitVec w) : Prop := if clean = true then Denotes r x else Shows r x

end

/-! ## C86: the outcome of a computation on arbitrary words -/

section
open Res BitVecValue

/-- The value has width `w`, the number of words that belongs to it, and the words, read as one number, are `N`. Bits above the width
are allowed. -/
structure Raw (v : BitVecValue) (w N : Nat) : Prop where
  width_lt : w < 2 ^ 32
  width_eq : v.width = w
  length_eq : v.words.length = (w + 63) / 64
  val_eq : wordsVal v.words = N

/-- The bits of `N` below the width. -/
abbrev low (w N : Nat) : BitVec w := BitVec.ofNat w N

/-- The number of bits in the words of a value of width `w`. -/
def capacity (w : Nat) : Nat := 64 * ((w + 63) / 64)

/-- The number in the words of the result of a computation; `none` if the computation panics. -/
def Expr.raw : {w : Nat} → Expr w → Option Nat
  | _, .leaf v => some (wordsVal v.words)
  | w, .add a b => do let N ← a.raw; let M ← b.raw; some (low w N + low w M).toNat
  | w, .sub a b => do let N ← a.raw; let M ← b.raw; some (low w N - low w M).toNat
  | w, .mul a b => do let N ← a.raw; let M ← b.raw; if w ≤ 64 then some (low w N * low w M).toNat else none
  | _, .and a b => do let N ← a.raw; let M ← b.raw; some (N &&& M)
  | _, .or a b => do let N ← a.raw; let M ← b.raw; some (N ||| M)
  | _, .xor a b => do let N ← a.raw; let M ← b.raw; some (N ^^^ M)
  | w, .shl a b => do
    let N ← a.raw; let M ← b.raw
    some (if w ≤ M then 0 else if M % 64 = 0 then (N <<< M) % 2 ^ capacity w else (N <<< M) % 2 ^ w)
  | w, .shr a b => do let N ← a.raw; let M ← b.raw; some ((N % 2 ^ w) >>> M)
  | w, .ashr a b => do let N ← a.raw; let M ← b.raw; some ((low w N).sshiftRight M).toNat
  | w, .neg a => do let N ← a.raw; some (-low w N).toNat
  | w, .not a => do let N ← a.raw; some (~~~low w N).toNat
  | _, .slice a msb lsb => do let N ← a.raw; some ((N >>> lsb) % 2 ^ (msb - lsb + 1))
  | _, @Expr.concat w v a b => do let N ← a.raw; let M ← b.raw; some ((N <<< v ||| M) % 2 ^ capacity (w + v))
  | _, .zext a _ => a.raw
  | _, @Expr.sext w a n => do
    let N ← a.raw
    some (if N.testBit (w - 1) = true then ((low w N).signExtend (w + n)).toNat else N)
  | _, .eq a b => do let N ← a.raw; let M ← b.raw; some (decide (N = M)).toNat
  | _, .ugt a b => do let N ← a.raw; let M ← b.raw; some (decide (N > M)).toNat
  | _, @Expr.sgt w a b => do
    let N ← a.raw; let M ← b.raw
    some (if N.testBit (w - 1) = M.testBit (w - 1) then decide (N > M) else M.testBit (w - 1)).toNat
  | _, @Expr.sge w a b => do
    let N ← a.raw; let M ← b.raw
    some (if N.testBit (w - 1) = M.testBit (w - 1) then decide (N ≥ M) else M.testBit (w - 1)).toNat
  | _, .ite c a b => do let N ← c.raw; if N = 1 then a.raw else b.raw

/-- The leaves have a positive width and the right number of words, slices are in range, widths fit into a `u32`. Unlike in
`Expr.Legal`, the leaves may have bits above their width. -/
def Expr.Shaped : {w : Nat} → Expr w → Prop
  | _, .leaf v => 0 < v.width ∧ v.width < 2 ^ 32 ∧ v.words.length = (v.width + 63) / 64
  | _, .add a b => a.Shaped ∧ b.Shaped
  | _, .sub a b => a.Shaped ∧ b.Shaped
  | _, .mul a b => a.Shaped ∧ b.Shaped
  | _, .and a b => a.Shaped ∧ b.Shaped
  | _, .or a b => a.Shaped ∧ b.Shaped
  | _, .xor a b => a.Shaped ∧ b.Shaped
  | _, .shl a b => a.Shaped ∧ b.Shaped
  | _, .shr a b => a.Shaped ∧ b.Shaped
  | _, .ashr a b => a.Shaped ∧ b.Shaped
  | _, .neg a => a.Shaped
  | _, .not a => a.Shaped
  | _, @Expr.slice w a msb lsb => a.Shaped ∧ msb < w ∧ lsb ≤ msb
  | _, @Expr.concat w v a b => a.Shaped ∧ b.Shaped ∧ w + v < 2 ^ 32
  | _, @Expr.zext w a n => a.Shaped ∧ w + n < 2 ^ 32
  | _, @Expr.sext w a n => a.Shaped ∧ w + n < 2 ^ 32
  | _, .eq a b => a.Shaped ∧ b.Shaped
  | _, .ugt a b => a.Shaped ∧ b.Shaped
  | _, .sgt a b => a.Shaped ∧ b.Shaped
  | _, .sge a b => a.Shaped ∧ b.Shaped
  | _, .ite c a b => c.Shaped ∧ a.Shaped ∧ b.Shaped

/-- `o` is the outcome of a run: the number in the words of the result, of width `w`, or a panic. -/
def Outcome (r : Res BitVecValue) (w : Nat) : Option Nat → Prop
  | some N => ∃ v, r = ok v ∧ Raw v w N
  | none => Panics r

end

/-! ## C87: what the observers report about arbitrary words -/

section
open Res BitVecValue Strings

/-- What `to_i64` reports: up to 64 bits the words, with everything above the width set if the sign bit is set; above 64 bits the low
word, if the words above are all zeros or all ones and agree with its sign. -/
def i64Of (w N : Nat) : Option Word :=
  if w = 0 then some 0#64
  else if w ≤ 64 then some (if N.testBit (w - 1) = true then (low w N).signExtend 64 else BitVec.ofNat 64 N)
  else if N < 2 ^ 63 ∨ 2 ^ capacity w ≤ N + 2 ^ 63 then some (BitVec.ofNat 64 N) else none

/-- The magnitude the signed text prints: of the two's complement number if the sign bit is set, else all the words. -/
def magnitude (w N : Nat) : Nat := if N.testBit (w - 1) = true then (-low w N).toNat else N

end

end Baa

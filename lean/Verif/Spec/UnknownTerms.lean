import Verif.Spec.UnknownBits

/-!
# Terms over values with unknown bits, for C169
-/

namespace Baa
open Res

inductive UOp
  | and | or | xor | add | sub

/-- Terms; the index is the width. A variable is named by its width and a number. -/
inductive UTerm : Nat → Type
  | var (w k : Nat) : UTerm w
  | const {w : Nat} (c : BitVec w) : UTerm w
  | not {w : Nat} (a : UTerm w) : UTerm w
  | bin {w : Nat} (op : UOp) (a b : UTerm w) : UTerm w
  | concat {w v : Nat} (a : UTerm w) (b : UTerm v) : UTerm (w + v)
  | slice {w : Nat} (a : UTerm w) (hi lo : Nat) : UTerm (hi - lo + 1)
  | zext {w : Nat} (a : UTerm w) (n : Nat) : UTerm (w + n)
  | sext {w : Nat} (a : UTerm w) (n : Nat) : UTerm (w + n)
  | ite {w : Nat} (c : UTerm 1) (a b : UTerm w) : UTerm w

/-- No width is zero or too large, and slices are inside. -/
def UTerm.Legal : {w : Nat} → UTerm w → Prop
  | w, .var _ _ => 0 < w ∧ w < 2 ^ 32
  | w, .const _ => 0 < w ∧ w < 2 ^ 32
  | _, .not a => a.Legal
  | _, .bin _ a b => a.Legal ∧ b.Legal
  | _, .concat (w := w) (v := v) a b => a.Legal ∧ b.Legal ∧ w + v < 2 ^ 32
  | _, .slice (w := w) a hi lo => a.Legal ∧ hi < w ∧ lo ≤ hi
  | _, .zext (w := w) a n => a.Legal ∧ w + n < 2 ^ 32
  | _, .sext (w := w) a n => a.Legal ∧ w + n < 2 ^ 32
  | _, .ite c a b => c.Legal ∧ a.Legal ∧ b.Legal

def UOp.on {w : Nat} : UOp → BitVec w → BitVec w → BitVec w
  | .and => (· &&& ·)
  | .or => (· ||| ·)
  | .xor => (· ^^^ ·)
  | .add => (· + ·)
  | .sub => (· - ·)

/-- What a term means. -/
def UTerm.value (ρ : (w : Nat) → Nat → BitVec w) : {w : Nat} → UTerm w → BitVec w
  | _, .var w k => ρ w k
  | _, .const c => c
  | _, .not a => ~~~(a.value ρ)
  | _, .bin op a b => op.on (a.value ρ) (b.value ρ)
  | _, .concat a b => a.value ρ ++ b.value ρ
  | _, .slice a hi lo => (a.value ρ).extractLsb' lo (hi - lo + 1)
  | _, .zext (w := w) a n => (a.value ρ).setWidth (w + n)
  | _, .sext (w := w) a n => (a.value ρ).signExtend (w + n)
  | _, .ite c a b => if c.value ρ = 1#1 then a.value ρ else b.value ρ

/-- The term computed with the operations of the library. -/
def UTerm.run (m : Mode) (e : Nat → Nat → BitVecValue) : {w : Nat} → UTerm w → Res BitVecValue
  | _, .var w k => ok (e w k)
  | _, .const c => ok (encode c)
  | _, .not a => do
    let x ← a.run m e
    BitVecValue.not m x
  | _, .bin op a b => do
    let x ← a.run m e
    let y ← b.run m e
    match op with
    | .and => BitVecValue.and m x y
    | .or => BitVecValue.or m x y
    | .xor => BitVecValue.xor m x y
    | .add => BitVecValue.add m x y
    | .sub => BitVecValue.sub m x y
  | _, .concat a b => do
    let x ← a.run m e
    let y ← b.run m e
    BitVecValue.concat m x y
  | _, .slice a hi lo => do
    let x ← a.run m e
    BitVecValue.slice m x hi lo
  | _, .zext a n => do
    let x ← a.run m e
    BitVecValue.zeroExtend m x n
  | _, .sext a n => do
    let x ← a.run m e
    BitVecValue.signExtend m x n
  | _, .ite c a b => do
    let z ← c.run m e
    let one ← BitVecValue.tru m
    let t ← BitVecValue.isEqual m z one
    if t then a.run m e else b.run m e

/-- The pair for one of two pairs, if it is not known which one: the bits that are known and equal in both. -/
def unknownChoice (m : Mode) (a s b t : BitVecValue) : Res (BitVecValue × BitVecValue) := do
  let d ← BitVecValue.xor m a b
  let u ← BitVecValue.or m d s
  let u ← BitVecValue.or m u t
  let n ← BitVecValue.not m u
  let v ← BitVecValue.and m a n
  ok (v, u)

/-- The term computed on pairs. -/
def UTerm.runUnknown (m : Mode) (e : Nat → Nat → BitVecValue × BitVecValue) : {w : Nat} → UTerm w → Res (BitVecValue × BitVecValue)
  | _, .var w k => ok (e w k)
  | w, .const c => ok (encode c, BitVecValue.zero w)
  | _, .not a => do
    let (x, s) ← a.runUnknown m e
    unknownNot m x s
  | _, .bin op a b => do
    let (x, s) ← a.runUnknown m e
    let (y, t) ← b.runUnknown m e
    match op with
    | .and => unknownAnd m x s y t
    | .or => unknownOr m x s y t
    | .xor => unknownXor m x s y t
    | .add => unknownAdd m x s y t
    | .sub => unknownSub m x s y t
  | _, .concat a b => do
    let (x, s) ← a.runUnknown m e
    let (y, t) ← b.runUnknown m e
    let v ← BitVecValue.concat m x y
    let u ← BitVecValue.concat m s t
    ok (v, u)
  | _, .slice a hi lo => do
    let (x, s) ← a.runUnknown m e
    let v ← BitVecValue.slice m x hi lo
    let u ← BitVecValue.slice m s hi lo
    ok (v, u)
  | _, .zext a n => do
    let (x, s) ← a.runUnknown m e
    let v ← BitVecValue.zeroExtend m x n
    let u ← BitVecValue.zeroExtend m s n
    ok (v, u)
  | _, .sext a n => do
    let (x, s) ← a.runUnknown m e
    let v ← BitVecValue.signExtend m x n
    let u ← BitVecValue.signExtend m s n
    ok (v, u)
  | _, .ite c a b => do
    let (z, r) ← c.runUnknown m e
    let one ← BitVecValue.tru m
    let unsure ← BitVecValue.isEqual m r one
    let t ← BitVecValue.isEqual m z one
    if unsure then
      let (x, s) ← a.runUnknown m e
      let (y, t) ← b.runUnknown m e
      unknownChoice m x s y t
    else if t then a.runUnknown m e
    else b.runUnknown m e

end Baa

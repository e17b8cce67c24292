import Verif.Spec

/-!
# Values with unknown bits, for C168

A pair of bit-vectors stands for a set of values: the ones of the second are the bits that are not known, the first holds the others,
with zeros in place of the unknown ones.
-/

namespace Baa
open Res

variable {w : Nat}

/-- `x` is one of the values that the pair of `v` and `u` stands for. -/
def Matches (v u x : BitVec w) : Prop := x &&& ~~~u = v

/-- The pair of `v` and `u` is right for the results of an operation on the values of two pairs: it stands for all of them, and a bit
is unknown only if two of them differ there. -/
def BestPair (op : BitVec w → BitVec w → BitVec w) (a s b t v u : BitVec w) : Prop :=
  (∀ x y, Matches a s x → Matches b t y → Matches v u (op x y)) ∧
  ∀ i, u.getLsbD i = true → ∃ x y x' y', Matches a s x ∧ Matches b t y ∧ Matches a s x' ∧ Matches b t y' ∧
    (op x y).getLsbD i ≠ (op x' y').getLsbD i

def unknownNot (m : Mode) (a s : BitVecValue) : Res (BitVecValue × BitVecValue) := do
  let p ← BitVecValue.or m a s
  let v ← BitVecValue.not m p
  ok (v, s)

def unknownAnd (m : Mode) (a s b t : BitVecValue) : Res (BitVecValue × BitVecValue) := do
  let v ← BitVecValue.and m a b
  let p ← BitVecValue.or m a s
  let q ← BitVecValue.or m b t
  let r ← BitVecValue.and m p q
  let u ← BitVecValue.xor m r v
  ok (v, u)

def unknownOr (m : Mode) (a s b t : BitVecValue) : Res (BitVecValue × BitVecValue) := do
  let v ← BitVecValue.or m a b
  let p ← BitVecValue.or m a s
  let q ← BitVecValue.or m b t
  let r ← BitVecValue.or m p q
  let u ← BitVecValue.xor m r v
  ok (v, u)

def unknownXor (m : Mode) (a s b t : BitVecValue) : Res (BitVecValue × BitVecValue) := do
  let u ← BitVecValue.or m s t
  let x ← BitVecValue.xor m a b
  let n ← BitVecValue.not m u
  let v ← BitVecValue.and m x n
  ok (v, u)

/-- The smallest and the largest sum differ in the bits that an unknown carry can reach. -/
def unknownAdd (m : Mode) (a s b t : BitVecValue) : Res (BitVecValue × BitVecValue) := do
  let low ← BitVecValue.add m a b
  let more ← BitVecValue.add m s t
  let high ← BitVecValue.add m low more
  let d ← BitVecValue.xor m high low
  let u ← BitVecValue.or m d s
  let u ← BitVecValue.or m u t
  let n ← BitVecValue.not m u
  let v ← BitVecValue.and m low n
  ok (v, u)

/-- `x - y` is `!(!x + y)`. -/
def unknownSub (m : Mode) (a s b t : BitVecValue) : Res (BitVecValue × BitVecValue) := do
  let (a, s) ← unknownNot m a s
  let (v, u) ← unknownAdd m a s b t
  unknownNot m v u

end Baa

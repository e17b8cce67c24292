import Verif.Model.Ops

/-!
# A Hamming code, for C157

Words that carry their own check bits: bit `i` has the number `i + 1`, and the bits whose number is a power of two are check bits.
-/

namespace Baa
open Res

/-- Toggle a bit. -/
def toggleBit (v : BitVecValue) (i : Nat) : Res BitVecValue := do
  let b ← v.isBitSet i
  if b then v.clearBit i else v.setBit i

/-- The exclusive or of `s` and the numbers of the bits of `v` that are set, in `r` bits. -/
def syndromeOf (m : Mode) (r : Nat) (v : BitVecValue) : BitVecValue → List Nat → Res BitVecValue
  | s, [] => ok s
  | s, i :: is => do
    let b ← v.isBitSet i
    let n ← BitVecValue.fromU64 m (BitVec.ofNat 64 (i + 1)) r
    let s' ← (if b then BitVecValue.xor m s n else ok s)
    syndromeOf m r v s' is

/-- The syndrome of a word. It is zero if the check bits are right. -/
def syndrome (m : Mode) (r : Nat) (v : BitVecValue) : Res BitVecValue :=
  syndromeOf m r v (BitVecValue.zero r) (List.range v.width)

/-- Toggle the check bits named by a syndrome. -/
def toggleChecks (s : BitVecValue) : BitVecValue → List Nat → Res BitVecValue
  | v, [] => ok v
  | v, k :: ks => do
    let b ← s.isBitSet k
    let v ← (if b then toggleBit v (2 ^ k - 1) else ok v)
    toggleChecks s v ks

/-- Set the `r` check bits of a word. -/
def protect (m : Mode) (r : Nat) (v : BitVecValue) : Res BitVecValue := do
  let s ← syndrome m r v
  toggleChecks s v (List.range r)

/-- Correct a word: the syndrome is the number of the wrong bit. -/
def repair (m : Mode) (r : Nat) (v : BitVecValue) : Res BitVecValue := do
  let s ← syndrome m r v
  if s.isZero then ok v
  else do
    let n ← unwrap s.toU64
    toggleBit v (n.toNat - 1)

/-- Is the word free of errors? -/
def intact (m : Mode) (r : Nat) (v : BitVecValue) : Res Bool := do
  let s ← syndrome m r v
  ok s.isZero

end Baa

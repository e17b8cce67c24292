import Verif.Model.Ops

/-!
# Values packed into one word, for C140
-/

namespace Baa
open Res

/-- Fields concatenated one after the other, the first one on top. -/
def packFields (m : Mode) (v : BitVecValue) : List BitVecValue → Res BitVecValue
  | [] => ok v
  | f :: fs => do
    let r ← BitVecValue.concat m v f
    packFields m r fs

/-- Slices of the given widths below position `top`, the first one on top. -/
def unpackFields (m : Mode) (r : BitVecValue) : (top : Nat) → List Nat → Res (List BitVecValue)
  | _, [] => ok []
  | top, w :: ws => do
    let f ← BitVecValue.slice m r (top - 1) (top - w)
    let fs ← unpackFields m r (top - w) ws
    ok (f :: fs)

/-- A field written into a word: mask out the old bits, shift the new ones into place. -/
def setField (m : Mode) (r f : BitVecValue) (lsb : Nat) : Res BitVecValue := do
  let amount ← BitVecValue.fromU64 m (BitVec.ofNat 64 lsb) r.width
  let low ← BitVecValue.ones m f.width
  let low ← BitVecValue.zeroExtend m low (r.width - f.width)
  let mask ← BitVecValue.shiftLeft m low amount
  let keep ← BitVecValue.not m mask
  let rest ← BitVecValue.and m r keep
  let f ← BitVecValue.zeroExtend m f (r.width - f.width)
  let f ← BitVecValue.shiftLeft m f amount
  BitVecValue.or m rest f

end Baa

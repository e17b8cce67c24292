import Verif.Model.Unwind

/-!
# Programs on values in a word buffer, also when they panic

A mutable reference from `get_mut_ref` is a view of a part of the buffer. What a program does to it is in the buffer right away, so it is there after a
panic, too.
-/

namespace Baa
open Res Eff

namespace Unwind
variable {α : Type}

/-- A program on `data.get_mut_ref(i)` (src/bv/indexed.rs:86-96). -/
def through (i : BitVecValueIndex) (x : Eff BitVecValue α) : Eff (List Word) α := do
  let data ← get
  let ri ← lift (Indexed.getMutRef data i)
  zoom (fun _ => ri) (fun data v => Indexed.writeBack data i.index v.words) x

/-- A program on `data.get_mut_ref((i, a))` (src/bv/indexed.rs:98-116), which may look at the second value. -/
def through2 (i a : BitVecValueIndex) (x : BitVecValue → Eff BitVecValue α) : Eff (List Word) α := do
  let data ← get
  let (ri, ra) ← lift (Indexed.getMutRef2 data i a)
  zoom (fun _ => ri) (fun data v => Indexed.writeBack data i.index v.words) (x ra)

/-- A program on `data.get_mut_ref((i, a, b))` (src/bv/indexed.rs:118-160), which may look at the second and the third value. -/
def through3 (i a b : BitVecValueIndex) (x : BitVecValue → BitVecValue → Eff BitVecValue α) : Eff (List Word) α := do
  let data ← get
  let (ri, ra, rb) ← lift (Indexed.getMutRef3 data i a b)
  zoom (fun _ => ri) (fun data v => Indexed.writeBack data i.index v.words) (x ra rb)

end Unwind
end Baa

import Verif.Model.Ops
import Verif.Model.HMap

/-!
# Model of src/bv/indexed.rs
-/

namespace Baa
open Res

/-- `BitVecValueIndex` (src/bv/indexed.rs:17-20). -/
structure BitVecValueIndex where
  index : Nat
  width : Nat
deriving DecidableEq, Repr

namespace BitVecValueIndex

/-- `words` (src/bv/indexed.rs:29-31). -/
def words (i : BitVecValueIndex) : Nat := divCeil i.width BITS

/-- `to_range` (src/bv/indexed.rs:34-38), start and end. -/
def toRange (i : BitVecValueIndex) : Nat × Nat := (i.index, i.index + i.words)

end BitVecValueIndex

namespace Indexed

/-- `get_ref(index)` (src/bv/indexed.rs:51-61). -/
def getRef (data : List Word) (i : BitVecValueIndex) : Res BitVecValue := do
  let ws ← sliceR data i.toRange.1 i.toRange.2
  ok ⟨i.width, ws⟩

/-- `get_ref((a, b))` (src/bv/indexed.rs:63-79). -/
def getRef2 (data : List Word) (a b : BitVecValueIndex) : Res (BitVecValue × BitVecValue) := do
  let wa ← sliceR data a.toRange.1 a.toRange.2
  let wb ← sliceR data b.toRange.1 b.toRange.2
  ok (⟨a.width, wa⟩, ⟨b.width, wb⟩)

/-- `get_mut_ref(index)` (src/bv/indexed.rs:86-96). -/
def getMutRef (data : List Word) (i : BitVecValueIndex) : Res BitVecValue := do
  let ws ← sliceR data i.toRange.1 i.toRange.2
  ok ⟨i.width, ws⟩

/-- `slice::split_at_mut`. -/
def splitAt (l : List Word) (mid : Nat) : Res (List Word × List Word) :=
  if mid ≤ l.length then ok (l.take mid, l.drop mid) else panic .bounds

/-- `split_borrow_1` (src/bv/indexed.rs:163-177) with `move_range` (180-185) inlined. Ranges come from `to_range`, so
`end - start` and (under the guard) `- offset` cannot underflow. Returns `(dst_words, src_words)`. -/
def splitBorrow1 (data : List Word) (dst src : Nat × Nat) : Res (List Word × List Word) := do
  let (beforeDst, afterDstStart) ← splitAt data dst.1
  let (dstWords, afterDst) ← splitAt afterDstStart (dst.2 - dst.1)
  let off := dst.2
  let srcWords ←
    (if src.1 ≥ off then sliceR afterDst (src.1 - off) (src.2 - off)
    else sliceR beforeDst src.1 src.2)
  ok (dstWords, srcWords)

/-- `split_borrow_2` (src/bv/indexed.rs:188-208). Returns `(dst_words, a_words, b_words)`. -/
def splitBorrow2 (data : List Word) (dst srcA srcB : Nat × Nat) :
    Res (List Word × List Word × List Word) := do
  let (beforeDst, afterDstStart) ← splitAt data dst.1
  let (dstWords, afterDst) ← splitAt afterDstStart (dst.2 - dst.1)
  let off := dst.2
  let aWords ←
    (if srcA.1 ≥ off then sliceR afterDst (srcA.1 - off) (srcA.2 - off)
    else sliceR beforeDst srcA.1 srcA.2)
  let bWords ←
    (if srcB.1 ≥ off then sliceR afterDst (srcB.1 - off) (srcB.2 - off)
    else sliceR beforeDst srcB.1 srcB.2)
  ok (dstWords, aWords, bWords)

/-- `get_mut_ref((a, b))` (src/bv/indexed.rs:98-116): current contents of the mutable and of the shared reference. -/
def getMutRef2 (data : List Word) (a b : BitVecValueIndex) : Res (BitVecValue × BitVecValue) := do
  let (wa, wb) ← splitBorrow1 data a.toRange b.toRange
  ok (⟨a.width, wa⟩, ⟨b.width, wb⟩)

/-- `get_mut_ref((a, b, c))` (src/bv/indexed.rs:118-160). -/
def getMutRef3 (data : List Word) (a b c : BitVecValueIndex) :
    Res (BitVecValue × BitVecValue × BitVecValue) := do
  let (wa, wb, wc) ← splitBorrow2 data a.toRange b.toRange c.toRange
  ok (⟨a.width, wa⟩, ⟨b.width, wb⟩, ⟨c.width, wc⟩)

/-- Effect on the backing slice of writing `new` through a mutable reference that starts at word `start`
(`split_at_mut` hands out a view of `data[start .. start + new.len()]`). -/
def writeBack (data : List Word) (start : Nat) (new : List Word) : List Word :=
  data.take start ++ new ++ data.drop (start + new.length)

/-- `data.get_mut_ref(a).assign(value)`. -/
def assignAt (m : Mode) (data : List Word) (a : BitVecValueIndex) (value : BitVecValue) : Res (List Word) := do
  let ra ← getMutRef data a
  let ra ← BitVecValue.assign m ra value
  ok (writeBack data a.index ra.words)

/-- `let (mut a, b) = data.get_mut_ref((a, b)); a.assign(b)` (usage in src/bv/indexed.rs:313-316). -/
def assignFrom (m : Mode) (data : List Word) (a b : BitVecValueIndex) : Res (List Word) := do
  let (ra, rb) ← getMutRef2 data a b
  let ra ← BitVecValue.assign m ra rb
  ok (writeBack data a.index ra.words)

end Indexed

/-- `ValueInterner` (src/bv/indexed.rs:213-217). -/
structure ValueInterner where
  words : List Word
  small : HMap Word Nat
  large : HMap (List Word) Nat

namespace ValueInterner

/-- `new` (src/bv/indexed.rs:237-247). -/
def new : ValueInterner :=
  { words := [0#64, 1#64, 2#64, 3#64, 4#64, 5#64, 6#64, 7#64], small := HMap.empty, large := HMap.empty }

/-- `is_zero` (src/bv/indexed.rs:249-251). -/
def isZero (i : BitVecValueIndex) : Bool := i.index == 0

/-- `is_one` (src/bv/indexed.rs:253-255). -/
def isOne (i : BitVecValueIndex) : Bool := i.index == 1

/-- `get_index` (src/bv/indexed.rs:257-283): the interner afterwards and the index. `len() as WordIndex` truncates. -/
def getIndex (m : Mode) (self : ValueInterner) (value : BitVecValue) :
    Res (ValueInterner × BitVecValueIndex) :=
  match value.words with
  | [word] => do
    debugAssert m (decide (value.width ≤ BITS))
    if word.toNat < 8 then ok (self, ⟨word.toNat, value.width⟩)
    else match self.small.get word with
      | some index => ok (self, ⟨index, value.width⟩)
      | none =>
        let index := self.words.length % U32
        ok ({ self with words := self.words ++ [word], small := self.small.insert word index }, ⟨index, value.width⟩)
  | words => do
    debugAssert m (decide (value.width > BITS))
    match self.large.get words with
    | some index => ok (self, ⟨index, value.width⟩)
    | none =>
      let index := self.words.length % U32
      ok ({ self with words := self.words ++ words, large := self.large.insert words index }, ⟨index, value.width⟩)

/-- `impl Debug for ValueInterner` (src/bv/indexed.rs:225-234). -/
def debugText (self : ValueInterner) : List Byte :=
  "ValueInterner(".toList.map ch ++ decimal self.small.len ++ " small, ".toList.map ch ++ decimal self.large.len ++
    " large)".toList.map ch

end ValueInterner
end Baa

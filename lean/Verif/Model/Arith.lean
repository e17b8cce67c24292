import Verif.Model.Basic

/-!
# Model of src/bv/arithmetic.rs

Every function that takes `dst: &mut [Word]` takes the old contents of `dst` and returns the new contents.
Shift amounts of word shifts that are visibly below 64 (results of `% Word::BITS`, or `Word::BITS - k` under the
guard `k > 0`) use the plain `BitVec` shift; all other overflow-capable operations are checked.
-/

namespace Baa
namespace Arith
open Res

/-- `mask` (src/bv/arithmetic.rs:15-22). -/
def mask (bits : Nat) : Res Word :=
  if bits = BITS ∨ bits = 0 then ok (BitVec.allOnes 64)
  else do
    assert (bits < BITS)
    ok ((1#64 <<< bits) - 1#64)

/-- `clear` (src/bv/arithmetic.rs:25-29). -/
def clear (dst : List Word) : List Word := dst.map fun _ => 0#64

/-- `set` (src/bv/arithmetic.rs:32-36). -/
def set (dst : List Word) : List Word := dst.map fun _ => BitVec.allOnes 64

/-- `assign` (src/bv/arithmetic.rs:39-43): zipped copy, a longer `dst` keeps its tail. -/
def assign : List Word → List Word → List Word
  | [], _ => []
  | d :: ds, [] => d :: ds
  | _ :: ds, s :: ss => s :: assign ds ss

/-- `zero_extend` (src/bv/arithmetic.rs:46-51). -/
def zeroExtend (dst source : List Word) : Res (List Word) := do
  let dst := assign dst source
  modifyRange dst source.length dst.length fun s => ok (clear s)

/-- `mask_msb` (src/bv/arithmetic.rs:79-83). -/
def maskMsb (m : Mode) (dst : List Word) (width : Nat) : Res (List Word) := do
  debugAssert m (divCeil width BITS == dst.length)
  let mk ← mask (width % BITS)
  let l ← lastU dst
  ok (dst.dropLast ++ [l &&& mk])

/-- `is_neg` (src/bv/arithmetic.rs:367-372). -/
def isNeg (m : Mode) (src : List Word) (width : Nat) : Res Bool := do
  let w1 ← subC m U32 width 1
  let msbBitId := w1 % BITS
  let msbWord ← lastU src
  ok (((msbWord >>> msbBitId) &&& 1#64) == 1#64)

/-- `sign_extend` (src/bv/arithmetic.rs:54-76). -/
def signExtend (m : Mode) (dst source : List Word) (srcWidth dstWidth : Nat) : Res (List Word) := do
  let dst := assign dst source
  let neg ← isNeg m source srcWidth
  if neg then
    let lsbsInMsb := srcWidth % BITS
    let dst ←
      (if lsbsInMsb > 0 then do
        let msbsInMsb := BITS - lsbsInMsb
        let mk ← mask msbsInMsb
        let i ← subC m U64 source.length 1
        let d ← idx dst i
        setIdx dst i (d ||| (mk <<< lsbsInMsb))
      else ok dst)
    let dst ← modifyRange dst source.length dst.length fun s => ok (set s)
    maskMsb m dst dstWidth
  else
    modifyRange dst source.length dst.length fun s => ok (clear s)

/-- `is_bit_set` (src/bv/arithmetic.rs:86-90). -/
def isBitSet (source : List Word) (pos : Nat) : Res Bool := do
  let bitIdx := pos % BITS
  let wordIdx := pos / BITS
  let w ← idx source wordIdx
  ok (((w >>> bitIdx) &&& 1#64) == 1#64)

/-- `set_bit` (src/bv/arithmetic.rs:93-97). -/
def setBit (dst : List Word) (pos : Nat) : Res (List Word) := do
  let bitIdx := pos % BITS
  let wordIdx := pos / BITS
  let w ← idx dst wordIdx
  setIdx dst wordIdx (w ||| (1#64 <<< bitIdx))

/-- `clear_bit` (src/bv/arithmetic.rs:100-104). -/
def clearBit (dst : List Word) (pos : Nat) : Res (List Word) := do
  let bitIdx := pos % BITS
  let wordIdx := pos / BITS
  let w ← idx dst wordIdx
  setIdx dst wordIdx (w &&& ~~~(1#64 <<< bitIdx))

/-- The zipped loop of `slice` (src/bv/arithmetic.rs:123-126); the second list already carries the chained `0`. -/
def sliceLoop (shiftRight shiftLeft : Nat) (mk : Word) : Word → List Word → List Word → List Word
  | _, [], _ => []
  | _, d :: ds, [] => d :: ds
  | prev, _ :: ds, s :: ss =>
    (prev ||| ((s &&& mk) <<< shiftLeft)) :: sliceLoop shiftRight shiftLeft mk (s >>> shiftRight) ds ss

/-- `slice` (src/bv/arithmetic.rs:107-130). -/
def slice (m : Mode) (dst source : List Word) (hi lo : Nat) : Res (List Word) := do
  let loOffset := lo % BITS
  let hiWord := hi / BITS
  let loWord := lo / BITS
  let src ← sliceR source loWord (hiWord + 1)
  let shiftRight := loOffset
  let dst ←
    (if shiftRight = 0 then ok (assign dst src)
    else do
      let shiftLeft := BITS - shiftRight
      let mk ← mask shiftRight
      let s0 ← idx src 0
      ok (sliceLoop shiftRight shiftLeft mk (s0 >>> shiftRight) dst (src.drop 1 ++ [0#64])))
  let d ← subC m U32 hi lo
  let rw ← addC m U32 d 1
  maskMsb m dst rw

/-- The zipped loop of `concat` in the unaligned case (src/bv/arithmetic.rs:148-155). -/
def concatLoop (shiftRight lsbOffset : Nat) (mk : Word) : Word → List Word → List Word → List Word
  | _, [], _ => []
  | _, d :: ds, [] => d :: ds
  | prev, _ :: ds, s :: ss =>
    (prev ||| ((s &&& mk) <<< lsbOffset)) :: concatLoop shiftRight lsbOffset mk (s >>> shiftRight) ds ss

/-- `concat` (src/bv/arithmetic.rs:133-157). `iter_mut().skip(n)` leaves the first `n` elements alone. -/
def concat (m : Mode) (dst msb lsb : List Word) (lsbWidth : Nat) : Res (List Word) := do
  let dst := assign dst lsb
  let lsbOffset := lsbWidth % BITS
  if lsbOffset = 0 then
    ok (dst.take lsb.length ++ assign (dst.drop lsb.length) msb)
  else do
    let shiftRight := BITS - lsbOffset
    let mk ← mask shiftRight
    let i ← subC m U64 lsb.length 1
    let prev ← idx dst i
    ok (dst.take i ++ concatLoop shiftRight lsbOffset mk prev (dst.drop i) (msb ++ [0#64]))

/-- `bitwise_un_op` (src/bv/arithmetic.rs:166-170). -/
def bitwiseUnOp (op : Word → Word) : List Word → List Word → List Word
  | [], _ => []
  | d :: ds, [] => d :: ds
  | _ :: ds, s :: ss => op s :: bitwiseUnOp op ds ss

/-- `not` (src/bv/arithmetic.rs:160-163). -/
def not (m : Mode) (dst source : List Word) (width : Nat) : Res (List Word) :=
  maskMsb m (bitwiseUnOp (fun e => ~~~e) dst source) width

/-- `bitwise_bin_op` (src/bv/arithmetic.rs:188-192). -/
def bitwiseBinOp (op : Word → Word → Word) : List Word → List Word → List Word → List Word
  | [], _, _ => []
  | _ :: ds, a :: as, b :: bs => op a b :: bitwiseBinOp op ds as bs
  | d :: ds, _, _ => d :: ds

/-- `and` (src/bv/arithmetic.rs:173-175). -/
def and (dst a b : List Word) : List Word := bitwiseBinOp (fun a b => a &&& b) dst a b

/-- `or` (src/bv/arithmetic.rs:178-180). -/
def or (dst a b : List Word) : List Word := bitwiseBinOp (fun a b => a ||| b) dst a b

/-- `xor` (src/bv/arithmetic.rs:183-185). -/
def xor (dst a b : List Word) : List Word := bitwiseBinOp (fun a b => a ^^^ b) dst a b

/-- `adc` (src/bv/arithmetic.rs:195-200): returns the new word and the new carry.
The `u128` sum cannot overflow; the carry is truncated to `u8`. -/
def adc (carry : Nat) (a b : Word) : Word × Nat :=
  let sum := carry + a.toNat + b.toNat
  (BitVec.ofNat 64 sum, (sum >>> BITS) % 256)

/-- The loop of `add` (src/bv/arithmetic.rs:206-208). -/
def addLoop (carry : Nat) : List Word → List Word → List Word → List Word
  | [], _, _ => []
  | _ :: ds, a :: as, b :: bs =>
    let r := adc carry a b
    r.1 :: addLoop r.2 ds as bs
  | d :: ds, _, _ => d :: ds

/-- `add` (src/bv/arithmetic.rs:204-210). -/
def add (m : Mode) (dst a b : List Word) (width : Nat) : Res (List Word) :=
  maskMsb m (addLoop 0 dst a b) width

/-- The loop of `sub` (src/bv/arithmetic.rs:217-220). -/
def subLoop (carry : Nat) : List Word → List Word → List Word → List Word
  | [], _, _ => []
  | _ :: ds, a :: as, b :: bs =>
    let r := adc carry a (~~~b)
    r.1 :: subLoop r.2 ds as bs
  | d :: ds, _, _ => d :: ds

/-- `sub` (src/bv/arithmetic.rs:214-222). -/
def sub (m : Mode) (dst a b : List Word) (width : Nat) : Res (List Word) :=
  maskMsb m (subLoop 1 dst a b) width

/-- `mul` (src/bv/arithmetic.rs:226-236). -/
def mul (_m : Mode) (dst a b : List Word) (width : Nat) : Res (List Word) :=
  if width ≤ BITS then do
    let a0 ← idx a 0
    let b0 ← idx b 0
    let res := a0 * b0
    let mk ← mask width
    setIdx dst 0 (res &&& mk)
  else panic .todo

/-- `get_shift_amount` (src/bv/arithmetic.rs:328-336). `shift_amount as WidthInt` truncates to 32 bits. -/
def getShiftAmount (b : List Word) (width : Nat) : Res (Option Nat) := do
  let msbSet := (b.drop 1).any fun w => w != 0#64
  let shiftAmount ← idx b 0
  if msbSet || decide (shiftAmount.toNat ≥ width) then ok none
  else ok (some (shiftAmount.toNat % U32))

/-- `shift_right` (src/bv/arithmetic.rs:239-261). -/
def shiftRight (m : Mode) (dst a b : List Word) (width : Nat) : Res (List Word × Option Nat) := do
  let dst := clear dst
  match ← getShiftAmount b width with
  | none => ok (dst, none)
  | some shiftAmount =>
    let hi ← subC m U32 width 1
    let lo := shiftAmount
    let d ← subC m U32 hi lo
    let resultWidth ← addC m U32 d 1
    let resultWords := divCeil resultWidth BITS
    let dst ← modifyRange dst 0 resultWords fun s => slice m s a hi lo
    ok (dst, some shiftAmount)

/-- `arithmetic_shift_right` (src/bv/arithmetic.rs:264-295). -/
def arithmeticShiftRight (m : Mode) (dst a b : List Word) (width : Nat) : Res (List Word) := do
  let (dst, shiftAmount) ← shiftRight m dst a b width
  let neg ← isNeg m a width
  if neg then
    match shiftAmount with
    | none => maskMsb m (set dst) width
    | some amount =>
      if amount > 0 then do
        let resWidth ← subC m U32 width amount
        let r1 ← subC m U32 resWidth 1
        let localMsb := r1 % BITS
        let msbWord := r1 / BITS
        let dst ←
          (if localMsb < BITS - 1 then do
            let mk ← mask (BITS - (localMsb + 1))
            let d ← idx dst msbWord
            setIdx dst msbWord (d ||| (mk <<< (localMsb + 1)))
          else ok dst)
        let dst ← modifyRange dst (msbWord + 1) dst.length fun s => ok (set s)
        maskMsb m dst width
      else ok dst
  else ok dst

/-- The loop of `shift_left` (src/bv/arithmetic.rs:314-321). -/
def shiftLeftLoop (shl shr : Nat) : Word → List Word → List Word → List Word
  | _, [], _ => []
  | _, d :: ds, [] => d :: ds
  | prev, _ :: ds, s :: ss =>
    if shl = 0 then s :: shiftLeftLoop shl shr prev ds ss
    else ((s <<< shl) ||| prev) :: shiftLeftLoop shl shr (s >>> shr) ds ss

/-- `shift_left` (src/bv/arithmetic.rs:298-325). -/
def shiftLeft (m : Mode) (dst a b : List Word) (width : Nat) : Res (List Word) := do
  match ← getShiftAmount b width with
  | none => ok (clear dst)
  | some shiftAmount =>
    let shl := shiftAmount % BITS
    let shiftWords := shiftAmount / BITS
    let shr := BITS - shl
    let dst := shiftLeftLoop shl shr 0#64 dst (List.replicate shiftWords 0#64 ++ a)
    if shl > 0 then maskMsb m dst width else ok dst

/-- The loop of `negate_in_place` (src/bv/arithmetic.rs:348-352). -/
def negateLoop (carry : Nat) : List Word → List Word
  | [] => []
  | d :: ds =>
    let r := adc carry 0#64 (~~~d)
    r.1 :: negateLoop r.2 ds

/-- `negate_in_place` (src/bv/arithmetic.rs:345-354). -/
def negateInPlace (m : Mode) (dst : List Word) (width : Nat) : Res (List Word) :=
  maskMsb m (negateLoop 1 dst) width

/-- `negate` (src/bv/arithmetic.rs:339-342). `clone_from_slice` panics if the lengths differ. -/
def negate (m : Mode) (dst b : List Word) (width : Nat) : Res (List Word) :=
  if dst.length = b.length then negateInPlace m b width else panic .lenMismatch

/-- `cmp_equal` (src/bv/arithmetic.rs:357-359). -/
def cmpEqual (a b : List Word) : Bool := (a.zip b).all fun p => p.1 == p.2

/-- The loop of `is_greater_and_not_less` over the reversed word lists (src/bv/arithmetic.rs:388-395). -/
def cmpLoop : List Word → List Word → Option Bool
  | a :: as, b :: bs =>
    if a.toNat < b.toNat then some false
    else if a.toNat = b.toNat then cmpLoop as bs
    else some true
  | _, _ => none

/-- `is_greater_and_not_less` (src/bv/arithmetic.rs:387-396). -/
def isGreaterAndNotLess (a b : List Word) : Option Bool := cmpLoop a.reverse b.reverse

/-- `cmp_greater` (src/bv/arithmetic.rs:362-364). -/
def cmpGreater (a b : List Word) : Bool := (isGreaterAndNotLess a b).getD false

/-- `cmp_greater_equal` (src/bv/arithmetic.rs:399-401). -/
def cmpGreaterEqual (a b : List Word) : Bool := (isGreaterAndNotLess a b).getD true

/-- `cmp_greater_signed` (src/bv/arithmetic.rs:375-383). -/
def cmpGreaterSigned (m : Mode) (a b : List Word) (width : Nat) : Res Bool := do
  let na ← isNeg m a width
  let nb ← isNeg m b width
  match na, nb with
  | true, false => ok false
  | false, true => ok true
  | false, false => ok (cmpGreater a b)
  | true, true => ok (cmpGreater a b)

/-- `cmp_greater_equal_signed` (src/bv/arithmetic.rs:404-411). -/
def cmpGreaterEqualSigned (m : Mode) (a b : List Word) (width : Nat) : Res Bool := do
  let na ← isNeg m a width
  let nb ← isNeg m b width
  match na, nb with
  | true, false => ok false
  | false, true => ok true
  | false, false => ok (cmpGreaterEqual a b)
  | true, true => ok (cmpGreaterEqual a b)

/-- `word_to_bool` (src/bv/arithmetic.rs:414-416). -/
def wordToBool (value : Word) : Bool := (value &&& 1#64) == 1#64

end Arith
end Baa

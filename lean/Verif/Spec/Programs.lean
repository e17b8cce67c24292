import Verif.SpecIndexed
import Verif.SpecArray
import Verif.Spec.Text

/-!
# Programs over a word buffer and over arrays
-/

namespace Baa

/-! ## C70: values in one word buffer behave like independent variables -/

section
open Res

/-- Operations on two values of the same width with a result of that width. -/
inductive BinOp where
  | add | sub | mul | and | or | xor | shl | shr | ashr

/-- The library call. -/
def BinOp.run (m : Mode) (a b : BitVecValue) : BinOp → Res BitVecValue
  | .add => BitVecValue.add m a b
  | .sub => BitVecValue.sub m a b
  | .mul => BitVecValue.mul m a b
  | .and => BitVecValue.and m a b
  | .or => BitVecValue.or m a b
  | .xor => BitVecValue.xor m a b
  | .shl => BitVecValue.shiftLeft m a b
  | .shr => BitVecValue.shiftRight m a b
  | .ashr => BitVecValue.arithmeticShiftRight m a b

/-- The mathematical operation. -/
def BinOp.sem {w : Nat} (x y : BitVec w) : BinOp → BitVec w
  | .add => x + y
  | .sub => x - y
  | .mul => x * y
  | .and => x &&& y
  | .or => x ||| y
  | .xor => x ^^^ y
  | .shl => x <<< y.toNat
  | .shr => x >>> y.toNat
  | .ashr => x.sshiftRight y.toNat

/-- The widths for which the code supports the operation (`mul`: see C09, `shl`: see C12). -/
def BinOp.Supports (w : Nat) : BinOp → Prop
  | .mul => w ≤ 64
  | .shl => w ≤ 64 ∨ w % 64 = 0
  | _ => True

/-- Comparisons (`is_greater_or_equal` is left out, see C17). -/
inductive CmpOp where
  | eq | ne | gt | lt | gts | ges | lts | les

/-- The library call. -/
def CmpOp.run (m : Mode) (a b : BitVecValue) : CmpOp → Res Bool
  | .eq => BitVecValue.isEqual m a b
  | .ne => BitVecValue.isNotEqual m a b
  | .gt => BitVecValue.isGreater m a b
  | .lt => BitVecValue.isLess m a b
  | .gts => BitVecValue.isGreaterSigned m a b
  | .ges => BitVecValue.isGreaterOrEqualSigned m a b
  | .lts => BitVecValue.isLessSigned m a b
  | .les => BitVecValue.isLessOrEqualSigned m a b

/-- The mathematical comparison. -/
def CmpOp.sem {w : Nat} (x y : BitVec w) : CmpOp → Bool
  | .eq => decide (x = y)
  | .ne => decide (x ≠ y)
  | .gt => decide (x.toNat > y.toNat)
  | .lt => decide (x.toNat < y.toNat)
  | .gts => decide (x.toInt > y.toInt)
  | .ges => decide (x.toInt ≥ y.toInt)
  | .lts => decide (x.toInt < y.toInt)
  | .les => decide (x.toInt ≤ y.toInt)

/-- Instructions over `n` variables; `d` is the destination. -/
inductive Instr (n : Nat) where
  | bin (op : BinOp) (d a b : Fin n)
  | cmp (op : CmpOp) (d a b : Fin n)
  | not (d a : Fin n)
  | neg (d a : Fin n)
  | slice (d a : Fin n) (msb lsb : Nat)
  | concat (d a b : Fin n)
  | zext (d a : Fin n) (by_ : Nat)
  | sext (d a : Fin n) (by_ : Nat)
  /-- `if c.is_tru() { d = a } else { d = b }` -/
  | mux (d c a b : Fin n)
  /-- `let (mut d, a) = data.get_mut_ref((d, a)); d.assign(a)` -/
  | move (d a : Fin n)
  /-- in-place: `data.get_mut_ref(d).assign_from_u64(v)` and so on -/
  | const (d : Fin n) (v : Word)
  | setBit (d : Fin n) (pos : Nat)
  | clearBit (d : Fin n) (pos : Nat)
  | clear (d : Fin n)
  | ones (d : Fin n)

variable {n : Nat} (L : Fin n → BitVecValueIndex)

/-- Run an in-place operation on a mutable reference. -/
def inPlace (data : List Word) (i : BitVecValueIndex) (f : BitVecValue → Res BitVecValue) : Res (List Word) := do
  let v ← Indexed.getMutRef data i
  let r ← f v
  ok (Indexed.writeBack data i.index r.words)

/-- Perform an instruction on the buffer. -/
def Instr.run (m : Mode) (data : List Word) : Instr n → Res (List Word)
  | .bin op d a b => do
    let (x, y) ← Indexed.getRef2 data (L a) (L b)
    let r ← op.run m x y
    Indexed.assignAt m data (L d) r
  | .cmp op d a b => do
    let (x, y) ← Indexed.getRef2 data (L a) (L b)
    let t ← op.run m x y
    let r ← BitVecValue.fromBool m t
    Indexed.assignAt m data (L d) r
  | .not d a => do
    let x ← Indexed.getRef data (L a)
    let r ← BitVecValue.not m x
    Indexed.assignAt m data (L d) r
  | .neg d a => do
    let x ← Indexed.getRef data (L a)
    let r ← BitVecValue.negate m x
    Indexed.assignAt m data (L d) r
  | .slice d a msb lsb => do
    let x ← Indexed.getRef data (L a)
    let r ← BitVecValue.slice m x msb lsb
    Indexed.assignAt m data (L d) r
  | .concat d a b => do
    let (x, y) ← Indexed.getRef2 data (L a) (L b)
    let r ← BitVecValue.concat m x y
    Indexed.assignAt m data (L d) r
  | .zext d a by_ => do
    let x ← Indexed.getRef data (L a)
    let r ← BitVecValue.zeroExtend m x by_
    Indexed.assignAt m data (L d) r
  | .sext d a by_ => do
    let x ← Indexed.getRef data (L a)
    let r ← BitVecValue.signExtend m x by_
    Indexed.assignAt m data (L d) r
  | .mux d c a b => do
    let t ← Indexed.getRef data (L c)
    let t ← BitVecValue.isTru t
    let x ← Indexed.getRef data (if t then L a else L b)
    Indexed.assignAt m data (L d) x
  | .move d a => Indexed.assignFrom m data (L d) (L a)
  | .const d v => inPlace data (L d) fun x => BitVecValue.assignFromU64 m x v
  | .setBit d pos => inPlace data (L d) fun x => BitVecValue.setBit x pos
  | .clearBit d pos => inPlace data (L d) fun x => BitVecValue.clearBit x pos
  | .clear d => inPlace data (L d) fun x => ok (BitVecValue.clear x)
  | .ones d => inPlace data (L d) fun x => BitVecValue.assignOnes m x

/-- Perform a program. -/
def runProgram (m : Mode) : List Word → List (Instr n) → Res (List Word)
  | data, [] => ok data
  | data, i :: is => do
    let data ← i.run L m data
    runProgram m data is

/-- The mathematical variables: each one holds a bit-vector of its width. -/
abbrev Env := (k : Fin n) → BitVec (L k).width

variable {L}

/-- The variables with a new value for `d`. -/
def Env.set (ρ : Env L) (d : Fin n) (x : BitVec (L d).width) : Env L :=
  fun k => if _ : k = d then x.setWidth (L k).width else ρ k

/-- The variables after an instruction. (`setWidth` only adjusts the types: `Instr.Typed` requires equal widths.) -/
def Instr.effect (ρ : Env L) : Instr n → Env L
  | .bin op d a b => ρ.set d (op.sem ((ρ a).setWidth _) ((ρ b).setWidth _))
  | .cmp op d a b => ρ.set d ((BitVec.ofBool (op.sem (ρ a) ((ρ b).setWidth _))).setWidth _)
  | .not d a => ρ.set d (~~~ (ρ a).setWidth _)
  | .neg d a => ρ.set d (- (ρ a).setWidth _)
  | .slice d a msb lsb => ρ.set d (((ρ a).extractLsb' lsb (msb - lsb + 1)).setWidth _)
  | .concat d a b => ρ.set d ((ρ a ++ ρ b).setWidth _)
  | .zext d a _ => ρ.set d ((ρ a).setWidth _)
  | .sext d a _ => ρ.set d ((ρ a).signExtend _)
  | .mux d c a b => ρ.set d (if (ρ c).toNat = 1 then (ρ a).setWidth _ else (ρ b).setWidth _)
  | .move d a => ρ.set d ((ρ a).setWidth _)
  | .const d v => ρ.set d (v.setWidth _)
  | .setBit d pos => ρ.set d (ρ d ||| BitVec.twoPow _ pos)
  | .clearBit d pos => ρ.set d (ρ d &&& ~~~ BitVec.twoPow _ pos)
  | .clear d => ρ.set d (0#_)
  | .ones d => ρ.set d (BitVec.allOnes _)

variable (L)

/-- The widths fit together, positions are in range, and a move is between different variables. -/
def Instr.Typed : Instr n → Prop
  | .bin op d a b => (L a).width = (L d).width ∧ (L b).width = (L d).width ∧ op.Supports (L d).width
  | .cmp _ d a b => (L d).width = 1 ∧ (L a).width = (L b).width
  | .not d a => (L a).width = (L d).width
  | .neg d a => (L a).width = (L d).width
  | .slice d a msb lsb => msb < (L a).width ∧ lsb ≤ msb ∧ (L d).width = msb - lsb + 1
  | .concat d a b => (L d).width = (L a).width + (L b).width
  | .zext d a by_ => (L d).width = (L a).width + by_
  | .sext d a by_ => (L d).width = (L a).width + by_
  | .mux d c a b => (L c).width = 1 ∧ (L a).width = (L d).width ∧ (L b).width = (L d).width
  | .move d a => (L a).width = (L d).width ∧ d ≠ a
  | .const d v => v.toNat < 2 ^ (L d).width
  | .setBit d pos => pos < (L d).width
  | .clearBit d pos => pos < (L d).width
  | .clear _ => True
  | .ones _ => True

/-- The ranges of the variables lie inside the buffer and do not overlap; widths are positive `u32`s. -/
structure Layout (data : List Word) : Prop where
  width_pos : ∀ k, 0 < (L k).width
  width_lt : ∀ k, (L k).width < 2 ^ 32
  inBounds : ∀ k, InBounds data (L k)
  apart : ∀ j k, j ≠ k → Apart (L j) (L k)

variable {L}

variable (L) in
/-- The buffer has kept its length and all words that belong to no variable. -/
def Frame (data data' : List Word) : Prop :=
  data'.length = data.length ∧ ∀ k, (∀ v, k < (L v).index ∨ pastEnd (L v) ≤ k) → data'[k]? = data[k]?

/-- The buffer holds the variables. -/
def Holds (data : List Word) (ρ : Env L) : Prop :=
  ∀ k, ∃ v, Indexed.getRef data (L k) = ok v ∧ Denotes v (ρ k)

end

/-! ## C90: every program over one word buffer -/

section
open Res

/-- The number in the words of the variable at `i`, in a buffer that holds the number `B`. -/
def peek (B : Nat) (i : BitVecValueIndex) : Nat := (B >>> (64 * i.index)) % 2 ^ capacity i.width

/-- The number in the buffer after replacing the words of the variable at `i` by those of `N`. -/
def poke (B : Nat) (i : BitVecValueIndex) (N : Nat) : Nat :=
  B % 2 ^ (64 * i.index) + 2 ^ (64 * i.index) * N + 2 ^ (64 * pastEnd i) * (B >>> (64 * pastEnd i))

/-- The instructions of C70, and those that C70 leaves out. -/
inductive Step (n : Nat) where
  | base (i : Instr n)
  /-- `is_greater_or_equal` and `is_less_or_equal` -/
  | ge (d a b : Fin n)
  | le (d a b : Fin n)
  /-- in-place: `assign_from_i64(v)`; `assign_from_str_radix(s, radix)`, ignoring what it reports; `mask_msb()` -/
  | constSigned (d : Fin n) (v : Word)
  | parse (d : Fin n) (s : List Byte) (radix : Nat)
  | mask (d : Fin n)

/-- The number in the words of the result of an operation on values of width `w` with the numbers `N` and `M`. -/
def BinOp.number (w N M : Nat) : BinOp → Option Nat
  | .add => some (low w N + low w M).toNat
  | .sub => some (low w N - low w M).toNat
  | .mul => if w ≤ 64 then some (low w N * low w M).toNat else none
  | .and => some (N &&& M)
  | .or => some (N ||| M)
  | .xor => some (N ^^^ M)
  | .shl => some (if w ≤ M then 0 else if M % 64 = 0 then (N <<< M) % 2 ^ capacity w else (N <<< M) % 2 ^ w)
  | .shr => some ((N % 2 ^ w) >>> M)
  | .ashr => some ((low w N).sshiftRight M).toNat

/-- Signed comparison of the numbers in the words: the bits below the width decide if they differ, else the words. -/
def signedRaw (cmp : Nat → Nat → Bool) (w N M : Nat) : Bool :=
  if N.testBit (w - 1) = M.testBit (w - 1) then cmp N M else M.testBit (w - 1)

/-- The result of a comparison of values of width `w` with the numbers `N` and `M`. -/
def CmpOp.number (w N M : Nat) : CmpOp → Bool
  | .eq => decide (N = M)
  | .ne => decide (N ≠ M)
  | .gt => decide (N > M)
  | .lt => decide (N < M)
  | .gts => signedRaw (fun x y => decide (x > y)) w N M
  | .ges => signedRaw (fun x y => decide (x ≥ y)) w N M
  | .lts => signedRaw (fun x y => decide (x > y)) w M N
  | .les => signedRaw (fun x y => decide (x ≥ y)) w M N

/-- The number that an in-place parse leaves, whatever it reports. -/
def AssignOutcome.left : AssignOutcome → Option Nat
  | .stores n => some n
  | .invalid n => some n
  | .exceeds n => some n
  | .panics => none

variable {n : Nat} (L : Fin n → BitVecValueIndex)

/-- Read a variable; `len` is the length of the buffer. -/
def readNumber (len B : Nat) (k : Fin n) : Option Nat := if pastEnd (L k) ≤ len then some (peek B (L k)) else none

/-- Write a variable. -/
def writeNumber (len B : Nat) (k : Fin n) (N : Nat) : Option Nat := if pastEnd (L k) ≤ len then some (poke B (L k) N) else none

/-- The number in the buffer after an instruction, `none` for a panic. -/
def Instr.number (m : Mode) (len B : Nat) : Instr n → Option Nat
  | .bin op d a b => do
    let N ← readNumber L len B a; let M ← readNumber L len B b
    writeNumber L len B d (← op.number (L d).width N M)
  | .cmp op d a b => do
    let N ← readNumber L len B a; let M ← readNumber L len B b
    writeNumber L len B d (op.number (L a).width N M).toNat
  | .not d a => do
    let N ← readNumber L len B a
    writeNumber L len B d (~~~low (L d).width N).toNat
  | .neg d a => do
    let N ← readNumber L len B a
    writeNumber L len B d (-low (L d).width N).toNat
  | .slice d a msb lsb => do
    let N ← readNumber L len B a
    writeNumber L len B d ((N >>> lsb) % 2 ^ (msb - lsb + 1))
  | .concat d a b => do
    let N ← readNumber L len B a; let M ← readNumber L len B b
    writeNumber L len B d ((N <<< (L b).width ||| M) % 2 ^ capacity (L d).width)
  | .zext d a _ => do
    let N ← readNumber L len B a
    writeNumber L len B d N
  | .sext d a _ => do
    let N ← readNumber L len B a
    writeNumber L len B d
      (if N.testBit ((L a).width - 1) = true then ((low (L a).width N).signExtend (L d).width).toNat else N)
  | .mux d c a b => do
    let N ← readNumber L len B c
    let M ← readNumber L len B (if N = 1 then a else b)
    writeNumber L len B d M
  | .move d a => do
    let N ← readNumber L len B a
    if pastEnd (L d) ≤ (L a).index ∨ pastEnd (L a) ≤ (L d).index then writeNumber L len B d N else none
  | .const d v => if m = .debug ∧ 2 ^ (L d).width ≤ v.toNat then none else writeNumber L len B d (v.toNat % 2 ^ (L d).width)
  | .setBit d pos => do
    let N ← readNumber L len B d
    if pos < capacity (L d).width then writeNumber L len B d (N ||| 2 ^ pos) else none
  | .clearBit d pos => do
    let N ← readNumber L len B d
    if pos < capacity (L d).width then writeNumber L len B d (N ^^^ (N &&& 2 ^ pos)) else none
  | .clear d => writeNumber L len B d 0
  | .ones d => writeNumber L len B d (2 ^ (L d).width - 1)

/-- The number in the buffer after a step. -/
def Step.number (m : Mode) (len B : Nat) : Step n → Option Nat
  | .base i => i.number L m len B
  | .ge d a b => do
    let N ← readNumber L len B a; let M ← readNumber L len B b
    writeNumber L len B d (if (L a).width ≤ 64 then decide (N ≥ M) else decide (N > M)).toNat
  | .le d a b => do
    let N ← readNumber L len B a; let M ← readNumber L len B b
    writeNumber L len B d (if (L a).width ≤ 64 then decide (N ≤ M) else decide (N < M)).toNat
  | .constSigned d v =>
    if m = .debug ∧ ¬ (-2 ^ ((L d).width - 1) ≤ v.toInt ∧ v.toInt < 2 ^ ((L d).width - 1)) then none
    else writeNumber L len B d (v.toInt % 2 ^ (L d).width).toNat
  | .parse d s radix => do
    let N ← readNumber L len B d
    let N' ← (assignOutcome radix (L d).width N s).left
    writeNumber L len B d N'
  | .mask d => do
    let N ← readNumber L len B d
    writeNumber L len B d (N % 2 ^ (L d).width)

/-- The number in the buffer after a program. -/
def programNumber (m : Mode) (len : Nat) : Nat → List (Step n) → Option Nat
  | B, [] => some B
  | B, s :: ss => do
    let B ← s.number L m len B
    programNumber m len B ss

/-- The widths fit together. (Operands of different widths are rejected in debug builds, C29.) Strings have fewer than `2^30`
digits. -/
def Step.Shaped : Step n → Prop
  | .base (.bin _ d a b) => (L a).width = (L d).width ∧ (L b).width = (L d).width
  | .base (.cmp _ d a b) => (L d).width = 1 ∧ (L a).width = (L b).width
  | .base (.not d a) => (L a).width = (L d).width
  | .base (.neg d a) => (L a).width = (L d).width
  | .base (.slice d a msb lsb) => msb < (L a).width ∧ lsb ≤ msb ∧ (L d).width = msb - lsb + 1
  | .base (.concat d a b) => (L d).width = (L a).width + (L b).width
  | .base (.zext d a by_) => (L d).width = (L a).width + by_
  | .base (.sext d a by_) => (L d).width = (L a).width + by_
  | .base (.mux d c a b) => (L c).width = 1 ∧ (L a).width = (L d).width ∧ (L b).width = (L d).width
  | .base (.move d a) => (L a).width = (L d).width
  | .ge d a b => (L d).width = 1 ∧ (L a).width = (L b).width
  | .le d a b => (L d).width = 1 ∧ (L a).width = (L b).width
  | .parse _ s _ => s.length < 2 ^ 30
  | _ => True

/-- Perform a step. -/
def Step.run (m : Mode) (data : List Word) : Step n → Res (List Word)
  | .base i => i.run L m data
  | .ge d a b => do
    let (x, y) ← Indexed.getRef2 data (L a) (L b)
    let t ← BitVecValue.isGreaterOrEqual m x y
    let r ← BitVecValue.fromBool m t
    Indexed.assignAt m data (L d) r
  | .le d a b => do
    let (x, y) ← Indexed.getRef2 data (L a) (L b)
    let t ← BitVecValue.isLessOrEqual m x y
    let r ← BitVecValue.fromBool m t
    Indexed.assignAt m data (L d) r
  | .constSigned d v => inPlace data (L d) fun x => BitVecValue.assignFromI64 m x v
  | .parse d s radix => inPlace data (L d) fun x => do
    let (r, _) ← BitVecValue.assignFromStrRadix m x s radix
    ok r
  | .mask d => inPlace data (L d) fun x => BitVecValue.maskMsb m x

/-- Perform a program. -/
def runSteps (m : Mode) : List Word → List (Step n) → Res (List Word)
  | data, [] => ok data
  | data, s :: ss => do
    let data ← s.run L m data
    runSteps m data ss

/-- The outcome of a run on a buffer of `len` words: the number in the buffer afterwards, or a panic. -/
def BufferOutcome (r : Res (List Word)) (len : Nat) : Option Nat → Prop
  | some B => ∃ data, r = ok data ∧ data.length = len ∧ wordsVal data = B
  | none => Panics r

end

/-! ## C101: programs with registers, memories, branches and loops -/

section
open Res

/-- The type of a memory: its index and data width, and whether it is kept as a dense or a sparse array. -/
structure MemType where
  indexWidth : Nat
  dataWidth : Nat
  dense : Bool

/-- Commands over `n` registers and `p` memories. -/
inductive Cmd (n p : Nat) where
  | instr (i : Instr n)
  /-- `d.assign(&mem.select(i))` -/
  | load (d : Fin n) (mem : Fin p) (i : Fin n)
  /-- `mem.store(i, v)` -/
  | store (mem : Fin p) (i v : Fin n)
  /-- `mem.clear()` -/
  | clear (mem : Fin p)
  /-- `mem = other.clone()`, followed by `make_dense` or `make_sparse` as the kind of `mem` requires -/
  | copy (mem other : Fin p)
  /-- `d.assign(&(mem == other).into())` -/
  | equal (d : Fin n) (mem other : Fin p)
  | skip
  | seq (c c' : Cmd n p)
  /-- `if r.is_tru() { c } else { c' }` -/
  | ite (r : Fin n) (c c' : Cmd n p)
  /-- `while r.is_tru() { c }` -/
  | loop (r : Fin n) (c : Cmd n p)

variable {n p : Nat} (L : Fin n → BitVecValueIndex) (T : Fin p → MemType)

/-- The buffer with the registers, and the memories. -/
structure Machine (p : Nat) where
  data : List Word
  mems : Fin p → ArrayValue

/-- Replace one memory. -/
def Machine.setMem {p : Nat} (s : Machine p) (k : Fin p) (a : ArrayValue) : Machine p :=
  ⟨s.data, fun j => if j = k then a else s.mems j⟩

/-- A clone of an array as the wanted kind. -/
def convertTo (m : Mode) (env : HashEnv) (dense : Bool) (a : ArrayValue) : Res ArrayValue :=
  if dense then a.makeDense m env
  else do
    let s ← a.toSparse m env
    ok (.sparse s)

/-- Perform the first of a list of commands: the machine and the commands that remain. -/
def Machine.step (m : Mode) (env : HashEnv) (s : Machine p) (rest : List (Cmd n p)) : Cmd n p → Res (Machine p × List (Cmd n p))
  | .instr i => do
    let data ← i.run L m s.data
    ok (⟨data, s.mems⟩, rest)
  | .load d k i => do
    let x ← Indexed.getRef s.data (L i)
    let v ← (s.mems k).select m env x
    let data ← Indexed.assignAt m s.data (L d) v
    ok (⟨data, s.mems⟩, rest)
  | .store k i v => do
    let x ← Indexed.getRef s.data (L i)
    let y ← Indexed.getRef s.data (L v)
    let a ← (s.mems k).store m env x y
    ok (s.setMem k a, rest)
  | .clear k => ok (s.setMem k (s.mems k).clear, rest)
  | .copy k j => do
    let a ← convertTo m env (T k).dense (s.mems j)
    ok (s.setMem k a, rest)
  | .equal d k j => do
    let t ← (s.mems k).eq m env (s.mems j)
    let v ← BitVecValue.fromBool m t
    let data ← Indexed.assignAt m s.data (L d) v
    ok (⟨data, s.mems⟩, rest)
  | .skip => ok (s, rest)
  | .seq c c' => ok (s, c :: c' :: rest)
  | .ite r c c' => do
    let x ← Indexed.getRef s.data (L r)
    let t ← BitVecValue.isTru x
    ok (s, (if t then c else c') :: rest)
  | .loop r c => do
    let x ← Indexed.getRef s.data (L r)
    let t ← BitVecValue.isTru x
    ok (s, if t then c :: .loop r c :: rest else rest)

/-- Perform at most `fuel` commands; `none` means that more are needed. Every command meets its own hash-table behaviour. -/
def Machine.exec (m : Mode) (env : Nat → HashEnv) : Nat → List (Cmd n p) → Machine p → Res (Option (Machine p))
  | _, [], s => ok (some s)
  | 0, _ :: _, _ => ok none
  | fuel + 1, c :: rest, s => do
    let (s, rest) ← s.step L T m (env fuel) rest c
    Machine.exec m env fuel rest s

/-- The mathematical memories: each one is a function. -/
abbrev Mems := (k : Fin p) → BitVec (T k).indexWidth → BitVec (T k).dataWidth

variable {L T}

/-- The memories with new contents for `k`. -/
def Mems.set (μ : Mems T) (k : Fin p) (f : BitVec (T k).indexWidth → BitVec (T k).dataWidth) : Mems T :=
  fun j i => if _ : j = k then (f (i.setWidth _)).setWidth _ else μ j i

/-- The meaning of the first of a list of commands. (`setWidth` only adjusts the types: `Cmd.Typed` requires equal widths.) -/
def Cmd.effect (ρ : Env L) (μ : Mems T) (rest : List (Cmd n p)) : Cmd n p → Env L × Mems T × List (Cmd n p)
  | .instr i => (i.effect ρ, μ, rest)
  | .load d k i => (ρ.set d ((μ k ((ρ i).setWidth _)).setWidth _), μ, rest)
  | .store k i v => (ρ, μ.set k (update (μ k) ((ρ i).setWidth _) ((ρ v).setWidth _)), rest)
  | .clear k => (ρ, μ.set k fun _ => 0#_, rest)
  | .copy k j => (ρ, μ.set k fun i => (μ j (i.setWidth _)).setWidth _, rest)
  | .equal d k j => (ρ.set d (if ∀ i, μ k i = (μ j (i.setWidth _)).setWidth _ then 1#_ else 0#_), μ, rest)
  | .skip => (ρ, μ, rest)
  | .seq c c' => (ρ, μ, c :: c' :: rest)
  | .ite r c c' => (ρ, μ, (if (ρ r).toNat = 1 then c else c') :: rest)
  | .loop r c => (ρ, μ, if (ρ r).toNat = 1 then c :: .loop r c :: rest else rest)

/-- The meaning of at most `fuel` commands. -/
def eval : Nat → List (Cmd n p) → Env L → Mems T → Option (Env L × Mems T)
  | _, [], ρ, μ => some (ρ, μ)
  | 0, _ :: _, _, _ => none
  | fuel + 1, c :: rest, ρ, μ =>
    let r := c.effect ρ μ rest
    eval fuel r.2.2 r.1 r.2.1

variable (L T)

/-- The conversion or comparison of such an array is supported (see C52, C53): making an array dense is limited to 1 GiB and to data
of 64 bits in debug builds, and making one sparse does not work for data of 2 to 8 bits. -/
def DenseSupported (m : Mode) (t : MemType) : Prop :=
  m = .release ∨ (storageBytes t.indexWidth t.dataWidth ≤ 2 ^ 30 ∧ t.dataWidth ≤ 64)

/-- The widths fit together. Sparse arrays are not compared with each other (see C55). -/
def Cmd.Typed (m : Mode) : Cmd n p → Prop
  | .instr i => i.Typed L
  | .load d k i => (L i).width = (T k).indexWidth ∧ (L d).width = (T k).dataWidth
  | .store k i v => (L i).width = (T k).indexWidth ∧ (L v).width = (T k).dataWidth
  | .clear _ => True
  | .copy k j => (T k).indexWidth = (T j).indexWidth ∧ (T k).dataWidth = (T j).dataWidth ∧
      ((T k).dense = (T j).dense ∨ if (T k).dense then DenseSupported m (T k) else (T k).dataWidth = 1 ∨ 8 < (T k).dataWidth)
  | .equal d k j => (L d).width = 1 ∧ (T k).indexWidth = (T j).indexWidth ∧ (T k).dataWidth = (T j).dataWidth ∧
      ((T k).dense = true ∧ (T j).dense = true ∨ ((T k).dense ≠ (T j).dense ∧ DenseSupported m (T k)))
  | .skip => True
  | .seq c c' => c.Typed m ∧ c'.Typed m
  | .ite r c c' => (L r).width = 1 ∧ c.Typed m ∧ c'.Typed m
  | .loop r c => (L r).width = 1 ∧ c.Typed m

/-- The shape of a memory: its elements fit into the address space, and one-bit elements have an index of less than 32 bits (see C49). -/
structure MemType.Ok (t : MemType) : Prop where
  data_pos : 0 < t.dataWidth
  data_lt : t.dataWidth < 2 ^ 32
  addressable : Addressable t.indexWidth t.dataWidth
  bits : t.dataWidth ≠ 1 ∨ t.indexWidth < 32

variable {L T}

/-- The memory has its kind and type, was made by the library, and represents its function. -/
def HoldsMem (m : Mode) (t : MemType) (a : ArrayValue) (f : BitVec t.indexWidth → BitVec t.dataWidth) : Prop :=
  a.isDense = t.dense ∧ Reachable m a f

/-- The machine holds the mathematical registers and memories. -/
structure Represents (m : Mode) (s : Machine p) (ρ : Env L) (μ : Mems T) : Prop where
  layout : Layout L s.data
  regs : Holds s.data ρ
  mems : ∀ k, HoldsMem m (T k) (s.mems k) (μ k)

end

end Baa

import Verif.Spec.Links

/-!
# Writing to an array in transactions, for C171

Beside the array, two more arrays hold a journal: the cells that were written and what they held before. Transactions can be started
inside transactions. Giving one up takes back what was written since it was started; keeping it leaves that to the transaction around it.
-/

namespace Baa
open Res

variable {iw dw k : Nat}

/-- A request of the client. -/
inductive TxOp (iw dw : Nat) where
  | start
  | write (i : BitVec iw) (x : BitVec dw)
  | read (i : BitVec iw)
  | giveUp
  | keep
deriving DecidableEq

/-- The array, the two arrays of the journal, the end of the journal. -/
structure TxState where
  data : ArrayValue
  cells : ArrayValue
  olds : ArrayValue
  top : BitVecValue

/-- One more entry:

```text
cells[top] = i; olds[top] = data[i]; top += 1; data[i] = x;
```
-/
def txWrite (m : Mode) (env : HashEnv) (k : Nat) (s : TxState) (i x : BitVecValue) : Res TxState := do
  let y ← s.data.select m env i
  let c ← s.cells.store m env s.top i
  let o ← s.olds.store m env s.top y
  let one ← BitVecValue.fromU64 m 1#64 k
  let t ← BitVecValue.add m s.top one
  let d ← s.data.store m env i x
  ok ⟨d, c, o, t⟩

/-- Take entries back until the journal ends at `s`:

```text
while top != mark { top -= 1; data[cells[top]] = olds[top]; }
```
-/
def txUndo (m : Mode) (env : HashEnv) (k : Nat) (mark : BitVecValue) : Nat → TxState → Res (Option TxState)
  | 0, _ => ok none
  | n + 1, s => do
    let e ← BitVecValue.isEqual m s.top mark
    if e then ok (some s)
    else
      let one ← BitVecValue.fromU64 m 1#64 k
      let t ← BitVecValue.sub m s.top one
      let i ← s.cells.select m env t
      let y ← s.olds.select m env t
      let d ← s.data.store m env i y
      txUndo m env k mark n { s with data := d, top := t }

/-- The client's requests, one after the other; `marks` are the ends of the journal at the starts of the open transactions. The result is
what was read. -/
def runTx (m : Mode) (env : HashEnv) (k : Nat) : List (TxOp iw dw) → TxState → List BitVecValue → Res (List (Option BitVecValue))
  | [], _, _ => ok []
  | .start :: l, s, marks => runTx m env k l s (s.top :: marks)
  | .write i x :: l, s, marks => do
    let s ← txWrite m env k s (encode i) (encode x)
    runTx m env k l s marks
  | .read i :: l, s, marks => do
    let y ← s.data.select m env (encode i)
    let r ← runTx m env k l s marks
    ok (some y :: r)
  | .giveUp :: l, s, marks =>
    match marks with
    | [] => runTx m env k l s []
    | mark :: marks => do
      match ← txUndo m env k mark (2 ^ k) s with
      | none => ok [none]
      | some s => runTx m env k l s marks
  | .keep :: l, s, marks => runTx m env k l s marks.tail

/-- What the requests mean: starting a transaction remembers the whole array. -/
def txMeaning : List (TxOp iw dw) → (BitVec iw → BitVec dw) → List (BitVec iw → BitVec dw) → List (BitVec dw)
  | [], _, _ => []
  | .start :: l, f, fs => txMeaning l f (f :: fs)
  | .write i x :: l, f, fs => txMeaning l (update f i x) fs
  | .read i :: l, f, fs => f i :: txMeaning l f fs
  | .giveUp :: l, f, fs => txMeaning l (fs.headD f) fs.tail
  | .keep :: l, f, fs => txMeaning l f fs.tail

/-- The journal has room: there are always less than `n` writes to be taken back. `cs` are the numbers of writes in the open
transactions. -/
def TxFits (n : Nat) : List (TxOp iw dw) → List Nat → Prop
  | [], _ => True
  | .start :: l, cs => TxFits n l (0 :: cs)
  | .write _ _ :: l, [] => TxFits n l []
  | .write _ _ :: l, c :: cs => c + cs.sum + 1 < n ∧ TxFits n l ((c + 1) :: cs)
  | .read _ :: l, cs => TxFits n l cs
  | .giveUp :: l, cs => TxFits n l cs.tail
  | .keep :: l, c :: d :: cs => TxFits n l ((c + d) :: cs)
  | .keep :: l, _ => TxFits n l []

end Baa

import Verif.Spec.Interner
import Verif.SpecIndexed
import Verif.SpecMalformed

/-!
# C125: clients of the interner
-/

namespace Baa
open Res

/-- A client of the interner. It keeps the indices it gets in a list, asks about them by their number in this list, and what it does next
depends in any way on the answers. The answer to a question about an index that it does not have is `none`. -/
inductive InternerClient (β : Type) : Type where
  /-- stop -/
  | done (b : β)
  /-- `get_index` -/
  | intern (v : BitVecValue) (next : InternerClient β)
  /-- `get_ref` on the words of the interner -/
  | read (k : Nat) (next : Option BitVecValue → InternerClient β)
  /-- `==` of two indices -/
  | same (j k : Nat) (next : Option Bool → InternerClient β)
  /-- `width` of an index -/
  | width (k : Nat) (next : Option Nat → InternerClient β)
  /-- `ValueInterner::is_zero` -/
  | isZero (k : Nat) (next : Option Bool → InternerClient β)
  /-- `ValueInterner::is_one` -/
  | isOne (k : Nat) (next : Option Bool → InternerClient β)

namespace InternerClient
variable {β : Type}

/-- The client with the interner `s` and the indices `is`. -/
def real (m : Mode) (s : ValueInterner) (is : List BitVecValueIndex) : InternerClient β → Res β
  | done b => ok b
  | intern v next => do
    let (s, i) ← s.getIndex m v
    next.real m s (is ++ [i])
  | read k next =>
    match is[k]? with
    | none => (next none).real m s is
    | some i => do
      let v ← Indexed.getRef s.words i
      (next (some v)).real m s is
  | same j k next => (next (is[j]?.bind fun a => is[k]?.map fun b => decide (a = b))).real m s is
  | width k next => (next (is[k]?.map fun i => i.width)).real m s is
  | isZero k next => (next (is[k]?.map ValueInterner.isZero)).real m s is
  | isOne k next => (next (is[k]?.map ValueInterner.isOne)).real m s is

/-- The client without an interner: what it keeps are the values themselves. Returns the result and all values of the run. -/
def ideal (vs : List BitVecValue) : InternerClient β → β × List BitVecValue
  | done b => (b, vs)
  | intern v next => next.ideal (vs ++ [v])
  | read k next => (next vs[k]?).ideal vs
  | same j k next => (next (vs[j]?.bind fun a => vs[k]?.map fun b => decide (a = b))).ideal vs
  | width k next => (next (vs[k]?.map fun v => v.width)).ideal vs
  | isZero k next => (next (vs[k]?.map fun v => decide (v.words = [0#64]))).ideal vs
  | isOne k next => (next (vs[k]?.map fun v => decide (v.words = [1#64]))).ideal vs

end InternerClient

/-- What the interner can take: values of at least one bit with the right number of words, and not more different ones than fit into `2^32`
words. -/
structure Interns (vs : List BitVecValue) : Prop where
  sized : ∀ v ∈ vs, 0 < v.width ∧ v.words.length = need v.width
  fits : (internedStore vs).length < 2 ^ 32

end Baa

import Verif.Spec.Documents

/-! # Reading the entries of a sparse array call by call (C120) -/

namespace Baa
open Res

/-- What calling for the next entry gives each time, for every entry in some order: the pair of an index and its data, or nothing where they cannot
be made, which is a panic. -/
def Account.Queues (m : Mode) (x : Account) (q : List (Option (Shape × Shape))) : Prop :=
  match x.hoard with
  | .dense _ _ _ => False
  | .narrow t => ∃ L, t.Lists L ∧ q = L.map fun I => listed (numberAs m x.iw I) (numberAs m x.dw (t.read I))
  | .broad t => ∃ L, t.Lists L ∧ q = L.map fun I => listed (numberAs m x.iw I) (some (t.read I))
  | .long t => ∃ L, t.Lists L ∧ q = L.map fun i => some (i, t.read i)

/-- The answer to the call with a given number (counted from zero), if the entries that are queued are given one after another: a pair, the end of the
listing (`some none`), or a panic (`none`). -/
def turn (q : List (Option (Shape × Shape))) (k : Nat) : Option (Option (Shape × Shape)) :=
  match q[k]? with
  | some (some e) => some (some e)
  | some none => none
  | none => some none

/-- A call gives the expected answer. -/
def Replies (x : Res (Option (BitVecValue × BitVecValue))) : Option (Option (Shape × Shape)) → Prop
  | none => Panics x
  | some none => x = ok none
  | some (some e) => ∃ i d, x = ok (some (i, d)) ∧ (i.shape, d.shape) = e

end Baa

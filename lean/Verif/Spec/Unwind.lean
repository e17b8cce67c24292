import Verif.Model.Unwind
import Verif.SpecObserve
import Verif.SpecParse

/-!
# What is left after a panic (C121)

`Eff.run` is the result of a program that does not panic: the new state and what is returned. `Eff.Leaves x s t` says that the program `x`, started
with `s`, panics, and that `t` is there afterwards. For values, the contents afterwards are given by the width, the number of words and the
number that the words hold, as in C105–C107.
-/

namespace Baa
open Res

/-- The new state and what is returned, or a panic. -/
def Eff.run {σ α : Type} (x : Eff σ α) (s : σ) : Res (σ × α) :=
  match x s with
  | (ok a, t) => ok (t, a)
  | (.panic p, _) => .panic p

/-- The program panics and leaves `t` behind. -/
def Eff.Leaves {σ α : Type} (x : Eff σ α) (s t : σ) : Prop := ∃ p, x s = (.panic p, t)

/-- What `assign_ones` leaves: all bits of all words are ones, because masking is what panicked. -/
def Shape.leftOnes (s : Shape) : Shape := ⟨s.width, s.words, 2 ^ (64 * s.words) - 1⟩

/-- What `assign_from_u64` leaves: the number as far as it was masked. -/
def Shape.leftU64 (m : Mode) (s : Shape) (v : Nat) : Shape :=
  if s.words = 0 then s else ⟨s.width, s.words, (masked m s.width s.words v).getD v⟩

/-- What `assign_from_i64` leaves for the two's complement `v`: what was written before the check; zero if a single word cannot be masked, and all sign
bits if several words cannot be masked. -/
def Shape.leftI64 (m : Mode) (s : Shape) (v : Nat) : Shape :=
  if s.words = 0 then s
  else ⟨s.width, s.words, match s.writeI64 m v with
    | some K => K
    | none => if s.words = 1 then 0 else 2 ^ (64 * s.words) - 2 ^ 64 + v⟩

/-- What a parse leaves: the old contents, except that the negated number is there if masking it is what panicked. -/
def Shape.leftParse (m : Mode) (s : Shape) (radix : Nat) (t : List Byte) : Shape :=
  match s.magnitude m radix t with
  | .stores N => ⟨s.width, s.words, (2 ^ (64 * s.words) - N) % 2 ^ (64 * s.words)⟩
  | _ => s

end Baa

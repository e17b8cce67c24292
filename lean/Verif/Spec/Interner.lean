import Verif.SpecIndexed

/-!
# Histories of the interner
-/

namespace Baa

/-! ## C46, C47, C48: the value interner -/

section
open Res

/-- Intern a sequence of values, collecting the returned indices. -/
def internAll (m : Mode) : ValueInterner → List BitVecValue → Res (ValueInterner × List BitVecValueIndex)
  | s, [] => ok (s, [])
  | s, v :: vs => do
    let (s, i) ← s.getIndex m v
    let (s, is) ← internAll m s vs
    ok (s, i :: is)

/-- The number of words that a sequence of values occupies. -/
def totalWords (vs : List BitVecValue) : Nat := (vs.map fun v => (v.width + 63) / 64).sum

/-- Histories: canonical values of width at least 1 that (together with the 8 preallocated words) fit into the range of a
word index. -/
structure History (vs : List BitVecValue) : Prop where
  canonical : ∀ v ∈ vs, Canonical v ∧ 0 < v.width
  fits : 8 + totalWords vs ≤ 2 ^ 32

end

/-! ## C80, C81: what the interner stores, and how far it can grow -/

section
open Res

/-- The histories considered here: canonical values of at least one bit, as many as one likes. -/
def AnyHistory (vs : List BitVecValue) : Prop := ∀ v ∈ vs, Canonical v ∧ 0 < v.width

end

/-! ## C113: the interner, given any values whatsoever -/

/-- The interner accepts the value. Only debug builds are choosy: a value with one word must have at most 64 bits and a value with any
other number of words must have more. -/
def Internable (m : Mode) (v : BitVecValue) : Prop := m = .debug → (v.words.length = 1 ↔ v.width ≤ 64)

end Baa

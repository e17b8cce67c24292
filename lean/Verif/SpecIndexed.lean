import Verif.Spec
import Verif.Model.Indexed

/-!
# Specification vocabulary for values stored in a slice of words
-/

namespace Baa

/-- The first word after the range addressed by an index: `⌈width / 64⌉` words from `index` on. -/
def pastEnd (i : BitVecValueIndex) : Nat := i.index + (i.width + 63) / 64

/-- The addressed range lies inside the slice. -/
def InBounds (data : List Word) (i : BitVecValueIndex) : Prop := pastEnd i ≤ data.length

/-- `v` is the value stored at index `i`: the width of the index and the words `index`, `index + 1`, … of the slice. -/
structure StoredAt (data : List Word) (i : BitVecValueIndex) (v : BitVecValue) : Prop where
  width_eq : v.width = i.width
  length_eq : v.words.length = (i.width + 63) / 64
  word_eq : ∀ k, k < (i.width + 63) / 64 → v.words[k]? = data[i.index + k]?

/-- One range ends before the other one starts. -/
def Apart (a b : BitVecValueIndex) : Prop := pastEnd a ≤ b.index ∨ pastEnd b ≤ a.index

/-! ## The interner -/

/-- The numbers 0 to 7, which are always available in one word. -/
def Preloaded (ws : List Word) : Prop := ∃ k < 8, ws = [BitVec.ofNat 64 k]

instance (ws : List Word) : Decidable (Preloaded ws) :=
  decidable_of_iff (ws ∈ (List.range 8).map fun k => [BitVec.ofNat 64 k])
    (by simp only [List.mem_map, List.mem_range, Preloaded, eq_comm])

/-- The different word sequences among the given values that are not preloaded, in the order of their first occurrence. -/
def distinctWords (vs : List BitVecValue) : List (List Word) :=
  ((vs.map fun v => v.words).filter fun ws => ¬ Preloaded ws).eraseDups

/-- How many words precede the first occurrence of `x` in a list of word sequences. -/
def wordsBefore (x : List Word) (l : List (List Word)) : Nat := (l.takeWhile fun y => y ≠ x).flatten.length

/-- The content of the word store after interning the given values. -/
def internedStore (vs : List BitVecValue) : List Word := (List.range 8).map (BitVec.ofNat 64) ++ (distinctWords vs).flatten

/-- The position of the words of `v` in that store. -/
def internedAt (vs : List BitVecValue) (v : BitVecValue) : Nat :=
  if Preloaded v.words then wordsVal v.words else 8 + wordsBefore v.words (distinctWords vs)

end Baa

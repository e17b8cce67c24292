import Verif.Proofs.ArithOps

/-!
# Unfolding lemmas for the methods of `BitVecOps`
-/

namespace Baa
namespace BitVecValue
open Res

theorem length_zeros (w : Nat) : (valueVecZeros w).length = (w + 63) / 64 := length_valueVecZeros w

theorem arithBin_eq {m : Mode} {f : List Word → List Word → List Word → Nat → Res (List Word)} {a b : BitVecValue}
    {w : Nat} (haw : a.width = w) (hbw : b.width = w) (hal : a.words.length = (w + 63) / 64)
    (hbl : b.words.length = (w + 63) / 64) :
    arithBin m f a b = (f (valueVecZeros w) a.words b.words w >>= fun out => ok ⟨w, out⟩) := by
  unfold arithBin
  rw [debugAssert_of (by simp [haw, hbw]), ok_bind, debugAssert_of (by simp [hal, hbl]), ok_bind, haw]
  dsimp only
  by_cases h : a.words.length = 1
  · rw [if_pos h, modifyRange_full (by rw [length_zeros]; omega), sliceR_full h, ok_bind, sliceR_full (by omega),
      ok_bind]
  · rw [if_neg h]

theorem bitArithBin_eq {m : Mode} {f : List Word → List Word → List Word → List Word} {a b : BitVecValue}
    {w : Nat} (haw : a.width = w) (hbw : b.width = w) (hal : a.words.length = (w + 63) / 64)
    (hbl : b.words.length = (w + 63) / 64) :
    bitArithBin m f a b = ok ⟨w, f (valueVecZeros w) a.words b.words⟩ := by
  unfold bitArithBin
  rw [debugAssert_of (by simp [haw, hbw]), ok_bind, debugAssert_of (by simp [hal, hbl]), ok_bind, haw]
  dsimp only
  by_cases h : a.words.length = 1
  · rw [if_pos h, modifyRange_full (by rw [length_zeros]; omega), sliceR_full h, ok_bind, sliceR_full (by omega),
      ok_bind, ok_bind]
  · rw [if_neg h, ok_bind]

theorem not_eq {m : Mode} {a : BitVecValue} {w : Nat} (haw : a.width = w) (h0 : 0 < w)
    (hal : a.words.length = (w + 63) / 64) :
    not m a = (Arith.not m (valueVecZeros w) a.words w >>= fun out => ok ⟨w, out⟩) := by
  unfold not
  rw [haw]
  dsimp only
  by_cases h : a.words.length ≤ 1
  · rw [if_pos h, modifyRange_full (by rw [length_zeros]; omega), sliceR_full (by omega), ok_bind]
  · rw [if_neg h]

theorem negate_eq {m : Mode} {a : BitVecValue} {w : Nat} (haw : a.width = w) (h0 : 0 < w)
    (hal : a.words.length = (w + 63) / 64) :
    negate m a = (Arith.negateInPlace m a.words w >>= fun out => ok ⟨w, out⟩) := by
  unfold negate
  rw [haw]
  dsimp only
  have h1 : ∀ o : List Word, o.length = a.words.length → Arith.negate m o a.words w = Arith.negateInPlace m a.words w :=
    fun o ho => by rw [Arith.negate, if_pos ho]
  by_cases h : a.words.length ≤ 1
  · rw [if_pos h, modifyRange_full (by rw [length_zeros]; omega), sliceR_full (by omega), ok_bind,
      h1 _ (by rw [length_zeros]; omega)]
  · rw [if_neg h, h1 _ (by rw [length_zeros]; omega)]

theorem assertSame_ok {m : Mode} {a b : BitVecValue} (hw : a.width = b.width)
    (hl : a.words.length = b.words.length) : assertSame m a b = ok () := by
  unfold assertSame
  rw [debugAssert_of (by simp [hw]), ok_bind, debugAssert_of (by simp [hl])]

end BitVecValue
end Baa

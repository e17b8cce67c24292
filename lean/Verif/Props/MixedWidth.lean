import Verif.Props.RawObs
import Verif.Spec.Operands

/-!
# C92: operands of different widths in a release build

In a debug build an operation on operands of different widths panics (C29). The checks are debug assertions, so a release build carries on.
This file states what it then computes, for operands with any words.
-/

namespace Baa
open Res BitVecValue

/-! ## Words -/

namespace Arith

theorem addLoop_short (c : Nat) (d a b : List Word) (h : d.length = a.length) :
    addLoop c d a b = addLoop c (d.take b.length) (a.take b.length) (b.take a.length) ++ d.drop b.length := by
  induction d generalizing a b c with
  | nil => simp [addLoop]
  | cons x xs ih =>
    cases a with
    | nil => simp at h
    | cons y ys =>
      cases b with
      | nil => simp [addLoop]
      | cons z zs =>
        simp only [List.length_cons, Nat.add_right_cancel_iff] at h
        simp only [addLoop, List.length_cons, List.take_succ_cons, List.drop_succ_cons, List.cons_append]
        rw [ih _ ys zs h]

theorem bitwiseBinOp_short (op : Word → Word → Word) (d a b : List Word) (h : d.length = a.length) :
    bitwiseBinOp op d a b = List.zipWith op (a.take b.length) (b.take a.length) ++ d.drop b.length := by
  induction d generalizing a b with
  | nil =>
    cases a with
    | nil => simp [bitwiseBinOp]
    | cons y ys => simp at h
  | cons x xs ih =>
    cases a with
    | nil => simp at h
    | cons y ys =>
      cases b with
      | nil => simp [bitwiseBinOp]
      | cons z zs =>
        simp only [List.length_cons, Nat.add_right_cancel_iff] at h
        simp only [bitwiseBinOp, List.length_cons, List.take_succ_cons, List.drop_succ_cons, List.cons_append, List.zipWith_cons_cons]
        rw [ih ys zs h]

theorem wordsVal_take (ws : List Word) (n : Nat) : wordsVal (ws.take n) = wordsVal ws % 2 ^ (64 * n) :=
  wordsVal_eq_of_bit fun i => by rw [bit_take, Nat.testBit_mod_two_pow]; rfl

theorem wordsVal_drop (ws : List Word) (n : Nat) : wordsVal (ws.drop n) = wordsVal ws >>> (64 * n) :=
  wordsVal_eq_of_bit fun i => by rw [bit_drop, Nat.testBit_shiftRight, Nat.add_comm]; rfl

theorem cmpEqual_short (a b : List Word) : cmpEqual a b = cmpEqual (a.take b.length) (b.take a.length) := by
  unfold cmpEqual
  induction a generalizing b with
  | nil => simp
  | cons y ys ih =>
    cases b with
    | nil => simp
    | cons z zs =>
      simp only [List.length_cons, List.take_succ_cons, List.zip_cons_cons, List.all_cons]
      rw [ih zs]

theorem cmpLoop_short (a b : List Word) : cmpLoop a b = cmpLoop (a.take b.length) (b.take a.length) := by
  induction a generalizing b with
  | nil => simp [cmpLoop]
  | cons y ys ih =>
    cases b with
    | nil => simp [cmpLoop]
    | cons z zs =>
      simp only [cmpLoop, List.length_cons, List.take_succ_cons]
      rw [ih zs]

theorem isGreaterAndNotLess_short (a b : List Word) :
    isGreaterAndNotLess a b = isGreaterAndNotLess (a.drop (a.length - b.length)) (b.drop (b.length - a.length)) := by
  unfold isGreaterAndNotLess
  rw [cmpLoop_short, List.length_reverse, List.length_reverse, List.take_reverse, List.take_reverse]

theorem isNeg_any {m : Mode} {src : List Word} {width : Nat} (hw : 0 < width) (hl : src ≠ []) :
    isNeg m src width = ok (bit src (64 * (src.length - 1) + (width - 1) % 64)) := by
  have hpos : 0 < src.length := List.length_pos_iff.mpr hl
  have hi : (64 * (src.length - 1) + (width - 1) % 64) / 64 = src.length - 1 := by omega
  have hj : (64 * (src.length - 1) + (width - 1) % 64) % 64 = (width - 1) % 64 := by omega
  unfold isNeg
  simp only [BITS]
  rw [subC_ok (by omega), ok_bind, lastU_ok hl, ok_bind, and_one_beq, bit_eq_getD, hi, hj, List.getD_eq_getElem?_getD,
    List.getElem?_eq_getElem (by omega), Option.getD_some, List.getLast_eq_getElem]

end Arith

/-! ## Operations -/

/-- The words of the right operand that a release build passes on. -/
def rhsWords (a b : BitVecValue) : List Word := if a.words.length = 1 then b.words.take 1 else b.words

theorem arithBin_release {f : List Word → List Word → List Word → Nat → Res (List Word)} {a b : BitVecValue} {w : Nat}
    (haw : a.width = w) (hal : a.words.length = (w + 63) / 64) (hb : b.words ≠ []) :
    arithBin .release f a b = (f (valueVecZeros w) a.words (rhsWords a b) w >>= fun out => ok ⟨w, out⟩) := by
  have hpos : 0 < b.words.length := List.length_pos_iff.mpr hb
  unfold arithBin rhsWords
  rw [haw, show debugAssert .release (w == b.width) = ok () from rfl, ok_bind,
    show debugAssert .release (a.words.length == b.words.length) = ok () from rfl, ok_bind]
  dsimp only
  by_cases h : a.words.length = 1
  · rw [if_pos h, if_pos h, modifyRange_full (by rw [length_zeros]; omega), sliceR_full h, ok_bind,
      sliceR_ok (by omega) (by omega), ok_bind]
    rfl
  · rw [if_neg h, if_neg h]

theorem bitArithBin_release {f : List Word → List Word → List Word → List Word} {a b : BitVecValue} {w : Nat}
    (haw : a.width = w) (hal : a.words.length = (w + 63) / 64) (hb : b.words ≠ []) :
    bitArithBin .release f a b = ok ⟨w, f (valueVecZeros w) a.words (rhsWords a b)⟩ := by
  have hpos : 0 < b.words.length := List.length_pos_iff.mpr hb
  unfold bitArithBin rhsWords
  rw [haw, show debugAssert .release (w == b.width) = ok () from rfl, ok_bind,
    show debugAssert .release (a.words.length == b.words.length) = ok () from rfl, ok_bind]
  dsimp only
  by_cases h : a.words.length = 1
  · rw [if_pos h, if_pos h, modifyRange_full (by rw [length_zeros]; omega), sliceR_full h, ok_bind,
      sliceR_ok (by omega) (by omega), ok_bind, ok_bind]
    rfl
  · rw [if_neg h, if_neg h, ok_bind]

section
variable {w v N M : Nat} {a b : BitVecValue}

theorem one_word (ha : Raw a w N) (hw : 0 < w) : a.words.length = 1 ↔ w ≤ 64 := by rw [ha.length_eq]; omega

theorem rhsWords_ne (hb : Raw b v M) (hv : 0 < v) : rhsWords a b ≠ [] := by
  have h := hb.ne_nil hv
  unfold rhsWords
  split
  · cases hx : b.words with
    | nil => exact absurd hx h
    | cons x xs => simp
  · exact h

theorem rhsWords_val (hw : 0 < w) (ha : Raw a w N) (hb : Raw b v M) : wordsVal (rhsWords a b) = seen w M := by
  unfold rhsWords seen
  by_cases h : w ≤ 64
  · rw [if_pos h, if_pos ((one_word ha hw).mpr h), Arith.wordsVal_take, hb.val_eq]
  · rw [if_neg h, if_neg (fun h' => h ((one_word ha hw).mp h')), hb.val_eq]

/-- Taking at most as many words as the left operand has. -/
theorem rhsWords_take : (rhsWords a b).take a.words.length = b.words.take a.words.length := by
  unfold rhsWords
  split
  · next h => rw [h, List.take_take]; rfl
  · rfl

theorem take_rhsWords (hv : 0 < v) (hb : Raw b v M) : a.words.take (rhsWords a b).length = a.words.take b.words.length := by
  unfold rhsWords
  split
  · next h =>
    have : 0 < b.words.length := List.length_pos_iff.mpr (hb.ne_nil hv)
    rw [List.take_of_length_le (by simp; omega), List.take_of_length_le (by omega)]
  · rfl

theorem drop_rhsWords (ha : Raw a w N) (hv : 0 < v) (hb : Raw b v M) :
    (valueVecZeros w).drop (rhsWords a b).length = (valueVecZeros w).drop b.words.length := by
  unfold rhsWords
  split
  · next h =>
    have : 0 < b.words.length := List.length_pos_iff.mpr (hb.ne_nil hv)
    have h2 := ha.length_eq
    rw [List.drop_of_length_le (by simp; omega), List.drop_of_length_le (by simp; omega)]
  · rfl

theorem bit_zeros_drop (n i : Nat) : bit ((valueVecZeros w).drop n) i = false := by
  rw [bit_drop, valueVecZeros, bit_replicate_zero]

theorem shared_eq (ha : Raw a w N) (hb : Raw b v M) : shared w v = 64 * min a.words.length b.words.length := by
  rw [ha.length_eq, hb.length_eq]
  unfold shared capacity
  omega

theorem mixed_bitwise {f : Word → Word → Word} {g : Bool → Bool → Bool} {K : Nat} (hv : 0 < v) (ha : Raw a w N) (hb : Raw b v M)
    (hop : ∀ (x y : Word) i, i < 64 → (f x y).getLsbD i = g (x.getLsbD i) (y.getLsbD i)) (h0 : g false false = false)
    (hK : ∀ i, K.testBit i = g (N.testBit i) (M.testBit i)) :
    ∃ r, bitArithBin .release (Arith.bitwiseBinOp f) a b = ok r ∧ Raw r w (K % 2 ^ shared w v) := by
  refine ⟨_, bitArithBin_release ha.width_eq ha.length_eq (hb.ne_nil hv), .of_bit ha.width_lt rfl ?_ fun i => ?_⟩
  all_goals dsimp only
  all_goals rw [Arith.bitwiseBinOp_short _ _ _ _ (by rw [length_zeros, ha.length_eq]), rhsWords_take, take_rhsWords hv hb,
    drop_rhsWords ha hv hb]
  · have h1 := ha.length_eq
    simp
    omega
  · rw [bit_append, bit_zeros_drop, Arith.bit_zipWith f g hop h0 (by simp; omega), Nat.testBit_mod_two_pow, hK, bit_take, bit_take, ha.bit,
      hb.bit, shared_eq ha hb]
    simp only [List.length_zipWith, List.length_take]
    by_cases hi : i < 64 * min a.words.length b.words.length
    · rw [if_pos (by omega), decide_eq_true hi, decide_eq_true (show i < 64 * b.words.length by omega),
        decide_eq_true (show i < 64 * a.words.length by omega)]
      simp
    · rw [if_neg (by omega), decide_eq_false hi]
      simp

theorem capacity_ge (w : Nat) : w ≤ capacity w := by unfold capacity; omega

theorem mod_min {x y k n : Nat} (h : x % 2 ^ k = y % 2 ^ k) (hn : n ≤ k) : x % 2 ^ n = y % 2 ^ n := by
  rw [← Arith.pow_mod_pow_mod x hn, ← Arith.pow_mod_pow_mod y hn, h]

theorem mixed_addLoop {c K : Nat} (hc : c ≤ 1) (hw : 0 < w) (ha : Raw a w N) (ys : List Word)
    (hK : (N % 2 ^ (64 * ys.length) + wordsVal (ys.take a.words.length) + c) % 2 ^ (64 * min a.words.length ys.length) =
      K % 2 ^ (64 * min a.words.length ys.length)) :
    ∃ r, Arith.maskMsb .release (Arith.addLoop c (valueVecZeros w) a.words ys) w = ok r ∧ r.length = (w + 63) / 64 ∧
      wordsVal r = K % 2 ^ min w (64 * ys.length) := by
  have hl : a.words.length = (w + 63) / 64 := ha.length_eq
  have hz : (valueVecZeros w).length = (w + 63) / 64 := length_zeros w
  rw [Arith.addLoop_short _ _ _ _ (by omega)]
  have hl1 := (Arith.addLoop_spec hc (d := (valueVecZeros w).take ys.length) (a := a.words.take ys.length) (b := ys.take a.words.length)
    (by simp; omega) (by simp; omega)).1
  have hv1 := Arith.addLoop_val hc (d := (valueVecZeros w).take ys.length) (a := a.words.take ys.length) (b := ys.take a.words.length)
    (by simp; omega) (by simp; omega)
  obtain ⟨r, h1, h2, h3⟩ := Arith.maskMsb_spec (m := .release) (dst := Arith.addLoop c ((valueVecZeros w).take ys.length)
    (a.words.take ys.length) (ys.take a.words.length) ++ (valueVecZeros w).drop ys.length) (width := w)
    (by rw [List.length_append, hl1]; simp; omega) hw
  refine ⟨r, h1, by rw [h2, List.length_append, hl1]; simp; omega, ?_⟩
  have hzero : wordsVal ((valueVecZeros w).drop ys.length) = 0 := wordsVal_eq_of_bit fun i => by rw [bit_zeros_drop]; simp
  rw [h3, wordsVal_append, hzero, Nat.mul_zero, Nat.add_zero, hv1, Arith.wordsVal_take, ha.val_eq, List.length_take, Nat.min_comm ys.length, hK]
  by_cases hc : a.words.length ≤ ys.length
  · rw [Nat.min_eq_left hc, Arith.pow_mod_pow_mod _ (by omega), Nat.min_eq_left (by omega)]
  · rw [Nat.min_eq_right (by omega), Nat.min_eq_right (by omega)]
    exact Nat.mod_eq_of_lt (Nat.lt_of_lt_of_le (Nat.mod_lt _ (Nat.two_pow_pos _)) (Nat.pow_le_pow_right (by decide) (by omega)))

theorem min_rhsWords (hv : 0 < v) (ha : Raw a w N) (hb : Raw b v M) :
    min a.words.length (rhsWords a b).length = min a.words.length b.words.length ∧
    min w (64 * (rhsWords a b).length) = min w (capacity v) := by
  have h1 := ha.length_eq
  have h2 := hb.length_eq
  unfold rhsWords capacity
  split
  · rw [List.length_take]
    omega
  · omega

theorem take_val (ha : Raw a w N) (hb : Raw b v M) : wordsVal (b.words.take a.words.length) = M % 2 ^ shared w v := by
  rw [Arith.wordsVal_take, hb.val_eq, shared_eq ha hb]
  by_cases h : a.words.length ≤ b.words.length
  · rw [Nat.min_eq_left h]
  · rw [Nat.min_eq_right (by omega)]
    have hlt : M < 2 ^ (64 * b.words.length) := by
      have := wordsVal_lt b.words
      rwa [hb.val_eq] at this
    rw [Nat.mod_eq_of_lt hlt, Nat.mod_eq_of_lt (Nat.lt_of_lt_of_le hlt (Nat.pow_le_pow_right (by decide) (by omega)))]

theorem mod_add_mod {x y k n : Nat} (h : n ≤ k) : (x % 2 ^ k + y % 2 ^ n) % 2 ^ n = (x + y) % 2 ^ n := by
  rw [Nat.add_mod, Arith.pow_mod_pow_mod _ h, Nat.mod_mod, ← Nat.add_mod]

theorem mixed_add (hw : 0 < w) (hv : 0 < v) (ha : Raw a w N) (hb : Raw b v M) :
    ∃ r, BitVecValue.add .release a b = ok r ∧ Raw r w ((N + M) % 2 ^ min w (capacity v)) := by
  obtain ⟨h1, h2⟩ := min_rhsWords hv ha hb
  obtain ⟨r, hr1, hr2, hr3⟩ := mixed_addLoop (c := 0) (K := N + M) (by omega) hw ha (rhsWords a b) (by
    rw [rhsWords_take, take_val ha hb, h1, shared_eq ha hb, Nat.add_zero, mod_add_mod (by omega)])
  refine ⟨⟨w, r⟩, ?_, ha.width_lt, rfl, hr2, by rw [hr3, h2]⟩
  rw [BitVecValue.add, arithBin_release ha.width_eq ha.length_eq (hb.ne_nil hv), Arith.add, hr1, ok_bind]

theorem sub_mod_shared {N M L C : Nat} (h : L ≤ C) (hM : M < 2 ^ C) :
    (N + (2 ^ L - M % 2 ^ L)) % 2 ^ L = (N + (2 ^ C - M)) % 2 ^ L := by
  obtain ⟨q, hq⟩ := Nat.pow_dvd_pow 2 h
  have hp : 0 < 2 ^ L := Nat.two_pow_pos L
  have hM' := Nat.div_add_mod M (2 ^ L)
  have hr := Nat.mod_lt M hp
  have hlt : M / 2 ^ L < q := Nat.div_lt_of_lt_mul (by rw [← hq]; exact hM)
  obtain ⟨k, hk⟩ := Nat.exists_eq_add_of_le (Nat.succ_le_of_lt hlt)
  have e : 2 ^ C - M = 2 ^ L * k + (2 ^ L - M % 2 ^ L) := by
    rw [hq, hk]
    generalize M / 2 ^ L = d at *
    rw [Nat.succ_eq_add_one, Nat.mul_add, Nat.mul_add, Nat.mul_one]
    omega
  rw [e, Nat.add_left_comm, Nat.add_comm (2 ^ L * k), Nat.add_mul_mod_self_left]

theorem mixed_sub (hw : 0 < w) (hv : 0 < v) (ha : Raw a w N) (hb : Raw b v M) :
    ∃ r, BitVecValue.sub .release a b = ok r ∧ Raw r w ((N + (2 ^ capacity v - M)) % 2 ^ min w (capacity v)) := by
  obtain ⟨h1, h2⟩ := min_rhsWords hv ha hb
  have hsh := shared_eq ha hb
  have hlt := Nat.mod_lt M (Nat.two_pow_pos (shared w v))
  obtain ⟨r, hr1, hr2, hr3⟩ := mixed_addLoop (c := 1) (K := N + (2 ^ capacity v - M)) (by omega) hw ha
    ((rhsWords a b).map fun e => ~~~e) (by
    rw [List.length_map, ← List.map_take, Arith.wordsVal_map_not, rhsWords_take, take_val ha hb, h1, List.length_take, ← hsh, Nat.add_assoc,
      show 2 ^ shared w v - 1 - M % 2 ^ shared w v + 1 = 2 ^ shared w v - M % 2 ^ shared w v by omega,
      ← sub_mod_shared (show shared w v ≤ capacity v from Nat.min_le_right _ _) hb.lt, Nat.add_mod, Arith.pow_mod_pow_mod _ (by omega), ← Nat.add_mod])
  rw [List.length_map] at hr3
  refine ⟨⟨w, r⟩, ?_, ha.width_lt, rfl, hr2, by rw [hr3, h2]⟩
  rw [BitVecValue.sub, arithBin_release ha.width_eq ha.length_eq (hb.ne_nil hv), Arith.sub, Arith.subLoop_eq, hr1, ok_bind]

theorem mixed_mul (hw : 0 < w) (hv : 0 < v) (ha : Raw a w N) (hb : Raw b v M) (h64 : w ≤ 64) :
    ∃ r, BitVecValue.mul .release a b = ok r ∧ Raw r w (N * M % 2 ^ w) := by
  obtain ⟨x, hx⟩ := List.length_eq_one_iff.mp ((one_word ha hw).mpr h64)
  obtain ⟨y, hy⟩ : ∃ y, rhsWords a b = [y] := List.length_eq_one_iff.mp (by
    have : 0 < b.words.length := List.length_pos_iff.mpr (hb.ne_nil hv)
    unfold rhsWords
    rw [if_pos ((one_word ha hw).mpr h64), List.length_take]
    omega)
  have hN := ha.val_eq
  have hM := rhsWords_val hw ha hb
  rw [hx, Arith.wordsVal_singleton] at hN
  rw [hy, Arith.wordsVal_singleton, seen, if_pos h64] at hM
  obtain ⟨mk, hk1, hk2, -⟩ := Arith.mask_spec hw h64
  have hz : valueVecZeros w = [0#64] := by
    unfold valueVecZeros
    rw [show divCeil w BITS = 1 from by rw [show divCeil w BITS = (w + 63) / 64 from rfl]; omega]
    rfl
  refine ⟨⟨w, [x * y &&& mk]⟩, ?_, ha.width_lt, rfl, by show 1 = _; omega, ?_⟩
  · rw [BitVecValue.mul, arithBin_release ha.width_eq ha.length_eq (hb.ne_nil hv), Arith.mul, if_pos h64, hx, hy, hz]
    simp only [idx, setIdx, List.getElem?_cons_zero, ok_bind, hk1, List.length_cons, List.length_nil, List.set_cons_zero]
    rfl
  · rw [Arith.wordsVal_singleton, Arith.and_mask_toNat _ _ _ hk2, BitVec.toNat_mul, hN, hM, Arith.pow_mod_pow_mod _ h64, Nat.mul_mod,
      Arith.pow_mod_pow_mod _ h64, ← Nat.mul_mod]

theorem mixed_shift_left (hw : 0 < w) (hv : 0 < v) (ha : Raw a w N) (hb : Raw b v M) :
    ∃ r, BitVecValue.shiftLeft .release a b = ok r ∧ Raw r w (if w ≤ seen w M then 0 else if seen w M % 64 = 0 then
      (N <<< seen w M) % 2 ^ capacity w else (N <<< seen w M) % 2 ^ w) := by
  obtain ⟨r, h1, h2, h3⟩ := Arith.shiftLeft_spec (m := .release) (d := valueVecZeros w) hw ha.width_lt (length_valueVecZeros w)
    ha.length_eq (rhsWords_ne (a := a) hb hv)
  rw [length_valueVecZeros] at h2 h3
  refine ⟨⟨w, r⟩, ?_, .of_bit ha.width_lt rfl h2 fun i => ?_⟩
  · rw [BitVecValue.shiftLeft, arithBin_release ha.width_eq ha.length_eq (hb.ne_nil hv), h1, ok_bind]
  · show Baa.bit r i = _
    rw [h3, rhsWords_val hw ha hb, ha.bit]
    generalize seen w M = M
    by_cases h4 : w ≤ M
    · rw [if_pos h4, decide_eq_false (show ¬ M < w by omega)]; simp
    · rw [if_neg h4, decide_eq_true (show M < w by omega)]
      by_cases h5 : M % 64 = 0
      · rw [if_pos h5, if_pos h5, Nat.testBit_mod_two_pow, Nat.testBit_shiftLeft, capacity]; simp [Bool.and_assoc]
      · rw [if_neg h5, if_neg h5, Nat.testBit_mod_two_pow, Nat.testBit_shiftLeft]; simp [Bool.and_assoc]

theorem mixed_shift_right (hw : 0 < w) (hv : 0 < v) (ha : Raw a w N) (hb : Raw b v M) :
    ∃ r, BitVecValue.shiftRight .release a b = ok r ∧ Raw r w ((N % 2 ^ w) >>> seen w M) := by
  obtain ⟨r, h1, h2, h3⟩ := Arith.shiftRight_gen (m := .release) (d := valueVecZeros w) hw ha.width_lt
    (length_valueVecZeros w) ha.length_eq (rhsWords_ne (a := a) hb hv)
  rw [length_valueVecZeros] at h2
  refine ⟨⟨w, r⟩, ?_, .of_bit ha.width_lt rfl h2 fun i => ?_⟩
  · rw [BitVecValue.shiftRight, arithBin_release ha.width_eq ha.length_eq (hb.ne_nil hv), h1, ok_bind, ok_bind]
  · show Baa.bit r i = _
    rw [h3, rhsWords_val hw ha hb, ha.bit, Nat.testBit_shiftRight, Nat.testBit_mod_two_pow, Nat.add_comm]

theorem mixed_arithmetic_shift_right (hw : 0 < w) (hv : 0 < v) (ha : Raw a w N) (hb : Raw b v M) :
    ∃ r, BitVecValue.arithmeticShiftRight .release a b = ok r ∧ Raw r w ((low w N).sshiftRight (seen w M)).toNat := by
  obtain ⟨r, h1, h2, h3⟩ := Arith.arithmeticShiftRight_spec (m := .release) (d := valueVecZeros w) hw ha.width_lt
    (length_valueVecZeros w) ha.length_eq (rhsWords_ne (a := a) hb hv)
  rw [length_valueVecZeros] at h2
  refine ⟨⟨w, r⟩, ?_, (Denotes.of_bit ha.width_lt rfl h2 fun i => ?_).raw⟩
  · rw [BitVecValue.arithmeticShiftRight, arithBin_release ha.width_eq ha.length_eq (hb.ne_nil hv), h1, ok_bind]
  · rw [h3, rhsWords_val hw ha hb, BitVec.getLsbD_sshiftRight, Nat.add_comm i, BitVec.msb_eq_getLsbD_last, ha.shows.low (w - 1) (by omega)]
    generalize seen w M = M
    by_cases h : i < w
    · rw [decide_eq_true h, decide_eq_false (show ¬ w ≤ i by omega)]
      by_cases h' : M + i < w
      · rw [if_pos h', if_pos h', ha.shows.low _ h']; rfl
      · rw [if_neg h', if_neg h']; rfl
    · rw [decide_eq_false h, decide_eq_true (show w ≤ i by omega)]; rfl

/-- **C92** (operations): what a release build computes for operands of any two positive widths with any words. -/
theorem C92_operation (op : MixedOp) (hw : 0 < w) (hv : 0 < v) (ha : Raw a w N) (hb : Raw b v M) :
    Outcome (op.run a b) w (op.number w v N M) := by
  cases op with
  | add => exact mixed_add hw hv ha hb
  | sub => exact mixed_sub hw hv ha hb
  | mul =>
    unfold MixedOp.number
    by_cases h : w ≤ 64
    · rw [if_pos h]
      exact mixed_mul hw hv ha hb h
    · rw [if_neg h]
      refine ⟨.todo, ?_⟩
      unfold MixedOp.run
      dsimp only
      rw [BitVecValue.mul, arithBin_release ha.width_eq ha.length_eq (hb.ne_nil hv), Arith.mul, if_neg h]
      rfl
  | and => exact mixed_bitwise hv ha hb (g := Bool.and) (fun u v i _ => by simp) rfl (fun i => by rw [Nat.testBit_and])
  | or => exact mixed_bitwise hv ha hb (g := Bool.or) (fun u v i _ => by simp) rfl (fun i => by rw [Nat.testBit_or])
  | xor => exact mixed_bitwise hv ha hb (g := Bool.xor) (fun u v i _ => by simp) rfl (fun i => by rw [Nat.testBit_xor])
  | shiftLeft => exact mixed_shift_left hw hv ha hb
  | shiftRight => exact mixed_shift_right hw hv ha hb
  | arithmeticShiftRight => exact mixed_arithmetic_shift_right hw hv ha hb
  | assign =>
    have h1 := ha.length_eq
    have h2 := hb.length_eq
    unfold MixedOp.number
    dsimp only
    have e : MixedOp.run a b .assign = if a.words.length = b.words.length then ok { a with words := b.words } else panic .lenMismatch := rfl
    by_cases h : capacity w = capacity v
    · have hl : a.words.length = b.words.length := by unfold capacity at h; omega
      rw [if_pos h, e, if_pos hl]
      exact ⟨_, rfl, ha.width_lt, ha.width_eq, by show b.words.length = _; omega, hb.val_eq⟩
    · have hl : ¬ a.words.length = b.words.length := by unfold capacity at h; omega
      rw [if_neg h, e, if_neg hl]
      exact ⟨_, rfl⟩

/-! ## Comparisons -/

theorem mixed_equal (ha : Raw a w N) (hb : Raw b v M) :
    BitVecValue.isEqual .release a b = ok (decide (N % 2 ^ shared w v = M % 2 ^ shared w v)) := by
  show ok (Arith.cmpEqual a.words b.words) = _
  rw [Arith.cmpEqual_short, Arith.cmpEqual_spec (by simp; omega), take_val ha hb, take_val hb ha, shared, shared, Nat.min_comm (capacity v)]

/-- The words that the order looks at. -/
theorem parts_val (hw : 0 < w) (hv : 0 < v) (ha : Raw a w N) (hb : Raw b v M) :
    wordsVal (a.words.drop (a.words.length - (rhsWords a b).length)) = leftPart w v N ∧
    wordsVal ((rhsWords a b).drop ((rhsWords a b).length - a.words.length)) = rightPart w v M := by
  have h1 := ha.length_eq
  have h2 := hb.length_eq
  have hmin := (min_rhsWords hv ha hb).1
  constructor
  · rw [Arith.wordsVal_drop, ha.val_eq, leftPart, shared_eq ha hb]
    congr 1
    unfold capacity
    omega
  · unfold rightPart
    rw [Arith.wordsVal_drop, rhsWords_val hw ha hb, seen]
    by_cases h : w ≤ 64
    · rw [if_pos h, if_pos h]
      unfold rhsWords
      rw [if_pos ((one_word ha hw).mpr h), List.length_take, show min 1 b.words.length - a.words.length = 0 by omega]
      rfl
    · rw [if_neg h, if_neg h]
      unfold rhsWords
      rw [if_neg (fun h' => h ((one_word ha hw).mp h')), shared_eq ha hb]
      congr 1
      unfold capacity
      omega

theorem greater_words (hw : 0 < w) (hv : 0 < v) (ha : Raw a w N) (hb : Raw b v M) :
    Arith.cmpGreater a.words (rhsWords a b) = decide (rightPart w v M < leftPart w v N) ∧
    Arith.cmpGreaterEqual a.words (rhsWords a b) = decide (rightPart w v M ≤ leftPart w v N) := by
  obtain ⟨h1, h2⟩ := parts_val hw hv ha hb
  have hl : (a.words.drop (a.words.length - (rhsWords a b).length)).length =
      ((rhsWords a b).drop ((rhsWords a b).length - a.words.length)).length := by simp; omega
  have h3 := Arith.cmpGreater_spec hl
  have h4 := Arith.cmpGreaterEqual_spec hl
  rw [h1, h2] at h3 h4
  unfold Arith.cmpGreater Arith.cmpGreaterEqual at *
  rw [Arith.isGreaterAndNotLess_short]
  exact ⟨h3, h4⟩

/-- In a release build every order is computed from the same words. -/
theorem order_release (hw : 0 < w) (hv : 0 < v) (ha : Raw a w N) (hb : Raw b v M) {α : Type} (f : List Word → List Word → Res α)
    (g : List Word → List Word → Res α) :
    (do if a.words.length = 1 then
          let x ← sliceR a.words 0 1
          let y ← sliceR b.words 0 1
          f x y
        else g a.words b.words) = if w ≤ 64 then f a.words (rhsWords a b) else g a.words (rhsWords a b) := by
  have hpos : 0 < b.words.length := List.length_pos_iff.mpr (hb.ne_nil hv)
  unfold rhsWords
  by_cases h : w ≤ 64
  · have h1 := (one_word ha hw).mpr h
    rw [if_pos h1, if_pos h1, if_pos h, sliceR_full h1, ok_bind, sliceR_ok (by omega) (by omega), ok_bind]
    rfl
  · have h1 := fun h' => h ((one_word ha hw).mp h')
    rw [if_neg h1, if_neg h1, if_neg h]

theorem mixed_greater (hw : 0 < w) (hv : 0 < v) (ha : Raw a w N) (hb : Raw b v M) :
    BitVecValue.isGreater .release a b = ok (mixedGreater w v N M) := by
  refine (order_release hw hv ha hb (fun x y => ok (Arith.cmpGreater x y)) (fun x y => ok (Arith.cmpGreater x y))).trans ?_
  rw [(greater_words hw hv ha hb).1, ite_self]
  rfl

theorem mixed_greater_or_equal (hw : 0 < w) (hv : 0 < v) (ha : Raw a w N) (hb : Raw b v M) :
    BitVecValue.isGreaterOrEqual .release a b = ok (mixedGreaterOrEqual w v N M) := by
  refine (order_release hw hv ha hb (fun x y => ok (Arith.cmpGreaterEqual x y)) (fun x y => ok (Arith.cmpGreater x y))).trans ?_
  rw [(greater_words hw hv ha hb).1, (greater_words hw hv ha hb).2]
  unfold mixedGreaterOrEqual
  split <;> rfl

theorem right_sign (hw : 0 < w) (hv : 0 < v) (ha : Raw a w N) (hb : Raw b v M) :
    Arith.isNeg .release (rhsWords a b) w = ok (rightSign w v M) := by
  rw [Arith.isNeg_any hw (rhsWords_ne hb hv)]
  unfold Baa.bit
  rw [rhsWords_val hw ha hb]
  have h2 := hb.length_eq
  unfold rightSign seen rhsWords capacity
  by_cases h : w ≤ 64
  · have hpos : 0 < b.words.length := List.length_pos_iff.mpr (hb.ne_nil hv)
    rw [if_pos h, if_pos h, if_pos ((one_word ha hw).mpr h), List.length_take, Nat.testBit_mod_two_pow, Nat.min_eq_left (by omega),
      show 64 * (1 - 1) + (w - 1) % 64 = w - 1 by omega, decide_eq_true (show w - 1 < 64 by omega), Bool.true_and]
  · rw [if_neg h, if_neg h, if_neg (fun h' => h ((one_word ha hw).mp h')), h2,
      show 64 * ((v + 63) / 64 - 1) + (w - 1) % 64 = 64 * ((v + 63) / 64) - 64 + (w - 1) % 64 by omega]

theorem mixed_greater_signed (hw : 0 < w) (hv : 0 < v) (ha : Raw a w N) (hb : Raw b v M) :
    BitVecValue.isGreaterSigned .release a b = ok (mixedGreaterSigned w v N M) ∧
    BitVecValue.isGreaterOrEqualSigned .release a b = ok (mixedGreaterOrEqualSigned w v N M) := by
  constructor
  · refine (order_release hw hv ha hb (fun x y => Arith.cmpGreaterSigned .release x y a.width)
      (fun x y => Arith.cmpGreaterSigned .release x y a.width)).trans ?_
    rw [ite_self, ha.width_eq, Arith.cmpGreaterSigned, Arith.isNeg_spec hw ha.length_eq, ok_bind, right_sign hw hv ha hb, ok_bind, ha.bit,
      (greater_words hw hv ha hb).1]
    unfold mixedGreaterSigned
    cases N.testBit (w - 1) <;> cases rightSign w v M <;> simp
  · refine (order_release hw hv ha hb (fun x y => Arith.cmpGreaterEqualSigned .release x y a.width)
      (fun x y => Arith.cmpGreaterEqualSigned .release x y a.width)).trans ?_
    rw [ite_self, ha.width_eq, Arith.cmpGreaterEqualSigned, Arith.isNeg_spec hw ha.length_eq, ok_bind, right_sign hw hv ha hb, ok_bind,
      ha.bit, (greater_words hw hv ha hb).2]
    unfold mixedGreaterOrEqualSigned
    cases N.testBit (w - 1) <;> cases rightSign w v M <;> simp

/-- **C92** (comparisons): what a release build answers for operands of any two positive widths with any words. No comparison panics. -/
theorem C92_comparison (op : MixedCmp) (hw : 0 < w) (hv : 0 < v) (ha : Raw a w N) (hb : Raw b v M) :
    op.run a b = ok (op.answer w v N M) := by
  cases op with
  | equal => exact mixed_equal ha hb
  | notEqual =>
    show (BitVecValue.isEqual .release a b >>= _) = _
    rw [mixed_equal ha hb, ok_bind]
    simp [MixedCmp.answer]
  | greater => exact mixed_greater hw hv ha hb
  | greaterOrEqual => exact mixed_greater_or_equal hw hv ha hb
  | less => exact mixed_greater hv hw hb ha
  | lessOrEqual => exact mixed_greater_or_equal hv hw hb ha
  | greaterSigned => exact (mixed_greater_signed hw hv ha hb).1
  | greaterOrEqualSigned => exact (mixed_greater_signed hw hv ha hb).2
  | lessSigned => exact (mixed_greater_signed hv hw hb ha).1
  | lessOrEqualSigned => exact (mixed_greater_signed hv hw hb ha).2
  | eqOwned =>
    show _ = ok (decide (w = v ∧ N = M))
    by_cases h : w = v
    · subst h
      rw [show decide (w = w ∧ N = M) = decide (N = M) from decide_eq_decide.mpr ⟨fun h => h.2, fun h => ⟨rfl, h⟩⟩]
      exact (C87_compare .release ha hb).2.2.2.2.1
    · rw [decide_eq_false (fun h' => h h'.1)]
      show ok (b.width == a.width && _) = _
      rw [ha.width_eq, hb.width_eq, beq_eq_false_iff_ne.mpr (fun e => h e.symm)]
      rfl
  | eqRef =>
    show _ = ok (decide (w = v ∧ N = M))
    by_cases h : w = v
    · subst h
      rw [show decide (w = w ∧ N = M) = decide (N = M) from decide_eq_decide.mpr ⟨fun h => h.2, fun h => ⟨rfl, h⟩⟩]
      exact (C87_compare .release ha hb).2.2.2.2.2.1
    · rw [decide_eq_false (fun h' => h h'.1)]
      show (if b.width = a.width then _ else _) = _
      rw [ha.width_eq, hb.width_eq, if_neg (fun e => h e.symm)]

/-! ## What this means for values in normal form -/

theorem MixedOp.number_lt (op : MixedOp) (hN : N < 2 ^ w)
    (hop : op ≠ .or ∧ op ≠ .xor ∧ op ≠ .assign ∧ op ≠ .shiftLeft ∨ M < 2 ^ w ∧ op ≠ .shiftLeft) {K : Nat}
    (h : op.number w v N M = some K) : K < 2 ^ w := by
  have hmod : ∀ x n, n ≤ w → x % 2 ^ n < 2 ^ w := fun x n hn =>
    Nat.lt_of_lt_of_le (Nat.mod_lt _ (Nat.two_pow_pos _)) (Nat.pow_le_pow_right (by decide) hn)
  cases op with
  | add => cases h; exact hmod _ _ (Nat.min_le_left _ _)
  | sub => cases h; exact hmod _ _ (Nat.min_le_left _ _)
  | mul =>
    unfold MixedOp.number at h
    dsimp only at h
    split at h
    · cases h; exact hmod _ _ (Nat.le_refl _)
    · cases h
  | and => cases h; exact Nat.lt_of_le_of_lt (Nat.mod_le _ _) (Nat.lt_of_le_of_lt Nat.and_le_left hN)
  | or =>
    cases h
    rcases hop with hop | hop
    · exact absurd rfl hop.1
    · exact Nat.lt_of_le_of_lt (Nat.mod_le _ _) (Nat.or_lt_two_pow hN hop.1)
  | xor =>
    cases h
    rcases hop with hop | hop
    · exact absurd rfl hop.2.1
    · exact Nat.lt_of_le_of_lt (Nat.mod_le _ _) (Nat.xor_lt_two_pow hN hop.1)
  | shiftLeft =>
    rcases hop with hop | hop
    · exact absurd rfl hop.2.2.2
    · exact absurd rfl hop.2
  | shiftRight => cases h; exact Nat.lt_of_le_of_lt (Nat.shiftRight_le _ _) (hmod _ _ (Nat.le_refl _))
  | arithmeticShiftRight => cases h; exact BitVec.isLt _
  | assign =>
    unfold MixedOp.number at h
    dsimp only at h
    split at h
    · cases h
      rcases hop with hop | hop
      · exact absurd rfl hop.2.2.1
      · exact hop.1
    · cases h

/-- **C92** (normal form): of two values in normal form, a release build computes a value in normal form, except that `or`, `xor` and
`assign` keep bits of a right operand that does not fit, and `shift_left` by a multiple of 64 keeps bits that it shifts out (C12). -/
theorem C92_normal_form (op : MixedOp) (ha : Canonical a) (hb : Canonical b) (hw : 0 < a.width) (hv : 0 < b.width)
    (hop : op ≠ .or ∧ op ≠ .xor ∧ op ≠ .assign ∧ op ≠ .shiftLeft ∨ wordsVal b.words < 2 ^ a.width ∧ op ≠ .shiftLeft) {r : BitVecValue}
    (h : op.run a b = ok r) : Canonical r := by
  have h1 := C92_operation op hw hv (N := wordsVal a.words) (M := wordsVal b.words) ⟨ha.width_lt, rfl, ha.length_eq, rfl⟩
    ⟨hb.width_lt, rfl, hb.length_eq, rfl⟩
  cases hn : op.number a.width b.width (wordsVal a.words) (wordsVal b.words) with
  | none =>
    rw [hn, h] at h1
    obtain ⟨p, hp⟩ := h1
    cases hp
  | some K =>
    rw [hn, h] at h1
    obtain ⟨s, hs, hr⟩ := h1
    cases hs
    refine ⟨hr.width_eq ▸ hr.width_lt, by rw [hr.length_eq, hr.width_eq], ?_⟩
    rw [hr.val_eq, hr.width_eq]
    exact op.number_lt ha.val_lt hop hn

/-- **C92** (same number of words): if both operands have the same number of words, a release build takes the right one as a value of the
left one's width with the same words. -/
theorem C92_same_words (hw : 0 < w) (hv : 0 < v) (ha : Raw a w N) (hb : Raw b v M) (hc : capacity w = capacity v) {b' : BitVecValue}
    (hb' : Raw b' w M) :
    (∀ op : MixedOp, (∃ r, op.run a b = ok r ∧ op.run a b' = ok r) ∨ (Panics (op.run a b) ∧ Panics (op.run a b'))) ∧
    ∀ op : MixedCmp, op = .equal ∨ op = .notEqual ∨ op = .greater ∨ op = .greaterOrEqual ∨ op = .greaterSigned ∨
      op = .greaterOrEqualSigned → op.run a b = op.run a b' := by
  have hs : shared w v = shared w w := by unfold shared; rw [hc]
  constructor
  · intro op
    have h1 := C92_operation op hw hv ha hb
    have h2 := C92_operation op hw hw ha hb'
    have e : op.number w v N M = op.number w w N M := by
      unfold MixedOp.number
      rw [hs, ← hc]
    rw [e] at h1
    cases hn : op.number w w N M with
    | none =>
      rw [hn] at h1 h2
      exact .inr ⟨h1, h2⟩
    | some K =>
      rw [hn] at h1 h2
      obtain ⟨r, hr1, hr2⟩ := h1
      obtain ⟨s, hs1, hs2⟩ := h2
      exact .inl ⟨r, hr1, by rw [hs1, hr2.unique hs2]⟩
  · intro op hop
    rw [C92_comparison op hw hv ha hb, C92_comparison op hw hw ha hb']
    rcases hop with rfl | rfl | rfl | rfl | rfl | rfl <;>
      simp only [MixedCmp.answer, mixedGreater, mixedGreaterOrEqual, mixedGreaterSigned, mixedGreaterOrEqualSigned, rightPart, leftPart,
        rightSign, hs, hc]

end

/-! ## Non-vacuity -/

/-- Operands of 8 and 100 bits. -/
example : Raw (encode 200#8) 8 200 ∧ Raw (encode 100#100) 100 100 ∧ (encode 200#8).width ≠ (encode 100#100).width :=
  ⟨(encode_denotes 200#8 (by decide)).raw, (encode_denotes 100#100 (by decide)).raw, by decide⟩

/-- Adding a 100-bit value to an 8-bit one wraps at 8 bits, the other way round it wraps at 64 bits and loses the high word. -/
example : MixedOp.run (encode 200#8) (encode 100#100) .add = ok (encode 44#8) ∧
    MixedOp.run (encode (2 ^ 70 + 5 : BitVec 100)) (encode 3#8) .add = ok (encode 8#100) ∧
    MixedOp.number 8 100 200 100 .add = some 44 ∧ MixedOp.number 100 8 (2 ^ 70 + 5) 3 .add = some 8 := by decide +kernel

/-- `or` with a wider value leaves stray bits. -/
example : MixedOp.run (encode 1#4) (encode 255#8) .or = ok ⟨4, [255#64]⟩ ∧ ¬ Canonical ⟨4, [255#64]⟩ :=
  ⟨by decide +kernel, fun h => absurd h.val_lt (by decide)⟩

/-- Unsigned order compares the highest words: with a two-word left and a one-word right operand, 5 is not greater than 3. -/
example : MixedCmp.run (encode 5#100) (encode 3#8) .greater = ok false ∧ MixedCmp.answer 100 8 5 3 .greater = false ∧
    MixedCmp.run (encode (2 ^ 64 : BitVec 100)) (encode 3#8) .equal = ok false ∧
    MixedCmp.run (encode (2 ^ 64 + 3 : BitVec 100)) (encode 3#8) .equal = ok true := by decide +kernel

end Baa

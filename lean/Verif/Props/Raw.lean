import Verif.Proofs.Raw
import Verif.Props.Stray
import Verif.Spec.Expressions

/-!
# C86: the outcome of a computation on arbitrary words

C27 and C77 say for which computations the code returns the mathematical result. This file says what it returns for all others: values
may have any bits above their width, and multiplications may be wider than 64 bits. `Expr.raw` computes the number in the words of the
result, or `none` for a panic.
-/

namespace Baa
open Res BitVecValue

theorem Expr.Shaped.pos : {w : Nat} → {e : Expr w} → e.Shaped → 0 < w
  | _, .leaf _, h => h.1
  | _, .add _ _, h => h.1.pos
  | _, .sub _ _, h => h.1.pos
  | _, .mul _ _, h => h.1.pos
  | _, .and _ _, h => h.1.pos
  | _, .or _ _, h => h.1.pos
  | _, .xor _ _, h => h.1.pos
  | _, .shl _ _, h => h.1.pos
  | _, .shr _ _, h => h.1.pos
  | _, .ashr _ _, h => h.1.pos
  | _, .neg a, h => Expr.Shaped.pos (e := a) h
  | _, .not a, h => Expr.Shaped.pos (e := a) h
  | _, .slice _ _ _, _ => Nat.succ_pos _
  | _, .concat _ _, h => Nat.lt_of_lt_of_le h.1.pos (Nat.le_add_right _ _)
  | _, .zext _ _, h => Nat.lt_of_lt_of_le h.1.pos (Nat.le_add_right _ _)
  | _, .sext _ _, h => Nat.lt_of_lt_of_le h.1.pos (Nat.le_add_right _ _)
  | _, .eq _ _, _ => Nat.one_pos
  | _, .ugt _ _, _ => Nat.one_pos
  | _, .sgt _ _, _ => Nat.one_pos
  | _, .sge _ _, _ => Nat.one_pos
  | _, .ite _ _ _, h => h.2.1.pos

/-- Legal computations are shaped. -/
theorem Expr.Legal.shaped : {w : Nat} → {e : Expr w} → e.Legal → e.Shaped
  | _, .leaf _, h => ⟨h.2, h.1.denotes.width_lt, h.1.denotes.length_eq⟩
  | _, .add _ _, h => ⟨h.1.shaped, h.2.shaped⟩
  | _, .sub _ _, h => ⟨h.1.shaped, h.2.shaped⟩
  | _, .mul _ _, h => ⟨h.1.shaped, h.2.shaped⟩
  | _, .and _ _, h => ⟨h.1.shaped, h.2.shaped⟩
  | _, .or _ _, h => ⟨h.1.shaped, h.2.shaped⟩
  | _, .xor _ _, h => ⟨h.1.shaped, h.2.shaped⟩
  | _, .shl _ _, h => ⟨h.1.shaped, h.2.shaped⟩
  | _, .shr _ _, h => ⟨h.1.shaped, h.2.shaped⟩
  | _, .ashr _ _, h => ⟨h.1.shaped, h.2.shaped⟩
  | _, .neg a, h => Expr.Legal.shaped (e := a) h
  | _, .not a, h => Expr.Legal.shaped (e := a) h
  | _, .slice _ _ _, h => ⟨h.1.shaped, h.2⟩
  | _, .concat _ _, h => ⟨h.1.shaped, h.2.1.shaped, h.2.2⟩
  | _, .zext _ _, h => ⟨h.1.shaped, h.2⟩
  | _, .sext _ _, h => ⟨h.1.shaped, h.2⟩
  | _, .eq _ _, h => ⟨h.1.shaped, h.2.shaped⟩
  | _, .ugt _ _, h => ⟨h.1.shaped, h.2.shaped⟩
  | _, .sgt _ _, h => ⟨h.1.shaped, h.2.shaped⟩
  | _, .sge _ _, h => ⟨h.1.shaped, h.2.shaped⟩
  | _, .ite _ _ _, h => ⟨h.1.shaped, h.2.1.shaped, h.2.2.shaped⟩

/-! ## Basic facts -/

theorem Raw.shows {v : BitVecValue} {w N : Nat} (h : Raw v w N) : Shows v (low w N) :=
  ⟨h.width_lt, h.width_eq, h.length_eq, fun i hi => by
    rw [BitVec.getLsbD_ofNat, decide_eq_true hi, Bool.true_and, ← h.val_eq]; rfl⟩

theorem Denotes.raw {v : BitVecValue} {w : Nat} {x : BitVec w} (h : Denotes v x) : Raw v w x.toNat :=
  ⟨h.width_lt, h.width_eq, h.length_eq, h.val_eq⟩

theorem Raw.denotes {v : BitVecValue} {w : Nat} {x : BitVec w} (h : Raw v w x.toNat) : Denotes v x :=
  ⟨h.width_lt, h.width_eq, h.length_eq, h.val_eq⟩

theorem Raw.bit {v : BitVecValue} {w N : Nat} (h : Raw v w N) (i : Nat) : Baa.bit v.words i = N.testBit i := by
  rw [← h.val_eq]; rfl

theorem Raw.lt {v : BitVecValue} {w N : Nat} (h : Raw v w N) : N < 2 ^ capacity w := by
  rw [← h.val_eq, capacity, ← h.length_eq]; exact wordsVal_lt _

/-- Two values that hold the same number in the same width are the same. -/
theorem Raw.unique {u v : BitVecValue} {w N : Nat} (h : Raw u w N) (h' : Raw v w N) : u = v := by
  cases u; cases v
  have h1 := h.width_eq
  have h2 := h'.width_eq
  have h3 := wordsVal_inj (by rw [h.length_eq, h'.length_eq]) (h.val_eq.trans h'.val_eq.symm)
  simp only at h1 h2 h3
  subst h1 h2 h3
  rfl

theorem Raw.of_bit {v : BitVecValue} {w N : Nat} (h1 : w < 2 ^ 32) (h2 : v.width = w) (h3 : v.words.length = (w + 63) / 64)
    (h : ∀ i, Baa.bit v.words i = N.testBit i) : Raw v w N :=
  ⟨h1, h2, h3, Nat.eq_of_testBit_eq h⟩

theorem Raw.ne_nil {v : BitVecValue} {w N : Nat} (h : Raw v w N) (hw : 0 < w) : v.words ≠ [] := fun hn => by
  have := h.length_eq; rw [hn] at this; simp at this; omega

/-! ## Each operation on arbitrary words -/

theorem raw_and (m : Mode) {w N M : Nat} {a b : BitVecValue} (ha : Raw a w N) (hb : Raw b w M) :
    ∃ r, BitVecValue.and m a b = ok r ∧ Raw r w (N &&& M) := by
  obtain ⟨r, h1, h2, h3⟩ := bitwise_words (m := m) (z := low w N &&& low w M) (g := Bool.and) ha.shows hb.shows (f := (· &&& ·))
    (fun u v i _ => by simp) rfl (fun i => BitVec.getLsbD_and ..)
  exact ⟨r, h1, .of_bit h2.width_lt h2.width_eq h2.length_eq fun i => by
    rw [h3, ha.bit, hb.bit, Nat.testBit_and]⟩

theorem raw_or (m : Mode) {w N M : Nat} {a b : BitVecValue} (ha : Raw a w N) (hb : Raw b w M) :
    ∃ r, BitVecValue.or m a b = ok r ∧ Raw r w (N ||| M) := by
  obtain ⟨r, h1, h2, h3⟩ := bitwise_words (m := m) (z := low w N ||| low w M) (g := Bool.or) ha.shows hb.shows (f := (· ||| ·))
    (fun u v i _ => by simp) rfl (fun i => BitVec.getLsbD_or ..)
  exact ⟨r, h1, .of_bit h2.width_lt h2.width_eq h2.length_eq fun i => by
    rw [h3, ha.bit, hb.bit, Nat.testBit_or]⟩

theorem raw_xor (m : Mode) {w N M : Nat} {a b : BitVecValue} (ha : Raw a w N) (hb : Raw b w M) :
    ∃ r, BitVecValue.xor m a b = ok r ∧ Raw r w (N ^^^ M) := by
  obtain ⟨r, h1, h2, h3⟩ := bitwise_words (m := m) (z := low w N ^^^ low w M) (g := Bool.xor) ha.shows hb.shows (f := (· ^^^ ·))
    (fun u v i _ => by simp) rfl (fun i => BitVec.getLsbD_xor ..)
  exact ⟨r, h1, .of_bit h2.width_lt h2.width_eq h2.length_eq fun i => by
    rw [h3, ha.bit, hb.bit, Nat.testBit_xor]⟩

theorem raw_mul_wide (m : Mode) {w N M : Nat} (hw64 : 64 < w) {a b : BitVecValue} (ha : Raw a w N) (hb : Raw b w M) :
    Panics (BitVecValue.mul m a b) := by
  refine ⟨.todo, ?_⟩
  rw [BitVecValue.mul, arithBin_eq ha.width_eq hb.width_eq ha.length_eq hb.length_eq, Arith.mul, if_neg (by simp only [BITS]; omega)]
  rfl

theorem raw_shift_left (m : Mode) {w N M : Nat} (hw : 0 < w) {a b : BitVecValue} (ha : Raw a w N) (hb : Raw b w M) :
    ∃ r, BitVecValue.shiftLeft m a b = ok r ∧
      Raw r w (if w ≤ M then 0 else if M % 64 = 0 then (N <<< M) % 2 ^ capacity w else (N <<< M) % 2 ^ w) := by
  obtain ⟨r, h1, h2, h3⟩ := Arith.shiftLeft_spec (m := m) (d := valueVecZeros w) hw ha.width_lt (length_valueVecZeros w)
    ha.length_eq (hb.ne_nil hw)
  rw [length_valueVecZeros] at h2 h3
  refine ⟨⟨w, r⟩, ?_, .of_bit ha.width_lt rfl h2 fun i => ?_⟩
  · rw [BitVecValue.shiftLeft, arithBin_eq ha.width_eq hb.width_eq ha.length_eq hb.length_eq, h1, ok_bind]
  · show Baa.bit r i = _
    rw [h3, hb.val_eq, ha.bit]
    by_cases h4 : w ≤ M
    · rw [if_pos h4, decide_eq_false (show ¬ M < w by omega)]; simp
    · rw [if_neg h4, decide_eq_true (show M < w by omega)]
      by_cases h5 : M % 64 = 0
      · rw [if_pos h5, if_pos h5, Nat.testBit_mod_two_pow, Nat.testBit_shiftLeft, capacity]; simp [Bool.and_assoc]
      · rw [if_neg h5, if_neg h5, Nat.testBit_mod_two_pow, Nat.testBit_shiftLeft]; simp [Bool.and_assoc]

theorem raw_shift_right (m : Mode) {w N M : Nat} (hw : 0 < w) {a b : BitVecValue} (ha : Raw a w N) (hb : Raw b w M) :
    ∃ r, BitVecValue.shiftRight m a b = ok r ∧ Raw r w ((N % 2 ^ w) >>> M) := by
  obtain ⟨r, h1, h2, h3⟩ := Arith.shiftRight_gen (m := m) (d := valueVecZeros w) hw ha.width_lt
    (length_valueVecZeros w) ha.length_eq (hb.ne_nil hw)
  rw [length_valueVecZeros] at h2
  refine ⟨⟨w, r⟩, ?_, .of_bit ha.width_lt rfl h2 fun i => ?_⟩
  · rw [BitVecValue.shiftRight, arithBin_eq ha.width_eq hb.width_eq ha.length_eq hb.length_eq, h1, ok_bind, ok_bind]
  · show Baa.bit r i = _
    rw [h3, hb.val_eq, ha.bit, Nat.testBit_shiftRight, Nat.testBit_mod_two_pow, Nat.add_comm]

theorem raw_arithmetic_shift_right (m : Mode) {w N M : Nat} (hw : 0 < w) {a b : BitVecValue} (ha : Raw a w N) (hb : Raw b w M) :
    ∃ r, BitVecValue.arithmeticShiftRight m a b = ok r ∧ Raw r w ((low w N).sshiftRight M).toNat := by
  obtain ⟨r, h1, h2, h3⟩ := Arith.arithmeticShiftRight_spec (m := m) (d := valueVecZeros w) hw ha.width_lt
    (length_valueVecZeros w) ha.length_eq (hb.ne_nil hw)
  rw [length_valueVecZeros] at h2
  refine ⟨⟨w, r⟩, ?_, (Denotes.of_bit ha.width_lt rfl h2 fun i => ?_).raw⟩
  · rw [BitVecValue.arithmeticShiftRight, arithBin_eq ha.width_eq hb.width_eq ha.length_eq hb.length_eq, h1, ok_bind]
  · rw [h3, hb.val_eq, BitVec.getLsbD_sshiftRight, Nat.add_comm i, BitVec.msb_eq_getLsbD_last, ha.shows.low (w - 1) (by omega)]
    by_cases h : i < w
    · rw [decide_eq_true h, decide_eq_false (show ¬ w ≤ i by omega)]
      by_cases h' : M + i < w
      · rw [if_pos h', if_pos h', ha.shows.low _ h']; rfl
      · rw [if_neg h', if_neg h']; rfl
    · rw [decide_eq_false h, decide_eq_true (show w ≤ i by omega)]; rfl

theorem raw_slice (m : Mode) {w N : Nat} {a : BitVecValue} (ha : Raw a w N) {msb lsb : Nat} (h1 : msb < w) (h2 : lsb ≤ msb) :
    ∃ r, BitVecValue.slice m a msb lsb = ok r ∧ Raw r (msb - lsb + 1) ((N >>> lsb) % 2 ^ (msb - lsb + 1)) := by
  obtain ⟨r, h3, h4⟩ := C77_slice_partial m ha.shows h1 h2
  refine ⟨r, h3, .of_bit h4.width_lt h4.width_eq h4.length_eq fun i => ?_⟩
  rw [h4.bit, BitVec.getLsbD_extractLsb', BitVec.getLsbD_ofNat, Nat.testBit_mod_two_pow, Nat.testBit_shiftRight]
  by_cases hi : i < msb - lsb + 1
  · rw [decide_eq_true hi, decide_eq_true (show lsb + i < w by omega)]; simp
  · rw [decide_eq_false hi]; simp

theorem raw_concat (m : Mode) {w v N M : Nat} (hw : 0 < w) (hv : 0 < v) {a b : BitVecValue} (ha : Raw a w N) (hb : Raw b v M)
    (hlt : w + v < 2 ^ 32) :
    ∃ r, BitVecValue.concat m a b = ok r ∧ Raw r (w + v) ((N <<< v ||| M) % 2 ^ capacity (w + v)) := by
  obtain ⟨r, h1, h2, h3⟩ := Arith.concat_raw (m := m) (d := valueVecZeros (w + v)) ha.length_eq hb.length_eq
    (length_valueVecZeros _)
  rw [length_valueVecZeros] at h2 h3
  refine ⟨⟨w + v, r⟩, ?_, .of_bit hlt rfl h2 fun i => ?_⟩
  · rw [concat_eq_of ha.width_eq hb.width_eq hw hv ha.length_eq hb.length_eq hlt, h1, ok_bind]
  · show Baa.bit r i = _
    rw [h3, ha.bit, hb.bit, Nat.testBit_mod_two_pow, Nat.testBit_or, Nat.testBit_shiftLeft, capacity, Bool.or_comm]

theorem raw_zero_extend (m : Mode) {w N : Nat} (hw : 0 < w) {a : BitVecValue} (ha : Raw a w N) (n : Nat) (hlt : w + n < 2 ^ 32) :
    ∃ r, BitVecValue.zeroExtend m a n = ok r ∧ Raw r (w + n) N := by
  obtain ⟨r, hr1, hr2, hr3⟩ := Arith.zeroExtend_spec (d := valueVecZeros (w + n)) (src := a.words)
    (by rw [ha.length_eq, length_valueVecZeros]; omega)
  rw [length_valueVecZeros] at hr2
  refine ⟨⟨w + n, r⟩, ?_, .of_bit hlt rfl hr2 fun i => ?_⟩
  · unfold BitVecValue.zeroExtend
    rw [ha.width_eq, addC_ok hlt, ok_bind]
    dsimp only [BITS]
    by_cases h1 : w + n ≤ 64
    · rw [if_pos h1, modifyRange_full (by rw [length_zeros]; omega), sliceR_full (by rw [ha.length_eq]; omega), ok_bind,
        hr1, ok_bind]
    · rw [if_neg h1, hr1, ok_bind]
  · show Baa.bit r i = _
    rw [hr3, ha.bit]

theorem raw_sign_extend (m : Mode) {w N : Nat} (hw : 0 < w) {a : BitVecValue} (ha : Raw a w N) (n : Nat) (hlt : w + n < 2 ^ 32) :
    ∃ r, BitVecValue.signExtend m a n = ok r ∧
      Raw r (w + n) (if N.testBit (w - 1) = true then ((low w N).signExtend (w + n)).toNat else N) := by
  obtain ⟨r, hr1, hr2, hr3⟩ := Arith.signExtend_raw (m := m) (d := valueVecZeros (w + n)) (src := a.words) (sw := w)
    (dw := w + n) hw (by omega) ha.length_eq (length_valueVecZeros _)
  rw [length_valueVecZeros] at hr2
  refine ⟨⟨w + n, r⟩, ?_, .of_bit hlt rfl hr2 fun i => ?_⟩
  · unfold BitVecValue.signExtend
    rw [ha.width_eq, addC_ok hlt, ok_bind]
    dsimp only [BITS]
    by_cases h1 : w + n ≤ 64
    · rw [if_pos h1, modifyRange_full (by rw [length_zeros]; omega), sliceR_full (by rw [ha.length_eq]; omega), ok_bind,
        hr1, ok_bind]
    · rw [if_neg h1, hr1, ok_bind]
  · show Baa.bit r i = _
    rw [hr3, ha.bit, ha.bit]
    by_cases hn : N.testBit (w - 1) = true
    · rw [if_pos hn, if_pos hn, BitVec.testBit_toNat, BitVec.getLsbD_signExtend, BitVec.msb_eq_getLsbD_last, BitVec.getLsbD_ofNat,
        BitVec.getLsbD_ofNat, hn, decide_eq_true (show w - 1 < w by omega)]
      by_cases h1 : i < w
      · rw [if_pos h1, decide_eq_true h1, decide_eq_false (show ¬ w ≤ i by omega)]; simp
      · rw [if_neg h1, decide_eq_true (show w ≤ i by omega)]; simp
    · rw [if_neg hn, if_neg hn]

theorem raw_eq (m : Mode) {w N M : Nat} {a b : BitVecValue} (ha : Raw a w N) (hb : Raw b w M) :
    BitVecValue.isEqual m a b = ok (decide (N = M)) := by
  rw [(C77_compare_raw m ha.shows hb.shows).1, ha.val_eq, hb.val_eq]

theorem raw_gt (m : Mode) {w N M : Nat} {a b : BitVecValue} (ha : Raw a w N) (hb : Raw b w M) :
    BitVecValue.isGreater m a b = ok (decide (N > M)) := by
  rw [(C77_compare_raw m ha.shows hb.shows).2.1, ha.val_eq, hb.val_eq]

theorem raw_sgt (m : Mode) {w N M : Nat} (hw : 0 < w) {a b : BitVecValue} (ha : Raw a w N) (hb : Raw b w M) :
    BitVecValue.isGreaterSigned m a b =
      ok (if N.testBit (w - 1) = M.testBit (w - 1) then decide (N > M) else M.testBit (w - 1)) := by
  rw [(C77_compare_raw m ha.shows hb.shows).2.2 hw, ha.val_eq, hb.val_eq, BitVec.msb_eq_getLsbD_last, BitVec.msb_eq_getLsbD_last,
    BitVec.getLsbD_ofNat, BitVec.getLsbD_ofNat, decide_eq_true (show w - 1 < w by omega), Bool.true_and, Bool.true_and]

theorem raw_sge (m : Mode) {w N M : Nat} (hw : 0 < w) {a b : BitVecValue} (ha : Raw a w N) (hb : Raw b w M) :
    BitVecValue.isGreaterOrEqualSigned m a b =
      ok (if N.testBit (w - 1) = M.testBit (w - 1) then decide (N ≥ M) else M.testBit (w - 1)) := by
  have hl : a.words.length = b.words.length := by rw [ha.length_eq, hb.length_eq]
  have hs : assertSame m a b = ok () := assertSame_ok (by rw [ha.width_eq, hb.width_eq]) hl
  have key : Arith.cmpGreaterEqualSigned m a.words b.words w =
      ok (if N.testBit (w - 1) = M.testBit (w - 1) then decide (N ≥ M) else M.testBit (w - 1)) := by
    unfold Arith.cmpGreaterEqualSigned
    rw [Arith.isNeg_spec hw ha.length_eq, ok_bind, Arith.isNeg_spec hw hb.length_eq, ok_bind, ha.bit, hb.bit,
      Arith.cmpGreaterEqual_spec hl, ha.val_eq, hb.val_eq]
    cases N.testBit (w - 1) <;> cases M.testBit (w - 1) <;> simp
  unfold BitVecValue.isGreaterOrEqualSigned
  rw [hs, ok_bind, ha.width_eq]
  by_cases h : a.words.length = 1
  · rw [if_pos h, sliceR_full h, ok_bind, sliceR_full (by omega), ok_bind, key]
  · rw [if_neg h, key]

theorem raw_from_bool (m : Mode) (c : Bool) : ∃ r, BitVecValue.fromBool m c = ok r ∧ Raw r 1 c.toNat := by
  obtain ⟨r, h1, h2⟩ := C01_from_bool m c
  refine ⟨r, h1, ?_⟩
  have := h2.raw
  cases c <;> exact this

theorem raw_is_tru {N : Nat} {a : BitVecValue} (ha : Raw a 1 N) : BitVecValue.isTru a = ok (decide (N = 1)) := by
  obtain ⟨a0, ha0⟩ := List.length_eq_one_iff.mp ha.length_eq
  have hv := ha.val_eq
  rw [ha0, Arith.wordsVal_singleton] at hv
  unfold BitVecValue.isTru
  rw [if_pos ha.width_eq, ha0]
  simp only [idx, List.getElem?_cons_zero, ok_bind]
  congr 1
  rw [← hv]
  by_cases h : a0 = 1#64
  · subst h; rfl
  · have h' : ¬ a0.toNat = 1 := fun h' => h (BitVec.eq_of_toNat_eq h')
    rw [decide_eq_false h']
    simpa using h

/-! ## All computations -/

theorem panics_bind {α β : Type} {x : Res α} (h : Panics x) (f : α → Res β) : Panics (x >>= f) := by
  obtain ⟨p, rfl⟩ := h
  exact ⟨p, rfl⟩

theorem outcome_un {x : Res BitVecValue} {w w' : Nat} {o : Option Nat} {op : BitVecValue → Res BitVecValue} {f : Nat → Option Nat}
    (hx : Outcome x w o) (h : ∀ {a N}, Raw a w N → Outcome (op a) w' (f N)) :
    Outcome (do let a ← x; op a) w' (do let N ← o; f N) := by
  cases o with
  | none => exact panics_bind hx _
  | some N =>
    obtain ⟨a, rfl, ha⟩ := hx
    exact h ha

theorem outcome_bin {x y : Res BitVecValue} {w v w' : Nat} {o p : Option Nat} {op : BitVecValue → BitVecValue → Res BitVecValue}
    {f : Nat → Nat → Option Nat} (hx : Outcome x w o) (hy : Outcome y v p)
    (h : ∀ {a b N M}, Raw a w N → Raw b v M → Outcome (op a b) w' (f N M)) :
    Outcome (do let a ← x; let b ← y; op a b) w' (do let N ← o; let M ← p; f N M) :=
  outcome_un hx fun ha => outcome_un hy fun hb => h ha hb

theorem outcome_cmp (m : Mode) {x y : Res BitVecValue} {w : Nat} {o p : Option Nat} {op : BitVecValue → BitVecValue → Res Bool}
    {f : Nat → Nat → Bool} (hx : Outcome x w o) (hy : Outcome y w p)
    (h : ∀ {a b N M}, Raw a w N → Raw b w M → op a b = ok (f N M)) :
    Outcome (do let a ← x; let b ← y; let r ← op a b; BitVecValue.fromBool m r) 1 (do let N ← o; let M ← p; some (f N M).toNat) :=
  outcome_bin hx hy fun ha hb => by
    rw [h ha hb, ok_bind]
    exact raw_from_bool m _

/-- **C86**: the outcome of every computation whose leaves have the right number of words, whatever their bits above the width. -/
theorem C86_computation (m : Mode) : {w : Nat} → (e : Expr w) → e.Shaped → Outcome (e.eval m) w e.raw
  | _, .leaf v, h => ⟨v, rfl, h.2.1, rfl, h.2.2, rfl⟩
  | _, .add a b, h => outcome_bin (C86_computation m a h.1) (C86_computation m b h.2) fun ha hb => by
    obtain ⟨r, h1, h2⟩ := C77_add_partial m h.1.pos ha.shows hb.shows
    exact ⟨r, h1, h2.raw⟩
  | _, .sub a b, h => outcome_bin (C86_computation m a h.1) (C86_computation m b h.2) fun ha hb => by
    obtain ⟨r, h1, h2⟩ := C77_sub_partial m h.1.pos ha.shows hb.shows
    exact ⟨r, h1, h2.raw⟩
  | w, .mul a b, h => outcome_bin (C86_computation m a h.1) (C86_computation m b h.2) fun ha hb => by
    by_cases hw : w ≤ 64
    · rw [if_pos hw]
      obtain ⟨r, h1, h2⟩ := C77_mul_partial m h.1.pos hw ha.shows hb.shows
      exact ⟨r, h1, h2.raw⟩
    · rw [if_neg hw]
      exact raw_mul_wide m (by omega) ha hb
  | _, .and a b, h => outcome_bin (C86_computation m a h.1) (C86_computation m b h.2) fun ha hb => raw_and m ha hb
  | _, .or a b, h => outcome_bin (C86_computation m a h.1) (C86_computation m b h.2) fun ha hb => raw_or m ha hb
  | _, .xor a b, h => outcome_bin (C86_computation m a h.1) (C86_computation m b h.2) fun ha hb => raw_xor m ha hb
  | _, .shl a b, h => outcome_bin (C86_computation m a h.1) (C86_computation m b h.2) fun ha hb => raw_shift_left m h.1.pos ha hb
  | _, .shr a b, h => outcome_bin (C86_computation m a h.1) (C86_computation m b h.2) fun ha hb => raw_shift_right m h.1.pos ha hb
  | _, .ashr a b, h => outcome_bin (C86_computation m a h.1) (C86_computation m b h.2) fun ha hb =>
    raw_arithmetic_shift_right m h.1.pos ha hb
  | _, .neg a, h => outcome_un (C86_computation m a h) fun ha => by
    obtain ⟨r, h1, h2⟩ := C77_negate_partial m (Expr.Shaped.pos (e := a) h) ha.shows
    exact ⟨r, h1, h2.raw⟩
  | _, .not a, h => outcome_un (C86_computation m a h) fun ha => by
    obtain ⟨r, h1, h2⟩ := C77_not_partial m (Expr.Shaped.pos (e := a) h) ha.shows
    exact ⟨r, h1, h2.raw⟩
  | _, .slice a _ _, h => outcome_un (C86_computation m a h.1) fun ha => raw_slice m ha h.2.1 h.2.2
  | _, .concat a b, h => outcome_bin (C86_computation m a h.1) (C86_computation m b h.2.1) fun ha hb =>
    raw_concat m h.1.pos h.2.1.pos ha hb h.2.2
  | _, .zext a n, h => by
    have := outcome_un (f := some) (C86_computation m a h.1) fun ha => raw_zero_extend m h.1.pos ha n h.2
    rw [Expr.eval, Expr.raw]
    cases ho : a.raw <;> rw [ho] at this <;> exact this
  | _, .sext a n, h => outcome_un (C86_computation m a h.1) fun ha => raw_sign_extend m h.1.pos ha n h.2
  | _, .eq a b, h => outcome_cmp m (C86_computation m a h.1) (C86_computation m b h.2) fun ha hb => raw_eq m ha hb
  | _, .ugt a b, h => outcome_cmp m (C86_computation m a h.1) (C86_computation m b h.2) fun ha hb => raw_gt m ha hb
  | _, .sgt a b, h => outcome_cmp m (C86_computation m a h.1) (C86_computation m b h.2) fun ha hb => raw_sgt m h.1.pos ha hb
  | _, .sge a b, h => outcome_cmp m (C86_computation m a h.1) (C86_computation m b h.2) fun ha hb => raw_sge m h.1.pos ha hb
  | _, .ite c a b, h => outcome_un (C86_computation m c h.1) fun {x N} hx => by
    rw [raw_is_tru hx, ok_bind]
    by_cases hN : N = 1
    · simp only [hN, decide_true, if_true]
      exact C86_computation m a h.2.1
    · simp only [hN, decide_false, if_false, Bool.false_eq_true]
      exact C86_computation m b h.2.2

/-- **C86** (build modes): debug and release builds agree on every such computation, panics included. -/
theorem C86_modes {w : Nat} (e : Expr w) (h : e.Shaped) :
    (∃ r, e.eval .debug = ok r ∧ e.eval .release = ok r) ∨ (Panics (e.eval .debug) ∧ Panics (e.eval .release)) := by
  have h1 := C86_computation .debug e h
  have h2 := C86_computation .release e h
  cases ho : e.raw with
  | none => rw [ho] at h1 h2; exact .inr ⟨h1, h2⟩
  | some N =>
    rw [ho] at h1 h2
    obtain ⟨r, hr, dr⟩ := h1
    obtain ⟨s, hs, ds⟩ := h2
    exact .inl ⟨r, hr, by rw [hs, dr.unique ds]⟩

/-- **C86** (correctness, exactly): the code returns the canonical representation of the mathematical result precisely if the number in
the words of the result is that of the mathematical result. -/
theorem C86_correct_iff (m : Mode) {w : Nat} (e : Expr w) (h : e.Shaped) :
    (∃ r, e.eval m = ok r ∧ Denotes r e.denote) ↔ e.raw = some e.denote.toNat := by
  have h1 := C86_computation m e h
  cases ho : e.raw with
  | none =>
    rw [ho] at h1
    obtain ⟨p, hp⟩ := h1
    constructor
    · rintro ⟨r, hr, _⟩; rw [hp] at hr; cases hr
    · intro h; cases h
  | some N =>
    rw [ho] at h1
    obtain ⟨r, hr, dr⟩ := h1
    constructor
    · rintro ⟨s, hs, ds⟩
      rw [hr] at hs; cases hs
      rw [← dr.val_eq, ds.val_eq]
    · intro h
      cases h
      exact ⟨r, hr, dr.denotes⟩

/-- **C86** (determinism): computations with the same raw outcome have the same outcome. -/
theorem C86_result_unique (m : Mode) {w : Nat} (e f : Expr w) (he : e.Shaped) (hf : f.Shaped) (h : e.raw = f.raw) :
    (∃ r, e.eval m = ok r ∧ f.eval m = ok r) ∨ (Panics (e.eval m) ∧ Panics (f.eval m)) := by
  have h1 := C86_computation m e he
  have h2 := C86_computation m f hf
  rw [← h] at h2
  cases ho : e.raw with
  | none => rw [ho] at h1 h2; exact .inr ⟨h1, h2⟩
  | some N =>
    rw [ho] at h1 h2
    obtain ⟨r, hr, dr⟩ := h1
    obtain ⟨s, hs, ds⟩ := h2
    exact .inl ⟨r, hr, by rw [hs, dr.unique ds]⟩

/-- A computation that goes wrong: `(1 << 64) = 0` at width 65 is false in the code, since the shifted value keeps a stray bit when the
value was 2. Its raw outcome says so; so does running the code. -/
example :
    let e : Expr 1 := .eq (.shl (.leaf ⟨65, [2#64, 0#64]⟩) (.leaf ⟨65, [64#64, 0#64]⟩)) (.leaf ⟨65, [0#64, 0#64]⟩)
    e.Shaped ∧ e.denote = 1#1 ∧ e.raw = some 0 ∧ e.eval .debug = ok ⟨1, [0#64]⟩ := by
  refine ⟨⟨⟨⟨by decide, by decide, rfl⟩, ⟨by decide, by decide, rfl⟩⟩, ⟨by decide, by decide, rfl⟩⟩, ?_, ?_, ?_⟩ <;> decide +kernel

/-- Extension, concatenation and a 70-bit product behind a condition that is not taken because of a stray bit. -/
example :
    let e : Expr 70 := .ite (.leaf ⟨1, [3#64]⟩) (.mul (.leaf ⟨70, [5#64, 0#64]⟩) (.leaf ⟨70, [7#64, 0#64]⟩))
      (.concat (.sext (.leaf ⟨4, [0x18#64]⟩) 2) (.leaf ⟨64, [9#64]⟩))
    e.Shaped ∧ e.raw = some (0x38 * 2 ^ 64 + 9) ∧ e.eval .release = ok ⟨70, [9#64, 0x38#64]⟩ := by
  refine ⟨⟨⟨by decide, by decide, rfl⟩, ⟨⟨by decide, by decide, rfl⟩, ⟨by decide, by decide, rfl⟩⟩,
    ⟨⟨⟨by decide, by decide, rfl⟩, by decide⟩, ⟨by decide, by decide, rfl⟩, by decide⟩⟩, ?_, ?_⟩ <;> decide +kernel

/-- The panic of a wide product reaches the result. -/
example :
    let e : Expr 65 := .add (.leaf ⟨65, [1#64, 0#64]⟩) (.mul (.leaf ⟨65, [2#64, 0#64]⟩) (.leaf ⟨65, [3#64, 0#64]⟩))
    e.raw = none ∧ e.eval .debug = panic .todo := by
  constructor <;> decide +kernel

end Baa

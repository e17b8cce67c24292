import Verif.Props.Raw
import Verif.Spec.Operands

/-!
# C103: slices, extensions and concatenations with any arguments

What `slice`, `zero_extend`, `sign_extend` and `concat` do for every pair of positions, every amount and every pair of widths,
including the arguments for which the width of the result is not a legal width. A debug build panics for these. A release build
computes the width modulo `2^32` and may return a value.
-/

namespace Baa
open Res

/-! ## Lemmas -/

theorem gives_some {x : Res BitVecValue} {W V : Nat} {ws : List Word} (h : x = ok ⟨W, ws⟩) (h1 : W < 2 ^ 32)
    (h2 : ws.length = (W + 63) / 64) (h3 : ∀ i, Baa.bit ws i = V.testBit i) : Gives x (some (W, V)) :=
  ⟨_, h, .of_bit h1 rfl h2 h3⟩

theorem Raw.first {v : BitVecValue} {w N : Nat} (h : Raw v w N) (hw : 0 < w) :
    ∃ a0, sliceR v.words 0 1 = ok [a0] ∧ ∀ i, Baa.bit [a0] i = (N % 2 ^ 64).testBit i := by
  cases hv : v.words with
  | nil => exact absurd hv (h.ne_nil hw)
  | cons a0 as =>
    refine ⟨a0, by rw [sliceR, if_pos (by simp)]; rfl, fun i => ?_⟩
    have := h.bit i
    rw [hv, bit_cons] at this
    rw [bit_cons, Nat.testBit_mod_two_pow]
    by_cases hi : i < 64
    · rw [if_pos hi, decide_eq_true hi, Bool.true_and, ← this, if_pos hi]
    · rw [if_neg hi, decide_eq_false hi, Bool.false_and]
      exact bit_nil _

theorem addC_release {x y : Nat} (hy : y < 2 ^ 32) (hx : x < 2 ^ 32) (h : 2 ^ 32 ≤ x + y) :
    addC .release U32 x y = ok (x + y - 2 ^ 32) := by
  unfold addC
  rw [if_neg (show ¬ x + y < 4294967296 by omega)]
  show ok ((x + y) % 4294967296) = _
  generalize hz : x + y - 2 ^ 32 = z
  rw [show x + y = z + 4294967296 by omega, Nat.add_mod_right, Nat.mod_eq_of_lt (by omega)]

theorem addC_debug {x y : Nat} (h : 2 ^ 32 ≤ x + y) : Panics (addC .debug U32 x y) := by
  unfold addC
  rw [if_neg (show ¬ x + y < 4294967296 by omega)]
  exact ⟨_, rfl⟩

theorem modifyRange_nil {f : List Word → Res (List Word)} : Panics (modifyRange ([] : List Word) 0 1 f) := by
  unfold modifyRange sliceR
  exact ⟨.bounds, rfl⟩

theorem words_zero : valueVecZeros 0 = [] := rfl

theorem valueVecZeros_word {W : Nat} (h0 : 0 < W) (h : W ≤ 64) : valueVecZeros W = [0#64] := by
  unfold valueVecZeros divCeil BITS
  rw [show (W + 64 - 1) / 64 = 1 by omega]
  rfl

theorem modifyRange_word {f : List Word → Res (List Word)} {r : List Word} (h : f [0#64] = ok r) :
    modifyRange [0#64] 0 1 f = ok r := by
  unfold modifyRange sliceR
  simp only [List.length_singleton, Nat.le_refl, Nat.zero_le, and_self, if_true, ok_bind, List.drop_zero, Nat.sub_zero,
    List.take_succ_cons, List.take_zero, h, List.nil_append, List.drop_succ_cons, List.drop_nil, List.append_nil]

theorem panics_bind' {α β : Type} {x : Res α} (f : α → Res β) (h : Panics x) : Panics (x >>= f) := panics_bind h f

/-! ## `zero_extend` -/

/-- **C103** (`zero_extend`): the outcome for every value and every amount. -/
theorem C103_zero_extend (m : Mode) {w N n : Nat} {a : BitVecValue} (ha : Raw a w N) (hn : n < 2 ^ 32) :
    Gives (BitVecValue.zeroExtend m a n) (zeroExtendOutcome m w N n) := by
  have hwl := ha.width_lt
  unfold zeroExtendOutcome
  by_cases hlt : w + n < 2 ^ 32
  · rw [if_pos hlt]
    by_cases hw : w = 0
    · subst hw
      have hnil : a.words = [] := List.eq_nil_of_length_eq_zero (by rw [ha.length_eq])
      by_cases h64 : n ≤ 64
      · rw [if_pos ⟨rfl, h64⟩]
        unfold BitVecValue.zeroExtend
        rw [ha.width_eq, addC_ok hlt, ok_bind]
        dsimp only
        rw [if_pos (show 0 + n ≤ 64 by omega), hnil]
        refine panics_bind' _ ?_
        by_cases h0 : n = 0
        · subst h0
          exact modifyRange_nil
        · rw [valueVecZeros_word (by omega) (by omega)]
          exact ⟨.bounds, rfl⟩
      · rw [if_neg (by omega)]
        obtain ⟨r, hr1, hr2, hr3⟩ := Arith.zeroExtend_spec (d := valueVecZeros (0 + n)) (src := a.words) (by rw [hnil]; exact Nat.zero_le _)
        rw [length_valueVecZeros] at hr2
        refine gives_some (ws := r) ?_ hlt hr2 fun i => by rw [hr3, ha.bit]
        unfold BitVecValue.zeroExtend
        rw [ha.width_eq, addC_ok hlt, ok_bind]
        dsimp only
        rw [if_neg (show ¬ 0 + n ≤ 64 by omega), hr1, ok_bind]
    · rw [if_neg (by omega)]
      exact raw_zero_extend m (by omega) ha n hlt
  · rw [if_neg hlt]
    cases m with
    | debug =>
      rw [if_pos (.inl rfl)]
      unfold BitVecValue.zeroExtend
      rw [ha.width_eq]
      exact panics_bind' _ (addC_debug (by omega))
    | release =>
      unfold BitVecValue.zeroExtend
      rw [ha.width_eq, addC_release hn hwl (by omega), ok_bind]
      dsimp only
      by_cases h0 : w + n = 2 ^ 32
      · rw [if_pos (show Mode.release = Mode.debug ∨ w + n = 2 ^ 32 from .inr h0), h0, Nat.sub_self,
            if_pos (show 0 ≤ BITS by decide), words_zero]
        exact panics_bind' _ modifyRange_nil
      · rw [if_neg (show ¬ (Mode.release = Mode.debug ∨ w + n = 2 ^ 32) by simpa using h0)]
        generalize hW : w + n - 2 ^ 32 = W
        have hWw : 0 < W ∧ W < w := by omega
        by_cases h64 : W ≤ 64
        · obtain ⟨a0, h1, h2⟩ := ha.first (by omega)
          rw [if_pos h64, if_pos (show W ≤ BITS from h64), valueVecZeros_word hWw.1 h64]
          obtain ⟨r, hr1, hr2, hr3⟩ := Arith.zeroExtend_spec (d := [0#64]) (src := [a0]) (Nat.le_refl _)
          refine gives_some (ws := r) ?_ (by omega) (by rw [hr2]; simp; omega) fun i => by rw [hr3, h2]
          rw [modifyRange_word (by rw [h1, ok_bind, hr1]), ok_bind]
        · rw [if_neg h64, if_neg (show ¬ W ≤ BITS from h64)]
          by_cases hc : capacity W = capacity w
          · rw [if_pos hc]
            unfold capacity at hc
            obtain ⟨r, hr1, hr2, hr3⟩ := Arith.zeroExtend_spec (d := valueVecZeros W) (src := a.words)
              (by rw [ha.length_eq, length_valueVecZeros]; omega)
            rw [length_valueVecZeros] at hr2
            refine gives_some (ws := r) ?_ (by omega) hr2 fun i => by rw [hr3, ha.bit]
            rw [hr1, ok_bind]
          · rw [if_neg hc]
            unfold capacity at hc
            refine panics_bind' _ ?_
            unfold Arith.zeroExtend modifyRange sliceR
            dsimp only
            rw [if_neg (by rw [Arith.assign_length, length_valueVecZeros, ha.length_eq]; omega)]
            exact ⟨_, rfl⟩

/-! ## `sign_extend` -/

theorem Arith.signExtend_word (m : Mode) (d src : List Word) {w : Nat} (hw : 0 < w) (hw' : w < 2 ^ 32) (W : Nat) :
    Arith.signExtend m d src w W = Arith.signExtend m d src ((w - 1) % 64 + 1) W := by
  unfold Arith.signExtend Arith.isNeg
  dsimp only [BITS]
  rw [subC_ok (show 1 ≤ w from hw), subC_ok (show 1 ≤ (w - 1) % 64 + 1 by omega), ok_bind, ok_bind,
    show ((w - 1) % 64 + 1 - 1) % 64 = (w - 1) % 64 by omega, show ((w - 1) % 64 + 1) % 64 = w % 64 by omega]

/-- The bits of a word from position `k` on. -/
theorem testBit_ones {k i : Nat} (hk : k ≤ 64) (hi : i < 64) : (2 ^ 64 - 2 ^ k).testBit i = decide (k ≤ i) := by
  have : 2 ^ 64 - 2 ^ k = 2 ^ k * (2 ^ (64 - k) - 1) := by
    rw [Nat.mul_sub, ← Nat.pow_add, Nat.mul_one, show k + (64 - k) = 64 by omega]
  rw [this, Nat.testBit_two_pow_mul, Nat.testBit_two_pow_sub_one]
  by_cases hki : k ≤ i
  · rw [decide_eq_true hki, decide_eq_true (by omega)]; rfl
  · rw [decide_eq_false hki]; rfl

/-- A destination with fewer words than the source makes the sign extension fail. -/
theorem Arith.signExtend_short {m : Mode} {a : BitVecValue} {w N W : Nat} {d : List Word} (ha : Raw a w N)
    (hd : d.length = (W + 63) / 64) (hlt : (W + 63) / 64 < (w + 63) / 64) : Panics (Arith.signExtend m d a.words w W) := by
  have hp : ∀ (l : List Word) (f : List Word → Res (List Word)), l.length = (W + 63) / 64 →
      Panics (modifyRange l a.words.length l.length f) := by
    intro l f hl
    unfold modifyRange sliceR
    rw [if_neg (by rw [hl, ha.length_eq]; omega)]
    exact ⟨_, rfl⟩
  unfold Arith.signExtend
  dsimp only
  rw [Arith.isNeg_spec (by omega) ha.length_eq, ok_bind]
  cases Baa.bit a.words (w - 1) with
  | false =>
    rw [if_neg (by decide)]
    exact hp _ _ (by rw [Arith.assign_length, hd])
  | true =>
    rw [if_pos rfl]
    by_cases hm : w % 64 > 0
    · refine panics_bind' _ ?_
      rw [if_pos (show w % BITS > 0 from hm)]
      obtain ⟨mk, hm1, _, _⟩ := Arith.mask_spec (k := 64 - w % 64) (by omega) (by omega)
      rw [show BITS - w % BITS = 64 - w % 64 from rfl, hm1, ok_bind, subC_ok (by rw [ha.length_eq]; omega), ok_bind]
      refine panics_bind' _ ?_
      unfold idx
      rw [List.getElem?_eq_none (by rw [Arith.assign_length, hd, ha.length_eq]; omega)]
      exact ⟨_, rfl⟩
    · rw [if_neg (show ¬ w % BITS > 0 from hm), ok_bind]
      exact panics_bind' _ (hp _ _ (by rw [Arith.assign_length, hd]))

/-- **C103** (`sign_extend`): the outcome for every value and every amount. -/
theorem C103_sign_extend (m : Mode) {w N n : Nat} {a : BitVecValue} (ha : Raw a w N) (hn : n < 2 ^ 32) :
    Gives (BitVecValue.signExtend m a n) (signExtendOutcome m w N n) := by
  have hwl := ha.width_lt
  unfold signExtendOutcome
  by_cases hw : w = 0
  · subst hw
    rw [if_pos rfl]
    have hnil : a.words = [] := List.eq_nil_of_length_eq_zero (by rw [ha.length_eq])
    unfold BitVecValue.signExtend
    rw [ha.width_eq, addC_ok (show 0 + n < U32 by change _ < 4294967296; omega), ok_bind]
    dsimp only
    refine panics_bind' _ ?_
    by_cases h64 : 0 + n ≤ 64
    · rw [if_pos (show 0 + n ≤ BITS from h64), hnil]
      by_cases h0 : n = 0
      · subst h0
        exact modifyRange_nil
      · rw [valueVecZeros_word (by omega) (by omega)]
        exact ⟨.bounds, rfl⟩
    · rw [if_neg (show ¬ 0 + n ≤ BITS from h64), hnil]
      unfold Arith.signExtend Arith.isNeg
      cases m <;> exact ⟨_, rfl⟩
  · rw [if_neg hw]
    by_cases hlt : w + n < 2 ^ 32
    · rw [if_pos hlt]
      exact raw_sign_extend m (by omega) ha n hlt
    · rw [if_neg hlt]
      cases m with
      | debug =>
        rw [if_pos (.inl rfl)]
        unfold BitVecValue.signExtend
        rw [ha.width_eq]
        exact panics_bind' _ (addC_debug (by omega))
      | release =>
        unfold BitVecValue.signExtend
        rw [ha.width_eq, addC_release hn hwl (by omega), ok_bind]
        dsimp only
        by_cases h0 : w + n = 2 ^ 32
        · rw [if_pos (show Mode.release = Mode.debug ∨ w + n = 2 ^ 32 from .inr h0), h0, Nat.sub_self,
            if_pos (show 0 ≤ BITS by decide), words_zero]
          exact panics_bind' _ modifyRange_nil
        · rw [if_neg (show ¬ (Mode.release = Mode.debug ∨ w + n = 2 ^ 32) by simpa using h0)]
          generalize hW : w + n - 2 ^ 32 = W
          have hWw : 0 < W ∧ W < w := by omega
          by_cases h64 : W ≤ 64
          · obtain ⟨a0, h1, h2⟩ := ha.first (by omega)
            rw [if_pos h64, if_pos (show W ≤ BITS from h64), valueVecZeros_word hWw.1 h64]
            generalize hk : (w - 1) % 64 + 1 = k
            obtain ⟨r, hr1, hr2, hr3⟩ := Arith.signExtend_len (m := .release) (d := [0#64]) (src := [a0]) (sw := k) (dw := W)
              (by omega) hWw.1 (Nat.le_refl _) (by simp; omega) (by simp; omega)
            refine gives_some (ws := r) ?_ (by omega) (by rw [hr2]; simp; omega) fun i => ?_
            · rw [modifyRange_word (by rw [h1, ok_bind, Arith.signExtend_word _ _ _ (by omega) hwl, hk, hr1]), ok_bind]
            · have hb : Baa.bit [a0] (k - 1) = N.testBit (k - 1) := by
                rw [h2, Nat.testBit_mod_two_pow, decide_eq_true (by omega), Bool.true_and]
              rw [hr3, hb, h2]
              by_cases hs : N.testBit (k - 1) = true
              · rw [if_pos hs, if_pos hs, Nat.testBit_mod_two_pow (x := _ ||| _), Nat.testBit_or]
                by_cases hi : i < W
                · rw [decide_eq_true hi, Bool.true_and, Bool.true_and, Bool.or_comm]
                  rw [testBit_ones (by omega) (show i < 64 by omega)]
                · rw [decide_eq_false hi]; rfl
              · rw [if_neg hs, if_neg hs]
          · rw [if_neg h64, if_neg (show ¬ W ≤ BITS from h64)]
            by_cases hc : capacity W = capacity w
            · rw [if_pos hc]
              unfold capacity at hc
              obtain ⟨r, hr1, hr2, hr3⟩ := Arith.signExtend_len (m := .release) (d := valueVecZeros W) (src := a.words) (sw := w)
                (dw := W) (by omega) hWw.1 (by rw [ha.length_eq, length_valueVecZeros]; omega) ha.length_eq (length_valueVecZeros _)
              rw [length_valueVecZeros] at hr2
              refine gives_some (ws := r) ?_ (by omega) hr2 fun i => ?_
              · rw [hr1, ok_bind]
              · rw [hr3, ha.bit, ha.bit]
                by_cases hs : N.testBit (w - 1) = true
                · rw [if_pos hs, if_pos hs, Nat.testBit_mod_two_pow]
                  by_cases hi : i < W
                  · rw [decide_eq_true hi, decide_eq_false (show ¬ w ≤ i by omega), Bool.false_or]
                  · rw [decide_eq_false hi]; rfl
                · rw [if_neg hs, if_neg hs]
            · rw [if_neg hc]
              unfold capacity at hc
              exact panics_bind' _ (Arith.signExtend_short ha (length_valueVecZeros W) (by omega))

/-! ## `concat` -/

theorem Arith.concat_word (m : Mode) (d a b : List Word) (v : Nat) : Arith.concat m d a b v = Arith.concat m d a b (v % 64) := by
  unfold Arith.concat
  dsimp only [BITS]
  rw [Nat.mod_mod]

/-- A destination with fewer words than the low operand makes an unaligned concatenation fail. -/
theorem Arith.concat_short {m : Mode} {b : BitVecValue} {v M W : Nat} {d as : List Word} (hb : Raw b v M)
    (hd : d.length = (W + 63) / 64) (hlt : (W + 63) / 64 < (v + 63) / 64) (hv : ¬ v % 64 = 0) :
    Panics (Arith.concat m d as b.words v) := by
  unfold Arith.concat
  dsimp only
  obtain ⟨mk, hm1, _, _⟩ := Arith.mask_spec (k := 64 - v % 64) (by omega) (by omega)
  rw [if_neg (show ¬ v % BITS = 0 from hv), show BITS - v % BITS = 64 - v % 64 from rfl, hm1, ok_bind,
    subC_ok (by rw [hb.length_eq]; omega), ok_bind]
  refine panics_bind' _ ?_
  unfold idx
  rw [List.getElem?_eq_none (by rw [Arith.assign_length, hd, hb.length_eq]; omega)]
  exact ⟨_, rfl⟩

/-- **C103** (`concat`): the outcome for every pair of values. -/
theorem C103_concat (m : Mode) {w v N M : Nat} {a b : BitVecValue} (ha : Raw a w N) (hb : Raw b v M) :
    Gives (BitVecValue.concat m a b) (concatOutcome m w v N M) := by
  have hwl := ha.width_lt
  have hvl := hb.width_lt
  unfold concatOutcome
  by_cases hlt : w + v < 2 ^ 32
  · rw [if_pos hlt]
    by_cases h0 : (w = 0 ∨ v = 0) ∧ w + v ≤ 64
    · rw [if_pos h0]
      unfold BitVecValue.concat
      rw [ha.width_eq, hb.width_eq, addC_ok hlt, ok_bind]
      dsimp only
      rw [if_pos (show w + v ≤ BITS from h0.2)]
      refine panics_bind' _ ?_
      by_cases hz : w + v = 0
      · rw [hz]
        exact modifyRange_nil
      · rw [valueVecZeros_word (by omega) h0.2]
        unfold modifyRange
        rw [show sliceR [0#64] 0 1 = ok [0#64] from rfl, ok_bind]
        refine panics_bind' _ ?_
        rcases h0.1 with rfl | rfl
        · rw [show a.words = [] from List.eq_nil_of_length_eq_zero (by rw [ha.length_eq])]
          exact ⟨.bounds, rfl⟩
        · obtain ⟨a0, h1, _⟩ := ha.first (by omega)
          dsimp only
          rw [h1, ok_bind, show b.words = [] from List.eq_nil_of_length_eq_zero (by rw [hb.length_eq])]
          exact ⟨.bounds, rfl⟩
    · rw [if_neg h0]
      obtain ⟨r, h1, h2, h3⟩ := Arith.concat_raw (m := m) (d := valueVecZeros (w + v)) ha.length_eq hb.length_eq
        (length_valueVecZeros _)
      rw [length_valueVecZeros] at h2 h3
      by_cases hp : 0 < w ∧ 0 < v
      · exact raw_concat m hp.1 hp.2 ha hb hlt
      · refine gives_some (ws := r) ?_ hlt h2 fun i => ?_
        · unfold BitVecValue.concat
          rw [ha.width_eq, hb.width_eq, addC_ok hlt, ok_bind]
          dsimp only
          rw [if_neg (show ¬ w + v ≤ 64 by omega), h1, ok_bind]
        · rw [h3, ha.bit, hb.bit, Nat.testBit_mod_two_pow, Nat.testBit_or, Nat.testBit_shiftLeft, capacity, Bool.or_comm]
  · rw [if_neg hlt]
    cases m with
    | debug =>
      rw [if_pos (.inl rfl)]
      unfold BitVecValue.concat
      rw [ha.width_eq, hb.width_eq]
      exact panics_bind' _ (addC_debug (by omega))
    | release =>
      unfold BitVecValue.concat
      rw [ha.width_eq, hb.width_eq, addC_release hvl hwl (by omega), ok_bind]
      dsimp only
      by_cases h0 : w + v = 2 ^ 32
      · rw [if_pos (show Mode.release = Mode.debug ∨ w + v = 2 ^ 32 from .inr h0), h0, Nat.sub_self,
            if_pos (show 0 ≤ BITS by decide), words_zero]
        exact panics_bind' _ modifyRange_nil
      · rw [if_neg (show ¬ (Mode.release = Mode.debug ∨ w + v = 2 ^ 32) by simpa using h0)]
        generalize hW : w + v - 2 ^ 32 = W
        have hWw : 0 < W ∧ W < w ∧ W < v := by omega
        by_cases h64 : W ≤ 64
        · obtain ⟨a0, h1, h2⟩ := ha.first (by omega)
          obtain ⟨b0, h3, h4⟩ := hb.first (by omega)
          rw [if_pos h64, if_pos (show W ≤ BITS from h64), valueVecZeros_word hWw.1 h64]
          by_cases hv : v % 64 = 0
          · rw [if_pos hv]
            refine gives_some (ws := [b0]) ?_ (by omega) (by simp; omega) h4
            rw [modifyRange_word (r := [b0]) (by
              rw [h1, ok_bind, h3, ok_bind]
              unfold Arith.concat
              dsimp only
              rw [if_pos hv]
              rfl), ok_bind]
          · rw [if_neg hv]
            obtain ⟨r, hr1, hr2, hr3⟩ := Arith.concat_len (m := .release) (d := [0#64]) (msb := [a0]) (lsb := [b0]) (lw := v % 64)
              (by simp; omega) (Nat.le_refl _) (by simp)
            refine gives_some (ws := r) ?_ (by omega) (by rw [hr2]; simp; omega) fun i => ?_
            · rw [modifyRange_word (by rw [h1, ok_bind, h3, ok_bind, Arith.concat_word, hr1]), ok_bind]
            · rw [hr3, h2, h4, Nat.testBit_mod_two_pow, Nat.testBit_mod_two_pow, Nat.testBit_mod_two_pow, Nat.testBit_or,
                Nat.testBit_shiftLeft, List.length_singleton, Nat.mul_one]
              by_cases hi : i < 64
              · rw [decide_eq_true hi, decide_eq_true (show i - v % 64 < 64 by omega)]
                simp only [Bool.true_and]
                rw [Bool.or_comm]
              · rw [decide_eq_false hi]; rfl
        · rw [if_neg h64, if_neg (show ¬ W ≤ BITS from h64)]
          by_cases hv : v % 64 = 0
          · rw [if_pos hv]
            have hle : (valueVecZeros W).length ≤ b.words.length := by rw [length_valueVecZeros, hb.length_eq]; omega
            refine gives_some (ws := b.words.take ((W + 63) / 64)) ?_ (by omega)
              (by rw [List.length_take, hb.length_eq]; omega) fun i => ?_
            · unfold Arith.concat
              dsimp only
              rw [if_pos hv, Arith.assign_of_le hle, length_valueVecZeros, List.take_take, Nat.min_eq_right (by rw [hb.length_eq]; omega),
                List.drop_take, show (W + 63) / 64 - b.words.length = 0 by rw [hb.length_eq]; omega, List.take_zero]
              rw [show Arith.assign [] a.words = [] from by rw [Arith.assign_of_le (Nat.zero_le _)]; rfl, List.append_nil, ok_bind]
            · rw [bit_take, hb.bit, Nat.testBit_mod_two_pow, capacity]
          · rw [if_neg hv]
            by_cases hc : capacity W = capacity v
            · rw [if_pos hc]
              unfold capacity at hc ⊢
              obtain ⟨r, hr1, hr2, hr3⟩ := Arith.concat_len (m := .release) (d := valueVecZeros W) (msb := a.words) (lsb := b.words)
                (lw := v) hb.length_eq (by rw [hb.length_eq, length_valueVecZeros]; omega)
                (by rw [hb.length_eq, length_valueVecZeros]; omega)
              rw [length_valueVecZeros] at hr2 hr3
              refine gives_some (ws := r) ?_ (by omega) hr2 fun i => ?_
              · rw [hr1, ok_bind]
              · rw [hr3, ha.bit, hb.bit, Nat.testBit_mod_two_pow, Nat.testBit_or, Nat.testBit_shiftLeft, Bool.or_comm]
            · rw [if_neg hc]
              unfold capacity at hc
              exact panics_bind' _ (Arith.concat_short hb (length_valueVecZeros W) (by omega) hv)

/-! ## `slice` -/

theorem panics_bind_all {α β : Type} (x : Res α) {f : α → Res β} (h : ∀ v, Panics (f v)) : Panics (x >>= f) := by
  cases x with
  | ok v => exact h v
  | panic p => exact ⟨p, rfl⟩

theorem panics_modifyRange {l : List Word} {i j : Nat} {f : List Word → Res (List Word)} (h : ∀ o, Panics (f o)) :
    Panics (modifyRange l i j f) :=
  panics_bind_all _ fun o => panics_bind' _ (h o)

/-- If the words that are needed are not there, then nothing else matters. -/
theorem BitVecValue.slice_panics {m : Mode} {a : BitVecValue} {msb lsb : Nat}
    (h : ∀ o, Panics (Arith.slice m o a.words msb lsb)) : Panics (BitVecValue.slice m a msb lsb) := by
  unfold BitVecValue.slice
  refine panics_bind_all _ fun _ => panics_bind_all _ fun _ => panics_bind_all _ fun _ => panics_bind_all _ fun W => ?_
  dsimp only
  by_cases hW : W ≤ BITS
  · rw [if_pos hW]
    exact panics_bind' _ (panics_modifyRange h)
  · rw [if_neg hW]
    exact panics_bind' _ (h _)

theorem BitVecValue.slice_width_zero {m : Mode} {a : BitVecValue} {msb lsb d : Nat} (h1 : subC m U32 msb lsb = ok d)
    (h2 : ∀ W, addC m U32 d 1 = ok W → W = 0) : Panics (BitVecValue.slice m a msb lsb) := by
  unfold BitVecValue.slice
  refine panics_bind_all _ fun _ => panics_bind_all _ fun _ => ?_
  rw [h1, ok_bind]
  cases h : addC m U32 d 1 with
  | panic p => exact ⟨p, rfl⟩
  | ok W =>
    rw [h2 W h, ok_bind]
    dsimp only
    rw [if_pos (show 0 ≤ BITS by decide), words_zero]
    exact panics_bind' _ modifyRange_nil

/-- The words of a slice whose positions are in the wrong order, if these are close to each other. -/
theorem Arith.slice_reversed {src : List Word} {hi lo W : Nat} (hlt : hi < lo) (hle : lo ≤ 64 * (hi / 64 + 1))
    (hhi : hi / 64 < src.length) (hlo : lo < 2 ^ 32) (hW : W = 2 ^ 32 + hi + 1 - lo) (hne : lo ≠ hi + 1) :
    ∃ r, Arith.slice .release (valueVecZeros W) src hi lo = ok r ∧ r.length = (W + 63) / 64 ∧
      ∀ i, Baa.bit r i = (decide (lo + i < 64 * (hi / 64 + 1)) && Baa.bit src (lo + i)) := by
  have hWl : 64 < W := by omega
  obtain ⟨zs, hz1, hz2⟩ : ∃ zs, valueVecZeros W = 0#64 :: zs ∧ ∀ i, Baa.bit (0#64 :: zs) i = false := by
    have hb : ∀ i, Baa.bit (valueVecZeros W) i = false := fun i => by
      unfold Baa.bit valueVecZeros
      rw [wordsVal_replicate_zero, Nat.zero_testBit]
    unfold valueVecZeros divCeil BITS at hb ⊢
    obtain ⟨k, hk⟩ : ∃ k, (W + 64 - 1) / 64 = k + 1 := ⟨(W + 64 - 1) / 64 - 1, by omega⟩
    rw [hk, List.replicate_succ] at hb ⊢
    exact ⟨_, rfl, hb⟩
  have hsub : subC .release U32 hi lo = ok (2 ^ 32 + hi - lo) := by
    unfold subC
    rw [if_neg (by omega)]
    change ok ((4294967296 + hi - lo) % 4294967296) = _
    rw [Nat.mod_eq_of_lt (by omega)]
  have hadd : addC .release U32 (2 ^ 32 + hi - lo) 1 = ok W := by
    rw [addC_ok (by change _ < 4294967296; omega)]
    congr 1; omega
  have hmid : ∃ t, (do
      let s ← sliceR src (lo / 64) (hi / 64 + 1)
      if lo % 64 = 0 then ok (Arith.assign (valueVecZeros W) s)
      else do
        let mk ← Arith.mask (lo % 64)
        let s0 ← idx s 0
        ok (Arith.sliceLoop (lo % 64) (64 - lo % 64) mk (s0 >>> (lo % 64)) (valueVecZeros W) (s.drop 1 ++ [0#64]))) = ok t ∧
      t.length = (W + 63) / 64 ∧ ∀ i, Baa.bit t i = (decide (lo + i < 64 * (hi / 64 + 1)) && Baa.bit src (lo + i)) := by
    rw [sliceR_ok (by omega) (by omega), ok_bind]
    generalize hs : (src.drop (lo / 64)).take (hi / 64 + 1 - lo / 64) = s
    have hsl : s.length = hi / 64 + 1 - lo / 64 := by
      rw [← hs, List.length_take, List.length_drop]; omega
    have hsb : ∀ i, Baa.bit s i = (decide (i < 64 * (hi / 64 + 1 - lo / 64)) && Baa.bit src (i + 64 * (lo / 64))) := by
      intro i; rw [← hs, bit_take, bit_drop]
    by_cases h0 : lo % 64 = 0
    · rw [if_pos h0]
      refine ⟨_, rfl, by rw [Arith.assign_length, length_valueVecZeros], fun i => ?_⟩
      rw [show s = [] from List.eq_nil_of_length_eq_zero (by omega), decide_eq_false (by omega), Bool.false_and, hz1]
      exact hz2 i
    · rw [if_neg h0]
      obtain ⟨mk, hm1, _, _⟩ := Arith.mask_spec (k := lo % 64) (by omega) (by omega)
      obtain ⟨p, rfl⟩ : ∃ p, s = [p] := List.length_eq_one_iff.mp (by omega)
      refine ⟨Arith.sliceLoop (lo % 64) (64 - lo % 64) mk (p >>> (lo % 64)) (valueVecZeros W) [0#64], ?_,
        by rw [Arith.sliceLoop_length, length_valueVecZeros], fun i => ?_⟩
      · rw [hm1, ok_bind]; rfl
      · rw [hz1]
        have hloop : Arith.sliceLoop (lo % 64) (64 - lo % 64) mk (p >>> (lo % 64)) (0#64 :: zs) [0#64] = (p >>> (lo % 64)) :: zs := by
          cases zs <;> simp [Arith.sliceLoop]
        rw [hloop, bit_cons]
        have hb := hz2 i
        rw [bit_cons] at hb
        have hp := hsb (i + lo % 64)
        rw [bit_cons, show i + lo % 64 + 64 * (lo / 64) = lo + i by omega, show hi / 64 + 1 - lo / 64 = 1 by omega] at hp
        by_cases hi' : i < 64
        · rw [if_pos hi', BitVec.getLsbD_ushiftRight, Nat.add_comm (lo % 64)]
          by_cases hc : i + lo % 64 < 64
          · rw [if_pos hc, decide_eq_true (by omega), Bool.true_and] at hp
            rw [hp, decide_eq_true (by omega), Bool.true_and]
          · rw [BitVec.getLsbD_of_ge _ _ (by omega), decide_eq_false (by omega), Bool.false_and]
        · rw [if_neg hi'] at hb ⊢
          rw [hb, decide_eq_false (by omega), Bool.false_and]
  obtain ⟨t, ht1, ht2, ht3⟩ := hmid
  obtain ⟨r, hr1, hr2, hr3⟩ := Arith.maskMsb_bit (m := .release) (dst := t) (width := W) ht2 (by omega)
  refine ⟨r, ?_, by rw [hr2, ht2], fun i => ?_⟩
  · have hs := sliceR_ok (l := src) (lo := lo / 64) (hi := hi / 64 + 1) (by omega) (by omega)
    rw [hs, ok_bind] at ht1
    unfold Arith.slice
    dsimp only [BITS]
    rw [hs, ok_bind, ht1, ok_bind, hsub, ok_bind, hadd, ok_bind, hr1]
  · rw [hr3, ht3]
    by_cases hi' : i < W
    · rw [decide_eq_true hi', Bool.true_and]
    · rw [decide_eq_false hi', Bool.false_and, decide_eq_false (by omega), Bool.false_and]

/-- **C103** (`slice`): the outcome for every value and every pair of positions. -/
theorem C103_slice (m : Mode) {w N msb lsb : Nat} {a : BitVecValue} (ha : Raw a w N) (h1 : msb < 2 ^ 32) (h2 : lsb < 2 ^ 32) :
    Gives (BitVecValue.slice m a msb lsb) (sliceOutcome m w N msb lsb) := by
  have hwl := ha.width_lt
  have hcap : capacity w = 64 * a.words.length := by rw [ha.length_eq, capacity]
  unfold sliceOutcome
  by_cases hc : capacity w ≤ msb
  · rw [if_pos hc]
    refine BitVecValue.slice_panics fun o => ?_
    unfold Arith.slice sliceR
    dsimp only [BITS]
    rw [if_neg (by omega)]
    exact ⟨_, rfl⟩
  · rw [if_neg hc]
    by_cases hle : lsb ≤ msb
    · rw [if_pos hle]
      by_cases hbig : msb - lsb + 1 = 2 ^ 32
      · rw [if_pos (.inr hbig)]
        refine BitVecValue.slice_width_zero (subC_ok hle) fun W hW => ?_
        cases m with
        | debug => obtain ⟨p, hp⟩ := addC_debug (x := msb - lsb) (y := 1) (by omega); rw [hp] at hW; cases hW
        | release =>
          rw [addC_release (by decide) (by omega) (by omega)] at hW
          have := Res.ok.inj hW
          omega
      · by_cases hdbg : m = .debug ∧ w < msb
        · rw [if_pos (.inl hdbg)]
          unfold BitVecValue.slice
          rw [hdbg.1, ha.width_eq, decide_eq_false (by omega)]
          exact panics_bind' _ ⟨_, rfl⟩
        · rw [if_neg (by simp only [not_or]; exact ⟨hdbg, hbig⟩)]
          have hW : msb - lsb + 1 < U32 := by change _ < 4294967296; omega
          obtain ⟨r, hr1, hr2, hr3⟩ := Arith.slice_spec (m := m) (d := valueVecZeros (msb - lsb + 1)) (src := a.words) (hi := msb)
            (lo := lsb) hle (by omega) hW (length_valueVecZeros _)
          rw [length_valueVecZeros] at hr2
          refine gives_some (ws := r) ?_ hW hr2 fun i => ?_
          · unfold BitVecValue.slice
            have hd1 : debugAssert m (decide (msb ≤ a.width)) = ok () := by
              rw [ha.width_eq]
              cases m with
              | release => rfl
              | debug => rw [decide_eq_true (by simp at hdbg; exact hdbg)]; rfl
            rw [hd1, ok_bind, decide_eq_true (show msb ≥ lsb from hle)]
            rw [show debugAssert m true = ok () from by cases m <;> rfl, ok_bind, subC_ok hle, ok_bind, addC_ok hW, ok_bind]
            dsimp only
            by_cases h64 : msb - lsb + 1 ≤ 64
            · rw [if_pos (show msb - lsb + 1 ≤ BITS from h64), valueVecZeros_word (by omega) h64]
              rw [valueVecZeros_word (by omega) h64] at hr1
              rw [modifyRange_word hr1, ok_bind]
            · rw [if_neg (show ¬ msb - lsb + 1 ≤ BITS from h64), hr1, ok_bind]
          · rw [hr3, ha.bit, Nat.testBit_mod_two_pow, Nat.testBit_shiftRight, Nat.add_comm i]
    · rw [if_neg hle]
      cases m with
      | debug =>
        rw [if_pos (.inl rfl)]
        unfold BitVecValue.slice
        refine panics_bind_all _ fun _ => ?_
        rw [decide_eq_false (show ¬ msb ≥ lsb from hle)]
        exact panics_bind' _ ⟨_, rfl⟩
      | release =>
        have hsub : subC .release U32 msb lsb = ok (2 ^ 32 + msb - lsb) := by
          unfold subC
          rw [if_neg hle]
          change ok ((4294967296 + msb - lsb) % 4294967296) = _
          rw [Nat.mod_eq_of_lt (by omega)]
        by_cases hn : lsb = msb + 1
        · rw [if_pos (.inr (.inl hn))]
          refine BitVecValue.slice_width_zero hsub fun W hW => ?_
          rw [addC_release (by decide) (by omega) (by omega)] at hW
          have := Res.ok.inj hW
          omega
        · by_cases hfar : 64 * (msb / 64 + 1) < lsb
          · rw [if_pos (.inr (.inr hfar))]
            refine BitVecValue.slice_panics fun o => ?_
            unfold Arith.slice
            dsimp only [BITS]
            by_cases hw : lsb / 64 = msb / 64 + 1
            · rw [sliceR_ok (by omega) (by omega), hw, Nat.sub_self, List.take_zero, ok_bind, if_neg (by omega)]
              exact panics_bind' _ (panics_bind_all _ fun _ => ⟨.bounds, rfl⟩)
            · unfold sliceR
              rw [if_neg (by omega)]
              exact ⟨_, rfl⟩
          · rw [if_neg (by simp only [not_or]; exact ⟨by decide, hn, hfar⟩)]
            generalize hW : 2 ^ 32 + msb + 1 - lsb = W
            obtain ⟨r, hr1, hr2, hr3⟩ := Arith.slice_reversed (src := a.words) (W := W) (hi := msb) (lo := lsb) (by omega) (by omega)
              (by omega) h2 hW.symm hn
            refine gives_some (ws := r) ?_ (by omega) hr2 fun i => ?_
            · unfold BitVecValue.slice
              rw [show ∀ c, debugAssert .release c = ok () from fun _ => rfl, ok_bind,
                show ∀ c, debugAssert .release c = ok () from fun _ => rfl, ok_bind, hsub, ok_bind,
                addC_ok (by change _ < 4294967296; omega), ok_bind]
              dsimp only
              rw [show 2 ^ 32 + msb - lsb + 1 = W by omega, if_neg (show ¬ W ≤ 64 by omega), hr1, ok_bind]
            · rw [hr3, ha.bit, Nat.testBit_shiftRight, Nat.testBit_mod_two_pow]

/-! ## Examples -/

attribute [local irreducible] Gives

/-- Extending an 8-bit value by `2^32 - 4 = 4294967292` bits: a debug build panics, a release build returns a 4-bit value that
still holds all eight bits. -/
example : Gives (BitVecValue.zeroExtend .debug ⟨8, [0xff#64]⟩ 4294967292) none ∧
    Gives (BitVecValue.zeroExtend .release ⟨8, [0xff#64]⟩ 4294967292) (some (4, 0xff)) := by
  have h : Raw ⟨8, [0xff#64]⟩ 8 0xff := ⟨by decide, rfl, rfl, by decide⟩
  have h1 := C103_zero_extend .debug h (n := 4294967292) (by decide)
  have h2 := C103_zero_extend .release h (n := 4294967292) (by decide)
  rw [show zeroExtendOutcome .debug 8 0xff 4294967292 = none by decide] at h1
  rw [show zeroExtendOutcome .release 8 0xff 4294967292 = some (4, 0xff) by decide] at h2
  exact ⟨h1, h2⟩

/-- A slice whose positions are swapped: a release build returns a value of almost `2^32` bits. -/
example : Gives (BitVecValue.slice .debug ⟨8, [0xff#64]⟩ 2 5) none ∧
    Gives (BitVecValue.slice .release ⟨8, [0xff#64]⟩ 2 5) (some (4294967294, 7)) := by
  have h : Raw ⟨8, [0xff#64]⟩ 8 0xff := ⟨by decide, rfl, rfl, by decide⟩
  have h2 := C103_slice .release h (msb := 2) (lsb := 5) (by decide) (by decide)
  rw [show sliceOutcome .release 8 0xff 2 5 = some (4294967294, 7) by decide] at h2
  have h1 := C103_slice .debug h (msb := 2) (lsb := 5) (by decide) (by decide)
  rw [show sliceOutcome .debug 8 0xff 2 5 = none by decide] at h1
  exact ⟨h1, h2⟩

/-- A slice that ends above the width but within the last word is accepted by a release build and reads stray bits; one that ends
one above the width is accepted by a debug build too. -/
example : sliceOutcome .release 8 0x3ff 9 4 = some (6, 0x3f) ∧ sliceOutcome .debug 8 0x3ff 9 4 = none ∧
    sliceOutcome .debug 8 0x1ff 8 4 = some (5, 0x1f) ∧ sliceOutcome .release 8 0x3ff 64 4 = none := by decide

/-- Values of width zero: too small a result makes the call panic. -/
example : zeroExtendOutcome .debug 0 0 64 = none ∧ zeroExtendOutcome .debug 0 0 65 = some (65, 0) ∧
    signExtendOutcome .debug 0 0 65 = none ∧ concatOutcome .debug 0 64 0 5 = none ∧
    concatOutcome .debug 0 65 0 5 = some (65, 5) := by decide

end Baa

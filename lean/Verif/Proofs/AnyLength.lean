import Verif.Props.AnyTerm
import Verif.SpecMalformed

/-!
# The word functions on lists of any length

The loops stop at the end of the shortest list. The last word is masked according to the width, whatever the number of words.
-/

namespace Baa
open Res

/-- The outcome of a function on words: a list of `n` words that holds the given number, or a panic. -/
def Fills (x : Res (List Word)) (n : Nat) : Option Nat → Prop
  | some K => ∃ r, x = ok r ∧ r.length = n ∧ wordsVal r = K
  | none => Panics x

theorem need_fitted {w n : Nat} (hn : 0 < n) : (fitted w n + 63) / 64 = n := by unfold fitted; omega

theorem fitted_pos (w n : Nat) : 0 < fitted w n := by unfold fitted; omega

theorem fitted_mod (w n : Nat) : fitted w n % 64 = w % 64 := by unfold fitted; omega

theorem fitted_last (w n : Nat) : fitted w n - 1 = 64 * (n - 1) + (w + 63) % 64 := by unfold fitted; omega

theorem fitted_need {w : Nat} (hw : 0 < w) : fitted w (need w) = w := by unfold fitted need; omega

theorem fitted_le (w n : Nat) (hn : 0 < n) : fitted w n ≤ 64 * n := by unfold fitted; omega

namespace Arith

/-- In a release build masking looks only at the last word. -/
theorem maskMsb_fitted (d : List Word) (w n : Nat) : maskMsb .release d w = maskMsb .release d (fitted w n) := by
  unfold maskMsb
  rw [show ∀ c, debugAssert .release c = ok () from fun _ => rfl, show ∀ c, debugAssert .release c = ok () from fun _ => rfl,
    show fitted w n % BITS = w % BITS from fitted_mod w n]

theorem maskMsb_any (m : Mode) (d : List Word) (w : Nat) : Fills (maskMsb m d w) d.length (masked m w d.length (wordsVal d)) := by
  unfold masked
  by_cases hn : d.length = 0
  · rw [if_pos (.inl hn), List.eq_nil_of_length_eq_zero hn]
    unfold maskMsb
    exact panics_bind_all _ fun _ => panics_bind_all _ fun _ => ⟨.unwrap, rfl⟩
  · by_cases hm : m = .debug ∧ d.length ≠ need w
    · rw [if_pos (.inr hm), hm.1]
      unfold maskMsb
      refine panics_bind (debugAssert_panics ?_) _
      simp only [beq_eq_false_iff_ne]
      exact fun h => hm.2 h.symm
    · rw [if_neg (by simp only [not_or]; exact ⟨hn, hm⟩)]
      have e : maskMsb m d w = maskMsb .release d w := by
        cases m with
        | release => rfl
        | debug =>
          have hl : divCeil w BITS = d.length := Classical.byContradiction fun h => hm ⟨rfl, fun h' => h h'.symm⟩
          unfold maskMsb
          rw [debugAssert_of (by rw [hl]; simp)]
          rfl
      rw [e, maskMsb_fitted d w d.length]
      exact maskMsb_spec (need_fitted (by omega)).symm (fitted_pos _ _)

/-! ## Addition, subtraction, bitwise operations -/

theorem addLoop_any (c : Nat) (d a b : List Word) : addLoop c d a b =
    addLoop c (d.take (min a.length b.length)) (a.take (min d.length b.length)) (b.take (min d.length a.length)) ++
      d.drop (min a.length b.length) := by
  induction d generalizing a b c with
  | nil => simp [addLoop]
  | cons x xs ih =>
    cases a with
    | nil => simp [addLoop]
    | cons y ys =>
      cases b with
      | nil => simp [addLoop]
      | cons z zs =>
        simp only [addLoop, List.length_cons, Nat.add_min_add_right, List.take_succ_cons, List.drop_succ_cons, List.cons_append]
        rw [ih _ ys zs]

theorem wordsVal_zeros_drop (k n : Nat) : wordsVal ((List.replicate k 0#64).drop n) = 0 := by
  rw [List.drop_replicate, wordsVal_replicate_zero]

/-- The number in the words of a sum: all three lists are cut to the length of the shortest. -/
theorem addLoop_zeros {c : Nat} (hc : c ≤ 1) (k : Nat) (a b : List Word) :
    (addLoop c (List.replicate k 0#64) a b).length = k ∧
    wordsVal (addLoop c (List.replicate k 0#64) a b) = (wordsVal a + wordsVal b + c) % 2 ^ (64 * min k (min a.length b.length)) := by
  rw [addLoop_any]
  have hs := (addLoop_spec hc (d := (List.replicate k 0#64).take (min a.length b.length))
    (a := a.take (min (List.replicate k 0#64).length b.length)) (b := b.take (min (List.replicate k 0#64).length a.length))
    (by simp; omega) (by simp; omega)).1
  have hv := addLoop_val hc (d := (List.replicate k 0#64).take (min a.length b.length))
    (a := a.take (min (List.replicate k 0#64).length b.length)) (b := b.take (min (List.replicate k 0#64).length a.length))
    (by simp; omega) (by simp; omega)
  rw [List.length_replicate] at hs hv ⊢
  constructor
  · rw [List.length_append, hs]; simp; omega
  · rw [wordsVal_append, wordsVal_zeros_drop, Nat.mul_zero, Nat.add_zero, hv, wordsVal_take, wordsVal_take, List.length_take,
      show min (min k b.length) a.length = min k (min a.length b.length) by omega]
    have hmod : ∀ (x : List Word) (j : Nat), min j x.length = min k (min a.length b.length) →
        wordsVal x % 2 ^ (64 * j) % 2 ^ (64 * min k (min a.length b.length)) =
          wordsVal x % 2 ^ (64 * min k (min a.length b.length)) := by
      intro x j hj
      exact pow_mod_pow_mod _ (by omega)
    rw [Nat.add_mod _ c, Nat.add_mod (wordsVal a % _), hmod a _ (by omega), hmod b _ (by omega), ← Nat.add_mod (wordsVal a),
      ← Nat.add_mod]

theorem bitwiseBinOp_any (op : Word → Word → Word) (d a b : List Word) : bitwiseBinOp op d a b =
    List.zipWith op (a.take (min d.length b.length)) (b.take (min d.length a.length)) ++ d.drop (min a.length b.length) := by
  induction d generalizing a b with
  | nil => simp [bitwiseBinOp]
  | cons x xs ih =>
    cases a with
    | nil => simp [bitwiseBinOp]
    | cons y ys =>
      cases b with
      | nil => simp [bitwiseBinOp]
      | cons z zs =>
        simp only [bitwiseBinOp, List.length_cons, Nat.add_min_add_right, List.take_succ_cons, List.drop_succ_cons, List.cons_append,
          List.zipWith_cons_cons]
        rw [ih ys zs]

theorem bitwise_zeros {f : Word → Word → Word} {g : Bool → Bool → Bool} {K : Nat}
    (hop : ∀ (x y : Word) i, i < 64 → (f x y).getLsbD i = g (x.getLsbD i) (y.getLsbD i)) (h0 : g false false = false) (k : Nat)
    (a b : List Word) (hK : ∀ i, K.testBit i = g (bit a i) (bit b i)) :
    (bitwiseBinOp f (List.replicate k 0#64) a b).length = k ∧
    wordsVal (bitwiseBinOp f (List.replicate k 0#64) a b) = K % 2 ^ (64 * min k (min a.length b.length)) := by
  rw [bitwiseBinOp_any, List.length_replicate]
  constructor
  · simp; omega
  · refine wordsVal_eq_of_bit fun i => ?_
    rw [bit_append, bit_zipWith f g hop h0 (by simp; omega), bit_take, bit_take, Nat.testBit_mod_two_pow, hK, List.drop_replicate,
      bit_replicate_zero]
    simp only [List.length_zipWith, List.length_take]
    by_cases hi : i < 64 * min k (min a.length b.length)
    · rw [if_pos (by omega), decide_eq_true hi, decide_eq_true (by omega), decide_eq_true (by omega)]
      simp
    · rw [if_neg (by omega), decide_eq_false hi]
      rfl

theorem bitwiseUnOp_any (op : Word → Word) (d s : List Word) : bitwiseUnOp op d s = (s.take d.length).map op ++ d.drop s.length := by
  induction d generalizing s with
  | nil => simp [bitwiseUnOp]
  | cons x xs ih =>
    cases s with
    | nil => simp [bitwiseUnOp]
    | cons y ys => simp [bitwiseUnOp, ih ys]

theorem not_zeros (k : Nat) (s : List Word) :
    (bitwiseUnOp (fun e => ~~~e) (List.replicate k 0#64) s).length = k ∧
    wordsVal (bitwiseUnOp (fun e => ~~~e) (List.replicate k 0#64) s) =
      2 ^ (64 * min k s.length) - 1 - wordsVal s % 2 ^ (64 * min k s.length) := by
  rw [bitwiseUnOp_any, List.length_replicate]
  constructor
  · simp; omega
  · rw [wordsVal_append, wordsVal_zeros_drop, Nat.mul_zero, Nat.add_zero, wordsVal_map_not, wordsVal_take, List.length_take]
    congr 1
    by_cases h : k ≤ s.length
    · rw [Nat.min_eq_left h]
    · have := wordsVal_lt s
      rw [Nat.min_eq_right (by omega), Nat.mod_eq_of_lt this,
        Nat.mod_eq_of_lt (Nat.lt_of_lt_of_le this (Nat.pow_le_pow_right (by decide) (by omega)))]

/-! ## Left shifts -/

theorem shiftLeftLoop_any (shl shr : Nat) (prev : Word) (ds ss : List Word) :
    shiftLeftLoop shl shr prev ds ss = shiftLeftLoop shl shr prev (ds.take ss.length) ss ++ ds.drop ss.length := by
  induction ds generalizing ss prev with
  | nil => simp [shiftLeftLoop]
  | cons x xs ih =>
    cases ss with
    | nil => simp [shiftLeftLoop]
    | cons y ys =>
      simp only [shiftLeftLoop, List.length_cons, List.take_succ_cons, List.drop_succ_cons]
      split
      · rw [List.cons_append, ← ih]
      · rw [List.cons_append, ← ih]

/-- The words of a left shift. What is shifted out of the last word is lost, even if the destination has more words. -/
theorem shiftLeftLoop_zeros (k M : Nat) (a : List Word) :
    (shiftLeftLoop (M % 64) (64 - M % 64) 0#64 (List.replicate k 0#64) (List.replicate (M / 64) 0#64 ++ a)).length = k ∧
    wordsVal (shiftLeftLoop (M % 64) (64 - M % 64) 0#64 (List.replicate k 0#64) (List.replicate (M / 64) 0#64 ++ a)) =
      (wordsVal a <<< M) % 2 ^ (64 * min k (M / 64 + a.length)) := by
  refine ⟨by rw [shiftLeftLoop_length, List.length_replicate], wordsVal_eq_of_bit fun i => ?_⟩
  have hb : ∀ j, bit (List.replicate (M / 64) 0#64 ++ a) j = (decide (64 * (M / 64) ≤ j) && bit a (j - 64 * (M / 64))) := by
    intro j
    rw [bit_append, bit_replicate_zero, List.length_replicate]
    by_cases hj : j < 64 * (M / 64)
    · rw [if_pos hj, decide_eq_false (by omega)]; rfl
    · rw [if_neg hj, decide_eq_true (by omega)]; rfl
  rw [shiftLeftLoop_any, bit_append, shiftLeftLoop_length, Nat.testBit_mod_two_pow, Nat.testBit_shiftLeft, List.drop_replicate,
    bit_replicate_zero]
  simp only [List.length_take, List.length_append, List.length_replicate]
  rw [Nat.min_comm _ k]
  by_cases hi : i < 64 * min k (M / 64 + a.length)
  · rw [if_pos hi, decide_eq_true hi, Bool.true_and]
    by_cases h0 : M % 64 = 0
    · rw [h0, shiftLeftLoop_zero _ _ (by simp; omega), bit_take, hb]
      simp only [List.length_take, List.length_replicate]
      rw [decide_eq_true (by omega), Bool.true_and, show 64 * (M / 64) = M by omega]
      rfl
    · rw [bit_shiftLeftLoop (by omega) (by omega) _ (fun _ _ => by simp) (by simp; omega) _ (by simp; omega), hb]
      by_cases h1 : i < M % 64
      · rw [if_pos h1, decide_eq_false (by omega)]; simp
      · rw [if_neg h1, show i - M % 64 - 64 * (M / 64) = i - M by omega]
        by_cases h2 : M ≤ i
        · rw [decide_eq_true (by omega), decide_eq_true (by omega)]; rfl
        · rw [decide_eq_false (by omega), decide_eq_false (by omega)]; rfl
  · rw [if_neg hi, decide_eq_false hi]; rfl

theorem shiftLeft_any (m : Mode) (k w : Nat) (a b : List Word) (hw : w < 2 ^ 32) :
    Fills (shiftLeft m (List.replicate k 0#64) a b w) k
      (if b.length = 0 then none else if w ≤ wordsVal b then some 0
        else if wordsVal b % 64 = 0 then some ((wordsVal a <<< wordsVal b) % 2 ^ (64 * min k (wordsVal b / 64 + a.length)))
        else masked m w k ((wordsVal a <<< wordsVal b) % 2 ^ (64 * min k (wordsVal b / 64 + a.length)))) := by
  by_cases hb : b.length = 0
  · rw [if_pos hb, List.eq_nil_of_length_eq_zero hb]
    exact ⟨.bounds, rfl⟩
  · rw [if_neg hb]
    unfold shiftLeft
    rw [getShiftAmount_spec (fun h => hb (by rw [h]; rfl)) hw, ok_bind]
    generalize wordsVal b = M
    by_cases hM : w ≤ M
    · rw [if_pos hM, if_neg (by omega)]
      exact ⟨_, rfl, by rw [clear_eq]; simp, by rw [clear_eq, wordsVal_replicate_zero]⟩
    · rw [if_neg hM, if_pos (by omega)]
      dsimp only [BITS]
      obtain ⟨h1, h2⟩ := shiftLeftLoop_zeros k M a
      by_cases h0 : M % 64 = 0
      · rw [if_pos h0, if_neg (by omega)]
        exact ⟨_, rfl, h1, h2⟩
      · rw [if_neg h0, if_pos (by omega)]
        have := maskMsb_any m (shiftLeftLoop (M % 64) (64 - M % 64) 0#64 (List.replicate k 0#64) (List.replicate (M / 64) 0#64 ++ a)) w
        rw [h1, h2] at this
        exact this

/-! ## Multiplication -/

theorem mul_any (m : Mode) (k w : Nat) (a b : List Word) (hk : w ≤ 64 → (0 < k ↔ 0 < w) ∧ k ≤ 1) :
    Fills (mul m (List.replicate k 0#64) a b w) k
      (if w = 0 ∨ 64 < w ∨ a.length = 0 ∨ b.length = 0 then none else some (wordsVal a * wordsVal b % 2 ^ w)) := by
  unfold mul
  by_cases h64 : w ≤ 64
  · rw [if_pos (show w ≤ BITS from h64)]
    cases a with
    | nil =>
      rw [if_pos (.inr (.inr (.inl rfl)))]
      exact ⟨.bounds, rfl⟩
    | cons a0 as =>
      cases b with
      | nil =>
        rw [if_pos (.inr (.inr (.inr rfl)))]
        exact ⟨.bounds, rfl⟩
      | cons b0 bs =>
        rw [show idx (a0 :: as) 0 = ok a0 from rfl, show idx (b0 :: bs) 0 = ok b0 from rfl, ok_bind, ok_bind]
        obtain ⟨hk1, hk2⟩ := hk h64
        by_cases hw : w = 0
        · rw [if_pos (.inl hw), show k = 0 by omega]
          exact panics_bind_all _ fun _ => ⟨.bounds, rfl⟩
        · obtain rfl : k = 1 := by omega
          rw [if_neg (by simp; omega)]
          obtain ⟨mk, hm1, _, hm3⟩ := mask_spec (k := w) (by omega) h64
          rw [hm1, ok_bind]
          refine ⟨[a0 * b0 &&& mk], rfl, rfl, ?_⟩
          rw [wordsVal_singleton]
          have e : (a0 * b0 &&& mk).toNat = (a0 * b0).toNat % 2 ^ w := Nat.eq_of_testBit_eq fun i => by
            have := hm3 i
            rw [Nat.testBit_mod_two_pow, BitVec.toNat_and, Nat.testBit_and, show mk.toNat.testBit i = mk.getLsbD i from rfl, this,
              Bool.and_comm]
          have hmod : ∀ (x : Word) xs, wordsVal (x :: xs) % 2 ^ w = x.toNat % 2 ^ w := by
            intro x xs
            rw [wordsVal_cons, show (2 : Nat) ^ 64 = 2 ^ w * 2 ^ (64 - w) by rw [← Nat.pow_add, Nat.add_sub_cancel' h64], Nat.mul_assoc,
              Nat.add_mul_mod_self_left]
          rw [e, BitVec.toNat_mul, pow_mod_pow_mod _ h64, Nat.mul_mod, Nat.mul_mod (wordsVal (a0 :: as)), hmod, hmod]
  · rw [if_neg (show ¬ w ≤ BITS from h64), if_pos (.inr (.inl (by omega)))]
    exact ⟨_, rfl⟩

/-! ## The sign -/

theorem isNeg_list (m : Mode) (a : List Word) (w : Nat) :
    (a.length = 0 ∨ (m = .debug ∧ w = 0) → Panics (isNeg m a w)) ∧
    (¬ (a.length = 0 ∨ (m = .debug ∧ w = 0)) → isNeg m a w = ok ((wordsVal a).testBit (fitted w a.length - 1))) := by
  constructor
  · rintro (h | ⟨rfl, rfl⟩)
    · rw [List.eq_nil_of_length_eq_zero h]
      exact isNeg_nothing m w
    · exact ⟨.overflow, rfl⟩
  · intro h
    simp only [not_or] at h
    have hne : a ≠ [] := fun e => h.1 (by rw [e]; rfl)
    by_cases hw : w = 0
    · subst hw
      have hm : m = .release := by cases m with
        | debug => exact absurd ⟨rfl, rfl⟩ h.2
        | release => rfl
      subst hm
      have e : isNeg .release a 0 = isNeg .release a 64 := rfl
      rw [e, isNeg_any (by decide) hne]
      rfl
    · rw [isNeg_any (by omega) hne, fitted_last, show (w - 1) % 64 = (w + 63) % 64 by omega]
      rfl

/-! ## Right shifts -/

theorem wordsVal_ones (n : Nat) : wordsVal (List.replicate n (BitVec.allOnes 64)) = 2 ^ (64 * n) - 1 :=
  wordsVal_eq_of_bit fun i => by rw [bit_replicate_ones, Nat.testBit_two_pow_sub_one]

theorem testBit_high {w k i : Nat} (h : k ≤ w) : (2 ^ w - 2 ^ k).testBit i = (decide (k ≤ i) && decide (i < w)) := by
  have : 2 ^ w - 2 ^ k = 2 ^ k * (2 ^ (w - k) - 1) := by
    rw [Nat.mul_sub, ← Nat.pow_add, Nat.mul_one, Nat.add_sub_cancel' h]
  rw [this, Nat.testBit_two_pow_mul, Nat.testBit_two_pow_sub_one]
  by_cases hki : k ≤ i
  · rw [decide_eq_true hki]
    by_cases hi : i < w
    · rw [decide_eq_true hi, decide_eq_true (by omega)]
    · rw [decide_eq_false hi, decide_eq_false (by omega)]
  · rw [decide_eq_false hki]; rfl

/-- The right shift needs all words of the width. -/
theorem shiftRight_list (m : Mode) (k w : Nat) (a b : List Word) (hw : w < 2 ^ 32) (hb : b.length ≠ 0)
    (hk : need w ≤ a.length → k = need w) :
    (w ≤ wordsVal b → shiftRight m (List.replicate k 0#64) a b w = ok (List.replicate k 0#64, none)) ∧
    (wordsVal b < w → a.length < need w → Panics (shiftRight m (List.replicate k 0#64) a b w)) ∧
    (wordsVal b < w → need w ≤ a.length → ∃ r, shiftRight m (List.replicate k 0#64) a b w = ok (r, some (wordsVal b)) ∧ r.length = k ∧
      ∀ i, bit r i = (decide (i + wordsVal b < w) && bit a (i + wordsVal b))) := by
  have hb' : b ≠ [] := fun h => hb (by rw [h]; rfl)
  refine ⟨fun h => ?_, fun h hl => ?_, fun h hl => ?_⟩
  · unfold shiftRight
    rw [getShiftAmount_spec hb' hw, ok_bind, if_neg (by omega), clear_eq, List.length_replicate]
  · unfold shiftRight
    rw [getShiftAmount_spec hb' hw, ok_bind, if_pos h]
    dsimp only
    rw [subC_ok (show 1 ≤ w by omega), ok_bind]
    refine panics_bind_all _ fun _ => panics_bind_all _ fun _ => panics_bind' _ (panics_modifyRange fun o => ?_)
    unfold slice sliceR
    dsimp only [BITS]
    unfold need at hl
    rw [if_neg (by omega)]
    exact ⟨_, rfl⟩
  · have hk := hk hl
    unfold need at hk hl
    have e : shiftRight m (List.replicate k 0#64) a b w = shiftRight m (List.replicate k 0#64) (a.take ((w + 63) / 64)) b w := by
      unfold shiftRight
      rw [getShiftAmount_spec hb' hw, ok_bind, ok_bind, if_pos h]
      dsimp only
      rw [subC_ok (show 1 ≤ w by omega), ok_bind, ok_bind]
      have : ∀ o, slice m o a (w - 1) (wordsVal b) = slice m o (a.take ((w + 63) / 64)) (w - 1) (wordsVal b) := by
        intro o
        unfold slice
        dsimp only [BITS]
        have : sliceR (a.take ((w + 63) / 64)) (wordsVal b / 64) ((w - 1) / 64 + 1) =
            sliceR a (wordsVal b / 64) ((w - 1) / 64 + 1) := by
          rw [sliceR_ok (by omega) (by simp; omega), sliceR_ok (by omega) (by omega), List.drop_take, List.take_take]
          congr 2; omega
        rw [this]
      simp only [this]
    obtain ⟨r, h1, h2, h3⟩ := shiftRight_gen (m := m) (d := List.replicate k 0#64) (a := a.take ((w + 63) / 64)) (b := b)
      (width := w) (by omega) hw (by simp; omega) (by simp; omega) hb'
    rw [if_pos h] at h1
    refine ⟨r, e.trans h1, by rw [h2]; simp, fun i => ?_⟩
    rw [h3, bit_take]
    by_cases hi : i + wordsVal b < w
    · rw [decide_eq_true hi, decide_eq_true (by omega), Bool.true_and]
    · rw [decide_eq_false hi]; rfl

theorem shiftRight_any (m : Mode) (k w : Nat) (a b : List Word) (hw : w < 2 ^ 32) (hk : need w ≤ a.length → k = need w) :
    Fills (do let r ← shiftRight m (List.replicate k 0#64) a b w; ok r.1) k
      (rightShifted w a.length b.length (wordsVal a) (wordsVal b)) := by
  unfold rightShifted
  by_cases hb : b.length = 0
  · rw [if_pos hb, List.eq_nil_of_length_eq_zero hb]
    exact ⟨.bounds, rfl⟩
  · rw [if_neg hb]
    obtain ⟨h1, h2, h3⟩ := shiftRight_list m k w a b hw hb hk
    by_cases hM : w ≤ wordsVal b
    · rw [if_pos hM, h1 hM]
      exact ⟨_, rfl, by simp, wordsVal_replicate_zero _⟩
    · rw [if_neg hM]
      by_cases hl : a.length < need w
      · rw [if_pos hl]
        exact panics_bind' _ (h2 (by omega) hl)
      · rw [if_neg hl]
        obtain ⟨r, hr1, hr2, hr3⟩ := h3 (by omega) (by omega)
        refine ⟨r, by rw [hr1, ok_bind], hr2, wordsVal_eq_of_bit fun i => ?_⟩
        rw [hr3, Nat.testBit_shiftRight, Nat.testBit_mod_two_pow, Nat.add_comm i]
        rfl

/-- Filling with ones what a right shift leaves empty. -/
theorem fill_any (m : Mode) {w y : Nat} {s : List Word} {A : Nat → Bool} (hy : y < w) (hs2 : s.length = (w + 63) / 64)
    (hs3 : ∀ i, bit s i = (decide (i + y < w) && A (i + y))) :
    ∃ r, (if y > 0 then do
        let resWidth ← subC m U32 w y
        let r1 ← subC m U32 resWidth 1
        let localMsb := r1 % BITS
        let msbWord := r1 / BITS
        let dst ←
          (if localMsb < BITS - 1 then do
            let mk ← mask (BITS - (localMsb + 1))
            let d ← idx s msbWord
            setIdx s msbWord (d ||| (mk <<< (localMsb + 1)))
          else ok s)
        let dst ← modifyRange dst (msbWord + 1) dst.length fun s => ok (set s)
        maskMsb m dst w
      else ok s) = ok r ∧ r.length = s.length ∧
      ∀ i, bit r i = (decide (i < w) && if i + y < w then A (i + y) else true) := by
  dsimp only [BITS]
  by_cases hy0 : y > 0
  · simp only [if_pos hy0]
    rw [subC_ok (by omega), ok_bind, subC_ok (by omega), ok_bind]
    have hstep : ∃ t, (if (w - y - 1) % 64 < 64 - 1 then do
          let mk ← mask (64 - ((w - y - 1) % 64 + 1))
          let x ← idx s ((w - y - 1) / 64)
          setIdx s ((w - y - 1) / 64) (x ||| (mk <<< ((w - y - 1) % 64 + 1)))
        else ok s) = ok t ∧ t.length = s.length ∧
        ∀ i, i < 64 * ((w - y - 1) / 64 + 1) → bit t i = if i + y < w then A (i + y) else true := by
      by_cases h1 : (w - y - 1) % 64 < 64 - 1
      · obtain ⟨mk, hm1, _, hm3⟩ := mask_spec (k := 64 - ((w - y - 1) % 64 + 1)) (by omega) (by omega)
        have hlt : (w - y - 1) / 64 < s.length := by omega
        refine ⟨s.set ((w - y - 1) / 64) (s[(w - y - 1) / 64] ||| (mk <<< ((w - y - 1) % 64 + 1))), ?_, by simp, fun i hi => ?_⟩
        · rw [if_pos h1, hm1, ok_bind, idx_ok hlt, ok_bind, setIdx_ok hlt]
        · rw [bit_set _ _ _ _ hlt]
          by_cases h2 : i / 64 = (w - y - 1) / 64
          · have h3 : (s[(w - y - 1) / 64]).getLsbD (i % 64) = (decide (i + y < w) && A (i + y)) := by
              have := bit_of_getElem (src := s) (i := i) (by omega)
              rw [← hs3, ← this]; simp only [h2]
            have h64 : i % 64 < 64 := by omega
            rw [if_pos h2, BitVec.getLsbD_or, h3, BitVec.getLsbD_shiftLeft, hm3, decide_eq_true h64]
            by_cases h4 : i + y < w
            · have h5 : i % 64 < (w - y - 1) % 64 + 1 := by omega
              rw [if_pos h4, decide_eq_true h4, decide_eq_true h5]; simp
            · have h5 : ¬ i % 64 < (w - y - 1) % 64 + 1 := by omega
              have h6 : i % 64 - ((w - y - 1) % 64 + 1) < 64 - ((w - y - 1) % 64 + 1) := by omega
              rw [if_neg h4, decide_eq_false h5, decide_eq_true h6]; simp
          · rw [if_neg h2, hs3, if_pos (by omega), decide_eq_true (by omega), Bool.true_and]
      · refine ⟨s, if_neg h1, rfl, fun i hi => ?_⟩
        rw [hs3, if_pos (by omega), decide_eq_true (by omega), Bool.true_and]
    obtain ⟨t, ht1, ht2, ht3⟩ := hstep
    have hm := modifyRange_tail (l := t) (lo := (w - y - 1) / 64 + 1) (f := set) (by omega)
    rw [set_eq] at hm
    obtain ⟨r, hr1, hr2, hr3⟩ := maskMsb_bit (m := m)
      (dst := t.take ((w - y - 1) / 64 + 1) ++ List.replicate (t.drop ((w - y - 1) / 64 + 1)).length (BitVec.allOnes 64)) (width := w)
      (by simp; omega) (by omega)
    refine ⟨r, ?_, by rw [hr2]; simp; omega, fun i => ?_⟩
    · rw [ht1, ok_bind, hm, ok_bind, hr1]
    · rw [hr3]
      by_cases h1 : i < w
      · rw [decide_eq_true h1, bit_append]
        have htl : (t.take ((w - y - 1) / 64 + 1)).length = (w - y - 1) / 64 + 1 := by simp; omega
        rw [htl]
        by_cases h2 : i < 64 * ((w - y - 1) / 64 + 1)
        · rw [if_pos h2, bit_take, decide_eq_true h2, ht3 i h2]; simp
        · rw [if_neg h2, bit_replicate_ones, List.length_drop, ht2, if_neg (by omega), decide_eq_true (by omega)]
      · rw [decide_eq_false h1]; simp
  · have : y = 0 := by omega
    subst this
    simp only [Nat.add_zero] at hs3 ⊢
    refine ⟨s, by simp, rfl, fun i => ?_⟩
    rw [hs3]
    by_cases h1 : i < w
    · rw [if_pos h1]
    · rw [decide_eq_false h1]; rfl

theorem arithmeticShiftRight_any (m : Mode) (k w : Nat) (a b : List Word) (hw : w < 2 ^ 32) (hk : need w ≤ a.length → k = need w) :
    Fills (arithmeticShiftRight m (List.replicate k 0#64) a b w) k
      (if a.length = 0 ∨ (m = .debug ∧ w = 0) then none
        else if (wordsVal a).testBit (fitted w a.length - 1) = false then
          rightShifted w a.length b.length (wordsVal a) (wordsVal b)
        else if b.length = 0 then none
        else if w ≤ wordsVal b then masked m w k (2 ^ (64 * k) - 1)
        else if a.length < need w then none
        else some (((wordsVal a % 2 ^ w) >>> wordsVal b) ||| (2 ^ w - 2 ^ (w - wordsVal b)))) := by
  obtain ⟨hn1, hn2⟩ := isNeg_list m a w
  by_cases hn : a.length = 0 ∨ (m = .debug ∧ w = 0)
  · rw [if_pos hn]
    unfold arithmeticShiftRight
    exact panics_bind_all _ fun _ => panics_bind' _ (hn1 hn)
  · rw [if_neg hn]
    have hneg := hn2 hn
    cases hs : (wordsVal a).testBit (fitted w a.length - 1) with
    | false =>
      rw [if_pos rfl]
      have e : arithmeticShiftRight m (List.replicate k 0#64) a b w =
          (do let r ← shiftRight m (List.replicate k 0#64) a b w; ok r.1) := by
        unfold arithmeticShiftRight
        rw [hneg, hs]
        rfl
      rw [e]
      exact shiftRight_any m k w a b hw hk
    | true =>
      rw [if_neg (by decide)]
      by_cases hb : b.length = 0
      · rw [if_pos hb, List.eq_nil_of_length_eq_zero hb]
        exact ⟨.bounds, rfl⟩
      · rw [if_neg hb]
        obtain ⟨h1, h2, h3⟩ := shiftRight_list m k w a b hw hb hk
        unfold arithmeticShiftRight
        rw [hneg, hs]
        by_cases hM : w ≤ wordsVal b
        · rw [if_pos hM, h1 hM]
          have := maskMsb_any m (set (List.replicate k 0#64)) w
          rw [set_eq, wordsVal_ones, List.length_replicate, List.length_replicate] at this
          simp only [ok_bind, if_true]
          rw [set_eq, List.length_replicate]
          exact this
        · rw [if_neg hM]
          by_cases hl : a.length < need w
          · rw [if_pos hl]
            exact panics_bind' _ (h2 (by omega) hl)
          · rw [if_neg hl]
            obtain ⟨s, hr1, hr2, hr3⟩ := h3 (by omega) (by omega)
            obtain ⟨r, h4, h5, h6⟩ := fill_any m (show wordsVal b < w by omega)
              (show s.length = (w + 63) / 64 by rw [hr2, hk (by omega)]; rfl) hr3
            refine ⟨r, ?_, h5.trans hr2, wordsVal_eq_of_bit fun i => ?_⟩
            · rw [hr1]
              simp only [ok_bind, if_true]
              exact h4
            · rw [h6, Nat.testBit_or, testBit_high (by omega), Nat.testBit_shiftRight, Nat.testBit_mod_two_pow,
                show bit a (i + wordsVal b) = (wordsVal a).testBit (i + wordsVal b) from rfl, Nat.add_comm (wordsVal b)]
              by_cases hi : i + wordsVal b < w
              · rw [if_pos hi, decide_eq_true hi, decide_eq_true (show i < w by omega), decide_eq_false (show ¬ w - wordsVal b ≤ i by omega)]
                simp
              · rw [if_neg hi, decide_eq_false hi]
                by_cases hi2 : i < w
                · rw [decide_eq_true hi2, decide_eq_true (show w - wordsVal b ≤ i by omega)]; rfl
                · rw [decide_eq_false hi2]; simp

/-! ## Sign extension -/

theorem signExtend_fitted {m : Mode} (d src : List Word) {w : Nat} (k W : Nat) (h : ¬ (m = .debug ∧ w = 0)) :
    signExtend m d src w W = signExtend m d src (fitted w k) W := by
  have h1 : ∀ s, isNeg m s w = isNeg m s (fitted w k) := by
    intro s
    unfold isNeg
    have h2 : (do let w1 ← subC m U32 w 1; ok (w1 % BITS)) = ok ((fitted w k - 1) % BITS) := by
      by_cases hw : w = 0
      · subst hw
        cases m with
        | debug => exact absurd ⟨rfl, rfl⟩ h
        | release =>
          show ok ((4294967296 + 0 - 1) % 4294967296 % 64) = ok ((fitted 0 k - 1) % 64)
          unfold fitted
          congr 1
          omega
      · rw [subC_ok (show 1 ≤ w by omega), ok_bind]
        show ok ((w - 1) % 64) = ok ((fitted w k - 1) % 64)
        unfold fitted
        congr 1
        omega
    have h3 : ∀ (x : Res Nat) (g : Nat → Res Bool), (do let w1 ← x; g (w1 % BITS)) = (do let y ← (do let w1 ← x; ok (w1 % BITS)); g y) := by
      intro x g
      cases x <;> rfl
    rw [h3 (subC m U32 w 1) fun y => do let msbWord ← lastU s; ok (((msbWord >>> y) &&& 1#64) == 1#64), h2, ok_bind,
      subC_ok (fitted_pos w k), ok_bind]
  unfold signExtend
  dsimp only
  rw [h1, show fitted w k % BITS = w % BITS from fitted_mod w k]

theorem signExtend_long {m : Mode} {d src : List Word} (w W : Nat) (h : d.length < src.length) : Panics (signExtend m d src w W) := by
  have hp : ∀ (l : List Word) (f : List Word → Res (List Word)), l.length = d.length → Panics (modifyRange l src.length l.length f) := by
    intro l f hl
    unfold modifyRange sliceR
    rw [if_neg (by omega)]
    exact ⟨_, rfl⟩
  unfold signExtend
  dsimp only
  refine panics_bind_all _ fun neg => ?_
  cases neg with
  | false =>
    rw [if_neg (by decide)]
    exact hp _ _ (assign_length _ _)
  | true =>
    rw [if_pos rfl]
    by_cases hm : w % BITS > 0
    · rw [if_pos hm]
      refine panics_bind' _ (panics_bind_all _ fun _ => ?_)
      rw [subC_ok (show 1 ≤ src.length by omega), ok_bind]
      refine panics_bind' _ ?_
      unfold idx
      rw [List.getElem?_eq_none (by rw [assign_length]; omega)]
      exact ⟨_, rfl⟩
    · rw [if_neg hm, ok_bind]
      exact panics_bind' _ (hp _ _ (assign_length _ _))

theorem signExtend_any (m : Mode) (w W : Nat) (src : List Word) (hW : 0 < W) :
    Fills (signExtend m (List.replicate (need W) 0#64) src w W) (need W)
      (if src.length = 0 ∨ (m = .debug ∧ w = 0) ∨ need W < src.length then none
        else some (if (wordsVal src).testBit (fitted w src.length - 1) = true then
          (wordsVal src ||| (2 ^ (64 * need W) - 2 ^ fitted w src.length)) % 2 ^ W else wordsVal src)) := by
  by_cases h0 : src.length = 0 ∨ (m = .debug ∧ w = 0)
  · rw [if_pos (by rcases h0 with h | h <;> simp [h])]
    unfold signExtend
    exact panics_bind' _ ((isNeg_list m src w).1 h0)
  · by_cases hl : need W < src.length
    · rw [if_pos (.inr (.inr hl))]
      exact signExtend_long w W (by simpa using hl)
    · simp only [not_or] at h0
      rw [if_neg (by simp only [not_or]; exact ⟨h0.1, h0.2, hl⟩)]
      have hf := need_fitted (w := w) (n := src.length) (by omega)
      have hfl := fitted_le w src.length (by omega)
      obtain ⟨r, h1, h2, h3⟩ := signExtend_len (m := m) (d := List.replicate (need W) 0#64) (src := src) (sw := fitted w src.length)
        (dw := W) (fitted_pos _ _) hW (by simp; omega) hf.symm (by simp [need])
      refine ⟨r, by rw [signExtend_fitted _ _ src.length W h0.2, h1], by rw [h2]; simp, wordsVal_eq_of_bit fun i => ?_⟩
      rw [h3, show bit src (fitted w src.length - 1) = (wordsVal src).testBit (fitted w src.length - 1) from rfl,
        show bit src i = (wordsVal src).testBit i from rfl]
      by_cases hs : (wordsVal src).testBit (fitted w src.length - 1) = true
      · rw [if_pos hs, if_pos hs, Nat.testBit_mod_two_pow, Nat.testBit_or, testBit_high (by omega)]
        by_cases hi : i < W
        · rw [decide_eq_true hi, decide_eq_true (show i < 64 * need W by unfold need; omega), Bool.and_true, Bool.or_comm]
        · rw [decide_eq_false hi]; rfl
      · rw [if_neg hs, if_neg hs]

/-! ## Concatenation -/

theorem concatLoop_any (shr off : Nat) (mk prev : Word) (ds ss : List Word) :
    concatLoop shr off mk prev ds ss = concatLoop shr off mk prev (ds.take ss.length) ss ++ ds.drop ss.length := by
  induction ds generalizing ss prev with
  | nil => simp [concatLoop]
  | cons x xs ih =>
    cases ss with
    | nil => simp [concatLoop]
    | cons y ys =>
      simp only [concatLoop, List.length_cons, List.take_succ_cons, List.drop_succ_cons, List.cons_append]
      rw [← ih]

theorem bit_assign_zeros (k : Nat) (s : List Word) (i : Nat) :
    bit (assign (List.replicate k 0#64) s) i = (decide (i < 64 * k) && bit s i) := by
  rw [assign_eq, bit_append, bit_take, List.length_take, List.length_replicate, List.drop_replicate, bit_replicate_zero]
  by_cases hi : i < 64 * min k s.length
  · rw [if_pos hi]
  · rw [if_neg hi]
    by_cases hk : i < 64 * k
    · rw [decide_eq_true hk, bit_of_ge s _ (by omega)]; rfl
    · rw [decide_eq_false hk]; rfl

theorem concat_any (m : Mode) (k v : Nat) (a b : List Word) (hk : k < 2 ^ 32) :
    Fills (concat m (List.replicate k 0#64) a b v) k
      (if v % 64 ≠ 0 ∧ (b.length = 0 ∨ k < b.length) then none
        else some ((wordsVal b ||| wordsVal a <<< offset v b.length) % 2 ^ (64 * k))) := by
  have hal : (assign (List.replicate k 0#64) b).length = k := by rw [assign_length, List.length_replicate]
  unfold concat
  dsimp only [BITS]
  by_cases h0 : v % 64 = 0
  · rw [if_pos h0, if_neg (by simp [h0])]
    have hoff : offset v b.length = 64 * b.length := by unfold offset; omega
    refine ⟨_, rfl, ?_, wordsVal_eq_of_bit fun i => ?_⟩
    · rw [List.length_append, List.length_take, assign_length (List.drop _ _), List.length_drop, hal]; omega
    · have hd : (assign (List.replicate k 0#64) b).drop b.length = List.replicate (k - b.length) 0#64 := by
        rw [assign_eq, List.length_replicate, List.drop_replicate]
        by_cases hle : b.length ≤ k
        · rw [List.take_of_length_le hle, List.drop_left]
        · rw [show k - b.length = 0 by omega]
          simp; omega
      rw [hd, bit_append, bit_take, List.length_take, hal, bit_assign_zeros, bit_assign_zeros, hoff, Nat.testBit_mod_two_pow, Nat.testBit_or,
        Nat.testBit_shiftLeft, show (wordsVal b).testBit i = bit b i from rfl,
        show (wordsVal a).testBit (i - 64 * b.length) = bit a (i - 64 * b.length) from rfl]
      by_cases hk : i < 64 * k
      · rw [decide_eq_true hk]
        by_cases hi : i < 64 * b.length
        · rw [if_pos (by omega), decide_eq_true hi, decide_eq_false (by omega)]; simp
        · rw [if_neg (by omega), bit_of_ge b _ (by omega), decide_eq_true (by omega), decide_eq_true (by omega),
            show i - 64 * min b.length k = i - 64 * b.length by omega]
          simp
      · rw [decide_eq_false hk]
        by_cases hi : i < 64 * min b.length k
        · exact absurd hi (by omega)
        · rw [if_neg hi, decide_eq_false (by omega)]
          rfl
  · rw [if_neg h0]
    obtain ⟨mk, hm1, _, hm3⟩ := mask_spec (k := 64 - v % 64) (by omega) (by omega)
    rw [hm1, ok_bind]
    by_cases hb : b.length = 0 ∨ k < b.length
    · rw [if_pos ⟨h0, hb⟩]
      rcases hb with hb | hb
      · rw [List.eq_nil_of_length_eq_zero hb] at hal ⊢
        cases m with
        | debug => exact ⟨_, rfl⟩
        | release =>
          rw [show subC .release U64 ([] : List Word).length 1 = ok 18446744073709551615 from rfl, ok_bind]
          refine panics_bind' _ ?_
          unfold idx
          rw [List.getElem?_eq_none (by rw [hal]; omega)]
          exact ⟨_, rfl⟩
      · rw [subC_ok (show 1 ≤ b.length by omega), ok_bind]
        refine panics_bind' _ ?_
        unfold idx
        rw [List.getElem?_eq_none (by rw [hal]; omega)]
        exact ⟨_, rfl⟩
    · rw [if_neg (by simp only [not_and]; exact fun _ => hb), subC_ok (show 1 ≤ b.length by omega), ok_bind]
      have hlt : b.length - 1 < b.length := by omega
      have hidx : idx (assign (List.replicate k 0#64) b) (b.length - 1) = ok b[b.length - 1] := by
        rw [idx_ok (by omega)]
        congr 1
        simp only [assign_eq]
        rw [List.getElem_append_left (by simp; omega), List.getElem_take]
      rw [hidx, ok_bind]
      have hpb : ∀ j, (b[b.length - 1]).getLsbD j = bit b (64 * (b.length - 1) + j) := by
        intro j
        by_cases hj : j < 64
        · rw [bit_eq_getD, show (64 * (b.length - 1) + j) / 64 = b.length - 1 by omega, show (64 * (b.length - 1) + j) % 64 = j by omega,
            List.getD_eq_getElem?_getD, List.getElem?_eq_getElem hlt, Option.getD_some]
        · rw [BitVec.getLsbD_of_ge _ _ (by omega), bit_of_ge _ _ (by omega)]
      have hoff : offset v b.length = 64 * (b.length - 1) + v % 64 := by unfold offset; omega
      generalize hp : b[b.length - 1] = p at hpb ⊢
      have hdl : ((assign (List.replicate k 0#64) b).drop (b.length - 1)).length = k - (b.length - 1) := by
        rw [List.length_drop, hal]
      have hdd : ((assign (List.replicate k 0#64) b).drop (b.length - 1)).drop (a ++ [0#64]).length =
          List.replicate (k - (b.length - 1) - (a.length + 1)) 0#64 := by
        rw [List.drop_drop, assign_eq, List.length_replicate, List.take_of_length_le (by omega), List.length_append,
          List.drop_append, List.drop_replicate, List.drop_replicate]
        simp only [List.length_singleton]
        rw [List.drop_of_length_le (by omega), List.nil_append]
        congr 1; omega
      refine ⟨_, rfl, ?_, wordsVal_eq_of_bit fun i => ?_⟩
      · rw [List.length_append, concatLoop_length, hdl, List.length_take, hal]; omega
      · rw [bit_append, List.length_take, hal, bit_take, bit_assign_zeros, concatLoop_any, bit_append, concatLoop_length, hdd,
          bit_replicate_zero, List.length_take, hdl, hoff, Nat.testBit_mod_two_pow, Nat.testBit_or, Nat.testBit_shiftLeft,
          show (wordsVal b).testBit i = bit b i from rfl,
          show ∀ j, (wordsVal a).testBit j = bit a j from fun _ => rfl, List.length_append, List.length_singleton]
        by_cases h1 : i < 64 * min (b.length - 1) k
        · rw [if_pos h1, decide_eq_true (by omega), decide_eq_false (show ¬ 64 * (b.length - 1) + v % 64 ≤ i by omega)]
          simp
        · rw [if_neg h1]
          generalize hj : i - 64 * min (b.length - 1) k = j
          have hij : i = 64 * (b.length - 1) + j := by omega
          by_cases h2 : j < 64 * min (a.length + 1) (k - (b.length - 1))
          · rw [if_pos h2, bit_concatLoop_raw (by omega) (by omega) hm3 _ (by rw [List.length_take, List.length_append]; exact Nat.min_le_left _ _) _ (by
              rw [List.length_take, hdl]; simpa using h2), hpb, bit_append_zero, decide_eq_true (show i < 64 * k by omega), Bool.true_and, hij]
            congr 1
            by_cases h3 : v % 64 ≤ j
            · rw [decide_eq_true h3, decide_eq_true (by omega)]
              congr 2; omega
            · rw [decide_eq_false h3, decide_eq_false (by omega)]; rfl
          · rw [if_neg h2]
            by_cases hk : i < 64 * k
            · rw [decide_eq_true hk, bit_of_ge b _ (by omega), bit_of_ge a _ (by omega)]; simp
            · rw [decide_eq_false hk]; rfl

/-! ## Comparisons -/

theorem cmpEqual_any (a b : List Word) : cmpEqual a b =
    decide (wordsVal a % 2 ^ (64 * min a.length b.length) = wordsVal b % 2 ^ (64 * min a.length b.length)) := by
  rw [cmpEqual_short, cmpEqual_spec (by simp; omega), wordsVal_take, wordsVal_take]
  have : ∀ (x y : List Word), wordsVal x % 2 ^ (64 * y.length) = wordsVal x % 2 ^ (64 * min x.length y.length) := by
    intro x y
    by_cases h : y.length ≤ x.length
    · rw [Nat.min_eq_right h]
    · have hx := wordsVal_lt x
      rw [Nat.min_eq_left (by omega), Nat.mod_eq_of_lt hx,
        Nat.mod_eq_of_lt (Nat.lt_of_lt_of_le hx (Nat.pow_le_pow_right (by decide) (by omega)))]
  rw [this a b, this b a, Nat.min_comm b.length]

theorem cmp_any (a b : List Word) :
    cmpGreater a b = decide (highest (min a.length b.length) b.length (wordsVal b) < highest (min a.length b.length) a.length (wordsVal a)) ∧
    cmpGreaterEqual a b =
      decide (highest (min a.length b.length) b.length (wordsVal b) ≤ highest (min a.length b.length) a.length (wordsVal a)) := by
  have hl : (a.drop (a.length - b.length)).length = (b.drop (b.length - a.length)).length := by simp; omega
  have e1 : cmpGreater a b = cmpGreater (a.drop (a.length - b.length)) (b.drop (b.length - a.length)) := by
    unfold cmpGreater
    rw [isGreaterAndNotLess_short]
  have e2 : cmpGreaterEqual a b = cmpGreaterEqual (a.drop (a.length - b.length)) (b.drop (b.length - a.length)) := by
    unfold cmpGreaterEqual
    rw [isGreaterAndNotLess_short]
  rw [e1, e2, cmpGreater_spec hl, cmpGreaterEqual_spec hl, wordsVal_drop, wordsVal_drop]
  unfold highest
  rw [show a.length - min a.length b.length = a.length - b.length by omega,
    show b.length - min a.length b.length = b.length - a.length by omega]
  simp only [Nat.shiftRight_eq_div_pow]
  exact ⟨trivial, trivial⟩

end Arith
end Baa

import Verif.Props.ArrayLaws
import Verif.Props.Compare
import Verif.Props.Parts
import Verif.Props.SignedDivision
import Verif.Spec.Smt

/-!
# C143: every term of the theories of bit-vectors and arrays can be computed
-/

namespace Baa
open Res

theorem denotes_bits {a : BitVecValue} {w v : Nat} {x : BitVec w} {y : BitVec v} (e : w = v) (h : Denotes a x)
    (hb : ∀ i, i < v → x.getLsbD i = y.getLsbD i) : Denotes a y := by
  subst e
  exact BitVec.eq_of_getLsbD_eq hb ▸ h

section Operators
variable (m : Mode) {w : Nat} {a b : BitVecValue} {x y : BitVec w}

theorem longDivision_denotes (h0 : 0 < w) (hw : w + 1 < 2 ^ 32) (ha : Denotes a x) (hb : Denotes b y) :
    ∃ q r, longDivision m a b a.width (BitVecValue.zero a.width) (BitVecValue.zero a.width) = ok (q, r) ∧ Denotes q (x.smtUDiv y) ∧
      Denotes r (x % y) := by
  obtain ⟨q, r, d1, d2, d3⟩ := C135_divide m h0 hw ha hb
  rw [ha.width_eq]
  refine ⟨q, r, d1, ?_⟩
  rw [BitVec.smtUDiv_eq]
  by_cases hy : y = 0#w
  · rw [if_pos hy, hy, BitVec.umod_zero, (d3 hy).2]
    exact ⟨(d3 hy).1, ha⟩
  · rw [if_neg hy]
    exact d2 hy

theorem floorDivision_smod (h0 : 0 < w) (hw : w + 1 < 2 ^ 32) (ha : Denotes a x) (hb : Denotes b y) :
    ∃ q r, floorDivision m a b = ok (q, r) ∧ Denotes r (x.smod y) := by
  by_cases hy : y = 0#w
  · subst hy
    obtain ⟨q, r, d1, d2, d3⟩ := signedDivision_denotes m h0 hw ha hb
    rw [BitVec.srem_zero] at d3
    rw [BitVec.smod_zero]
    obtain ⟨o, o1, o2⟩ := C01_from_u64 m h0 ha.width_lt 1#64 (by simpa using Nat.one_lt_two_pow (show w ≠ 0 by omega))
    obtain ⟨q', q1, q2⟩ := C07_sub m h0 d2 o2
    obtain ⟨r', r1, r2⟩ := C06_add m h0 d3 hb
    rw [BitVec.add_zero] at r2
    have e : floorDivision m a b = if (BitVecValue.isZero r || x.msb == (0#w).msb) = true then ok (q, r) else
        BitVecValue.fromU64 m 1#64 a.width >>= fun one => BitVecValue.sub m q one >>= fun q => BitVecValue.add m r b >>= fun r => ok (q, r) := by
      rw [floorDivision, d1, ok_bind]
      show (BitVecValue.isNegative m r >>= _) = _
      rw [(C25_is_negative m h0 d3).1, ok_bind, (C25_is_negative m h0 hb).1, ok_bind]
    rw [e, ha.width_eq, o1, ok_bind, q1, ok_bind, r1, ok_bind]
    by_cases hc : (BitVecValue.isZero r || x.msb == (0#w).msb) = true
    · rw [if_pos hc]
      exact ⟨q, r, rfl, d3⟩
    · rw [if_neg hc]
      exact ⟨q', r', rfl, r2⟩
  · obtain ⟨q, r, zq, zr, d1, -, d3, -, d5⟩ := C142_floor_division m h0 hw ha hb hy
    have : zr = x.smod y := BitVec.eq_of_toInt_eq (by rw [d5, BitVec.toInt_smod])
    exact ⟨q, r, d1, this ▸ d3⟩

theorem shl_slice (h0 : 0 < w) (ha : Denotes a x) (hb : Denotes b y) :
    ∃ r s, BitVecValue.shiftLeft m a b = ok r ∧ BitVecValue.slice m r (a.width - 1) 0 = ok s ∧ Denotes s (x <<< y.toNat) := by
  obtain ⟨r, h1, h2, -⟩ := C77_shift_left_partial m h0 ha.shows hb
  obtain ⟨s, h3, h4⟩ := C77_slice_partial m h2 (msb := w - 1) (lsb := 0) (by omega) (by omega)
  refine ⟨r, s, h1, by rw [ha.width_eq]; exact h3, denotes_bits (by omega) h4 fun i hi => ?_⟩
  rw [BitVec.getLsbD_extractLsb', Nat.zero_add, decide_eq_true (by omega), Bool.true_and]

theorem rotateValue_denotes (h0 : 0 < w) (ha : Denotes a x) (k : Nat) :
    ∃ r, rotateValue m a k = ok r ∧ Denotes r (x.rotateLeft k) := by
  unfold rotateValue
  rw [ha.width_eq]
  have hlt := Nat.mod_lt k h0
  have hw := ha.width_lt
  by_cases hk : k % w = 0
  · rw [if_pos hk]
    refine ⟨a, rfl, ?_⟩
    rw [BitVec.rotateLeft_def, hk, BitVec.shiftLeft_zero, Nat.sub_zero]
    have : x >>> w = 0#w := BitVec.ushiftRight_eq_zero (Nat.le_refl _)
    rw [this, BitVec.or_zero]
    exact ha
  · rw [if_neg hk]
    obtain ⟨l, l1, l2⟩ := C19_slice m ha (msb := w - 1 - k % w) (lsb := 0) (by omega) (by omega)
    obtain ⟨h, h1, h2⟩ := C19_slice m ha (msb := w - 1) (lsb := w - k % w) (by omega) (by omega)
    obtain ⟨r, r1, r2⟩ := C21_concat_partial m l2 h2 (by omega) (.inl ⟨by omega, by omega⟩)
    refine ⟨r, by rw [l1, ok_bind, h1, ok_bind, r1], denotes_bits (by omega) r2 fun i hi => ?_⟩
    rw [BitVec.getLsbD_append, BitVec.getLsbD_rotateLeft, BitVec.getLsbD_extractLsb', BitVec.getLsbD_extractLsb']
    by_cases g : i < k % w
    · rw [if_pos (show i < w - 1 - (w - k % w) + 1 by omega), decide_eq_true g, decide_eq_true (show i < w - 1 - (w - k % w) + 1 by omega)]
      rfl
    · rw [if_neg (show ¬ i < w - 1 - (w - k % w) + 1 by omega), decide_eq_false g, decide_eq_true (show i < w by omega),
        decide_eq_true (show i - (w - 1 - (w - k % w) + 1) < w - 1 - k % w - 0 + 1 by omega),
        show 0 + (i - (w - 1 - (w - k % w) + 1)) = i - k % w by omega]
      rfl

theorem rotate_right_left (h0 : 0 < w) (x : BitVec w) (k : Nat) : x.rotateLeft (w - k % w) = x.rotateRight k := by
  have hlt := Nat.mod_lt k h0
  apply BitVec.eq_of_getLsbD_eq
  intro i hi
  rw [BitVec.getLsbD_rotateLeft, BitVec.getLsbD_rotateRight, decide_eq_true hi]
  by_cases hk : k % w = 0
  · rw [hk, Nat.sub_zero, Nat.mod_self, decide_eq_false (by omega), decide_eq_true hi, Nat.sub_zero, Nat.zero_add]
    rfl
  · rw [Nat.mod_eq_of_lt (show w - k % w < w by omega), show w - (w - k % w) = k % w by omega]

theorem repeatValue_denotes (h0 : 0 < w) (ha : Denotes a x) : ∀ n, w * (n + 1) < 2 ^ 32 →
    ∃ r, repeatValue m a n = ok r ∧ Denotes r (x.replicate (n + 1))
  | 0, _ => ⟨a, rfl, by
      rw [BitVec.replicate_one]
      exact denotes_cast ha (by omega) _ (BitVec.toNat_cast ..)⟩
  | n + 1, h => by
    have e : w * (n + 1 + 1) = w + w * (n + 1) := by rw [Nat.mul_succ w (n + 1), Nat.add_comm]
    obtain ⟨r, h1, h2⟩ := repeatValue_denotes h0 ha n (by omega)
    obtain ⟨s, h3, h4⟩ := C21_concat_partial m ha h2 (by omega) (.inl ⟨h0, Nat.mul_pos h0 (by omega)⟩)
    refine ⟨s, by rw [repeatValue, h1, ok_bind, h3], ?_⟩
    rw [BitVec.replicate_succ]
    exact denotes_cast h4 e.symm _ (BitVec.toNat_cast ..)

end Operators

theorem SmtBin.run_sem (m : Mode) {w : Nat} {a b : BitVecValue} {x y : BitVec w} (h0 : 0 < w) (hw : w + 1 < 2 ^ 32) (ha : Denotes a x)
    (hb : Denotes b y) (op : SmtBin) : ∃ r, op.run m a b = ok r ∧ Denotes r (op.sem x y) := by
  cases op with
  | and =>
    obtain ⟨r, h1, h2, -⟩ := C10_and m ha hb
    exact ⟨r, h1, h2⟩
  | or =>
    exact C10_or m ha hb
  | xor =>
    exact C10_xor m ha hb
  | add => exact C06_add m h0 ha hb
  | sub => exact C07_sub m h0 ha hb
  | mul =>
    unfold SmtBin.run
    rw [ha.width_eq, hb.width_eq]
    exact C135_multiply m h0 ha hb
  | udiv =>
    obtain ⟨q, r, h1, h2, -⟩ := longDivision_denotes m h0 hw ha hb
    exact ⟨q, by rw [SmtBin.run, h1, ok_bind], h2⟩
  | urem =>
    obtain ⟨q, r, h1, -, h2⟩ := longDivision_denotes m h0 hw ha hb
    exact ⟨r, by rw [SmtBin.run, h1, ok_bind], h2⟩
  | sdiv =>
    obtain ⟨q, r, h1, h2, -⟩ := signedDivision_denotes m h0 hw ha hb
    exact ⟨q, by rw [SmtBin.run, h1, ok_bind], h2⟩
  | srem =>
    obtain ⟨q, r, h1, -, h2⟩ := signedDivision_denotes m h0 hw ha hb
    exact ⟨r, by rw [SmtBin.run, h1, ok_bind], h2⟩
  | smod =>
    obtain ⟨q, r, h1, h2⟩ := floorDivision_smod m h0 hw ha hb
    exact ⟨r, by rw [SmtBin.run, h1, ok_bind], h2⟩
  | shl =>
    obtain ⟨r, s, h1, h2, h3⟩ := shl_slice m h0 ha hb
    exact ⟨s, by rw [SmtBin.run, h1, ok_bind, h2], h3⟩
  | lshr => exact C13_shift_right m h0 ha hb
  | ashr => exact C14_arithmetic_shift_right m h0 ha hb

theorem SmtCmp.run_sem (m : Mode) {w : Nat} {a b : BitVecValue} {x y : BitVec w} (h0 : 0 < w) (ha : Denotes a x) (hb : Denotes b y)
    (op : SmtCmp) : op.run m a b = ok (op.sem x y) := by
  cases op with
  | eq => exact C15_is_equal m ha hb
  | ult => exact C16_is_less m ha hb
  | ule =>
    rw [SmtCmp.run, C16_is_greater m ha hb, ok_bind, SmtCmp.sem]
    congr 1
    by_cases h : x.toNat ≤ y.toNat
    · rw [decide_eq_true h, decide_eq_false (by omega)]
      rfl
    · rw [decide_eq_false h, decide_eq_true (by omega)]
      rfl
  | slt => exact C18_is_less_signed m h0 ha hb
  | sle => exact C18_is_less_or_equal_signed m h0 ha hb

theorem SmtTerm.sane : {s : Srt} → (t : SmtTerm s) → t.Legal → s.Sane
  | _, .const _, h => h
  | _, .var _ _, h => h
  | _, .not a, h => a.sane h
  | _, .neg a, h => a.sane h
  | _, .bin _ a _, h => a.sane h.1
  | _, .cmp _ _ _, _ => ⟨by decide, by decide⟩
  | _, .concat (v := v) a b, h => ⟨by have := (b.sane h.2.1).1; exact Nat.lt_of_lt_of_le this (Nat.le_add_left _ _), h.2.2⟩
  | _, .extract (w := w) hi lo a, h => ⟨Nat.succ_pos _, by
      have h1 := (a.sane h.1).2
      have h2 := h.2.2
      show hi - lo + 1 + 1 < 2 ^ 32
      omega⟩
  | _, .zeroExtend _ a, h => ⟨Nat.lt_of_lt_of_le (a.sane h.1).1 (Nat.le_add_right _ _), h.2⟩
  | _, .signExtend _ a, h => ⟨Nat.lt_of_lt_of_le (a.sane h.1).1 (Nat.le_add_right _ _), h.2⟩
  | _, .rotateLeft _ a, h => a.sane h
  | _, .rotateRight _ a, h => a.sane h
  | _, .repeat _ a, h => ⟨Nat.mul_pos (a.sane h.1).1 (Nat.succ_pos _), h.2⟩
  | _, .ite _ a _, h => a.sane h.2.1
  | _, .fill a, h => ⟨h.2.1, h.2.2, (a.sane h.1).1, (a.sane h.1).2⟩
  | _, .store a _ _, h => a.sane h.1
  | _, .select a _, h => ⟨(a.sane h.1).2.2.1, (a.sane h.1).2.2.2⟩
  | _, .same _ _, _ => ⟨by decide, by decide⟩

theorem newSparse_means (m : Mode) {iw dw : Nat} (h0 : 0 < dw) (hw : dw < 2 ^ 32) (hi : iw ≤ 64) {v : BitVecValue} {x : BitVec dw}
    (hv : Denotes v x) : ∃ a, ArrayValue.newSparse iw v = ok a ∧ Means m (.arr iw dw) a (fun _ => x) := by
  have := hv.eq_encode
  subst this
  obtain ⟨s, h, -⟩ := sparse_new (iw := iw) (by omega) hw x
  have e : ArrayValue.newSparse iw (encode x) = ok (.sparse s) := by
    unfold ArrayValue.newSparse
    rw [h]
    rfl
  exact ⟨_, e, .newSparse x _ e, ⟨h0, hw, hi, fun h => by cases h⟩⟩

theorem sameElements_spec (m : Mode) (env : HashEnv) {iw dw : Nat} (h0 : 0 < iw) {a b : ArrayValue} {f g : BitVec iw → BitVec dw}
    (ha : Means m (.arr iw dw) a f) (hb : Means m (.arr iw dw) b g) : ∀ ks : List Nat, (∀ k ∈ ks, k < 2 ^ iw) →
    sameElements m env a b iw ks = ok (decide (∀ k ∈ ks, f (BitVec.ofNat iw k) = g (BitVec.ofNat iw k)))
  | [], _ => by rw [sameElements, decide_eq_true (by simp)]
  | k :: ks, h => by
    have hi := ha.2.index_le
    have hk := h k (by simp)
    have hk64 : k < 2 ^ 64 := Nat.lt_of_lt_of_le hk (Nat.pow_le_pow_right (by decide) hi)
    have e : (BitVec.ofNat 64 k).toNat = k := by rw [BitVec.toNat_ofNat, Nat.mod_eq_of_lt hk64]
    obtain ⟨i, i1, i2⟩ := C01_from_u64 m (w := iw) h0 (by omega) (BitVec.ofNat 64 k) (by rw [e]; exact hk)
    rw [e] at i2
    obtain ⟨u, hu⟩ := ha.1.arrayInv ha.2
    obtain ⟨v, hv⟩ := hb.1.arrayInv hb.2
    rw [sameElements, i1, ok_bind, i2.eq_encode, hu.select_of ha.2, ok_bind, hv.select_of hb.2, ok_bind,
      C15_is_equal m (encode_denotes _ ha.2.data_lt) (encode_denotes _ ha.2.data_lt), ok_bind,
      sameElements_spec m env h0 ha hb ks fun k hk => h k (List.mem_cons_of_mem _ hk)]
    by_cases g1 : f (BitVec.ofNat iw k) = g (BitVec.ofNat iw k)
    · rw [decide_eq_true g1, if_pos rfl]
      exact congrArg ok (decide_eq_decide.mpr ⟨fun q => by simpa using ⟨g1, q⟩, fun q j hj => q j (List.mem_cons_of_mem _ hj)⟩)
    · rw [decide_eq_false g1, if_neg (by decide), decide_eq_false fun q => g1 (q k (by simp))]

theorem same_denotes (m : Mode) (env : HashEnv) {iw dw : Nat} (h0 : 0 < iw) {a b : ArrayValue} {f g : BitVec iw → BitVec dw}
    (ha : Means m (.arr iw dw) a f) (hb : Means m (.arr iw dw) b g) :
    ∃ r d, sameElements m env a b iw (List.range (2 ^ iw)) = ok r ∧ BitVecValue.fromBool m r = ok d ∧ Denotes d (sameArray f g) := by
  have hks : ∀ k, k ∈ List.range (2 ^ iw) ↔ k < 2 ^ iw := fun k => List.mem_range
  generalize List.range (2 ^ iw) = ks at hks
  obtain ⟨d, h1, h2⟩ := C01_from_bool m (decide (∀ k ∈ ks, f (BitVec.ofNat iw k) = g (BitVec.ofNat iw k)))
  refine ⟨_, d, sameElements_spec m env h0 ha hb ks fun k hk => (hks k).mp hk, h1, ?_⟩
  rw [sameArray]
  by_cases h : ∀ i, f i = g i
  · rw [if_pos h]
    rw [decide_eq_true fun k _ => h _] at h2
    exact h2
  · rw [if_neg h]
    have : ¬ ∀ k ∈ ks, f (BitVec.ofNat iw k) = g (BitVec.ofNat iw k) := fun q => h fun i => by
      have := q i.toNat ((hks _).mpr i.isLt)
      rwa [BitVec.ofNat_toNat, BitVec.setWidth_eq] at this
    rw [decide_eq_false this] at h2
    exact h2

/-- **C143** Every term of the theories of bit-vectors and arrays is computed by calls of the library, without a panic, in debug and in
release builds, for every hash order: the result stands for the value that the term has. -/
theorem C143_eval (m : Mode) (env : HashEnv) (σ : (s : Srt) → Nat → s.Val) (V : (s : Srt) → Nat → s.Obj)
    (hV : ∀ s n, s.Sane → Means m s (V s n) (σ s n)) :
    {s : Srt} → (t : SmtTerm s) → t.Legal → ∃ r, t.eval m env V = ok r ∧ Means m s r (t.denote σ)
  | _, .const x, h => ⟨_, rfl, encode_denotes x (Nat.lt_of_succ_lt h.2)⟩
  | _, .var _ n, h => ⟨_, rfl, hV _ n h⟩
  | _, .not a, h => by
    obtain ⟨x, h1, h2⟩ := C143_eval m env σ V hV a h
    obtain ⟨r, h3, h4⟩ := C11_not m (a.sane h).1 h2
    exact ⟨r, by rw [SmtTerm.eval, h1, ok_bind, h3], h4⟩
  | _, .neg a, h => by
    obtain ⟨x, h1, h2⟩ := C143_eval m env σ V hV a h
    obtain ⟨r, h3, h4⟩ := C08_negate m (a.sane h).1 h2
    exact ⟨r, by rw [SmtTerm.eval, h1, ok_bind, h3], h4⟩
  | _, .bin op a b, h => by
    obtain ⟨x, h1, h2⟩ := C143_eval m env σ V hV a h.1
    obtain ⟨y, h3, h4⟩ := C143_eval m env σ V hV b h.2
    obtain ⟨r, h5, h6⟩ := op.run_sem m (a.sane h.1).1 (a.sane h.1).2 h2 h4
    exact ⟨r, by rw [SmtTerm.eval, h1, ok_bind, h3, ok_bind, h5], h6⟩
  | _, .cmp op a b, h => by
    obtain ⟨x, h1, h2⟩ := C143_eval m env σ V hV a h.1
    obtain ⟨y, h3, h4⟩ := C143_eval m env σ V hV b h.2
    obtain ⟨r, h5, h6⟩ := C01_from_bool m (op.sem (a.denote σ) (b.denote σ))
    exact ⟨r, by rw [SmtTerm.eval, h1, ok_bind, h3, ok_bind, op.run_sem m (a.sane h.1).1 h2 h4, ok_bind, h5], h6⟩
  | _, .concat a b, h => by
    obtain ⟨x, h1, h2⟩ := C143_eval m env σ V hV a h.1
    obtain ⟨y, h3, h4⟩ := C143_eval m env σ V hV b h.2.1
    obtain ⟨r, h5, h6⟩ := C21_concat_partial m h2 h4 (Nat.lt_of_succ_lt h.2.2) (.inl ⟨(a.sane h.1).1, (b.sane h.2.1).1⟩)
    exact ⟨r, by rw [SmtTerm.eval, h1, ok_bind, h3, ok_bind, h5], h6⟩
  | _, .extract hi lo a, h => by
    obtain ⟨x, h1, h2⟩ := C143_eval m env σ V hV a h.1
    obtain ⟨r, h3, h4⟩ := C19_slice m h2 h.2.2 h.2.1
    exact ⟨r, by rw [SmtTerm.eval, h1, ok_bind, h3], h4⟩
  | _, .zeroExtend n a, h => by
    obtain ⟨x, h1, h2⟩ := C143_eval m env σ V hV a h.1
    obtain ⟨r, h3, h4, -⟩ := C22_zero_extend_partial m h2 n (Nat.lt_of_succ_lt h.2) (.inl (a.sane h.1).1)
    exact ⟨r, by rw [SmtTerm.eval, h1, ok_bind, h3], h4⟩
  | _, .signExtend n a, h => by
    obtain ⟨x, h1, h2⟩ := C143_eval m env σ V hV a h.1
    obtain ⟨r, h3, h4, -⟩ := C23_sign_extend m (a.sane h.1).1 h2 n (Nat.lt_of_succ_lt h.2)
    exact ⟨r, by rw [SmtTerm.eval, h1, ok_bind, h3], h4⟩
  | _, .rotateLeft k a, h => by
    obtain ⟨x, h1, h2⟩ := C143_eval m env σ V hV a h
    obtain ⟨r, h3, h4⟩ := rotateValue_denotes m (a.sane h).1 h2 k
    exact ⟨r, by rw [SmtTerm.eval, h1, ok_bind, h3], h4⟩
  | .bv w, .rotateRight k a, h => by
    obtain ⟨x, h1, h2⟩ := C143_eval m env σ V hV a h
    obtain ⟨r, h3, h4⟩ := rotateValue_denotes m (a.sane h).1 h2 (w - k % w)
    rw [rotate_right_left (a.sane h).1] at h4
    exact ⟨r, by rw [SmtTerm.eval, h1, ok_bind, Denotes.width_eq h2, h3], h4⟩
  | _, .repeat n a, h => by
    obtain ⟨x, h1, h2⟩ := C143_eval m env σ V hV a h.1
    obtain ⟨r, h3, h4⟩ := repeatValue_denotes m (a.sane h.1).1 h2 n (Nat.lt_of_succ_lt h.2)
    exact ⟨r, by rw [SmtTerm.eval, h1, ok_bind, h3], h4⟩
  | _, .ite c a b, h => by
    obtain ⟨x, h1, h2⟩ := C143_eval m env σ V hV c h.1
    obtain ⟨y, h3, h4⟩ := C143_eval m env σ V hV a h.2.1
    obtain ⟨z, h5, h6⟩ := C143_eval m env σ V hV b h.2.2
    have e : (1 = 1 ∧ (c.denote σ).toNat = 1) ↔ c.denote σ = 1#1 :=
      ⟨fun g => BitVec.eq_of_toNat_eq g.2, fun g => ⟨rfl, by rw [g]; rfl⟩⟩
    have t : BitVecValue.isTru x = ok (decide (c.denote σ = 1#1)) := by
      rw [C25_is_tru h2]
      exact congrArg ok (decide_eq_decide.mpr e)
    rw [SmtTerm.eval, h1, ok_bind, t, ok_bind, SmtTerm.denote]
    by_cases g : c.denote σ = 1#1
    · rw [decide_eq_true g, if_pos rfl, if_pos g]
      exact ⟨y, h3, h4⟩
    · rw [decide_eq_false g, if_neg (by decide), if_neg g]
      exact ⟨z, h5, h6⟩
  | .arr iw dw, .fill a, h => by
    obtain ⟨x, h1, h2⟩ := C143_eval m env σ V hV a h.1
    obtain ⟨r, h3, h4⟩ := newSparse_means m (iw := iw) (a.sane h.1).1 (Nat.lt_of_succ_lt (a.sane h.1).2) h.2.2 h2
    exact ⟨r, by rw [SmtTerm.eval, h1, ok_bind, h3], h4⟩
  | _, .store a i d, h => by
    obtain ⟨t, h1, h2, h3⟩ := C143_eval m env σ V hV a h.1
    obtain ⟨x, h4, h5⟩ := C143_eval m env σ V hV i h.2.1
    obtain ⟨y, h6, h7⟩ := C143_eval m env σ V hV d h.2.2
    obtain ⟨k, hk⟩ := h2.arrayInv h3
    obtain ⟨r, g1, -, g3, -⟩ := hk.store_of m env h3 (i.denote σ) (d.denote σ)
    exact ⟨r, by rw [SmtTerm.eval, h1, ok_bind, h4, ok_bind, h6, ok_bind, Denotes.eq_encode h5, Denotes.eq_encode h7, g1],
      .store _ _ _ _ _ h2 g1, g3⟩
  | _, .select a i, h => by
    obtain ⟨t, h1, h2, h3⟩ := C143_eval m env σ V hV a h.1
    obtain ⟨x, h4, h5⟩ := C143_eval m env σ V hV i h.2
    obtain ⟨k, hk⟩ := h2.arrayInv h3
    exact ⟨encode (a.denote σ (i.denote σ)), by rw [SmtTerm.eval, h1, ok_bind, h4, ok_bind, Denotes.eq_encode h5, hk.select_of h3], encode_denotes _ h3.data_lt⟩
  | _, .same (iw := iw) (dw := dw) a b, h => by
    obtain ⟨t, h1, h2⟩ := C143_eval m env σ V hV a h.1
    obtain ⟨u, h3, h4⟩ := C143_eval m env σ V hV b h.2
    obtain ⟨r, d, h5, h6, h7⟩ := same_denotes m env (a.sane h.1).1 h2 h4
    exact ⟨d, by rw [SmtTerm.eval, h1, ok_bind, h3, ok_bind, h5, ok_bind, h6], h7⟩

/-- **C143** The result for a bit-vector does not depend on the build, on the hash order, or on how the arrays in the variables came about. -/
theorem C143_independent (m m' : Mode) (env env' : HashEnv) (σ : (s : Srt) → Nat → s.Val) (V V' : (s : Srt) → Nat → s.Obj)
    (hV : ∀ s n, s.Sane → Means m s (V s n) (σ s n)) (hV' : ∀ s n, s.Sane → Means m' s (V' s n) (σ s n)) {w : Nat} (t : SmtTerm (.bv w))
    (h : t.Legal) : t.eval m env V = t.eval m' env' V' := by
  obtain ⟨r, h1, h2⟩ := C143_eval m env σ V hV t h
  obtain ⟨r', h3, h4⟩ := C143_eval m' env' σ V' hV' t h
  rw [h1, h3, Denotes.repr_unique h2 h4]

/-- A valuation for the example: the variables of a width are 5, the arrays hold 5 everywhere. -/
def fives : (s : Srt) → Nat → s.Val
  | .bv w, _ => BitVec.ofNat w 5
  | .arr _ dw, _ => fun _ => BitVec.ofNat dw 5

/-- The array that `newSparse` returns. -/
def resultOr (r : Res ArrayValue) : ArrayValue :=
  match r with
  | .ok a => a
  | .panic _ => .sparse ⟨0, 0, .u64u64 0 HMap.empty⟩

/-- The same as values of the library. -/
def fivesObj : (s : Srt) → Nat → s.Obj
  | .bv w, _ => encode (BitVec.ofNat w 5)
  | .arr iw dw, _ => resultOr (ArrayValue.newSparse iw (encode (BitVec.ofNat dw 5)))

theorem fives_means (m : Mode) (s : Srt) (n : Nat) (h : s.Sane) : Means m s (fivesObj s n) (fives s n) := by
  cases s with
  | bv w => exact encode_denotes _ (Nat.lt_of_succ_lt h.2)
  | arr iw dw =>
    have h4 := h.2.2.2
    obtain ⟨a, h1, h2⟩ := newSparse_means m (iw := iw) h.2.2.1 (Nat.lt_of_succ_lt h4) h.2.1 (encode_denotes (BitVec.ofNat dw 5) (Nat.lt_of_succ_lt h4))
    have : fivesObj (.arr iw dw) n = a := by rw [fivesObj, h1, resultOr]
    rw [this]
    exact h2

/-- A term with most of the operators. -/
def sampleTerm : SmtTerm (.bv 65) :=
  .ite (.same (.store (.var (.arr 3 70) 0) (.const 2#3) (.bin .smod (.const (-7#70)) (.var (.bv 70) 1))) (.fill (.const 5#70)))
    (.const 0#65)
    (.bin .shl (.extract 64 0 (.select (.store (.var (.arr 3 70) 0) (.const 2#3) (.bin .smod (.const (-7#70)) (.var (.bv 70) 1))) (.const 2#3)))
      (.const 64#65))

theorem sampleTerm_legal : sampleTerm.Legal := by
  simp [SmtTerm.Legal, Srt.Sane, sampleTerm]

example : sampleTerm.Legal ∧ sampleTerm.eval .debug listEnv fivesObj = ok (encode (BitVec.twoPow 65 64)) ∧
    ∃ r, sampleTerm.eval .debug listEnv fivesObj = ok r ∧ Means .debug (.bv 65) r (sampleTerm.denote fives) :=
  ⟨sampleTerm_legal, by decide +kernel, C143_eval .debug listEnv fives fivesObj (fives_means .debug) sampleTerm sampleTerm_legal⟩

end Baa

import Verif.Props.Assemble
import Verif.Spec.Fields

/-!
# C140: packing fields into a word
-/

namespace Baa
open Res

theorem width_concat (m : Mode) {a b : BitVecValue} (ha : Canonical a) (hb : Canonical b) (h0 : 0 < a.width) (h1 : 0 < b.width)
    (hlt : a.width + b.width < 2 ^ 32) :
    ∃ c, BitVecValue.concat m a b = ok c ∧ Canonical c ∧ c.width = a.width + b.width ∧
      BitVecValue.slice m c (a.width + b.width - 1) b.width = ok a ∧ BitVecValue.slice m c (b.width - 1) 0 = ok b := by
  obtain ⟨c, h2, h3, h4⟩ := C61_slice_concat m ha.denotes hb.denotes h0 h1 hlt
  obtain ⟨d, h5, h6⟩ := C21_concat_partial m ha.denotes hb.denotes hlt (.inl ⟨h0, h1⟩)
  rw [h2] at h5
  cases h5
  exact ⟨c, h2, h6.canonical, h6.width_eq, h3, h4⟩

/-- The whole value is a slice of itself. -/
theorem slice_whole (m : Mode) {a : BitVecValue} (ha : Canonical a) (h0 : 0 < a.width) : BitVecValue.slice m a (a.width - 1) 0 = ok a := by
  obtain ⟨r, h1, h2⟩ := C19_slice m ha.denotes (msb := a.width - 1) (lsb := 0) (by omega) (by omega)
  rw [h1, denotes_same h2 ha.denotes (by omega) ?_]
  rw [low_slice _ (by omega), BitVec.toNat_ofNat, show a.width - 1 - 0 + 1 = a.width by omega]

theorem slice_of_slice (m : Mode) {a c : BitVecValue} (ha : Canonical a) {h l h' l' : Nat} (hc : BitVecValue.slice m a h l = ok c)
    (hh : h < a.width) (hl : l ≤ h) (hh' : h' ≤ h - l) (hl' : l' ≤ h') :
    BitVecValue.slice m c h' l' = BitVecValue.slice m a (l + h') (l + l') := by
  obtain ⟨d, h1, h2⟩ := C61_slice_slice m ha.denotes hh hl hh' hl'
  rw [hc] at h1
  cases h1
  exact h2

theorem pack_spec (m : Mode) : ∀ (fs : List BitVecValue) (v : BitVecValue), Canonical v → 0 < v.width → (∀ f ∈ fs, Canonical f ∧ 0 < f.width) →
    v.width + (fs.map (·.width)).sum < 2 ^ 32 →
    ∃ r, packFields m v fs = ok r ∧ Canonical r ∧ r.width = v.width + (fs.map (·.width)).sum ∧
      BitVecValue.slice m r (r.width - 1) (fs.map (·.width)).sum = ok v ∧
      unpackFields m r (fs.map (·.width)).sum (fs.map (·.width)) = ok fs
  | [], v, hv, h0, _, _ => ⟨v, rfl, hv, rfl, slice_whole m hv h0, rfl⟩
  | f :: fs, v, hv, h0, hf, hlt => by
    obtain ⟨cf, pf⟩ := hf f (by simp)
    rw [List.map_cons, List.sum_cons] at hlt ⊢
    obtain ⟨c, h1, h2, h3, h4, h5⟩ := width_concat m hv cf h0 pf (by omega)
    obtain ⟨r, e1, e2, e3, e4, e5⟩ := pack_spec m fs c h2 (by omega) (fun g hg => hf g (by simp [hg])) (by omega)
    refine ⟨r, ?_, e2, by omega, ?_, ?_⟩
    · rw [packFields, h1, ok_bind, e1]
    · have := slice_of_slice m e2 e4 (h' := v.width + f.width - 1) (l' := f.width) (by omega) (by omega) (by omega) (by omega)
      rw [h4] at this
      rw [this]
      congr 1 <;> omega
    · have := slice_of_slice m e2 e4 (h' := f.width - 1) (l' := 0) (by omega) (by omega) (by omega) (by omega)
      rw [h5] at this
      rw [unpackFields, show f.width + (fs.map (·.width)).sum - f.width = (fs.map (·.width)).sum by omega, e5,
        show f.width + (fs.map (·.width)).sum - 1 = (fs.map (·.width)).sum + (f.width - 1) by omega, ← Nat.add_zero (fs.map (·.width)).sum]
      rw [Nat.add_zero] at this ⊢
      rw [← this, ok_bind, ok_bind]

/-- **C140** Fields packed into one value, of any number and widths, can be taken out again. -/
theorem C140_unpack_pack (m : Mode) {v : BitVecValue} {fs : List BitVecValue} (hf : ∀ f ∈ v :: fs, Canonical f ∧ 0 < f.width)
    (hlt : ((v :: fs).map (·.width)).sum < 2 ^ 32) :
    ∃ r, packFields m v fs = ok r ∧ Canonical r ∧ r.width = ((v :: fs).map (·.width)).sum ∧
      unpackFields m r r.width ((v :: fs).map (·.width)) = ok (v :: fs) := by
  rw [List.map_cons, List.sum_cons] at hlt ⊢
  obtain ⟨cv, pv⟩ := hf v (by simp)
  obtain ⟨r, e1, e2, e3, e4, e5⟩ := pack_spec m fs v cv pv (fun g hg => hf g (by simp [hg])) hlt
  refine ⟨r, e1, e2, e3, ?_⟩
  rw [unpackFields, show r.width - v.width = (fs.map (·.width)).sum by omega, e4, e5, ok_bind, ok_bind]

theorem unpack_spec (m : Mode) {r : BitVecValue} (hr : Canonical r) : ∀ (ws : List Nat) (v : BitVecValue), (∀ w ∈ ws, 0 < w) →
    ws.sum < r.width → BitVecValue.slice m r (r.width - 1) ws.sum = ok v →
    ∃ fs, unpackFields m r ws.sum ws = ok fs ∧ fs.map (·.width) = ws ∧ packFields m v fs = ok r
  | [], v, _, hw, hv => by
    rw [List.sum_nil, slice_whole m hr (by simpa using hw)] at hv
    cases hv
    exact ⟨[], rfl, rfl, rfl⟩
  | w :: ws, v, h0, hw, hv => by
    have pw := h0 w (by simp)
    rw [List.sum_cons] at hw hv ⊢
    obtain ⟨c, h1, h2⟩ := C19_slice m hr.denotes (msb := r.width - 1) (lsb := ws.sum) (by omega) (by omega)
    have wc := h2.width_eq
    obtain ⟨hi, lo, h3, h4, h5⟩ := C61_concat_slices m h2 (k := w) pw (by omega)
    rw [slice_of_slice m hr h1 (by omega) (by omega) (by omega) (by omega)] at h3 h4
    rw [show ws.sum + (r.width - 1 - ws.sum + 1 - 1) = r.width - 1 by omega, Nat.add_comm ws.sum w, hv] at h3
    cases h3
    obtain ⟨fs, e1, e2, e3⟩ := unpack_spec m hr ws c (fun u hu => h0 u (by simp [hu])) (by omega) h1
    have wl : lo.width = w := by
      obtain ⟨l, h6, h7⟩ := C19_slice m hr.denotes (msb := ws.sum + (w - 1)) (lsb := ws.sum + 0) (by omega) (by omega)
      rw [h4] at h6
      cases h6
      rw [h7.width_eq]
      omega
    refine ⟨lo :: fs, ?_, by rw [List.map_cons, e2, wl], by rw [packFields, h5, ok_bind, e3]⟩
    rw [unpackFields, show w + ws.sum - 1 = ws.sum + (w - 1) by omega, show w + ws.sum - w = ws.sum + 0 by omega, h4, ok_bind, Nat.add_zero, e1,
      ok_bind]

/-- **C140** A value cut into fields of any widths is given back by packing them. -/
theorem C140_pack_unpack (m : Mode) {r : BitVecValue} (hr : Canonical r) {w : Nat} {ws : List Nat} (h0 : ∀ u ∈ w :: ws, 0 < u)
    (hw : (w :: ws).sum = r.width) :
    ∃ v fs, unpackFields m r r.width (w :: ws) = ok (v :: fs) ∧ (v :: fs).map (·.width) = w :: ws ∧ packFields m v fs = ok r := by
  have pw := h0 w (by simp)
  rw [List.sum_cons] at hw
  obtain ⟨v, h1, h2⟩ := C19_slice m hr.denotes (msb := r.width - 1) (lsb := ws.sum) (by omega) (by omega)
  obtain ⟨fs, e1, e2, e3⟩ := unpack_spec m hr ws v (fun u hu => h0 u (by simp [hu])) (by omega) h1
  have wv := h2.width_eq
  refine ⟨v, fs, ?_, by rw [List.map_cons, e2]; congr 1; omega, e3⟩
  rw [unpackFields, show r.width - w = ws.sum by omega, h1, ok_bind, e1, ok_bind]

/-! ## Writing a field -/

theorem setField_denotes (m : Mode) {w n lsb : Nat} {r f : BitVecValue} {x : BitVec w} {y : BitVec n} (hr : Denotes r x) (hf : Denotes f y)
    (h0 : 0 < n) (h : lsb + n ≤ w) :
    ∃ s, setField m r f lsb = ok s ∧
      Denotes s ((x &&& ~~~((BitVec.allOnes n).setWidth w <<< lsb)) ||| (y.setWidth w <<< lsb)) := by
  have hw := hr.width_lt
  have ew : n + (w - n) = w := by omega
  have h64 : (BitVec.ofNat 64 lsb).toNat = lsb := by rw [BitVec.toNat_ofNat]; omega
  have hl : lsb < 2 ^ w := Nat.lt_of_le_of_lt (by omega) Nat.lt_two_pow_self
  obtain ⟨am, a1, a2⟩ := C01_from_u64 m (w := w) (by omega) hw (BitVec.ofNat 64 lsb) (by rw [h64]; exact hl)
  rw [h64] at a2
  have ea : (BitVec.ofNat w lsb).toNat = lsb := by rw [BitVec.toNat_ofNat, Nat.mod_eq_of_lt hl]
  have fits : ∀ z : BitVec n, (z.setWidth w).toNat * 2 ^ lsb < 2 ^ w := fun z => by
    rw [BitVec.toNat_setWidth_of_le (by omega)]
    refine Nat.lt_of_lt_of_le (Nat.mul_lt_mul_of_pos_right z.isLt (Nat.two_pow_pos lsb)) ?_
    rw [← Nat.pow_add]
    exact Nat.pow_le_pow_right (by decide) (by omega)
  have place : ∀ {g : BitVecValue} {z : BitVec n}, Denotes g z → ∃ e s, BitVecValue.zeroExtend m g (w - n) = ok e ∧
      BitVecValue.shiftLeft m e am = ok s ∧ Denotes s (z.setWidth w <<< lsb) := fun {g z} hg => by
    obtain ⟨e, e1, e2, _⟩ := C22_zero_extend_partial m hg (w - n) (by omega) (.inl h0)
    have e3 := denotes_cast e2 ew (z.setWidth w) (by rw [BitVec.toNat_setWidth, BitVec.toNat_setWidth, ew])
    obtain ⟨s, s1, s2⟩ := C12_shift_left_partial m (by omega) e3 a2 (by rw [ea]; exact .inr (.inr (.inr (.inr (fits z)))))
    rw [ea] at s2
    exact ⟨e, s, e1, s1, s2⟩
  obtain ⟨o, o1, o2⟩ := C01_ones m h0 (by omega)
  obtain ⟨l1, k, k1, k2, k3⟩ := place o2
  obtain ⟨l2, g, g1, g2, g3⟩ := place hf
  obtain ⟨nk, n1, n2⟩ := C11_not m (by omega) k3
  obtain ⟨re, r1, r2, _⟩ := C10_and m hr n2
  obtain ⟨s, s1, s2⟩ := C10_or m r2 g3
  refine ⟨s, ?_, s2⟩
  unfold setField
  rw [hr.width_eq, hf.width_eq, a1, ok_bind, o1, ok_bind, k1, ok_bind, k2, ok_bind, n1, ok_bind, r1, ok_bind, g1, ok_bind, g2, ok_bind, s1]

theorem setField_bit {w n lsb : Nat} (x : BitVec w) (y : BitVec n) (h : lsb + n ≤ w) (i : Nat) :
    ((x &&& ~~~((BitVec.allOnes n).setWidth w <<< lsb)) ||| (y.setWidth w <<< lsb)).getLsbD i =
      if lsb ≤ i ∧ i < lsb + n then y.getLsbD (i - lsb) else x.getLsbD i := by
  rw [BitVec.getLsbD_or, BitVec.getLsbD_and, BitVec.getLsbD_not, BitVec.getLsbD_shiftLeft, BitVec.getLsbD_shiftLeft, BitVec.getLsbD_setWidth,
    BitVec.getLsbD_setWidth, BitVec.getLsbD_allOnes]
  by_cases hw : i < w
  · rw [decide_eq_true hw]
    by_cases h1 : i < lsb
    · rw [decide_eq_true h1, if_neg (by omega)]
      simp
    · rw [decide_eq_false h1, decide_eq_true (show i - lsb < w by omega)]
      by_cases h2 : i < lsb + n
      · rw [decide_eq_true (show i - lsb < n by omega), if_pos ⟨by omega, h2⟩]
        simp
      · rw [decide_eq_false (show ¬ i - lsb < n by omega), if_neg (by omega), BitVec.getLsbD_of_ge y _ (by omega)]
        simp
  · rw [decide_eq_false hw, if_neg (by omega), BitVec.getLsbD_of_ge x _ (by omega)]
    simp

/-- **C140** A field written into a value is read back, and no other slice changes. -/
theorem C140_set_field (m : Mode) {r f : BitVecValue} (hr : Canonical r) (hf : Canonical f) (h0 : 0 < f.width) {lsb : Nat}
    (h : lsb + f.width ≤ r.width) :
    ∃ s, setField m r f lsb = ok s ∧ Canonical s ∧ s.width = r.width ∧ BitVecValue.slice m s (lsb + f.width - 1) lsb = ok f ∧
      ∀ hi lo, lo ≤ hi → hi < r.width → hi < lsb ∨ lsb + f.width ≤ lo → BitVecValue.slice m s hi lo = BitVecValue.slice m r hi lo := by
  obtain ⟨s, h1, h2⟩ := setField_denotes m hr.denotes hf.denotes h0 h
  refine ⟨s, h1, h2.canonical, h2.width_eq, ?_, fun hi lo h3 h4 h5 => ?_⟩
  · obtain ⟨t, e1, e2⟩ := C19_slice m h2 (msb := lsb + f.width - 1) (lsb := lsb) (by omega) (by omega)
    rw [e1, e2.repr_unique (denotes_cast hf.denotes (show f.width = lsb + f.width - 1 - lsb + 1 by omega) _ ?_)]
    apply Nat.eq_of_testBit_eq
    intro i
    show BitVec.getLsbD _ i = BitVec.getLsbD _ i
    rw [BitVec.getLsbD_extractLsb', setField_bit _ _ h]
    by_cases hi : i < f.width
    · rw [decide_eq_true (by omega), Bool.true_and, if_pos (by omega), Nat.add_sub_cancel_left]
    · rw [decide_eq_false (by omega), Bool.false_and, BitVec.getLsbD_of_ge _ _ (by omega)]
  · obtain ⟨t, e1, e2⟩ := C19_slice m h2 h4 h3
    obtain ⟨u, e3, e4⟩ := C19_slice m hr.denotes h4 h3
    rw [e1, e3, e2.repr_unique (x := _) ?_]
    refine denotes_cast e4 rfl _ ?_
    congr 1
    apply BitVec.eq_of_getLsbD_eq
    intro i hi'
    rw [BitVec.getLsbD_extractLsb', BitVec.getLsbD_extractLsb', setField_bit _ _ h, if_neg (by omega)]

example : packFields .debug (encode 5#3) [encode 0xabcd#70, encode 1#1] = ok (encode (5#3 ++ 0xabcd#70 ++ 1#1)) ∧
    unpackFields .debug (encode (5#3 ++ 0xabcd#70 ++ 1#1)) 74 [3, 70, 1] = ok [encode 5#3, encode 0xabcd#70, encode 1#1] ∧
    setField .debug (encode (BitVec.allOnes 100)) (encode 0#30) 64 = ok (encode (BitVec.allOnes 6 ++ 0#30 ++ BitVec.allOnes 64)) := by
  decide +kernel

end Baa

import Verif.Proofs.Ops

/-!
# `concat` and `sign_extend` on arbitrary words

The same as `concat_spec` and `signExtend_spec`, for operands that may have bits above their width.
-/

namespace Baa
namespace Arith
open Res

theorem bit_concatLoop_raw {off : Nat} (h0 : 0 < off) (h : off < 64) {mk : Word}
    (hmk : ∀ i, mk.getLsbD i = decide (i < 64 - off)) (prev : Word)
    {ds ss : List Word} (hl : ds.length ≤ ss.length) (i : Nat) (hi : i < 64 * ds.length) :
    bit (concatLoop (64 - off) off mk prev ds ss) i = (prev.getLsbD i || (decide (off ≤ i) && bit ss (i - off))) := by
  induction ds generalizing prev ss i with
  | nil => simp at hi
  | cons x xs ih => cases ss with
    | nil => simp at hl
    | cons y ys =>
      rw [concatLoop, bit_cons, bit_cons]
      by_cases h1 : i < 64
      · rw [if_pos h1, BitVec.getLsbD_or, BitVec.getLsbD_shiftLeft, BitVec.getLsbD_and, hmk]
        by_cases h2 : i < off
        · have : ¬ off ≤ i := by omega
          simp [h2, this]
        · have h3 : i - off < 64 - off := by omega
          have h4 : i - off < 64 := by omega
          rw [if_pos h4, decide_eq_true h1, decide_eq_false h2, decide_eq_true h3, decide_eq_true (show off ≤ i by omega)]
          simp
      · rw [if_neg h1, ih _ (by simpa using hl) (i - 64) (by simp at hi; omega), BitVec.getLsbD_of_ge prev _ (by omega),
          Bool.false_or, decide_eq_true (show off ≤ i by omega), Bool.true_and, BitVec.getLsbD_ushiftRight]
        by_cases h3 : i - 64 < off
        · have h4 : i - off < 64 := by omega
          rw [decide_eq_false (show ¬ off ≤ i - 64 by omega), Bool.false_and, Bool.or_false, if_pos h4]
          congr 1; omega
        · have h4 : ¬ i - off < 64 := by omega
          rw [decide_eq_true (show off ≤ i - 64 by omega), Bool.true_and, if_neg h4, BitVec.getLsbD_of_ge y _ (by omega),
            Bool.false_or]
          congr 1; omega

/-- `concat`: the two bit strings are combined with "or", the result is cut off at the end of the words. -/
theorem concat_len {m : Mode} {d msb lsb : List Word} {lw : Nat} (hl : lsb.length = (lw + 63) / 64) (hle : lsb.length ≤ d.length)
    (hle' : d.length ≤ lsb.length + msb.length) :
    ∃ r, concat m d msb lsb lw = ok r ∧ r.length = d.length ∧
      ∀ i, bit r i = (decide (i < 64 * d.length) && (bit lsb i || (decide (lw ≤ i) && bit msb (i - lw)))) := by
  have hassign : assign d lsb = lsb ++ d.drop lsb.length := by
    rw [assign_eq, List.take_of_length_le (by omega)]
  unfold concat
  by_cases h0 : lw % 64 = 0
  · refine ⟨lsb ++ msb.take (d.length - lsb.length), ?_, by simp; omega, fun i => ?_⟩
    · simp only [BITS, h0, if_true]
      rw [hassign, List.take_left, List.drop_left, assign_of_le (by simp; omega), List.length_drop]
    · have : 64 * lsb.length = lw := by omega
      rw [bit_append, this]
      by_cases h1 : i < lw
      · rw [if_pos h1, decide_eq_true (show i < 64 * d.length by omega), decide_eq_false (show ¬ lw ≤ i by omega)]
        simp
      · rw [if_neg h1, bit_of_ge lsb _ (by omega), decide_eq_true (show lw ≤ i by omega)]
        rw [bit_take]
        by_cases h2 : i < 64 * d.length
        · rw [decide_eq_true h2, decide_eq_true (by omega)]; simp
        · rw [decide_eq_false h2, decide_eq_false (by omega)]; simp
  · obtain ⟨mk, hm1, _, hm3⟩ := mask_spec (k := 64 - lw % 64) (by omega) (by omega)
    have hll : lsb.length - 1 = lw / 64 := by omega
    have hpos : 1 ≤ lsb.length := by omega
    have hlt : lw / 64 < lsb.length := by omega
    have hidx : idx (lsb ++ d.drop lsb.length) (lw / 64) = ok lsb[lw / 64] := by
      rw [idx_ok (by simp; omega), List.getElem_append_left hlt]
    have hpb : ∀ j, (lsb[lw / 64]).getLsbD j = bit lsb (64 * (lw / 64) + j) := by
      intro j
      by_cases hj : j < 64
      · have h1 : (64 * (lw / 64) + j) / 64 = lw / 64 := by omega
        have h2 : (64 * (lw / 64) + j) % 64 = j := by omega
        rw [bit_eq_getD, h1, h2, List.getD_eq_getElem?_getD, List.getElem?_eq_getElem hlt, Option.getD_some]
      · rw [BitVec.getLsbD_of_ge _ _ (by omega), bit_of_ge _ _ (by omega)]
    refine ⟨(assign d lsb).take (lw / 64) ++
      concatLoop (64 - lw % 64) (lw % 64) mk lsb[lw / 64] ((assign d lsb).drop (lw / 64)) (msb ++ [0#64]), ?_, ?_, fun i => ?_⟩
    · simp only [BITS, h0, if_false]
      rw [hm1, ok_bind, subC_ok hpos, ok_bind, hll, hassign, hidx, ok_bind]
    · rw [List.length_append, concatLoop_length, List.length_take, List.length_drop, assign_length]; omega
    · have htl : ((assign d lsb).take (lw / 64)).length = lw / 64 := by
        rw [List.length_take, assign_length]; omega
      rw [bit_append, htl]
      by_cases h1 : i < 64 * (lw / 64)
      · rw [if_pos h1, bit_take, hassign, bit_append, if_pos (by omega), decide_eq_true h1,
          decide_eq_true (show i < 64 * d.length by omega), decide_eq_false (show ¬ lw ≤ i by omega)]
        simp
      · rw [if_neg h1]
        have hdl : ((assign d lsb).drop (lw / 64)).length = d.length - lw / 64 := by
          rw [List.length_drop, assign_length]
        by_cases h2 : i < 64 * d.length
        · rw [bit_concatLoop_raw (by omega) (by omega) hm3 _ (by rw [hdl]; simp; omega) _ (by rw [hdl]; omega), hpb,
            decide_eq_true h2, Bool.true_and, bit_append_zero]
          congr 1
          · congr 1; omega
          · by_cases h3 : lw ≤ i
            · rw [decide_eq_true h3, decide_eq_true (by omega)]
              congr 2; omega
            · rw [decide_eq_false h3, decide_eq_false (by omega)]; rfl
        · rw [bit_of_ge _ _ (by rw [concatLoop_length, hdl]; omega), decide_eq_false h2]; rfl

theorem concat_raw {m : Mode} {d msb lsb : List Word} {mw lw : Nat} (hm : msb.length = (mw + 63) / 64)
    (hl : lsb.length = (lw + 63) / 64) (hd : d.length = (mw + lw + 63) / 64) :
    ∃ r, concat m d msb lsb lw = ok r ∧ r.length = d.length ∧
      ∀ i, bit r i = (decide (i < 64 * d.length) && (bit lsb i || (decide (lw ≤ i) && bit msb (i - lw)))) :=
  concat_len hl (by omega) (by omega)

/-- `sign_extend`: the bits above the width are kept if the sign bit is 0, and overwritten if it is 1. -/
theorem signExtend_len {m : Mode} {d src : List Word} {sw dw : Nat} (h0 : 0 < sw) (hdw : 0 < dw) (hle : src.length ≤ d.length)
    (hs : src.length = (sw + 63) / 64) (hd : d.length = (dw + 63) / 64) :
    ∃ r, signExtend m d src sw dw = ok r ∧ r.length = d.length ∧
      ∀ i, bit r i = if bit src (sw - 1) = true then decide (i < dw) && (decide (sw ≤ i) || bit src i) else bit src i := by
  have hassign : assign d src = src ++ d.drop src.length := by
    rw [assign_eq, List.take_of_length_le hle]
  have hpos : 1 ≤ src.length := by omega
  have hll : src.length - 1 = (sw - 1) / 64 := by omega
  unfold signExtend
  simp only [isNeg_spec h0 hs, ok_bind, BITS]
  cases hneg : bit src (sw - 1) with
  | false =>
    obtain ⟨r, hr1, hr2, hr3⟩ := zeroExtend_spec hle
    refine ⟨r, hr1, hr2, fun i => ?_⟩
    rw [hr3]; rfl
  | true =>
    -- the word that contains the sign bit
    have hstep : ∃ t, (if sw % 64 > 0 then do
          let mk ← mask (64 - sw % 64)
          let i ← subC m U64 src.length 1
          let x ← idx (assign d src) i
          setIdx (assign d src) i (x ||| (mk <<< (sw % 64)))
        else ok (assign d src)) = ok t ∧ t.length = d.length ∧
        ∀ i, i < 64 * src.length → bit t i = if i < sw then bit src i else true := by
      by_cases h1 : sw % 64 > 0
      · obtain ⟨mk, hm1, _, hm3⟩ := mask_spec (k := 64 - sw % 64) (by omega) (by omega)
        have hlt : src.length - 1 < (assign d src).length := by rw [assign_length]; omega
        refine ⟨(assign d src).set (src.length - 1) ((assign d src)[src.length - 1] ||| (mk <<< (sw % 64))), ?_,
          by simp [assign_length], fun i hi => ?_⟩
        · rw [if_pos h1, hm1, ok_bind, subC_ok hpos, ok_bind, idx_ok hlt, ok_bind, setIdx_ok hlt]
        · have hab : bit (assign d src) i = bit src i := by
            rw [hassign, bit_append, if_pos hi]
          rw [bit_set _ _ _ _ hlt]
          by_cases h2 : i / 64 = src.length - 1
          · have h3 : ((assign d src)[src.length - 1]).getLsbD (i % 64) = bit src i := by
              have := bit_of_getElem (src := assign d src) (i := i) (by omega)
              rw [← hab, ← this]; simp only [h2]
            have h64 : i % 64 < 64 := by omega
            rw [if_pos h2, BitVec.getLsbD_or, h3, BitVec.getLsbD_shiftLeft, hm3, decide_eq_true h64]
            by_cases h4 : i < sw
            · have h5 : i % 64 < sw % 64 := by omega
              rw [if_pos h4, decide_eq_true h5]; simp
            · have h5 : ¬ i % 64 < sw % 64 := by omega
              have h6 : i % 64 - sw % 64 < 64 - sw % 64 := by omega
              rw [if_neg h4, decide_eq_false h5, decide_eq_true h6]; simp
          · rw [if_neg h2, hab, if_pos (by omega)]
      · refine ⟨_, if_neg h1, assign_length _ _, fun i hi => ?_⟩
        rw [hassign, bit_append, if_pos hi, if_pos (by omega)]
    obtain ⟨t, ht1, ht2, ht3⟩ := hstep
    have hm := modifyRange_tail (l := t) (lo := src.length) (f := set) (by omega)
    rw [set_eq] at hm
    obtain ⟨r, hr1, hr2, hr3⟩ := maskMsb_bit (m := m)
      (dst := t.take src.length ++ List.replicate (t.drop src.length).length (BitVec.allOnes 64)) (width := dw)
      (by simp; omega) (by omega)
    refine ⟨r, ?_, by rw [hr2]; simp; omega, fun i => ?_⟩
    · simp only [if_true]
      rw [ht1, ok_bind, hm, ok_bind, hr1]
    · rw [hr3, if_pos rfl]
      by_cases h1 : i < dw
      · rw [decide_eq_true h1, bit_append]
        have htl : (t.take src.length).length = src.length := by simp; omega
        rw [htl]
        by_cases h2 : i < 64 * src.length
        · rw [if_pos h2, bit_take, decide_eq_true h2, ht3 i h2]
          by_cases h3 : i < sw
          · rw [if_pos h3, decide_eq_false (show ¬ sw ≤ i by omega)]; simp
          · rw [if_neg h3, decide_eq_true (show sw ≤ i by omega)]; simp
        · rw [if_neg h2, bit_replicate_ones, List.length_drop, ht2]
          have : i - 64 * src.length < 64 * (d.length - src.length) := by omega
          rw [decide_eq_true this, decide_eq_true (show sw ≤ i by omega)]; simp
      · rw [decide_eq_false h1]; simp

theorem signExtend_raw {m : Mode} {d src : List Word} {sw dw : Nat} (h0 : 0 < sw) (hsd : sw ≤ dw)
    (hs : src.length = (sw + 63) / 64) (hd : d.length = (dw + 63) / 64) :
    ∃ r, signExtend m d src sw dw = ok r ∧ r.length = d.length ∧
      ∀ i, bit r i = if bit src (sw - 1) = true then decide (i < dw) && (decide (sw ≤ i) || bit src i) else bit src i :=
  signExtend_len h0 (by omega) (by omega) hs hd

end Arith
end Baa

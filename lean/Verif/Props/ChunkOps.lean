import Verif.Props.TextOps
import Verif.Props.RawObs
import Verif.Props.ReadBack
import Verif.Spec.Chunks

/-!
# C138: operations as seen on the bytes and on the hexadecimal text of a value

What an operation does to a value, told by the bytes `to_bytes_le` returns and by the text `to_hex_str` prints before and after it, where
positions and amounts are multiples of 8 or 4 bits.
-/

namespace Baa
open Res Strings

/-! ## Groups of bits -/

theorem chunk_lt {k w i : Nat} (hk : 0 < k) : i < (w + k - 1) / k ↔ k * i < w := by
  rw [Nat.lt_iff_add_one_le, Nat.le_div_iff_mul_le hk, Nat.add_mul, Nat.one_mul, Nat.mul_comm]
  omega

theorem chunks_length (k : Nat) {w : Nat} (x : BitVec w) : (chunks k x).length = (w + k - 1) / k := by simp [chunks]

theorem chunks_get {k w : Nat} (hk : 0 < k) (x : BitVec w) (i : Nat) :
    (chunks k x)[i]? = if k * i < w then some (x.extractLsb' (k * i) k) else none := by
  simp only [chunks, List.getElem?_map]
  split
  · rename_i h; rw [List.getElem?_range ((chunk_lt hk).mpr h)]; rfl
  · rename_i h; rw [List.getElem?_eq_none (by simpa using mt (chunk_lt hk).mp h)]; rfl

theorem chunk_count {k q : Nat} (hk : 0 < k) : (k * q + k - 1) / k = q := by
  rw [Nat.div_eq_of_lt_le] <;> rw [Nat.mul_comm]
  · omega
  · rw [Nat.succ_mul, Nat.mul_comm q k]; omega

theorem chunk_end {k i q : Nat} (h : i < q) : k * i + k ≤ k * q := by
  rw [← Nat.mul_succ]
  exact Nat.mul_le_mul_left k h

theorem mul_lt_iff {k i q : Nat} (hk : 0 < k) : k * i < k * q ↔ i < q := Nat.mul_lt_mul_left hk

theorem chunks_append {k w q : Nat} (hk : 0 < k) (x : BitVec w) {v : Nat} (y : BitVec v) (hv : v = k * q) :
    chunks k (x ++ y) = chunks k y ++ chunks k x := by
  subst hv
  apply List.ext_getElem?
  intro i
  rw [chunks_get hk, List.getElem?_append, chunks_length, chunk_count hk, chunks_get hk, chunks_get hk]
  by_cases hi : i < q
  · have e := chunk_end (k := k) hi
    rw [if_pos hi, if_pos (by omega), if_pos (by omega)]
    congr 1
    apply BitVec.eq_of_getLsbD_eq
    intro j hj
    rw [BitVec.getLsbD_extractLsb', BitVec.getLsbD_extractLsb', BitVec.getLsbD_append, if_pos (by omega)]
  · have e : k * i = k * q + k * (i - q) := by rw [← Nat.mul_add]; congr 1; omega
    rw [if_neg hi, e]
    by_cases h : k * (i - q) < w
    · rw [if_pos (by omega), if_pos h]
      congr 1
      apply BitVec.eq_of_getLsbD_eq
      intro j hj
      rw [BitVec.getLsbD_extractLsb', BitVec.getLsbD_extractLsb', BitVec.getLsbD_append, if_neg (by omega)]
      congr 2
      omega
    · rw [if_neg (by omega), if_neg h]

theorem chunks_extract {k w p n : Nat} (hk : 0 < k) (x : BitVec w) (h : k * p + n ≤ w) (hn : n % k = 0 ∨ k * p + n = w) :
    chunks k (x.extractLsb' (k * p) n) = ((chunks k x).drop p).take ((n + k - 1) / k) := by
  apply List.ext_getElem?
  intro i
  rw [chunks_get hk, List.getElem?_take, List.getElem?_drop, chunks_get hk]
  by_cases hi : k * i < n
  · rw [if_pos hi, if_pos ((chunk_lt hk).mpr hi), if_pos (by rw [Nat.mul_add]; omega)]
    congr 1
    apply BitVec.eq_of_getLsbD_eq
    intro j hj
    rw [BitVec.getLsbD_extractLsb', BitVec.getLsbD_extractLsb', BitVec.getLsbD_extractLsb', Nat.mul_add]
    by_cases hb : k * i + j < n
    · rw [decide_eq_true hb, Bool.true_and, Nat.add_assoc]
    · rcases hn with hn | hn
      · exfalso
        obtain ⟨q, rfl⟩ := Nat.dvd_of_mod_eq_zero hn
        have := chunk_end (k := k) ((mul_lt_iff hk).mp hi)
        omega
      · rw [decide_eq_false hb, Bool.false_and, Bool.and_false, BitVec.getLsbD_of_ge x _ (by omega), Bool.and_false]
  · rw [if_neg hi, if_neg (mt (chunk_lt hk).mp hi)]

theorem chunks_setWidth {k w : Nat} (hk : 0 < k) (x : BitVec w) (n : Nat) :
    chunks k (x.setWidth (w + n)) = chunks k x ++ List.replicate ((w + n + k - 1) / k - (w + k - 1) / k) 0#k := by
  apply List.ext_getElem?
  intro i
  rw [chunks_get hk, List.getElem?_append, List.getElem?_replicate, chunks_length, chunks_get hk]
  have h1 := chunk_lt (k := k) (w := w) (i := i) hk
  have h2 := chunk_lt (k := k) (w := w + n) (i := i) hk
  by_cases hi : k * i < w
  · rw [if_pos (by omega), if_pos (h1.mpr hi), if_pos hi]
    congr 1
    apply BitVec.eq_of_getLsbD_eq
    intro j hj
    rw [BitVec.getLsbD_extractLsb', BitVec.getLsbD_extractLsb', BitVec.getLsbD_setWidth]
    by_cases hb : k * i + j < w + n
    · rw [decide_eq_true hb, Bool.true_and]
    · rw [BitVec.getLsbD_of_ge x _ (by omega), Bool.and_false]
  · have h3 := mt h1.mp hi
    rw [if_neg h3]
    by_cases hw : k * i < w + n
    · have h4 := h2.mpr hw
      rw [if_pos hw, if_pos (by omega)]
      congr 1
      apply BitVec.eq_of_getLsbD_eq
      intro j hj
      rw [BitVec.getLsbD_extractLsb', BitVec.getLsbD_setWidth, BitVec.getLsbD_of_ge x _ (by omega), BitVec.getLsbD_zero, Bool.and_false,
        Bool.and_false]
    · have h4 := mt h2.mp hw
      rw [if_neg hw, if_neg (by omega)]

theorem chunks_signExtend {k w q n : Nat} (hk : 0 < k) (x : BitVec w) (hw : w = k * q) :
    chunks k (x.signExtend (w + k * n)) = chunks k x ++ List.replicate n (if x.msb then BitVec.allOnes k else 0#k) := by
  subst hw
  apply List.ext_getElem?
  intro i
  rw [chunks_get hk, List.getElem?_append, List.getElem?_replicate, chunks_length, chunk_count hk, chunks_get hk]
  by_cases hi : i < q
  · have e := chunk_end (k := k) hi
    rw [if_pos (by omega), if_pos hi, if_pos (by omega)]
    congr 1
    apply BitVec.eq_of_getLsbD_eq
    intro j hj
    rw [BitVec.getLsbD_extractLsb', BitVec.getLsbD_extractLsb', BitVec.getLsbD_signExtend, decide_eq_true (p := k * i + j < _) (by omega),
      Bool.true_and, if_pos (by omega)]
  · rw [if_neg hi]
    have e2 : k * i = k * q + k * (i - q) := by rw [← Nat.mul_add]; congr 1; omega
    by_cases hn : i - q < n
    · have e := chunk_end (k := k) hn
      rw [if_pos (by omega), if_pos hn]
      congr 1
      apply BitVec.eq_of_getLsbD_eq
      intro j hj
      rw [BitVec.getLsbD_extractLsb', BitVec.getLsbD_signExtend, decide_eq_true (p := k * i + j < _) (by omega), decide_eq_true hj,
        Bool.true_and, Bool.true_and, if_neg (by omega)]
      cases x.msb
      · rw [if_neg Bool.false_ne_true, BitVec.getLsbD_zero]
      · rw [if_pos rfl, BitVec.getLsbD_allOnes, decide_eq_true hj]
    · have : k * n ≤ k * (i - q) := Nat.mul_le_mul_left k (by omega)
      rw [if_neg (by omega), if_neg hn]

theorem chunks_ushiftRight {k w p : Nat} (hk : 0 < k) (x : BitVec w) :
    chunks k (x >>> (k * p)) = (chunks k x).drop p ++ List.replicate (min p ((w + k - 1) / k)) 0#k := by
  apply List.ext_getElem?
  intro i
  have h1 := chunk_lt (k := k) (w := w) (i := i) hk
  have h2 := chunk_lt (k := k) (w := w) (i := p + i) hk
  rw [chunks_get hk, List.getElem?_append, List.getElem?_replicate, List.getElem?_drop, List.length_drop, chunks_length, chunks_get hk]
  rw [Nat.mul_add] at h2 ⊢
  by_cases hi : k * p + k * i < w
  · have := h2.mpr hi
    rw [if_pos (by omega), if_pos (by omega), if_pos hi]
    congr 1
    apply BitVec.eq_of_getLsbD_eq
    intro j hj
    rw [BitVec.getLsbD_extractLsb', BitVec.getLsbD_extractLsb', BitVec.getLsbD_ushiftRight, Nat.add_assoc]
  · have h3 := mt h2.mp hi
    rw [if_neg (show ¬ i < (w + k - 1) / k - p by omega)]
    by_cases hw : k * i < w
    · have h4 := h1.mpr hw
      rw [if_pos hw, if_pos (by omega)]
      congr 1
      apply BitVec.eq_of_getLsbD_eq
      intro j hj
      rw [BitVec.getLsbD_extractLsb', BitVec.getLsbD_ushiftRight, BitVec.getLsbD_of_ge x _ (by omega), BitVec.getLsbD_zero, Bool.and_false]
    · have h4 := mt h1.mp hw
      rw [if_neg hw, if_neg (by omega)]

theorem chunks_shiftLeft {k w q p : Nat} (hk : 0 < k) (x : BitVec w) (hw : w = k * q) :
    chunks k (x <<< (k * p)) = List.replicate (min p q) 0#k ++ (chunks k x).take (q - p) := by
  subst hw
  apply List.ext_getElem?
  intro i
  rw [chunks_get hk, List.getElem?_append, List.getElem?_replicate, List.length_replicate, List.getElem?_take, chunks_get hk]
  by_cases hq : i < q
  · have e := chunk_end (k := k) hq
    rw [if_pos (by omega)]
    by_cases hp : i < p
    · have e2 := chunk_end (k := k) hp
      rw [if_pos (show i < min p q by omega), if_pos (show i < min p q by omega)]
      congr 1
      apply BitVec.eq_of_getLsbD_eq
      intro j hj
      rw [BitVec.getLsbD_extractLsb', BitVec.getLsbD_shiftLeft, decide_eq_true (p := k * i + j < k * p) (by omega), BitVec.getLsbD_zero,
        Bool.not_true, Bool.and_false, Bool.false_and, Bool.and_false]
    · have e2 : k * i = k * p + k * (i - p) := by rw [← Nat.mul_add]; congr 1; omega
      rw [if_neg (show ¬ i < min p q by omega), Nat.min_eq_left (show p ≤ q by omega), if_pos (by omega), if_pos (by omega)]
      congr 1
      apply BitVec.eq_of_getLsbD_eq
      intro j hj
      rw [BitVec.getLsbD_extractLsb', BitVec.getLsbD_extractLsb', BitVec.getLsbD_shiftLeft, decide_eq_false (p := k * i + j < k * p) (by omega),
        decide_eq_true (p := k * i + j < _) (by omega), Bool.not_false, Bool.true_and, Bool.true_and]
      congr 2
      omega
  · have e := mt (mul_lt_iff (i := i) (q := q) hk).mp hq
    rw [if_neg e, if_neg (by omega), if_neg (by omega)]

theorem chunks_not {k w q : Nat} (hk : 0 < k) (x : BitVec w) (hw : w = k * q) : chunks k (~~~x) = (chunks k x).map (~~~ ·) := by
  subst hw
  apply List.ext_getElem?
  intro i
  rw [chunks_get hk, List.getElem?_map, chunks_get hk]
  by_cases hi : k * i < k * q
  · have e := chunk_end (k := k) ((mul_lt_iff hk).mp hi)
    rw [if_pos hi, if_pos hi, Option.map_some]
    congr 1
    apply BitVec.eq_of_getLsbD_eq
    intro j hj
    rw [BitVec.getLsbD_not, BitVec.getLsbD_extractLsb', BitVec.getLsbD_extractLsb', BitVec.getLsbD_not, decide_eq_true (p := k * i + j < _) (by omega),
      decide_eq_true hj, Bool.true_and, Bool.true_and, Bool.true_and, Bool.true_and]
  · rw [if_neg hi, if_neg hi]
    rfl

theorem chunks_zip {k w : Nat} (hk : 0 < k) {f : BitVec k → BitVec k → BitVec k} {g : Bool → Bool → Bool} {x y z : BitVec w}
    (hf : ∀ b c i, i < k → (f b c).getLsbD i = g (b.getLsbD i) (c.getLsbD i))
    (hz : ∀ i, z.getLsbD i = g (x.getLsbD i) (y.getLsbD i)) :
    chunks k z = List.zipWith f (chunks k x) (chunks k y) := by
  apply List.ext_getElem?
  intro i
  rw [chunks_get hk, List.getElem?_zipWith, chunks_get hk, chunks_get hk]
  by_cases hi : k * i < w
  · simp only [if_pos hi]
    congr 1
    apply BitVec.eq_of_getLsbD_eq
    intro j hj
    rw [hf _ _ _ hj, BitVec.getLsbD_extractLsb', BitVec.getLsbD_extractLsb', BitVec.getLsbD_extractLsb', hz, decide_eq_true hj, Bool.true_and,
      Bool.true_and, Bool.true_and]
  · simp only [if_neg hi]

/-! ## Bytes and hexadecimal digits are groups of bits -/

theorem bytes_get : ∀ (bs : List Byte) (i : Nat), i < bs.length → bs[i]? = some (BitVec.ofNat 8 (bytesVal bs / 2 ^ (8 * i)))
  | b :: bs, 0, _ => by
    rw [List.getElem?_cons_zero, bytesVal, Nat.mul_zero, Nat.pow_zero, Nat.div_one]
    congr 1
    apply BitVec.eq_of_toNat_eq
    rw [BitVec.toNat_ofNat]
    have := b.isLt
    omega
  | b :: bs, i + 1, h => by
    rw [List.getElem?_cons_succ, bytes_get bs i (by simpa using h), bytesVal, Nat.mul_add, Nat.add_comm (8 * i), Nat.pow_add, ← Nat.div_div_eq_div_mul]
    congr 3
    have := b.isLt
    omega

theorem bytes_chunks {w : Nat} {x : BitVec w} {bs : List Byte} (h1 : bs.length = (w + 7) / 8) (h2 : bytesVal bs = x.toNat) :
    bs = chunks 8 x := by
  apply List.ext_getElem?
  intro i
  rw [chunks_get (by decide)]
  by_cases hi : 8 * i < w
  · rw [if_pos hi, bytes_get bs i (by omega), h2]
    congr 1
    apply BitVec.eq_of_toNat_eq
    rw [BitVec.toNat_ofNat, BitVec.extractLsb'_toNat, Nat.shiftRight_eq_div_pow]
  · rw [if_neg hi, List.getElem?_eq_none (by omega)]

theorem toBytesLe_chunks {w : Nat} {a : BitVecValue} {x : BitVec w} (ha : Denotes a x) : BitVecValue.toBytesLe a = chunks 8 x :=
  bytes_chunks (C40_to_bytes_le ha).1 (C40_to_bytes_le ha).2

theorem numeral_chunks {w : Nat} (x : BitVec w) : numeral 16 x.toNat ((w + 3) / 4) = (chunks 4 x).reverse.map nibbleText := by
  unfold numeral chunks nibbleText
  rw [← List.map_reverse, List.map_map]
  apply List.map_congr_left
  intro i _
  rw [Function.comp_apply, BitVec.extractLsb'_toNat, Nat.shiftRight_eq_div_pow, Nat.pow_mul]

/-- The hexadecimal text of a bit vector. -/
theorem toHexStr_raw (m : Mode) {w N : Nat} {a : BitVecValue} (ha : Raw a w N) : BitVecValue.toHexStr m a = ok (numeral 16 N ((w + 3) / 4)) := by
  by_cases hw : 0 < w
  · unfold BitVecValue.toHexStr Strings.toHexStr
    rw [ha.width_eq, toHexStrInternal_eq ha.length_eq hw, List.nil_append, numeral_hex, ha.val_eq]
  · have : w = 0 := by omega
    subst this
    have hl := ha.length_eq
    rw [C31_to_hex_str_width_zero m (a := a) (x := 0#0) ⟨ha.width_lt, ha.width_eq, hl, by rw [List.eq_nil_of_length_eq_zero hl]; rfl⟩]
    rfl

theorem toHexStr_chunks (m : Mode) {w : Nat} {a : BitVecValue} {x : BitVec w} (ha : Denotes a x) :
    BitVecValue.toHexStr m a = ok ((chunks 4 x).reverse.map nibbleText) := by
  rw [toHexStr_raw m ⟨ha.width_lt, ha.width_eq, ha.length_eq, ha.val_eq⟩, numeral_chunks]

theorem hex_of {m : Mode} {w : Nat} {a : BitVecValue} {x : BitVec w} {s : List Byte} (ha : Denotes a x)
    (hs : BitVecValue.toHexStr m a = ok s) : s = (chunks 4 x).reverse.map nibbleText := by
  rw [toHexStr_chunks m ha] at hs
  cases hs
  rfl

theorem numeral_mod {b N k : Nat} : numeral b (N % b ^ k) k = numeral b N k := by
  unfold numeral
  apply List.map_congr_left
  intro i hi
  have hi : i < k := by simpa using hi
  congr 1
  rw [show k = i + (k - i) by omega, Nat.pow_add, Nat.mod_mul_right_div_self, Nat.mod_mod_of_dvd]
  rw [show k - i = (k - i - 1) + 1 by omega, Nat.pow_succ]
  exact Nat.dvd_mul_left _ _

/-- The bits below the width decide on the bytes and on the hexadecimal text if there are no others in the last byte or digit. -/
theorem bits_chunks (m : Mode) {w : Nat} {r : BitVecValue} {x : BitVec w} (h0 : w < 2 ^ 32) (h1 : r.width = w)
    (h2 : r.words.length = (w + 63) / 64) (h3 : ∀ i, i < w → bit r.words i = x.getLsbD i) :
    (w % 8 = 0 → BitVecValue.toBytesLe r = chunks 8 x) ∧
      (w % 4 = 0 → BitVecValue.toHexStr m r = ok ((chunks 4 x).reverse.map nibbleText)) := by
  have hr : Raw r w (wordsVal r.words) := ⟨h0, h1, h2, rfl⟩
  have hv : wordsVal r.words % 2 ^ w = x.toNat := by
    apply Nat.eq_of_testBit_eq
    intro i
    rw [Nat.testBit_mod_two_pow]
    by_cases hi : i < w
    · rw [decide_eq_true hi, Bool.true_and]
      exact h3 i hi
    · rw [decide_eq_false hi, Bool.false_and]
      exact (BitVec.getLsbD_of_ge x i (by omega)).symm
  refine ⟨fun h => ?_, fun h => ?_⟩
  · obtain ⟨e1, e2⟩ := C87_to_bytes_le hr
    refine bytes_chunks e1 ?_
    rw [e2, show 8 * ((w + 7) / 8) = w by omega, hv]
  · rw [toHexStr_raw m hr, ← numeral_chunks, ← numeral_mod (N := wordsVal r.words), show (16 : Nat) = 2 ^ 4 by rfl, ← Nat.pow_mul,
      show 4 * ((w + 3) / 4) = w by omega, hv]

theorem same_width {a b : BitVecValue} (hb : Canonical b) (hw : a.width = b.width) : ∃ y : BitVec a.width, Denotes b y :=
  ⟨(BitVec.ofNat b.width (wordsVal b.words)).cast hw.symm, denotes_cast hb.denotes hw.symm _ (by simp [hw])⟩

/-! ## C138: bytes -/

/-- **C138, concat**: the bytes of the low part, then those of the high part. -/
theorem C138_bytes_concat (m : Mode) {a b : BitVecValue} (ha : Canonical a) (hb : Canonical b) (ha0 : 0 < a.width) (hb0 : 0 < b.width)
    (h8 : b.width % 8 = 0) (hlt : a.width + b.width < 2 ^ 32) :
    ∃ r, BitVecValue.concat m a b = ok r ∧ Canonical r ∧
      BitVecValue.toBytesLe r = BitVecValue.toBytesLe b ++ BitVecValue.toBytesLe a := by
  obtain ⟨r, h1, h2⟩ := C21_concat_partial m ha.denotes hb.denotes hlt (.inl ⟨ha0, hb0⟩)
  exact ⟨r, h1, h2.canonical, by
    rw [toBytesLe_chunks h2, toBytesLe_chunks ha.denotes, toBytesLe_chunks hb.denotes,
      chunks_append (k := 8) (q := b.width / 8) (by decide) _ _ (by omega)]⟩

/-- **C138, slice**: a slice that starts at a byte and ends with a byte or with the value has some of the bytes. -/
theorem C138_bytes_slice (m : Mode) {a : BitVecValue} (ha : Canonical a) {msb p : Nat} (h1 : msb < a.width) (h2 : 8 * p ≤ msb)
    (h8 : (msb + 1) % 8 = 0 ∨ msb + 1 = a.width) :
    ∃ r, BitVecValue.slice m a msb (8 * p) = ok r ∧ Canonical r ∧
      BitVecValue.toBytesLe r = ((BitVecValue.toBytesLe a).drop p).take (msb / 8 + 1 - p) := by
  obtain ⟨r, h3, h4⟩ := C19_slice m ha.denotes h1 h2
  refine ⟨r, h3, h4.canonical, ?_⟩
  rw [toBytesLe_chunks h4, toBytesLe_chunks ha.denotes, chunks_extract (by decide) _ (by omega) (by omega)]
  congr 1
  omega

/-- **C138, zero_extend**: zero bytes at the end. -/
theorem C138_bytes_zero_extend (m : Mode) {a : BitVecValue} (ha : Canonical a) (h0 : 0 < a.width) {n : Nat} (hlt : a.width + n < 2 ^ 32) :
    ∃ r, BitVecValue.zeroExtend m a n = ok r ∧ Canonical r ∧
      BitVecValue.toBytesLe r = BitVecValue.toBytesLe a ++ List.replicate ((a.width + n + 7) / 8 - (a.width + 7) / 8) 0#8 := by
  obtain ⟨r, h3, h4, _⟩ := C22_zero_extend_partial m ha.denotes n hlt (.inl h0)
  exact ⟨r, h3, h4.canonical, by rw [toBytesLe_chunks h4, toBytesLe_chunks ha.denotes, chunks_setWidth (by decide)]; rfl⟩

/-- **C138, sign_extend** by whole bytes: bytes `0xff` at the end of a negative value, zero bytes at the end of any other. -/
theorem C138_bytes_sign_extend (m : Mode) {a : BitVecValue} (ha : Canonical a) (h0 : 0 < a.width) (h8 : a.width % 8 = 0) {n : Nat}
    (hlt : a.width + 8 * n < 2 ^ 32) :
    ∃ r neg, BitVecValue.signExtend m a (8 * n) = ok r ∧ Canonical r ∧ BitVecValue.isNegative m a = ok neg ∧
      BitVecValue.toBytesLe r = BitVecValue.toBytesLe a ++ List.replicate n (if neg then 0xff#8 else 0#8) := by
  obtain ⟨r, h3, h4, _⟩ := C23_sign_extend m h0 ha.denotes (8 * n) hlt
  exact ⟨r, _, h3, h4.canonical, (C25_is_negative m h0 ha.denotes).1, by
    rw [toBytesLe_chunks h4, toBytesLe_chunks ha.denotes, chunks_signExtend (q := a.width / 8) (by decide) _ (by omega)]; rfl⟩

/-- **C138, shift_right** by whole bytes: the first bytes are lost, zero bytes at the end. -/
theorem C138_bytes_shift_right (m : Mode) {a b : BitVecValue} {p : Nat} (ha : Canonical a) (hb : Canonical b) (h0 : 0 < a.width)
    (hw : a.width = b.width) (hp : BitVecValue.toBigUint b = 8 * p) :
    ∃ r, BitVecValue.shiftRight m a b = ok r ∧ Canonical r ∧
      BitVecValue.toBytesLe r = (BitVecValue.toBytesLe a).drop p ++ List.replicate (min p (BitVecValue.toBytesLe a).length) 0#8 := by
  obtain ⟨y, hy⟩ := same_width hb hw
  obtain ⟨r, h3, h4⟩ := C13_shift_right m h0 ha.denotes hy
  rw [C41_to_big_uint hy] at hp
  rw [hp] at h4
  exact ⟨r, h3, h4.canonical, by
    rw [toBytesLe_chunks h4, toBytesLe_chunks ha.denotes, chunks_ushiftRight (by decide), chunks_length]⟩

/-- **C138, shift_left** by whole bytes of a value of whole bytes: zero bytes in front, the last bytes are lost. This holds for all amounts: where
the result keeps bits above its width (C12) they are in no byte. -/
theorem C138_bytes_shift_left (m : Mode) {a b : BitVecValue} {p : Nat} (ha : Canonical a) (hb : Canonical b) (h0 : 0 < a.width)
    (h8 : a.width % 8 = 0) (hw : a.width = b.width) (hp : BitVecValue.toBigUint b = 8 * p) :
    ∃ r, BitVecValue.shiftLeft m a b = ok r ∧
      BitVecValue.toBytesLe r = List.replicate (min p (BitVecValue.toBytesLe a).length) 0#8 ++
        (BitVecValue.toBytesLe a).take ((BitVecValue.toBytesLe a).length - p) := by
  obtain ⟨y, hy⟩ := same_width hb hw
  obtain ⟨r, h3, h4, h5, h6, _⟩ := C12_shift_left_exact m h0 ha.denotes hy
  rw [C41_to_big_uint hy] at hp
  rw [hp] at h6
  refine ⟨r, h3, ?_⟩
  rw [(bits_chunks m ha.width_lt h4 h5 h6).1 h8, toBytesLe_chunks ha.denotes, chunks_length, chunks_shiftLeft (q := a.width / 8) (by decide) _ (by omega),
    show (a.width + 8 - 1) / 8 = a.width / 8 by omega]

/-- **C138, not** of whole bytes. -/
theorem C138_bytes_not (m : Mode) {a : BitVecValue} (ha : Canonical a) (h0 : 0 < a.width) (h8 : a.width % 8 = 0) :
    ∃ r, BitVecValue.not m a = ok r ∧ Canonical r ∧ BitVecValue.toBytesLe r = (BitVecValue.toBytesLe a).map (~~~ ·) := by
  obtain ⟨r, h3, h4⟩ := C11_not m h0 ha.denotes
  exact ⟨r, h3, h4.canonical, by
    rw [toBytesLe_chunks h4, toBytesLe_chunks ha.denotes, chunks_not (q := a.width / 8) (by decide) _ (by omega)]⟩

/-- **C138, and, or, xor**: byte by byte. -/
theorem C138_bytes_bitwise (m : Mode) {a b : BitVecValue} (ha : Canonical a) (hb : Canonical b) (hw : a.width = b.width) :
    (∃ r, BitVecValue.and m a b = ok r ∧ Canonical r ∧
      BitVecValue.toBytesLe r = List.zipWith (· &&& ·) (BitVecValue.toBytesLe a) (BitVecValue.toBytesLe b)) ∧
    (∃ r, BitVecValue.or m a b = ok r ∧ Canonical r ∧
      BitVecValue.toBytesLe r = List.zipWith (· ||| ·) (BitVecValue.toBytesLe a) (BitVecValue.toBytesLe b)) ∧
    (∃ r, BitVecValue.xor m a b = ok r ∧ Canonical r ∧
      BitVecValue.toBytesLe r = List.zipWith (· ^^^ ·) (BitVecValue.toBytesLe a) (BitVecValue.toBytesLe b)) := by
  have dx := ha.denotes
  obtain ⟨y, dy⟩ := same_width hb hw
  rw [toBytesLe_chunks dx, toBytesLe_chunks dy]
  refine ⟨?_, ?_, ?_⟩
  · obtain ⟨r, h1, h2, _⟩ := C10_and m dx dy
    exact ⟨r, h1, h2.canonical, by
      rw [toBytesLe_chunks h2, chunks_zip (by decide) (g := Bool.and) (fun b c i _ => BitVec.getLsbD_and ..) fun i => BitVec.getLsbD_and ..]⟩
  · obtain ⟨r, h1, h2⟩ := C10_or m dx dy
    exact ⟨r, h1, h2.canonical, by
      rw [toBytesLe_chunks h2, chunks_zip (by decide) (g := Bool.or) (fun b c i _ => BitVec.getLsbD_or ..) fun i => BitVec.getLsbD_or ..]⟩
  · obtain ⟨r, h1, h2⟩ := C10_xor m dx dy
    exact ⟨r, h1, h2.canonical, by
      rw [toBytesLe_chunks h2, chunks_zip (by decide) (g := Bool.xor) (fun b c i _ => BitVec.getLsbD_xor ..) fun i => BitVec.getLsbD_xor ..]⟩

/-! ## C138: hexadecimal text -/

theorem nibble_inv (d : BitVec 4) : nibbleOf (nibbleText d) = d := by revert d; decide +kernel

theorem nibbleText_zero : nibbleText 0#4 = ch '0' := by decide

/-- **C138, concat**: the texts one after the other. -/
theorem C138_hex_concat (m : Mode) {a b : BitVecValue} {s t : List Byte} (ha : Canonical a) (hb : Canonical b) (ha0 : 0 < a.width)
    (hb0 : 0 < b.width) (h4 : b.width % 4 = 0) (hlt : a.width + b.width < 2 ^ 32) (hs : BitVecValue.toHexStr m a = ok s)
    (ht : BitVecValue.toHexStr m b = ok t) :
    ∃ r, BitVecValue.concat m a b = ok r ∧ Canonical r ∧ BitVecValue.toHexStr m r = ok (s ++ t) := by
  obtain ⟨r, h1, h2⟩ := C21_concat_partial m ha.denotes hb.denotes hlt (.inl ⟨ha0, hb0⟩)
  refine ⟨r, h1, h2.canonical, ?_⟩
  rw [toHexStr_chunks m h2, hex_of ha.denotes hs, hex_of hb.denotes ht,
    chunks_append (k := 4) (q := b.width / 4) (by decide) _ _ (by omega), List.reverse_append, List.map_append]

/-- **C138, slice**: a slice that starts at a digit and ends with a digit or with the value has some of the digits. -/
theorem C138_hex_slice (m : Mode) {a : BitVecValue} {s : List Byte} (ha : Canonical a) (hs : BitVecValue.toHexStr m a = ok s) {msb p : Nat}
    (h1 : msb < a.width) (h2 : 4 * p ≤ msb) (h4 : (msb + 1) % 4 = 0 ∨ msb + 1 = a.width) :
    ∃ r, BitVecValue.slice m a msb (4 * p) = ok r ∧ Canonical r ∧
      BitVecValue.toHexStr m r = ok ((s.take (s.length - p)).drop (s.length - (msb / 4 + 1))) := by
  obtain ⟨r, h3, h5⟩ := C19_slice m ha.denotes h1 h2
  refine ⟨r, h3, h5.canonical, ?_⟩
  rw [toHexStr_chunks m h5, hex_of ha.denotes hs, chunks_extract (by decide) _ (by omega) (by omega), List.reverse_take, List.reverse_drop,
    List.map_drop, List.map_take, List.length_map, List.length_reverse, List.length_drop]
  congr 2
  rw [chunks_length]
  omega

/-- **C138, zero_extend**: zeros in front. -/
theorem C138_hex_zero_extend (m : Mode) {a : BitVecValue} {s : List Byte} (ha : Canonical a) (hs : BitVecValue.toHexStr m a = ok s)
    (h0 : 0 < a.width) {n : Nat} (hlt : a.width + n < 2 ^ 32) :
    ∃ r, BitVecValue.zeroExtend m a n = ok r ∧ Canonical r ∧
      BitVecValue.toHexStr m r = ok (List.replicate ((a.width + n + 3) / 4 - s.length) (ch '0') ++ s) := by
  obtain ⟨r, h3, h4, _⟩ := C22_zero_extend_partial m ha.denotes n hlt (.inl h0)
  refine ⟨r, h3, h4.canonical, ?_⟩
  rw [toHexStr_chunks m h4, hex_of ha.denotes hs, chunks_setWidth (by decide), List.reverse_append, List.map_append, List.reverse_replicate,
    List.map_replicate, nibbleText_zero, List.length_map, List.length_reverse, chunks_length]
  rfl

/-- **C138, sign_extend** by whole digits: digits `f` in front of a negative value, `0` in front of any other. -/
theorem C138_hex_sign_extend (m : Mode) {a : BitVecValue} {s : List Byte} (ha : Canonical a) (hs : BitVecValue.toHexStr m a = ok s)
    (h0 : 0 < a.width) (h4 : a.width % 4 = 0) {n : Nat} (hlt : a.width + 4 * n < 2 ^ 32) :
    ∃ r neg, BitVecValue.signExtend m a (4 * n) = ok r ∧ Canonical r ∧ BitVecValue.isNegative m a = ok neg ∧
      BitVecValue.toHexStr m r = ok (List.replicate n (if neg then ch 'f' else ch '0') ++ s) := by
  obtain ⟨r, h3, h5, _⟩ := C23_sign_extend m h0 ha.denotes (4 * n) hlt
  refine ⟨r, _, h3, h5.canonical, (C25_is_negative m h0 ha.denotes).1, ?_⟩
  rw [toHexStr_chunks m h5, hex_of ha.denotes hs, chunks_signExtend (q := a.width / 4) (by decide) _ (by omega), List.reverse_append,
    List.map_append, List.reverse_replicate, List.map_replicate]
  congr 3
  generalize BitVec.msb _ = c
  revert c
  decide

/-- **C138, shift_right** by whole digits: zeros in front, the digits at the end are lost. -/
theorem C138_hex_shift_right (m : Mode) {a b : BitVecValue} {p : Nat} {s : List Byte} (ha : Canonical a) (hb : Canonical b)
    (hs : BitVecValue.toHexStr m a = ok s) (h0 : 0 < a.width) (hw : a.width = b.width) (hp : BitVecValue.toBigUint b = 4 * p) :
    ∃ r, BitVecValue.shiftRight m a b = ok r ∧ Canonical r ∧
      BitVecValue.toHexStr m r = ok (List.replicate (min p s.length) (ch '0') ++ s.take (s.length - p)) := by
  obtain ⟨y, hy⟩ := same_width hb hw
  obtain ⟨r, h3, h4⟩ := C13_shift_right m h0 ha.denotes hy
  rw [C41_to_big_uint hy] at hp
  rw [hp] at h4
  refine ⟨r, h3, h4.canonical, ?_⟩
  rw [toHexStr_chunks m h4, hex_of ha.denotes hs, chunks_ushiftRight (by decide), List.reverse_append, List.map_append, List.reverse_replicate,
    List.map_replicate, nibbleText_zero, List.reverse_drop, List.map_take, List.length_map, List.length_reverse, chunks_length]

/-- **C138, shift_left** by whole digits of a value of whole digits: the digits in front are lost, zeros at the end. -/
theorem C138_hex_shift_left (m : Mode) {a b : BitVecValue} {p : Nat} {s : List Byte} (ha : Canonical a) (hb : Canonical b)
    (hs : BitVecValue.toHexStr m a = ok s) (h0 : 0 < a.width) (h4 : a.width % 4 = 0) (hw : a.width = b.width)
    (hp : BitVecValue.toBigUint b = 4 * p) :
    ∃ r, BitVecValue.shiftLeft m a b = ok r ∧
      BitVecValue.toHexStr m r = ok (s.drop p ++ List.replicate (min p s.length) (ch '0')) := by
  obtain ⟨y, hy⟩ := same_width hb hw
  obtain ⟨r, h3, h5, h6, h7, _⟩ := C12_shift_left_exact m h0 ha.denotes hy
  rw [C41_to_big_uint hy] at hp
  rw [hp] at h7
  refine ⟨r, h3, ?_⟩
  have hl : (chunks 4 (BitVec.ofNat a.width (wordsVal a.words))).length = a.width / 4 := by rw [chunks_length]; omega
  rw [(bits_chunks m ha.width_lt h5 h6 h7).2 h4, hex_of ha.denotes hs, chunks_shiftLeft (q := a.width / 4) (by decide) _ (by omega),
    List.reverse_append, List.map_append, List.reverse_replicate, List.map_replicate, nibbleText_zero, List.reverse_take, List.map_drop,
    List.length_map, List.length_reverse, hl]
  congr 2
  by_cases h : p ≤ a.width / 4
  · congr 1
    omega
  · rw [List.drop_eq_nil_of_le (by rw [List.length_map, List.length_reverse, hl]; omega),
      List.drop_eq_nil_of_le (by rw [List.length_map, List.length_reverse, hl]; omega)]

/-- **C138, not** of whole digits. -/
theorem C138_hex_not (m : Mode) {a : BitVecValue} {s : List Byte} (ha : Canonical a) (hs : BitVecValue.toHexStr m a = ok s) (h0 : 0 < a.width)
    (h4 : a.width % 4 = 0) :
    ∃ r, BitVecValue.not m a = ok r ∧ Canonical r ∧ BitVecValue.toHexStr m r = ok (s.map fun c => nibbleText (~~~ nibbleOf c)) := by
  obtain ⟨r, h3, h5⟩ := C11_not m h0 ha.denotes
  refine ⟨r, h3, h5.canonical, ?_⟩
  rw [toHexStr_chunks m h5, hex_of ha.denotes hs, chunks_not (q := a.width / 4) (by decide) _ (by omega), ← List.map_reverse, List.map_map,
    List.map_map]
  congr 2
  funext d
  simp only [Function.comp_apply, nibble_inv]

theorem hex_zip {w : Nat} {f : BitVec 4 → BitVec 4 → BitVec 4} {x y z : BitVec w} (h : chunks 4 z = List.zipWith f (chunks 4 x) (chunks 4 y)) :
    (chunks 4 z).reverse.map nibbleText = List.zipWith (fun c d => nibbleText (f (nibbleOf c) (nibbleOf d)))
      ((chunks 4 x).reverse.map nibbleText) ((chunks 4 y).reverse.map nibbleText) := by
  rw [h, List.reverse_zipWith (by rw [chunks_length, chunks_length]), List.map_zipWith, List.zipWith_map]
  simp only [nibble_inv]

/-- **C138, and, or, xor**: digit by digit. -/
theorem C138_hex_bitwise (m : Mode) {a b : BitVecValue} {s t : List Byte} (ha : Canonical a) (hb : Canonical b) (hw : a.width = b.width)
    (hs : BitVecValue.toHexStr m a = ok s) (ht : BitVecValue.toHexStr m b = ok t) :
    (∃ r, BitVecValue.and m a b = ok r ∧ Canonical r ∧
      BitVecValue.toHexStr m r = ok (List.zipWith (fun c d => nibbleText (nibbleOf c &&& nibbleOf d)) s t)) ∧
    (∃ r, BitVecValue.or m a b = ok r ∧ Canonical r ∧
      BitVecValue.toHexStr m r = ok (List.zipWith (fun c d => nibbleText (nibbleOf c ||| nibbleOf d)) s t)) ∧
    (∃ r, BitVecValue.xor m a b = ok r ∧ Canonical r ∧
      BitVecValue.toHexStr m r = ok (List.zipWith (fun c d => nibbleText (nibbleOf c ^^^ nibbleOf d)) s t)) := by
  have dx := ha.denotes
  obtain ⟨y, dy⟩ := same_width hb hw
  rw [hex_of dx hs, hex_of dy ht]
  refine ⟨?_, ?_, ?_⟩
  · obtain ⟨r, h1, h2, _⟩ := C10_and m dx dy
    exact ⟨r, h1, h2.canonical, by
      rw [toHexStr_chunks m h2, hex_zip (chunks_zip (by decide) (g := Bool.and) (fun b c i _ => BitVec.getLsbD_and ..) fun i => BitVec.getLsbD_and ..)]⟩
  · obtain ⟨r, h1, h2⟩ := C10_or m dx dy
    exact ⟨r, h1, h2.canonical, by
      rw [toHexStr_chunks m h2, hex_zip (chunks_zip (by decide) (g := Bool.or) (fun b c i _ => BitVec.getLsbD_or ..) fun i => BitVec.getLsbD_or ..)]⟩
  · obtain ⟨r, h1, h2⟩ := C10_xor m dx dy
    exact ⟨r, h1, h2.canonical, by
      rw [toHexStr_chunks m h2, hex_zip (chunks_zip (by decide) (g := Bool.xor) (fun b c i _ => BitVec.getLsbD_xor ..) fun i => BitVec.getLsbD_xor ..)]⟩

/-! ## C138: the three forms of a value -/

theorem numeral_snoc (b N k : Nat) : numeral b N (k + 1) = numeral b (N / b) k ++ [lowerDigits.getD (N % b) (ch '?')] := by
  unfold numeral
  rw [List.range_succ_eq_map, List.reverse_cons, List.map_append, ← List.map_reverse, List.map_map]
  congr 1
  · apply List.map_congr_left
    intro i _
    rw [Function.comp_apply, Nat.div_div_eq_div_mul, Nat.pow_succ']
  · rw [List.map_singleton, Nat.pow_zero, Nat.div_one]

theorem numeral_pad {b N k : Nat} (hb : 0 < b) (h : N < b ^ k) : ∀ d, numeral b N (k + d) = List.replicate d (ch '0') ++ numeral b N k
  | 0 => rfl
  | d + 1 => by
    have hs : ∀ n, numeral b N (n + 1) = lowerDigits.getD (N / b ^ n % b) (ch '?') :: numeral b N n := fun n => by simp [numeral, List.range_succ]
    rw [← Nat.add_assoc, hs, numeral_pad hb h d, Nat.div_eq_of_lt (Nat.lt_of_lt_of_le h (Nat.pow_le_pow_right hb (by omega))), Nat.zero_mod]
    rfl

theorem hex_bytes : ∀ bs : List Byte, bs.reverse.flatMap hexOfByte = numeral 16 (bytesVal bs) (2 * bs.length)
  | [] => rfl
  | b :: bs => by
    have hb := b.isLt
    rw [List.reverse_cons, List.flatMap_append, hex_bytes bs, List.length_cons, Nat.mul_succ, numeral_snoc, numeral_snoc, bytesVal, Nat.div_div_eq_div_mul,
      show (b.toNat + 256 * bytesVal bs) / (16 * 16) = bytesVal bs by omega, List.append_assoc]
    congr 1
    unfold hexOfByte nibbleText
    rw [List.flatMap_singleton, BitVec.extractLsb'_toNat, BitVec.extractLsb'_toNat, Nat.shiftRight_eq_div_pow, Nat.shiftRight_zero]
    congr 2
    · omega
    · congr 1
      omega

/-- **C138** the hexadecimal text consists of two digits for each byte, the last byte first; a zero in front may be missing. -/
theorem C138_hex_of_bytes (m : Mode) {a : BitVecValue} {s : List Byte} (ha : Canonical a) (hs : BitVecValue.toHexStr m a = ok s) :
    (BitVecValue.toBytesLe a).reverse.flatMap hexOfByte =
      List.replicate (2 * ((a.width + 7) / 8) - (a.width + 3) / 4) (ch '0') ++ s := by
  obtain ⟨h1, h2⟩ := C40_to_bytes_le ha.denotes
  rw [toHexStr_raw m ⟨ha.width_lt, rfl, ha.length_eq, rfl⟩] at hs
  cases hs
  have hlt : wordsVal a.words < 16 ^ ((a.width + 3) / 4) := by
    rw [show (16 : Nat) = 2 ^ 4 by rfl, ← Nat.pow_mul]
    exact Nat.lt_of_lt_of_le ha.val_lt (Nat.pow_le_pow_right (by decide) (by omega))
  rw [hex_bytes, h1, h2, BitVec.toNat_ofNat, Nat.mod_eq_of_lt ha.val_lt, ← numeral_pad (by decide) hlt]
  congr 1
  omega

theorem hex_bits (N : Nat) : ∀ k, (numeral 16 N k).flatMap bitsOfHex = numeral 2 N (4 * k) := by
  intro k
  induction k generalizing N with
  | zero => rfl
  | succ k ih =>
    rw [numeral_snoc, List.flatMap_append, ih, Nat.mul_succ, numeral_snoc, numeral_snoc, numeral_snoc, numeral_snoc, Nat.div_div_eq_div_mul,
      Nat.div_div_eq_div_mul, Nat.div_div_eq_div_mul, List.append_assoc, List.append_assoc, List.append_assoc, List.flatMap_singleton]
    congr 1
    have key : ∀ d, d < 16 → bitsOfHex (lowerDigits.getD d (ch '?')) =
        [lowerDigits.getD (d / 8 % 2) (ch '?')] ++ ([lowerDigits.getD (d / 4 % 2) (ch '?')] ++ ([lowerDigits.getD (d / 2 % 2) (ch '?')] ++
          [lowerDigits.getD (d % 2) (ch '?')])) := by decide +kernel
    rw [key _ (Nat.mod_lt _ (by decide)), show N % 16 / 8 % 2 = N / 2 / 2 / 2 % 2 by omega, show N % 16 / 4 % 2 = N / 2 / 2 % 2 by omega,
      show N % 16 / 2 % 2 = N / 2 % 2 by omega, show N % 16 % 2 = N % 2 by omega]

/-- **C138** each hexadecimal digit stands for four binary digits; zeros in front may be missing in the binary text. -/
theorem C138_bits_of_hex (m : Mode) {a : BitVecValue} {s t : List Byte} (ha : Canonical a) (hs : BitVecValue.toHexStr m a = ok s)
    (ht : BitVecValue.toBitStr a = ok t) :
    s.flatMap bitsOfHex = List.replicate (4 * ((a.width + 3) / 4) - a.width) (ch '0') ++ t := by
  rw [toHexStr_raw m ⟨ha.width_lt, rfl, ha.length_eq, rfl⟩] at hs
  cases hs
  rw [text_of ha.denotes ht, text_eq_msbDigits, numeral_bin, BitVec.toNat_ofNat, Nat.mod_eq_of_lt ha.val_lt, hex_bits, ← numeral_pad (by decide) ha.val_lt]
  congr 1
  omega

example : Canonical (encode 0xabc12#20) ∧ Canonical (encode 0x34de#16) ∧
    BitVecValue.toBytesLe (encode 0xabc12#20) = [0x12, 0xbc, 0x0a] ∧ BitVecValue.toHexStr .debug (encode 0xabc12#20) = ok (bytesOf "abc12") ∧
    (BitVecValue.concat .debug (encode 0xabc12#20) (encode 0x34de#16)).bind (fun r => ok (BitVecValue.toBytesLe r)) = ok [0xde, 0x34, 0x12, 0xbc, 0x0a] ∧
    (BitVecValue.concat .debug (encode 0xabc12#20) (encode 0x34de#16)).bind (BitVecValue.toHexStr .debug) = ok (bytesOf "abc1234de") ∧
    (BitVecValue.slice .debug (encode 0xabc12#20) 19 8).bind (fun r => ok (BitVecValue.toBytesLe r)) = ok [0xbc, 0x0a] ∧
    (BitVecValue.slice .debug (encode 0xabc12#20) 15 8).bind (BitVecValue.toHexStr .debug) = ok (bytesOf "bc") ∧
    (BitVecValue.signExtend .debug (encode 0xabc12#20) 8).bind (BitVecValue.toHexStr .debug) = ok (bytesOf "ffabc12") ∧
    (BitVecValue.shiftRight .debug (encode 0xabc12#20) (encode 8#20)).bind (fun r => ok (BitVecValue.toBytesLe r)) = ok [0xbc, 0x0a, 0] ∧
    BitVecValue.toBigUint (encode 8#20) = 8 * 1 ∧
    (BitVecValue.shiftLeft .debug (encode 0xabc12#20) (encode 8#20)).bind (BitVecValue.toHexStr .debug) = ok (bytesOf "c1200") ∧
    [0x12#8, 0xbc, 0x0a].reverse.flatMap hexOfByte = ch '0' :: bytesOf "abc12" ∧
    (bytesOf "abc12").flatMap bitsOfHex = bytesOf "10101011110000010010" := by
  refine ⟨(encode_denotes _ (by decide)).canonical, (encode_denotes _ (by decide)).canonical, ?_⟩
  decide +kernel

/-- A shift by a multiple of 64 that leaves bits above the width: the text is right all the same. -/
example : (BitVecValue.shiftLeft .debug (encode (BitVec.ofNat 72 (2 ^ 64 - 1))) (encode 64#72)).bind (BitVecValue.toHexStr .debug) =
    ok (bytesOf "ff" ++ List.replicate 16 (ch '0')) := by decide +kernel

end Baa

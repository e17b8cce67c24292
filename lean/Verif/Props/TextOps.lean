import Verif.Props.RoundTrip
import Verif.Props.Arith
import Verif.Props.BytesBig
import Verif.Props.Compare
import Verif.Props.Slice
import Verif.Spec.Text

/-!
# C76: operations as seen on the binary text of a value

What an operation does to a value, told by the text `to_bit_str` prints before and after it. This is how the repository's own tests
of slices, shifts, extensions and concatenation state the expected result (src/bv/arithmetic.rs:447-613). The text mentions
neither words nor numbers, so the claims do not depend on the correspondence with `BitVec` used elsewhere.
-/

namespace Baa
open Res Strings

/-! ## The text of a bit vector -/

theorem text_length {w : Nat} (x : BitVec w) : (text x).length = w := by simp [text]

theorem text_get {w : Nat} (x : BitVec w) (k : Nat) :
    (text x)[k]? = if k < w then some (bitText (x.getLsbD (w - 1 - k))) else none := by
  simp only [text, List.getElem?_map]
  split
  · rename_i h; rw [List.getElem?_range h]; rfl
  · rename_i h; rw [List.getElem?_eq_none (by simpa using h)]; rfl

theorem toBitStr_text {w : Nat} {a : BitVecValue} {x : BitVec w} (ha : Denotes a x) : BitVecValue.toBitStr a = ok (text x) :=
  C30_to_bit_str ha

theorem text_of {w : Nat} {a : BitVecValue} {x : BitVec w} {s : List Byte} (ha : Denotes a x)
    (hs : BitVecValue.toBitStr a = ok s) : s = text x := by
  rw [toBitStr_text ha] at hs
  cases hs
  rfl

theorem text_head {w : Nat} (hw : 0 < w) (x : BitVec w) : (text x).head? = some (bitText x.msb) := by
  rw [List.head?_eq_getElem?, text_get, if_pos hw, BitVec.msb_eq_getLsbD_last, Nat.sub_zero]

theorem bitText_inj {b c : Bool} : bitText b = bitText c ↔ b = c := by revert b c; decide

theorem bitText_one {b : Bool} : bitText b = ch '1' ↔ b = true := by revert b; decide

theorem text_append {w v : Nat} (x : BitVec w) (y : BitVec v) : text (x ++ y) = text x ++ text y := by
  apply List.ext_getElem?
  intro k
  rw [text_get, List.getElem?_append, text_length, text_get, text_get]
  by_cases hk : k < w
  · rw [if_pos (by omega), if_pos hk, if_pos hk, BitVec.getLsbD_append, if_neg (by omega)]
    congr 3
    omega
  · rw [if_neg hk]
    by_cases hk2 : k < w + v
    · rw [if_pos hk2, if_pos (by omega), BitVec.getLsbD_append, if_pos (by omega)]
      congr 3
      omega
    · rw [if_neg hk2, if_neg (by omega)]

theorem text_extract {w : Nat} (x : BitVec w) {msb lsb : Nat} (h1 : msb < w) (h2 : lsb ≤ msb) :
    text (x.extractLsb' lsb (msb - lsb + 1)) = ((text x).drop (w - 1 - msb)).take (msb - lsb + 1) := by
  apply List.ext_getElem?
  intro k
  rw [text_get, List.getElem?_take, List.getElem?_drop, text_get]
  by_cases hk : k < msb - lsb + 1
  · rw [if_pos hk, if_pos hk, if_pos (by omega), BitVec.getLsbD_extractLsb', decide_eq_true (by omega), Bool.true_and]
    congr 3
    omega
  · rw [if_neg hk, if_neg hk]

theorem text_setWidth {w : Nat} (x : BitVec w) (n : Nat) :
    text (x.setWidth (w + n)) = List.replicate n (ch '0') ++ text x := by
  apply List.ext_getElem?
  intro k
  rw [text_get, List.getElem?_append, List.length_replicate, List.getElem?_replicate, text_get]
  by_cases hk : k < n
  · rw [if_pos (by omega), if_pos hk, if_pos hk, BitVec.getLsbD_setWidth, BitVec.getLsbD_of_ge _ _ (by omega), Bool.and_false]
    rfl
  · rw [if_neg hk]
    by_cases hk2 : k < w + n
    · rw [if_pos hk2, if_pos (by omega), BitVec.getLsbD_setWidth, decide_eq_true (by omega), Bool.true_and]
      congr 3
      omega
    · rw [if_neg hk2, if_neg (by omega)]

theorem text_signExtend {w : Nat} (x : BitVec w) (n : Nat) :
    text (x.signExtend (w + n)) = List.replicate n (bitText x.msb) ++ text x := by
  apply List.ext_getElem?
  intro k
  rw [text_get, List.getElem?_append, List.length_replicate, List.getElem?_replicate, text_get]
  by_cases hk : k < n
  · rw [if_pos (by omega), if_pos hk, if_pos hk, BitVec.getLsbD_signExtend, decide_eq_true (by omega), Bool.true_and,
      if_neg (by omega)]
  · rw [if_neg hk]
    by_cases hk2 : k < w + n
    · rw [if_pos hk2, if_pos (by omega), BitVec.getLsbD_signExtend, decide_eq_true (by omega), Bool.true_and, if_pos (by omega)]
      congr 3
      omega
    · rw [if_neg hk2, if_neg (by omega)]

theorem text_ushiftRight {w : Nat} (x : BitVec w) (n : Nat) :
    text (x >>> n) = List.replicate (min n w) (ch '0') ++ (text x).take (w - n) := by
  apply List.ext_getElem?
  intro k
  rw [text_get, List.getElem?_append, List.length_replicate, List.getElem?_replicate, List.getElem?_take, text_get]
  by_cases hk : k < min n w
  · rw [if_pos (by omega), if_pos hk, if_pos hk, BitVec.getLsbD_ushiftRight, BitVec.getLsbD_of_ge _ _ (by omega)]
    rfl
  · rw [if_neg hk]
    by_cases hk2 : k < w
    · rw [if_pos hk2, if_pos (by omega), if_pos (by omega), BitVec.getLsbD_ushiftRight]
      congr 3
      omega
    · rw [if_neg hk2]
      split
      · rw [if_neg (by omega)]
      · rfl

theorem text_sshiftRight {w : Nat} (x : BitVec w) (n : Nat) :
    text (x.sshiftRight n) = List.replicate (min n w) (bitText x.msb) ++ (text x).take (w - n) := by
  apply List.ext_getElem?
  intro k
  rw [text_get, List.getElem?_append, List.length_replicate, List.getElem?_replicate, List.getElem?_take, text_get]
  by_cases hk : k < min n w
  · rw [if_pos (by omega), if_pos hk, if_pos hk, BitVec.getLsbD_sshiftRight, decide_eq_false (by omega), Bool.not_false,
      Bool.true_and, if_neg (by omega)]
  · rw [if_neg hk]
    by_cases hk2 : k < w
    · rw [if_pos hk2, if_pos (by omega), if_pos (by omega), BitVec.getLsbD_sshiftRight, decide_eq_false (by omega),
        Bool.not_false, Bool.true_and, if_pos (by omega)]
      congr 3
      omega
    · rw [if_neg hk2]
      split
      · rw [if_neg (by omega)]
      · rfl

theorem text_shiftLeft {w : Nat} (x : BitVec w) (n : Nat) :
    text (x <<< n) = (text x).drop n ++ List.replicate (min n w) (ch '0') := by
  apply List.ext_getElem?
  intro k
  rw [text_get, List.getElem?_append, List.getElem?_replicate, List.getElem?_drop, List.length_drop, text_length, text_get]
  by_cases hk : k < w - n
  · rw [if_pos (by omega), if_pos hk, if_pos (by omega), BitVec.getLsbD_shiftLeft, decide_eq_true (by omega),
      decide_eq_false (by omega), Bool.not_false, Bool.true_and, Bool.true_and]
    congr 3
    omega
  · rw [if_neg hk]
    by_cases hk2 : k < w
    · rw [if_pos hk2, if_pos (by omega), BitVec.getLsbD_shiftLeft, decide_eq_true (p := w - 1 - k < n) (by omega),
        Bool.not_true, Bool.and_false, Bool.false_and]
      rfl
    · rw [if_neg hk2, if_neg (by omega)]

/-! ## C76 -/

/-- **C76, concat**: the texts one after the other. -/
theorem C76_concat (m : Mode) {a b : BitVecValue} {s t : List Byte} (ha : Canonical a) (hb : Canonical b)
    (hs : BitVecValue.toBitStr a = ok s) (ht : BitVecValue.toBitStr b = ok t) (hs0 : s ≠ []) (ht0 : t ≠ [])
    (hlt : s.length + t.length < 2 ^ 32) :
    ∃ r, BitVecValue.concat m a b = ok r ∧ Canonical r ∧ BitVecValue.toBitStr r = ok (s ++ t) := by
  have hs := text_of ha.denotes hs
  have ht := text_of hb.denotes ht
  have l1 : s.length = a.width := by rw [hs, text_length]
  have l2 : t.length = b.width := by rw [ht, text_length]
  have p1 := List.length_pos_iff.mpr hs0
  have p2 := List.length_pos_iff.mpr ht0
  obtain ⟨r, h1, h2⟩ := C21_concat_partial m ha.denotes hb.denotes (by omega) (.inl ⟨by omega, by omega⟩)
  refine ⟨r, h1, h2.canonical, ?_⟩
  rw [toBitStr_text h2]
  congr 1
  rw [text_append, hs, ht]

/-- **C76, slice**: the part of the text between the two positions, counted from the right. -/
theorem C76_slice (m : Mode) {a : BitVecValue} {s : List Byte} (ha : Canonical a) (hs : BitVecValue.toBitStr a = ok s)
    {msb lsb : Nat} (h1 : msb < s.length) (h2 : lsb ≤ msb) :
    ∃ r, BitVecValue.slice m a msb lsb = ok r ∧ Canonical r ∧
      BitVecValue.toBitStr r = ok ((s.drop (s.length - 1 - msb)).take (msb - lsb + 1)) := by
  have hs := text_of ha.denotes hs
  have l1 : s.length = a.width := by rw [hs, text_length]
  obtain ⟨r, h3, h4⟩ := C19_slice m ha.denotes (msb := msb) (lsb := lsb) (by omega) h2
  refine ⟨r, h3, h4.canonical, ?_⟩
  rw [toBitStr_text h4]
  congr 1
  rw [text_extract _ (by omega) h2, l1, hs]

/-- **C76, zero_extend**: zeros in front. -/
theorem C76_zero_extend (m : Mode) {a : BitVecValue} {s : List Byte} (ha : Canonical a) (hs : BitVecValue.toBitStr a = ok s)
    (hs0 : s ≠ []) {n : Nat} (hlt : s.length + n < 2 ^ 32) :
    ∃ r, BitVecValue.zeroExtend m a n = ok r ∧ Canonical r ∧ BitVecValue.toBitStr r = ok (List.replicate n (ch '0') ++ s) := by
  have hs := text_of ha.denotes hs
  have l1 : s.length = a.width := by rw [hs, text_length]
  have p1 := List.length_pos_iff.mpr hs0
  obtain ⟨r, h3, h4, _⟩ := C22_zero_extend_partial m ha.denotes n (by omega) (.inl (by omega))
  refine ⟨r, h3, h4.canonical, ?_⟩
  rw [toBitStr_text h4]
  congr 1
  rw [text_setWidth, hs]

/-- **C76, sign_extend**: copies of the first digit in front. -/
theorem C76_sign_extend (m : Mode) {a : BitVecValue} {c : Byte} {s : List Byte} (ha : Canonical a)
    (hs : BitVecValue.toBitStr a = ok (c :: s)) {n : Nat} (hlt : s.length + 1 + n < 2 ^ 32) :
    ∃ r, BitVecValue.signExtend m a n = ok r ∧ Canonical r ∧
      BitVecValue.toBitStr r = ok (List.replicate n c ++ c :: s) := by
  have hs := text_of ha.denotes hs
  have l1 : s.length + 1 = a.width := by rw [← List.length_cons (a := c), hs, text_length]
  obtain ⟨r, h3, h4, _⟩ := C23_sign_extend m (by omega) ha.denotes n (by omega)
  refine ⟨r, h3, h4.canonical, ?_⟩
  rw [toBitStr_text h4]
  congr 1
  have hc := text_head (w := a.width) (by omega) (BitVec.ofNat a.width (wordsVal a.words))
  rw [← hs, List.head?_cons, Option.some.injEq] at hc
  rw [text_signExtend, ← hc, hs]

/-- **C76, shift_right**: zeros in front, the digits at the end are lost. -/
theorem C76_shift_right (m : Mode) {w : Nat} {a b : BitVecValue} {y : BitVec w} {s : List Byte} (ha : Canonical a)
    (hs : BitVecValue.toBitStr a = ok s) (hs0 : s ≠ []) (hw : a.width = w) (hb : Denotes b y) :
    ∃ r, BitVecValue.shiftRight m a b = ok r ∧ Canonical r ∧
      BitVecValue.toBitStr r = ok (List.replicate (min y.toNat s.length) (ch '0') ++ s.take (s.length - y.toNat)) := by
  subst hw
  have hs := text_of ha.denotes hs
  have l1 : s.length = a.width := by rw [hs, text_length]
  have p1 := List.length_pos_iff.mpr hs0
  obtain ⟨r, h3, h4⟩ := C13_shift_right m (by omega) ha.denotes hb
  refine ⟨r, h3, h4.canonical, ?_⟩
  rw [toBitStr_text h4]
  congr 1
  rw [text_ushiftRight, l1, hs]

/-- **C76, arithmetic_shift_right**: copies of the first digit in front, the digits at the end are lost. -/
theorem C76_arithmetic_shift_right (m : Mode) {w : Nat} {a b : BitVecValue} {y : BitVec w} {c : Byte} {s : List Byte}
    (ha : Canonical a) (hs : BitVecValue.toBitStr a = ok (c :: s)) (hw : a.width = w) (hb : Denotes b y) :
    ∃ r, BitVecValue.arithmeticShiftRight m a b = ok r ∧ Canonical r ∧
      BitVecValue.toBitStr r =
        ok (List.replicate (min y.toNat (s.length + 1)) c ++ (c :: s).take (s.length + 1 - y.toNat)) := by
  subst hw
  have hs := text_of ha.denotes hs
  have l1 : s.length + 1 = a.width := by rw [← List.length_cons (a := c), hs, text_length]
  obtain ⟨r, h3, h4⟩ := C14_arithmetic_shift_right m (by omega) ha.denotes hb
  refine ⟨r, h3, h4.canonical, ?_⟩
  rw [toBitStr_text h4]
  congr 1
  have hc := text_head (w := a.width) (by omega) (BitVec.ofNat a.width (wordsVal a.words))
  rw [← hs, List.head?_cons, Option.some.injEq] at hc
  rw [text_sshiftRight, ← hc, l1, hs]

theorem msbDigits_text {w v : Nat} {x : BitVec w} (h : ∀ i, i < w → v.testBit i = x.getLsbD i) :
    msbDigits 2 binChar v w = text x := by
  unfold msbDigits text
  apply List.ext_getElem?
  intro k
  simp only [List.getElem?_map, List.map_reverse]
  by_cases hk : k < w
  · rw [List.getElem?_reverse (by simpa using hk), List.length_map, List.length_range, List.getElem?_map,
      List.getElem?_range (by omega), List.getElem?_range hk]
    simp only [Option.map_some]
    congr 1
    rw [← h _ (by omega)]
    unfold binChar bitText
    rw [Nat.testBit_eq_decide_div_mod_eq]
    by_cases hd : v / 2 ^ (w - 1 - k) % 2 = 1 <;> simp [hd]
  · rw [List.getElem?_eq_none (by simpa using hk), List.getElem?_eq_none (by simpa using hk)]
    rfl

/-- The printed text of a value depends only on the bits below the width. -/
theorem toBitStr_of_bits {w : Nat} (hw : 0 < w) {r : BitVecValue} {x : BitVec w} (h1 : r.width = w)
    (h2 : r.words.length = (w + 63) / 64) (h3 : ∀ i, i < w → bit r.words i = x.getLsbD i) :
    BitVecValue.toBitStr r = ok (text x) := by
  have hne : r.words ≠ [] := fun e => by rw [e] at h2; simp at h2; omega
  unfold BitVecValue.toBitStr Strings.toBitStr
  rw [h1, toBitStrInternal_eq hw hne, List.nil_append]
  have e : (w - 1) % 64 + 1 + 64 * (r.words.length - 1) = w := by rw [h2]; omega
  rw [e]
  congr 1
  exact msbDigits_text fun i hi => h3 i hi

/-- **C76, shift_left**: the digits in front are lost, zeros at the end. This holds for all amounts: where the result keeps bits above
its width (C12) they are not printed. -/
theorem C76_shift_left (m : Mode) {w : Nat} {a b : BitVecValue} {y : BitVec w} {s : List Byte} (ha : Canonical a)
    (hs : BitVecValue.toBitStr a = ok s) (hs0 : s ≠ []) (hw : a.width = w) (hb : Denotes b y) :
    ∃ r, BitVecValue.shiftLeft m a b = ok r ∧
      BitVecValue.toBitStr r = ok (s.drop y.toNat ++ List.replicate (min y.toNat s.length) (ch '0')) := by
  subst hw
  have hs := text_of ha.denotes hs
  have l1 : s.length = a.width := by rw [hs, text_length]
  have p1 := List.length_pos_iff.mpr hs0
  obtain ⟨r, h3, h4, h5, h6, _⟩ := C12_shift_left_exact m (by omega) ha.denotes hb
  refine ⟨r, h3, ?_⟩
  rw [toBitStr_of_bits (by omega) h4 h5 h6]
  congr 1
  rw [text_shiftLeft, l1, hs]

/-- **C76, not**: all digits flipped. -/
theorem C76_not (m : Mode) {a : BitVecValue} {s : List Byte} (ha : Canonical a) (hs : BitVecValue.toBitStr a = ok s)
    (hs0 : s ≠ []) : ∃ r, BitVecValue.not m a = ok r ∧ Canonical r ∧ BitVecValue.toBitStr r = ok (s.map flipDigit) := by
  have hs := text_of ha.denotes hs
  have l1 : s.length = a.width := by rw [hs, text_length]
  have p1 := List.length_pos_iff.mpr hs0
  obtain ⟨r, h3, h4⟩ := C11_not m (by omega) ha.denotes
  refine ⟨r, h3, h4.canonical, ?_⟩
  rw [toBitStr_text h4]
  congr 1
  apply List.ext_getElem?
  intro k
  rw [text_get, List.getElem?_map, hs, text_get]
  by_cases hk : k < a.width
  · rw [if_pos hk, if_pos hk, BitVec.getLsbD_not, decide_eq_true (by omega), Bool.true_and, Option.map_some]
    congr 1
    generalize BitVec.getLsbD _ _ = b
    revert b
    decide
  · rw [if_neg hk, if_neg hk]
    rfl

/-- Bitwise operations act digit by digit. -/
theorem text_zip {w : Nat} {f : Byte → Byte → Byte} {g : Bool → Bool → Bool} {x y z : BitVec w}
    (hf : ∀ b c, f (bitText b) (bitText c) = bitText (g b c)) (hz : ∀ i, i < w → z.getLsbD i = g (x.getLsbD i) (y.getLsbD i)) :
    text z = List.zipWith f (text x) (text y) := by
  apply List.ext_getElem?
  intro k
  rw [text_get, List.getElem?_zipWith, text_get, text_get]
  by_cases hk : k < w
  · simp only [if_pos hk]
    rw [hf, hz _ (by omega)]
  · simp only [if_neg hk]

/-- **C76, and, or, xor**: digit by digit. -/
theorem C76_bitwise (m : Mode) {a b : BitVecValue} {s t : List Byte} (ha : Canonical a) (hb : Canonical b)
    (hw : a.width = b.width) (hs : BitVecValue.toBitStr a = ok s) (ht : BitVecValue.toBitStr b = ok t) :
    (∃ r, BitVecValue.and m a b = ok r ∧ Canonical r ∧ BitVecValue.toBitStr r = ok (List.zipWith andDigit s t)) ∧
    (∃ r, BitVecValue.or m a b = ok r ∧ Canonical r ∧ BitVecValue.toBitStr r = ok (List.zipWith orDigit s t)) ∧
    (∃ r, BitVecValue.xor m a b = ok r ∧ Canonical r ∧ BitVecValue.toBitStr r = ok (List.zipWith xorDigit s t)) := by
  have dx := ha.denotes
  obtain ⟨y, dy⟩ : ∃ y : BitVec a.width, Denotes b y := ⟨(BitVec.ofNat b.width (wordsVal b.words)).cast hw.symm,
    denotes_cast hb.denotes hw.symm _ (by simp [hw])⟩
  rw [text_of dx hs, text_of dy ht]
  refine ⟨?_, ?_, ?_⟩
  · obtain ⟨r, h1, h2, _⟩ := C10_and m dx dy
    exact ⟨r, h1, h2.canonical, by
      rw [toBitStr_text h2, text_zip (f := andDigit) (g := Bool.and) (by decide) fun i _ => BitVec.getLsbD_and ..]⟩
  · obtain ⟨r, h1, h2⟩ := C10_or m dx dy
    exact ⟨r, h1, h2.canonical, by
      rw [toBitStr_text h2, text_zip (f := orDigit) (g := Bool.or) (by decide) fun i _ => BitVec.getLsbD_or ..]⟩
  · obtain ⟨r, h1, h2⟩ := C10_xor m dx dy
    exact ⟨r, h1, h2.canonical, by
      rw [toBitStr_text h2, text_zip (f := xorDigit) (g := Bool.xor) (by decide) fun i _ => BitVec.getLsbD_xor ..]⟩

/-- **C76, is_bit_set**: the digit at that position, counted from the right. -/
theorem C76_is_bit_set {a : BitVecValue} {s : List Byte} (ha : Canonical a) (hs : BitVecValue.toBitStr a = ok s) {pos : Nat}
    (h : pos < s.length) : BitVecValue.isBitSet a pos = ok (decide (s.reverse[pos]? = some (ch '1'))) := by
  have hs := text_of ha.denotes hs
  have l1 : s.length = a.width := by rw [hs, text_length]
  rw [C24_is_bit_set ha.denotes (by omega), List.getElem?_reverse h, l1, hs, text_get, if_pos (by omega)]
  congr 1
  rw [show a.width - 1 - (a.width - 1 - pos) = pos by omega]
  generalize BitVec.getLsbD _ _ = b
  revert b
  decide

/-- **C76, is_negative**: the first digit. -/
theorem C76_is_negative (m : Mode) {a : BitVecValue} {c : Byte} {s : List Byte} (ha : Canonical a)
    (hs : BitVecValue.toBitStr a = ok (c :: s)) : BitVecValue.isNegative m a = ok (decide (c = ch '1')) := by
  have hs := text_of ha.denotes hs
  have l1 : s.length + 1 = a.width := by rw [← List.length_cons (a := c), hs, text_length]
  have hc := text_head (w := a.width) (by omega) (BitVec.ofNat a.width (wordsVal a.words))
  rw [← hs, List.head?_cons, Option.some.injEq] at hc
  rw [(C25_is_negative m (by omega) ha.denotes).1, hc]
  congr 1
  generalize BitVec.msb _ = b
  revert b
  decide

/-! ### Comparisons -/

theorem msbDigits_lt (v u : Nat) : ∀ n, msbDigits 2 binChar v n < msbDigits 2 binChar u n ↔ v % 2 ^ n < u % 2 ^ n
  | 0 => by
    rw [Nat.pow_zero, Nat.mod_one, Nat.mod_one]
    exact ⟨fun h => absurd h (List.lt_irrefl _), fun h => absurd h (Nat.lt_irrefl 0)⟩
  | n + 1 => by
    rw [msbDigits_succ, msbDigits_succ, List.cons_lt_cons_iff, msbDigits_lt v u n]
    have hm : ∀ z : Nat, z % 2 ^ (n + 1) = z % 2 ^ n + 2 ^ n * (z / 2 ^ n % 2) := fun z => by
      rw [Nat.pow_succ, Nat.mod_mul]
    have hv : v % 2 ^ n < 2 ^ n := Nat.mod_lt _ (Nat.two_pow_pos n)
    have hu : u % 2 ^ n < 2 ^ n := Nat.mod_lt _ (Nat.two_pow_pos n)
    rw [hm v, hm u]
    rcases Nat.mod_two_eq_zero_or_one (v / 2 ^ n) with hv2 | hv2 <;>
      rcases Nat.mod_two_eq_zero_or_one (u / 2 ^ n) with hu2 | hu2 <;> rw [hv2, hu2]
    · have : ¬ (binChar 0 < binChar 0) := by decide
      simp only [this, false_or, true_and, Nat.mul_zero, Nat.add_zero]
    · have : binChar 0 < binChar 1 := by decide
      simp only [this, true_or, true_iff]
      omega
    · have h1 : ¬ (binChar 1 < binChar 0) := by decide
      have h2 : ¬ (binChar 1 = binChar 0) := by decide
      simp only [h1, h2, false_or, false_and, false_iff]
      omega
    · have : ¬ (binChar 1 < binChar 1) := by decide
      simp only [this, false_or, true_and]
      omega

theorem text_eq_msbDigits {w : Nat} (x : BitVec w) : text x = msbDigits 2 binChar x.toNat w :=
  (msbDigits_text fun _ _ => rfl).symm

theorem text_lt {w : Nat} (x y : BitVec w) : text x < text y ↔ x.toNat < y.toNat := by
  rw [text_eq_msbDigits, text_eq_msbDigits, msbDigits_lt, Nat.mod_eq_of_lt x.isLt, Nat.mod_eq_of_lt y.isLt]

theorem text_inj {w : Nat} {x y : BitVec w} : text x = text y ↔ x = y := by
  refine ⟨fun h => ?_, fun h => by rw [h]⟩
  apply BitVec.eq_of_toNat_eq
  rcases Nat.lt_trichotomy x.toNat y.toNat with h1 | h1 | h1
  · rw [← text_lt, h] at h1; exact absurd h1 (List.lt_irrefl _)
  · exact h1
  · rw [← text_lt, h] at h1; exact absurd h1 (List.lt_irrefl _)

/-- **C76, equality and unsigned comparisons**: equality and dictionary order of the texts. -/
theorem C76_compare (m : Mode) {a b : BitVecValue} {s t : List Byte} (ha : Canonical a) (hb : Canonical b)
    (hw : a.width = b.width) (hs : BitVecValue.toBitStr a = ok s) (ht : BitVecValue.toBitStr b = ok t) :
    BitVecValue.isEqual m a b = ok (decide (s = t)) ∧ BitVecValue.isGreater m a b = ok (decide (t < s)) ∧
      BitVecValue.isLess m a b = ok (decide (s < t)) := by
  have dx := ha.denotes
  obtain ⟨y, dy⟩ : ∃ y : BitVec a.width, Denotes b y := ⟨(BitVec.ofNat b.width (wordsVal b.words)).cast hw.symm,
    denotes_cast hb.denotes hw.symm _ (by simp [hw])⟩
  rw [text_of dx hs, text_of dy ht]
  refine ⟨?_, ?_, ?_⟩
  · rw [C15_is_equal m dx dy, decide_eq_decide.mpr text_inj]
  · rw [C16_is_greater m dx dy, decide_eq_decide.mpr (text_lt _ _)]
  · rw [C16_is_less m dx dy, decide_eq_decide.mpr (text_lt _ _)]

theorem signed_lt {w : Nat} (hw : 0 < w) (x y : BitVec w) :
    x.toInt < y.toInt ↔ (x.msb = true ∧ y.msb = false) ∨ (x.msb = y.msb ∧ x.toNat < y.toNat) := by
  have iu := BitVec.toInt_eq_msb_cond x
  have iv := BitVec.toInt_eq_msb_cond y
  have bu := x.isLt
  have bv := y.isLt
  have mu := BitVec.msb_eq_decide x
  have mv := BitVec.msb_eq_decide y
  have pp : (2 : Nat) ^ w = 2 * 2 ^ (w - 1) := by rw [← Nat.pow_succ', show (w - 1).succ = w by omega]
  generalize (2 : Nat) ^ w = W at *
  generalize (2 : Nat) ^ (w - 1) = H at *
  cases hu : x.msb <;> cases hv : y.msb <;> simp [hu] at iu mu <;> simp [hv] at iv mv <;> simp <;> omega

/-- **C76, signed comparison**: with the first digits flipped, dictionary order of the texts. -/
theorem C76_compare_signed (m : Mode) {a b : BitVecValue} {c d : Byte} {s t : List Byte} (ha : Canonical a) (hb : Canonical b)
    (hw : a.width = b.width) (hs : BitVecValue.toBitStr a = ok (c :: s)) (ht : BitVecValue.toBitStr b = ok (d :: t)) :
    BitVecValue.isGreaterSigned m a b = ok (decide (flipDigit d :: t < flipDigit c :: s)) ∧
      BitVecValue.isLessSigned m a b = ok (decide (flipDigit c :: s < flipDigit d :: t)) := by
  have dx := ha.denotes
  obtain ⟨y, dy⟩ : ∃ y : BitVec a.width, Denotes b y := ⟨(BitVec.ofNat b.width (wordsVal b.words)).cast hw.symm,
    denotes_cast hb.denotes hw.symm _ (by simp [hw])⟩
  have hs := text_of dx hs
  have ht := text_of dy ht
  generalize BitVec.ofNat a.width (wordsVal a.words) = x at dx hs
  have l1 : s.length + 1 = a.width := by rw [← List.length_cons (a := c), hs, text_length]
  have hp : 0 < a.width := by omega
  have key : ∀ (u v : BitVec a.width) (c d : Byte) (s t : List Byte), c :: s = text u → d :: t = text v →
      (flipDigit c :: s < flipDigit d :: t ↔ u.toInt < v.toInt) := fun u v c d s t hs ht => by
    have hc := text_head hp u
    rw [← hs, List.head?_cons, Option.some.injEq] at hc
    have hd := text_head hp v
    rw [← ht, List.head?_cons, Option.some.injEq] at hd
    have hlt := text_lt u v
    rw [← hs, ← ht, List.cons_lt_cons_iff] at hlt
    rw [List.cons_lt_cons_iff, signed_lt hp, hc, hd]
    rw [hc, hd] at hlt
    generalize u.msb = p at hlt ⊢
    generalize v.msb = q at hlt ⊢
    cases p <;> cases q
    · have h1 : ¬ (bitText false < bitText false) := by decide
      have h2 : ¬ (flipDigit (bitText false) < flipDigit (bitText false)) := by decide
      simpa [h1, h2] using hlt
    · have h2 : ¬ (flipDigit (bitText false) < flipDigit (bitText true)) := by decide
      have h3 : ¬ (flipDigit (bitText false) = flipDigit (bitText true)) := by decide
      simp [h2, h3]
    · have h2 : flipDigit (bitText true) < flipDigit (bitText false) := by decide
      simp [h2]
    · have h1 : ¬ (bitText true < bitText true) := by decide
      have h2 : ¬ (flipDigit (bitText true) < flipDigit (bitText true)) := by decide
      simpa [h1, h2] using hlt
  refine ⟨?_, ?_⟩
  · rw [C18_is_greater_signed m hp dx dy, decide_eq_decide.mpr (key y x d c t s ht hs)]
  · rw [C18_is_less_signed m hp dx dy, decide_eq_decide.mpr (key x y c d s t hs ht)]

/-- The text of a string literal. -/
def bytesOf (s : String) : List Byte := s.toList.map ch

example : BitVecValue.toBitStr (encode 0b10110#5) = ok (bytesOf "10110") ∧
    (BitVecValue.concat .debug (encode 0b10110#5) (encode 0b001#3)).bind BitVecValue.toBitStr = ok (bytesOf "10110001") ∧
    (BitVecValue.slice .debug (encode 0b10110#5) 3 1).bind BitVecValue.toBitStr = ok (bytesOf "011") ∧
    (BitVecValue.zeroExtend .debug (encode 0b10110#5) 3).bind BitVecValue.toBitStr = ok (bytesOf "00010110") ∧
    (BitVecValue.signExtend .debug (encode 0b10110#5) 3).bind BitVecValue.toBitStr = ok (bytesOf "11110110") ∧
    (BitVecValue.shiftRight .debug (encode 0b10110#5) (encode 2#5)).bind BitVecValue.toBitStr = ok (bytesOf "00101") ∧
    (BitVecValue.arithmeticShiftRight .debug (encode 0b10110#5) (encode 2#5)).bind BitVecValue.toBitStr = ok (bytesOf "11101") ∧
    (BitVecValue.shiftLeft .debug (encode 0b10110#5) (encode 2#5)).bind BitVecValue.toBitStr = ok (bytesOf "11000") ∧
    (BitVecValue.not .debug (encode 0b10110#5)).bind BitVecValue.toBitStr = ok (bytesOf "01001") ∧
    BitVecValue.isGreater .debug (encode 0b10110#5) (encode 0b01111#5) = ok true ∧
    BitVecValue.isGreaterSigned .debug (encode 0b10110#5) (encode 0b01111#5) = ok false ∧
    bytesOf "01111" < bytesOf "10110" := by decide +kernel

/-- A shift by a multiple of 64 that leaves bits above the width: the text is right all the same. -/
example : (BitVecValue.shiftLeft .debug (encode (BitVec.ofNat 70 (2 ^ 64 - 1))) (encode 64#70)).bind BitVecValue.toBitStr =
    ok (bytesOf "111111" ++ List.replicate 64 (ch '0')) := by decide +kernel

/-! ## C40: bytes first -/

theorem bytesVal_inj : ∀ (s t : List Byte), s.length = t.length → bytesVal s = bytesVal t → s = t
  | [], [], _, _ => rfl
  | b :: bs, c :: cs, hl, hv => by
    simp only [bytesVal] at hv
    have h1 := b.isLt
    have h2 := c.isLt
    have h3 := bytesVal_inj bs cs (by simpa using hl) (by omega)
    subst h3
    rw [BitVec.eq_of_toNat_eq (show b.toNat = c.toNat by omega)]

/-- **C40**: bytes that are read with a width that needs all of them and drops no set bit are written back unchanged
(the claim of `test_from_to_bytes_le`, src/bv/io/bytes.rs:61-74, for all byte strings). -/
theorem C40_bytes_first (m : Mode) {w : Nat} (hw : w < 2 ^ 32) {bs : List Byte} (hl : bs.length = (w + 7) / 8)
    (hv : bytesVal bs < 2 ^ w) :
    ∃ r, BitVecValue.fromBytesLe m bs w = ok r ∧ Canonical r ∧ BitVecValue.toBytesLe r = bs := by
  obtain ⟨r, h1, h2⟩ := C40_from_bytes_le m hw bs (by omega)
  obtain ⟨h3, h4⟩ := C40_to_bytes_le h2
  refine ⟨r, h1, h2.canonical, bytesVal_inj _ _ (by rw [h3, hl]) ?_⟩
  rw [h4, BitVec.toNat_ofNat, Nat.mod_eq_of_lt hv]

example : (BitVecValue.fromBytesLe .debug [1#8, 2#8, 3#8, 4#8, 5#8, 6#8, 7#8, 8#8, 9#8] 68).bind
    (fun r => ok (BitVecValue.toBytesLe r)) = ok [1#8, 2#8, 3#8, 4#8, 5#8, 6#8, 7#8, 8#8, 9#8] ∧
    bytesVal [1#8, 2#8, 3#8, 4#8, 5#8, 6#8, 7#8, 8#8, 9#8] < 2 ^ 68 := by decide +kernel

end Baa

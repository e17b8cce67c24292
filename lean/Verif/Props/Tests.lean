import Verif.Spec.Tests
import Verif.Props.TextOps
import Verif.Props.Sizes
import Verif.Props.Interner
import Verif.Props.Convert
import Verif.Proofs.Modes

/-!
# C127: the randomised tests of the repository, on all their arguments
-/

namespace Baa
open Res
namespace Tests

/-! ## What the helpers do -/

theorem assertEq_self {α : Type} [DecidableEq α] (a : α) : assertEq a a = ok () := by
  unfold assertEq assert
  rw [if_pos (by simp)]

theorem assertEq_of {α : Type} [DecidableEq α] {a b : α} (h : a = b) : assertEq a b = ok () := h ▸ assertEq_self a

theorem assertEq_ok {α : Type} [DecidableEq α] {a b : α} : assertEq a b = ok () ↔ a = b := by
  constructor
  · intro h
    unfold assertEq assert at h
    split at h
    · rename_i h'; simpa using h'
    · cases h
  · exact assertEq_of

theorem assert_of {b : Bool} (h : b = true) : assert b = ok () := by rw [h]; rfl

theorem assertUnusedBitsZero_ok {v : List Word} {w : Nat} (h : v.length = (w + 63) / 64) :
    assertUnusedBitsZero v w = ok () ↔ ∀ i, w ≤ i → bit v i = false := by
  unfold assertUnusedBitsZero
  dsimp only [BITS]
  by_cases h0 : w % 64 = 0
  · rw [if_neg (by omega)]
    exact ⟨fun _ i hi => bit_of_ge _ _ (by omega), fun _ => rfl⟩
  · have hne : v ≠ [] := fun e => by rw [e] at h; simp at h; omega
    obtain ⟨mk, h1, _, h2⟩ := Arith.mask_spec (k := w % 64) (by omega) (by omega)
    rw [if_pos (by omega), lastU_ok hne, ok_bind, h1, ok_bind, assertEq_ok]
    have hb : ∀ j, j < 64 → (v.getLast hne).getLsbD j = bit v (64 * (v.length - 1) + j) := by
      intro j hj
      have hlt : v.length - 1 < v.length := by have := List.length_pos_iff.mpr hne; omega
      rw [bit_eq_getD, show (64 * (v.length - 1) + j) / 64 = v.length - 1 by omega,
        show (64 * (v.length - 1) + j) % 64 = j by omega, List.getD_eq_getElem?_getD, List.getElem?_eq_getElem hlt,
        Option.getD_some, List.getLast_eq_getElem]
    constructor
    · intro e i hi
      by_cases hi2 : i < 64 * v.length
      · have := congrArg (fun b : Word => b.getLsbD (i - 64 * (v.length - 1))) e
        simp only [BitVec.getLsbD_and, BitVec.getLsbD_not, h2, BitVec.getLsbD_zero] at this
        rw [decide_eq_true (p := i - 64 * (v.length - 1) < 64) (by omega),
          decide_eq_false (p := i - 64 * (v.length - 1) < w % 64) (by omega), hb _ (by omega)] at this
        rw [show 64 * (v.length - 1) + (i - 64 * (v.length - 1)) = i by omega] at this
        simpa using this
      · exact bit_of_ge _ _ (by omega)
    · intro e
      apply BitVec.eq_of_getLsbD_eq
      intro j hj
      rw [BitVec.getLsbD_and, BitVec.getLsbD_not, h2, BitVec.getLsbD_zero, hb j hj]
      by_cases hj2 : j < w % 64
      · simp [hj2]
      · rw [e _ (by omega)]; rfl

theorem assertUnusedBitsZero_of {v : List Word} {w : Nat} {x : BitVec w} (h : Denotes ⟨w, v⟩ x) :
    assertUnusedBitsZero v w = ok () :=
  (assertUnusedBitsZero_ok h.length_eq).mpr fun i hi => by
    rw [h.bit i, BitVec.getLsbD_of_ge _ _ hi]

theorem digitsFrom_bitText : ∀ (s : List Byte) (acc : Nat), (∀ c ∈ s, c = ch '0' ∨ c = ch '1') →
    ∃ n, digitsFrom 2 acc s = some n
  | [], acc, _ => ⟨acc, rfl⟩
  | c :: cs, acc, h => by
    have h1 : ∃ d, digitOf 2 c = some d := by
      rcases h c (by simp) with h | h <;> subst h
      · exact ⟨0, by decide⟩
      · exact ⟨1, by decide⟩
    obtain ⟨d, h1⟩ := h1
    obtain ⟨n, h2⟩ := digitsFrom_bitText cs (acc * 2 + d) fun c' h' => h c' (by simp [h'])
    exact ⟨n, by rw [digitsFrom, h1]; exact h2⟩

theorem digitsVal_bitText {s : List Byte} (h : BitText s) : ∃ n, digitsVal 2 s = some n := by
  unfold digitsVal
  rw [if_neg h.1]
  exact digitsFrom_bitText s 0 h.2

theorem length_pos_of {s : List Byte} (h : BitText s) : 0 < s.length := List.length_pos_iff.mpr h.1

theorem api_parse {m : Mode} {s : List Byte} {radix w : Nat} {r : BitVecValue}
    (h : BitVecValue.fromStrRadix m s radix w = ok (.ok r)) :
    r.width = w ∧ Strings.fromStrRadix m s radix (valueVecZeros w) w = ok (r.words, .ok ()) := by
  unfold BitVecValue.fromStrRadix BitVecValue.assignFromStrRadix at h
  dsimp only [BitVecValue.zero] at h
  cases hr : Strings.fromStrRadix m s radix (valueVecZeros w) w with
  | panic p => rw [hr] at h; cases h
  | ok o =>
    obtain ⟨o, e⟩ := o
    rw [hr] at h
    cases e with
    | error e => cases h
    | ok u => cases h; exact ⟨rfl, rfl⟩

theorem api_fromBitStr {m : Mode} {s : List Byte} {r : BitVecValue} (h : BitVecValue.fromBitStr m s = ok (.ok r)) :
    Strings.determineWidth m s 2 = ok r.width ∧
      Strings.fromStrRadix m s 2 (valueVecZeros r.width) r.width = ok (r.words, .ok ()) := by
  unfold BitVecValue.fromBitStr at h
  cases hw : Strings.determineWidth m s 2 with
  | panic p => rw [hw] at h; cases h
  | ok w =>
    rw [hw, ok_bind] at h
    obtain ⟨h1, h2⟩ := api_parse h
    subst h1
    exact ⟨rfl, h2⟩

theorem api_fromHexStr {m : Mode} {s : List Byte} {r : BitVecValue} (h : BitVecValue.fromHexStr m s = ok (.ok r)) :
    Strings.determineWidth m s 16 = ok r.width ∧
      Strings.fromStrRadix m s 16 (valueVecZeros r.width) r.width = ok (r.words, .ok ()) := by
  unfold BitVecValue.fromHexStr at h
  cases hw : Strings.determineWidth m s 16 with
  | panic p => rw [hw] at h; cases h
  | ok w =>
    rw [hw, ok_bind] at h
    obtain ⟨h1, h2⟩ := api_parse h
    subst h1
    exact ⟨rfl, h2⟩

/-- Parsing a text of binary digits. -/
theorem fromBitStr_text (m : Mode) {s : List Byte} (h : BitText s) (hlen : s.length < 2 ^ 32) :
    ∃ (v : List Word) (x : BitVec s.length), fromBitStr m s = ok (v, s.length) ∧ Denotes ⟨s.length, v⟩ x ∧ text x = s := by
  obtain ⟨n, hn⟩ := digitsVal_bitText h
  obtain ⟨r, h1, h2⟩ := C75_bit_str m hn hlen (.inl rfl)
  obtain ⟨_, h3⟩ := numeral_plus (bits := 1) hn (s := s) (.inl rfl)
  obtain ⟨r', h4, h5⟩ := (C35_from_bit_str m (s := s) (by rw [h3]; omega)).2.1 _ (numeral_plus (bits := 1) hn (.inl rfl)).1
  rw [h1] at h4
  cases h4
  have hw : numeralWidth 1 s = s.length := by omega
  have h6 := denotes_cast h5 hw (BitVec.ofNat _ n) (by rw [BitVec.ofInt_natCast, BitVec.toNat_ofNat, BitVec.toNat_ofNat, hw])
  have h7 : r = ⟨s.length, r.words⟩ := by rw [← h6.width_eq]
  refine ⟨r.words, _, ?_, h7 ▸ h6, (text_of h6 h2).symm⟩
  obtain ⟨e1, e2⟩ := api_fromBitStr h1
  unfold fromBitStr
  rw [e1, ok_bind, e2, ok_bind, h6.width_eq]
  rfl

theorem toBitStr_words {w : Nat} {v : List Word} {x : BitVec w} (h : Denotes ⟨w, v⟩ x) : Strings.toBitStr v w = ok (text x) :=
  toBitStr_text h

theorem bitText_text {w : Nat} (hw : 0 < w) (x : BitVec w) : BitText (text x) := by
  refine ⟨fun e => ?_, fun c hc => ?_⟩
  · have := text_length x
    rw [e] at this
    simp at this
    omega
  · unfold text at hc
    obtain ⟨k, _, hk⟩ := List.mem_map.mp hc
    rw [← hk]
    unfold bitText
    split
    · exact .inr rfl
    · exact .inl rfl

theorem text_injective {w : Nat} {x y : BitVec w} (h : text x = text y) : x = y := by
  apply BitVec.eq_of_getLsbD_eq
  intro i hi
  have h1 := congrArg (fun l => l[w - 1 - i]?) h
  simp only [text_get] at h1
  rw [if_pos (by omega), if_pos (by omega), Option.some.injEq, bitText_inj] at h1
  rwa [show w - 1 - (w - 1 - i) = i by omega] at h1

theorem head_text {w : Nat} (hw : 0 < w) {x : BitVec w} {s : List Byte} (h : text x = s) : s.head? = some (bitText x.msb) := by
  rw [← h, text_head hw]

/-! ## src/bv/arithmetic.rs: texts -/

theorem pass_isNeg : is_neg.Passes := by
  rintro m s ⟨h, hlen⟩
  obtain ⟨v, x, h1, h2, h3⟩ := fromBitStr_text m h hlen
  have hpos := length_pos_of h
  show isNeg m s = ok ()
  unfold isNeg
  dsimp only
  rw [h1, ok_bind]
  dsimp only
  rw [Arith.isNeg_spec hpos h2.length_eq, ok_bind, h2.bit, head_text hpos h3, BitVec.msb_eq_getLsbD_last]
  apply assertEq_of
  generalize BitVec.getLsbD _ _ = b
  revert b
  decide

theorem pass_concat : test_concat.Passes := by
  rintro m ⟨s, t⟩ ⟨hs, ht, hlen⟩
  dsimp only at hs ht hlen
  have ps := length_pos_of hs
  have pt := length_pos_of ht
  obtain ⟨v, x, h1, h2, h3⟩ := fromBitStr_text m hs (by omega)
  obtain ⟨u, y, h4, h5, h6⟩ := fromBitStr_text m ht (by omega)
  have hc : BitText (List.replicate (s.length + t.length) (ch '1')) :=
    ⟨fun e => by have := congrArg List.length e; rw [List.length_replicate, List.length_nil] at this; omega, fun c hc => .inr (List.eq_of_mem_replicate hc)⟩
  obtain ⟨c, z, h7, h8, h9⟩ := fromBitStr_text m hc (by rw [List.length_replicate]; omega)
  rw [List.length_replicate] at h7
  have hcl : c.length = (s.length + t.length + 63) / 64 := by have := h8.length_eq; rwa [List.length_replicate] at this
  obtain ⟨r, hr1, hr2, hr3⟩ := Arith.concat_spec (m := m) (d := c) h2.length_eq h5.length_eq hcl
    (by rw [h2.val_eq]; exact x.isLt) (by rw [h5.val_eq]; exact y.isLt)
  have hd : Denotes ⟨s.length + t.length, r⟩ (x ++ y) := Denotes.of_bit hlen rfl (by rw [← hcl]; exact hr2) fun i => by
    rw [hr3, BitVec.getLsbD_append, h2.bit, h5.bit]
  show concat m s t = ok ()
  unfold concat
  rw [h1, ok_bind]
  dsimp only
  rw [h4, ok_bind]
  dsimp only
  rw [h7, ok_bind]
  dsimp only
  rw [addC_ok (by show _ < 4294967296; omega), ok_bind, assertEq_self, ok_bind, hr1, ok_bind, assertUnusedBitsZero_of hd, ok_bind,
    toBitStr_words hd, ok_bind, text_append, h3, h6, assertEq_self]

theorem pass_slice : test_slice.Passes := by
  rintro m ⟨s, hi, lo⟩ ⟨hs, hlen, h1, h2⟩
  dsimp only at hs hlen h1 h2
  obtain ⟨v, x, h3, h4, h5⟩ := fromBitStr_text m hs hlen
  obtain ⟨r, hr1, hr2, hr3⟩ := Arith.slice_spec (m := m) (d := List.replicate ((hi - lo + 1 + 63) / 64) 0#64) (src := v) h2
    (by rw [h4.length_eq]; omega) (by show _ < 4294967296; omega) (by simp)
  have hd : Denotes ⟨hi - lo + 1, r⟩ (x.extractLsb' lo (hi - lo + 1)) :=
    Denotes.of_bit (by omega) rfl (by rw [hr2]; simp) fun i => by
      rw [hr3, BitVec.getLsbD_extractLsb', h4.bit, Nat.add_comm i]
  show slice m s hi lo = ok ()
  unfold slice
  rw [assert_of (by have := hs.1; cases s <;> simp_all), ok_bind, h3, ok_bind]
  dsimp only
  rw [assert_of (by simpa using h2), ok_bind, assert_of (by simpa using h1), ok_bind, subC_ok h2, ok_bind,
    addC_ok (by show _ < 4294967296; omega), ok_bind, show divCeil (hi - lo + 1) BITS = (hi - lo + 1 + 63) / 64 from rfl, hr1, ok_bind,
    assertUnusedBitsZero_of hd, ok_bind, subC_ok (by omega), ok_bind, subC_ok (by omega), ok_bind, toBitStr_words hd, ok_bind,
    text_extract _ h1 h2, h5, assertEq_self]

theorem widthIntToBitStr_text {n w : Nat} (hw : 0 < w) (hw2 : w < 2 ^ 32) (hn : n < 2 ^ 32) (hnw : n < 2 ^ w) :
    widthIntToBitStr n w = ok (text (BitVec.ofNat w n)) := by
  unfold widthIntToBitStr
  have h1 : (if w < 32 then do
      let mk ← Arith.mask w
      assertEq (BitVec.ofNat 64 n &&& mk) (BitVec.ofNat 64 n)
    else ok ()) = ok () := by
    split
    · obtain ⟨mk, e1, e2, e3⟩ := Arith.mask_spec (k := w) hw (by omega)
      rw [e1, ok_bind]
      apply assertEq_of
      apply BitVec.eq_of_getLsbD_eq
      intro i hi
      rw [BitVec.getLsbD_and, e3, BitVec.getLsbD_ofNat, decide_eq_true hi, Bool.true_and]
      by_cases hiw : i < w
      · simp [hiw]
      · rw [Nat.testBit_lt_two_pow (Nat.lt_of_lt_of_le hnw (Nat.pow_le_pow_right (by decide) (by omega)))]; rfl
    · rfl
  have hlen := length_valueVecZeros w
  rw [h1, ok_bind, setIdx_ok (by rw [hlen]; omega), ok_bind]
  apply toBitStr_words
  refine Denotes.of_bit hw2 rfl (by rw [List.length_set]; exact hlen) fun i => ?_
  dsimp only
  rw [bit_eq_getD, BitVec.getLsbD_ofNat, List.getD_eq_getElem?_getD, List.getElem?_set]
  by_cases h0 : i / 64 = 0
  · rw [if_pos h0.symm, if_pos (by rw [hlen]; omega), Option.getD_some, BitVec.getLsbD_ofNat, decide_eq_true (by omega),
      show i % 64 = i by omega, Bool.true_and]
    by_cases hiw : i < w
    · simp [hiw]
    · rw [Nat.testBit_lt_two_pow (Nat.lt_of_lt_of_le hnw (Nat.pow_le_pow_right (by decide) (by omega)))]; simp
  · rw [if_neg (by omega), Nat.testBit_lt_two_pow (Nat.lt_of_lt_of_le hn (Nat.pow_le_pow_right (by decide) (by omega)))]
    unfold valueVecZeros
    rw [List.getElem?_replicate]
    split <;> simp

theorem fromBitStr_width (m : Mode) {s : List Byte} {w : Nat} (h : BitText s) (hlen : s.length < 2 ^ 32) (hw : s.length = w) :
    ∃ (v : List Word) (x : BitVec w), fromBitStr m s = ok (v, w) ∧ Denotes ⟨w, v⟩ x ∧ text x = s := by
  subst hw
  exact fromBitStr_text m h hlen

/-- What a shift test does up to the call of the shift, and what it does with the result. -/
theorem shift_eq (m : Mode) {s : List Byte} {n : Nat} (h : ShiftArgs (s, n)) (right signed : Bool)
    (hl : right = true ∨ signed = false) :
    ∃ (v u : List Word) (x y : BitVec s.length), Denotes ⟨s.length, v⟩ x ∧ Denotes ⟨s.length, u⟩ y ∧ text x = s ∧ y.toNat = n ∧
      ∀ r, (if right then
            if signed then Arith.arithmeticShiftRight m (valueVecZeros s.length) v u s.length
            else do
              let (r, _) ← Arith.shiftRight m (valueVecZeros s.length) v u s.length
              ok r
          else Arith.shiftLeft m (valueVecZeros s.length) v u s.length) = ok r →
        shift m s n right signed = (do
          assertUnusedBitsZero r s.length
          let actual ← Strings.toBitStr r s.length
          assertEq actual (if right then
            List.replicate (min n s.length) (if signed then bitText x.msb else ch '0') ++ (text x).take (s.length - n)
            else (text x).drop n ++ List.replicate (min n s.length) (ch '0'))) := by
  obtain ⟨hs, hlen, hn, hnw⟩ := h
  dsimp only at hs hlen hn hnw
  have hpos := length_pos_of hs
  obtain ⟨v, x, h1, h2, h3⟩ := fromBitStr_text m hs hlen
  have hbl : (text (BitVec.ofNat s.length n)).length = s.length := text_length _
  obtain ⟨u, y, h4, h5, h6⟩ := fromBitStr_width m (bitText_text hpos (BitVec.ofNat s.length n)) (by rw [hbl]; exact hlen) hbl
  have hy := text_injective h6
  refine ⟨v, u, x, y, h2, h5, h3, by rw [hy, BitVec.toNat_ofNat, Nat.mod_eq_of_lt hnw], fun r hr => ?_⟩
  unfold shift
  rw [assert_of (by rcases hl with rfl | rfl <;> simp), ok_bind, h1, ok_bind]
  dsimp only
  rw [widthIntToBitStr_text hpos hlen hn hnw, ok_bind, h4, ok_bind]
  dsimp only
  rw [assertEq_self, ok_bind, show List.replicate v.length 0#64 = valueVecZeros s.length by rw [h2.length_eq]; rfl, hr, ok_bind]
  congr 1
  funext _
  have hp : (if signed = true then unwrapOption s.head? else ok (ch '0')) = ok (if signed then bitText x.msb else ch '0') := by
    cases signed
    · rfl
    · rw [if_pos rfl, head_text hpos h3]; rfl
  rw [hp, ok_bind]
  cases right
  · have : signed = false := by simpa using hl
    subst this
    simp only [Bool.false_eq_true, if_false, ok_bind]
    congr 1
    funext a
    rw [h3]
    congr 2
    rcases Nat.le_total n s.length with hle | hle
    · rw [Nat.min_eq_left hle]
    · rw [Nat.min_eq_right hle, List.drop_eq_nil_of_le (Nat.le_refl _), List.drop_eq_nil_of_le hle]
  · simp only [if_true]
    rw [subC_ok (Nat.min_le_right _ _), ok_bind, ok_bind, h3]
    congr 1
    funext a
    congr 3
    omega

theorem pass_shiftRight : test_shift_right.Passes := by
  rintro m ⟨s, n⟩ h
  obtain ⟨v, u, x, y, h1, h2, h3, h4, h5⟩ := shift_eq m h true false (.inl rfl)
  have hpos := length_pos_of h.1
  obtain ⟨r, hr1, hr2, hr3⟩ := Arith.shiftRight_spec (m := m) (d := valueVecZeros s.length) (b := u) hpos h1.width_lt
    (length_valueVecZeros _) h1.length_eq (List.length_pos_iff.mp (h2.len_pos hpos)) (by rw [h1.val_eq]; exact x.isLt)
  have hd : Denotes ⟨s.length, r⟩ (x >>> n) := Denotes.of_bit h1.width_lt rfl (by rw [hr2, length_valueVecZeros]) fun i => by
    rw [hr3, h1.bit, BitVec.getLsbD_ushiftRight, h2.val_eq, h4, Nat.add_comm]
  show shift m s n true false = ok ()
  rw [h5 r (by rw [if_pos rfl, if_neg (by decide), hr1]; rfl), assertUnusedBitsZero_of hd, ok_bind, toBitStr_words hd, ok_bind,
    text_ushiftRight, if_pos rfl, if_neg (by decide), assertEq_self]

theorem pass_arithmeticShiftRight : test_arithmetic_shift_right.Passes := by
  rintro m ⟨s, n⟩ h
  obtain ⟨v, u, x, y, h1, h2, h3, h4, h5⟩ := shift_eq m h true true (.inl rfl)
  have hpos := length_pos_of h.1
  obtain ⟨r, hr1, hr2, hr3⟩ := Arith.arithmeticShiftRight_spec (m := m) (d := valueVecZeros s.length) (b := u) hpos h1.width_lt
    (length_valueVecZeros _) h1.length_eq (List.length_pos_iff.mp (h2.len_pos hpos))
  have hd : Denotes ⟨s.length, r⟩ (x.sshiftRight n) := Denotes.of_bit h1.width_lt rfl (by rw [hr2, length_valueVecZeros]) fun i => by
    rw [hr3, h1.bit, h1.bit, BitVec.getLsbD_sshiftRight, h2.val_eq, h4, Nat.add_comm i n, BitVec.msb_eq_getLsbD_last]
    by_cases hi : i < s.length <;> simp [hi] <;> omega
  show shift m s n true true = ok ()
  rw [h5 r (by rw [if_pos rfl, if_pos rfl, hr1]), assertUnusedBitsZero_of hd, ok_bind, toBitStr_words hd, ok_bind,
    text_sshiftRight, if_pos rfl, if_pos rfl, assertEq_self]

theorem pass_zeroExtend : test_zero_extend.Passes := by
  rintro m ⟨s, n⟩ ⟨hs, hlen⟩
  dsimp only at hs hlen
  obtain ⟨v, x, h1, h2, h3⟩ := fromBitStr_text m hs (by omega)
  obtain ⟨r, hr1, hr2, hr3⟩ := Arith.zeroExtend_spec (d := valueVecZeros (s.length + n)) (src := v)
    (by rw [length_valueVecZeros, h2.length_eq]; show (_ + 63) / 64 ≤ _; omega)
  have hd : Denotes ⟨s.length + n, r⟩ (x.setWidth (s.length + n)) :=
    Denotes.of_bit hlen rfl (by rw [hr2, length_valueVecZeros]) fun i => by
      rw [hr3, h2.bit, BitVec.getLsbD_setWidth]
      by_cases hi : i < s.length + n
      · simp [hi]
      · rw [BitVec.getLsbD_of_ge _ _ (by omega)]; simp
  show zeroExtend m s n = ok ()
  unfold zeroExtend
  rw [h1, ok_bind]
  dsimp only
  rw [addC_ok (by show _ < 4294967296; omega), ok_bind, hr1, ok_bind, assertUnusedBitsZero_of hd, ok_bind, toBitStr_words hd,
    ok_bind, text_setWidth, h3, assertEq_self]

theorem pass_signExtend : test_sign_extend.Passes := by
  rintro m ⟨s, n⟩ ⟨hs, hlen⟩
  dsimp only at hs hlen
  have hpos := length_pos_of hs
  obtain ⟨v, x, h1, h2, h3⟩ := fromBitStr_text m hs (by omega)
  obtain ⟨r, hr1, hr2, hr3⟩ := Arith.signExtend_spec (m := m) (d := valueVecZeros (s.length + n)) (src := v) hpos
    (Nat.le_add_right _ n) h2.length_eq (length_valueVecZeros _) (by rw [h2.val_eq]; exact x.isLt)
  have hd : Denotes ⟨s.length + n, r⟩ (x.signExtend (s.length + n)) :=
    Denotes.of_bit hlen rfl (by rw [hr2, length_valueVecZeros]) fun i => by
      rw [hr3, h2.bit, h2.bit, BitVec.getLsbD_signExtend, BitVec.msb_eq_getLsbD_last]
  show signExtend m s n = ok ()
  unfold signExtend
  rw [assert_of (by have := hs.1; cases s <;> simp_all), ok_bind, h1, ok_bind]
  dsimp only
  rw [addC_ok (by show _ < 4294967296; omega), ok_bind, hr1, ok_bind, assertUnusedBitsZero_of hd, ok_bind, head_text hpos h3,
    toBitStr_words hd, text_signExtend, h3]
  exact assertEq_self _

/-! ## src/bv/arithmetic.rs: numbers -/

theorem bits_lt {n w : Nat} (hw : 0 < w) (h : n < 2 ^ (w - 1)) : bits n < w := by
  unfold bits
  split
  · exact hw
  · rename_i h0
    have := (Nat.log2_lt h0).mpr h
    omega

theorem bits_le {n w : Nat} (h : n < 2 ^ w) : bits n ≤ w := by
  unfold bits
  split
  · exact Nat.zero_le _
  · rename_i h0
    have := (Nat.log2_lt h0).mpr h
    omega

theorem fromBigInt_eq (m : Mode) {z : Int} {w : Nat} (h : BigIntOf w z) :
    ∃ v, fromBigInt m z w = ok v ∧ Denotes ⟨w, v⟩ (BitVec.ofInt w z) := by
  obtain ⟨h0, hw, hz⟩ := h
  obtain ⟨r, h1, h2⟩ := C42_from_big_int m h0 hw z
  unfold BitVecValue.fromBigInt at h1
  unfold fromBigInt
  rw [assert_of (decide_eq_true (bits_lt h0 hz)), ok_bind]
  cases hr : Big.fromBigInt m z w (valueVecZeros w) with
  | panic p => rw [hr] at h1; cases h1
  | ok v => rw [hr] at h1; cases h1; exact ⟨v, rfl, h2⟩

theorem fromBigUint_eq (m : Mode) {n w : Nat} (hw : w < 2 ^ 32) (hn : n < 2 ^ w) :
    ∃ v, fromBigUint m n w = ok v ∧ Denotes ⟨w, v⟩ (BitVec.ofNat w n) := by
  obtain ⟨r, h1, h2⟩ := C41_from_big_uint m hw n
  unfold BitVecValue.fromBigUint at h1
  unfold fromBigUint
  rw [assert_of (decide_eq_true (bits_le hn)), ok_bind]
  cases hr : Big.fromBigUint m n w (valueVecZeros w) with
  | panic p => rw [hr] at h1; cases h1
  | ok v => rw [hr] at h1; cases h1; exact ⟨v, rfl, h2⟩

theorem masked_lt (z : Int) (w : Nat) : masked z w < 2 ^ w := by
  unfold masked
  have h1 := Int.emod_nonneg z (b := 2 ^ w) (by have := Int.pow_pos (n := 2) (m := w) (by decide); omega)
  have h2 := Int.emod_lt_of_pos z (b := 2 ^ w) (Int.pow_pos (by decide))
  have : ((2 ^ w : Nat) : Int) = 2 ^ w := by norm_cast
  omega

theorem ofNat_masked (z : Int) (w : Nat) : BitVec.ofNat w (masked z w) = BitVec.ofInt w z := by
  apply BitVec.eq_of_toNat_eq
  rw [BitVec.toNat_ofNat, BitVec.toNat_ofInt, Nat.mod_eq_of_lt (masked_lt z w)]
  unfold masked
  have h1 := Int.emod_nonneg z (b := 2 ^ w) (by have := Int.pow_pos (n := 2) (m := w) (by decide); omega)
  have : ((2 ^ w : Nat) : Int) = 2 ^ w := by norm_cast
  rw [this]
  omega

theorem arith_of (m : Mode) {a b : Int} {w : Nat} (ha : BigIntOf w a) (hb : BigIntOf w b)
    {our : List Word → List Word → List Word → Nat → Res (List Word)} {big : Int → Int → Int}
    (h : ∀ va vb, Denotes ⟨w, va⟩ (BitVec.ofInt w a) → Denotes ⟨w, vb⟩ (BitVec.ofInt w b) →
      ∃ r, our (valueVecZeros w) va vb w = ok r ∧ Denotes ⟨w, r⟩ (BitVec.ofInt w (big a b))) :
    arith m a b w our big = ok () := by
  obtain ⟨va, h1, h2⟩ := fromBigInt_eq m ha
  obtain ⟨vb, h3, h4⟩ := fromBigInt_eq m hb
  obtain ⟨r, h5, h6⟩ := h va vb h2 h4
  obtain ⟨e, h7, h8⟩ := fromBigUint_eq m ha.2.1 (masked_lt (big a b) w)
  unfold arith
  rw [h1, ok_bind, h3, ok_bind, h5, ok_bind, assertUnusedBitsZero_of h6, ok_bind, h7, ok_bind]
  rw [ofNat_masked] at h8
  exact assertEq_of (congrArg BitVecValue.words (h8.repr_unique h6))

theorem denotes_words {w : Nat} {x : BitVec w} {r : List Word} (hw : w < 2 ^ 32) (hl : r.length = (w + 63) / 64)
    (hv : wordsVal r = x.toNat) : Denotes ⟨w, r⟩ x := ⟨hw, rfl, hl, hv⟩

theorem pass_add : test_add.Passes := by
  rintro m ⟨a, b, w⟩ ⟨ha, hb⟩
  refine arith_of m ha hb fun va vb h1 h2 => ?_
  obtain ⟨r, hr1, hr2, hr3⟩ := Arith.add_spec (m := m) (d := valueVecZeros w) ha.1 (length_valueVecZeros _) h1.length_eq h2.length_eq
  refine ⟨r, hr1, denotes_words h1.width_lt hr2 ?_⟩
  rw [hr3, h1.val_eq, h2.val_eq, ← BitVec.toNat_add, ← BitVec.ofInt_add]

theorem pass_sub : test_sub.Passes := by
  rintro m ⟨a, b, w⟩ ⟨ha, hb⟩
  refine arith_of m ha hb fun va vb h1 h2 => ?_
  obtain ⟨r, hr1, hr2, hr3⟩ := Arith.sub_spec (m := m) (d := valueVecZeros w) ha.1 (length_valueVecZeros _) h1.length_eq h2.length_eq
    (by rw [h2.val_eq]; exact BitVec.isLt _)
  refine ⟨r, hr1, denotes_words h1.width_lt hr2 ?_⟩
  rw [hr3, h1.val_eq, h2.val_eq, Int.sub_eq_add_neg, BitVec.ofInt_add, BitVec.ofInt_neg, ← BitVec.sub_eq_add_neg, BitVec.toNat_sub,
    Nat.add_comm]

theorem cmpSigned_of (m : Mode) {a b : Int} {w : Nat} (ha : BigIntOf w a) (hb : BigIntOf w b)
    {our : List Word → List Word → Nat → Res Bool} {big : Int → Int → Bool}
    (h : ∀ va vb, Denotes ⟨w, va⟩ (BitVec.ofInt w a) → Denotes ⟨w, vb⟩ (BitVec.ofInt w b) → our va vb w = ok (big a b)) :
    cmpSigned m a b w our big = ok () := by
  obtain ⟨va, h1, h2⟩ := fromBigInt_eq m ha
  obtain ⟨vb, h3, h4⟩ := fromBigInt_eq m hb
  unfold cmpSigned
  rw [h1, ok_bind, h3, ok_bind, h va vb h2 h4, ok_bind, assertEq_self]

theorem cmpUnsigned_of (m : Mode) {a b : Int} {w : Nat} (ha : BigIntOf w a) (hb : BigIntOf w b)
    {our : List Word → List Word → Nat → Res Bool} {big : Nat → Nat → Bool}
    (h : ∀ va vb, va.length = vb.length → wordsVal va = a.natAbs → wordsVal vb = b.natAbs → our va vb w = ok (big a.natAbs b.natAbs)) :
    cmpUnsigned m a b w our big = ok () := by
  have hlt : ∀ {z : Int}, BigIntOf w z → z.natAbs < 2 ^ w := fun h => Nat.lt_of_lt_of_le h.2.2 (Nat.pow_le_pow_right (by decide) (by omega))
  obtain ⟨va, h1, h2⟩ := fromBigUint_eq m ha.2.1 (hlt ha)
  obtain ⟨vb, h3, h4⟩ := fromBigUint_eq m hb.2.1 (hlt hb)
  unfold cmpUnsigned
  rw [h1, ok_bind, h3, ok_bind, h va vb (h2.length_eq.trans h4.length_eq.symm)
    (by rw [h2.val_eq, BitVec.toNat_ofNat, Nat.mod_eq_of_lt (hlt ha)]) (by rw [h4.val_eq, BitVec.toNat_ofNat, Nat.mod_eq_of_lt (hlt hb)]),
    ok_bind, assertEq_self]

theorem isGreaterSigned_words (m : Mode) {w : Nat} {va vb : List Word} (h : va.length = vb.length) :
    BitVecValue.isGreaterSigned m ⟨w, va⟩ ⟨w, vb⟩ = Arith.cmpGreaterSigned m va vb w ∧
    BitVecValue.isGreaterOrEqualSigned m ⟨w, va⟩ ⟨w, vb⟩ = Arith.cmpGreaterEqualSigned m va vb w := by
  unfold BitVecValue.isGreaterSigned BitVecValue.isGreaterOrEqualSigned BitVecValue.assertSame
  dsimp only
  rw [debugAssert_of (by simp), ok_bind, debugAssert_of (by simp [h]), ok_bind]
  by_cases h1 : va.length = 1
  · rw [if_pos h1, if_pos h1, sliceR_full h1, sliceR_full (by omega)]
    exact ⟨rfl, rfl⟩
  · rw [if_neg h1, if_neg h1]
    exact ⟨rfl, rfl⟩

theorem toInt_of {w : Nat} {z : Int} (h : BigIntOf w z) : (BitVec.ofInt w z).toInt = z := by
  obtain ⟨h0, _, hz⟩ := h
  have : ((2 ^ (w - 1) : Nat) : Int) = 2 ^ (w - 1) := by norm_cast
  exact BitVec.toInt_ofInt_eq_self h0 (by omega) (by omega)

theorem pass_cmpGreater : test_cmp_greater.Passes := by
  rintro m ⟨a, b, w⟩ ⟨ha, hb⟩
  change BigIntOf w a at ha
  change BigIntOf w b at hb
  show cmpGreater m a b w = ok ()
  unfold cmpGreater
  refine cmpUnsigned_of m ha hb fun va vb h1 h2 h3 => ?_
  rw [Arith.cmpGreater_spec h1, h2, h3]

theorem pass_cmpGreaterEqual : test_cmp_greater_equal.Passes := by
  rintro m ⟨a, b, w⟩ ⟨ha, hb⟩
  change BigIntOf w a at ha
  change BigIntOf w b at hb
  show cmpGreaterEqual m a b w = ok ()
  unfold cmpGreaterEqual
  refine cmpUnsigned_of m ha hb fun va vb h1 h2 h3 => ?_
  rw [Arith.cmpGreaterEqual_spec h1, h2, h3]

theorem pass_cmpEqual : test_cmp_equal.Passes := by
  rintro m ⟨a, b, w⟩ ⟨ha, hb⟩
  change BigIntOf w a at ha
  change BigIntOf w b at hb
  show cmpEqual m a b w = ok ()
  unfold cmpEqual
  refine cmpUnsigned_of m ha hb fun va vb h1 h2 h3 => ?_
  rw [Arith.cmpEqual_spec h1, h2, h3]

theorem pass_cmpGreaterSigned : test_cmp_greater_signed.Passes := by
  rintro m ⟨a, b, w⟩ ⟨ha, hb⟩
  change BigIntOf w a at ha
  change BigIntOf w b at hb
  show cmpGreaterSigned m a b w = ok ()
  unfold cmpGreaterSigned
  refine cmpSigned_of m ha hb fun va vb h1 h2 => ?_
  rw [← (isGreaterSigned_words m (h1.length_eq.trans h2.length_eq.symm)).1, C18_is_greater_signed m ha.1 h1 h2, toInt_of ha, toInt_of hb]

theorem pass_cmpGreaterEqualSigned : test_cmp_greater_equal_signed.Passes := by
  rintro m ⟨a, b, w⟩ ⟨ha, hb⟩
  change BigIntOf w a at ha
  change BigIntOf w b at hb
  show cmpGreaterEqualSigned m a b w = ok ()
  unfold cmpGreaterEqualSigned
  refine cmpSigned_of m ha hb fun va vb h1 h2 => ?_
  rw [← (isGreaterSigned_words m (h1.length_eq.trans h2.length_eq.symm)).2, C18_is_greater_or_equal_signed m ha.1 h1 h2, toInt_of ha,
    toInt_of hb]

theorem pass_cmpEqualSigned : test_cmp_equal_signed.Passes := by
  rintro m ⟨a, b, w⟩ ⟨ha, hb⟩
  change BigIntOf w a at ha
  change BigIntOf w b at hb
  show cmpEqualSigned m a b w = ok ()
  unfold cmpEqualSigned
  refine cmpSigned_of m ha hb fun va vb h1 h2 => ?_
  have e : wordsVal va = wordsVal vb ↔ a = b := by
    rw [h1.val_eq, h2.val_eq, BitVec.toNat_inj]
    exact ⟨fun e => by rw [← toInt_of ha, ← toInt_of hb]; exact congrArg BitVec.toInt e, fun e => congrArg _ e⟩
  rw [Arith.cmpEqual_spec (h1.length_eq.trans h2.length_eq.symm)]
  exact congrArg ok (decide_eq_decide.mpr e)

/-! ## src/bv/io/strings.rs -/

theorem digitsFrom_hexText : ∀ (s : List Byte) (acc : Nat),
    (∀ c ∈ s, c = ch '0' ∨ c = ch '1' ∨ (ch 'a').toNat ≤ c.toNat ∧ c.toNat ≤ (ch 'f').toNat ∨
      (ch 'A').toNat ≤ c.toNat ∧ c.toNat ≤ (ch 'F').toNat) → ∃ n, digitsFrom 16 acc s = some n
  | [], acc, _ => ⟨acc, rfl⟩
  | c :: cs, acc, h => by
    have h1 : ∃ d, digitOf 16 c = some d := by
      have := h c (by simp)
      rw [← Option.isSome_iff_exists]
      revert this
      clear h
      revert c
      decide +kernel
    obtain ⟨d, h1⟩ := h1
    obtain ⟨n, h2⟩ := digitsFrom_hexText cs (acc * 16 + d) fun c' h' => h c' (by simp [h'])
    exact ⟨n, by rw [digitsFrom, h1]; exact h2⟩

theorem digitsVal_hexText {s : List Byte} (h : HexText s) : ∃ n, digitsVal 16 s = some n := by
  unfold digitsVal
  rw [if_neg h.1]
  exact digitsFrom_hexText s 0 h.2

theorem digit_zero : ∀ (r : Nat), 0 < r → ∀ (c : Byte) (d : Nat), digitOf r c = some d → (d = 0 ↔ c = ch '0') := by
  intro r hr c d h
  have key : ∀ c : Byte, digitOf 36 c = some 0 ↔ c = ch '0' := by decide +kernel
  rw [← key c]
  unfold digitOf at h ⊢
  split at h
  · rename_i d' he
    split at h
    · cases h
      have : d < 36 := by simpa using List.mem_of_find?_eq_some he
      rw [if_pos this, Option.some.injEq]
    · cases h
  · cases h

theorem digitsFrom_zero {r : Nat} (hr : 0 < r) : ∀ (s : List Byte) (acc n : Nat), digitsFrom r acc s = some n →
    (n = 0 ↔ acc = 0 ∧ ∀ c ∈ s, c = ch '0')
  | [], acc, n, h => by
    rw [digitsFrom, Option.some.injEq] at h
    subst h
    simp
  | c :: cs, acc, n, h => by
    rw [digitsFrom] at h
    cases hd : digitOf r c with
    | none => rw [hd] at h; cases h
    | some d =>
      rw [hd] at h
      rw [digitsFrom_zero hr cs _ n h, ← digit_all hr hd]
      constructor
      · rintro ⟨h1, h2⟩
        have h3 : acc * r = 0 := by omega
        rcases Nat.mul_eq_zero.mp h3 with h4 | h4
        · exact ⟨h4, by omega, h2⟩
        · omega
      · rintro ⟨rfl, rfl, h2⟩
        exact ⟨by simp, h2⟩
where
  digit_all {r : Nat} (hr : 0 < r) {c : Byte} {d : Nat} (hd : digitOf r c = some d) {cs : List Byte} :
      (d = 0 ∧ ∀ c ∈ cs, c = ch '0') ↔ ∀ c' ∈ c :: cs, c' = ch '0' := by
    rw [List.forall_mem_cons, digit_zero r hr c d hd]

theorem digitsVal_zero {r : Nat} (hr : 0 < r) {s : List Byte} {n : Nat} (h : digitsVal r s = some n) :
    (s.all fun c => c == ch '0') = decide (n = 0) := by
  unfold digitsVal at h
  split at h
  · cases h
  · rw [Bool.eq_iff_iff, List.all_eq_true, decide_eq_true_iff, digitsFrom_zero hr s 0 n h]
    simp

/-- What the tests expect after a `-`. -/
theorem expectText_minus (lower : List Byte → List Byte) (hl : ∀ ds, lower (ch '-' :: ds) = ch '-' :: lower ds) {r : Nat} (hr : 0 < r)
    {ds : List Byte} {n : Nat} (h : digitsVal r ds = some n) (out : List Byte) :
    expectText lower (ch '-' :: ds) out = assertEq (normalised true n (lower ds)) out := by
  unfold expectText normalised
  dsimp only
  rw [if_neg (by decide), if_pos rfl, digitsVal_zero hr h]
  by_cases h0 : n = 0
  · rw [if_pos (decide_eq_true h0), if_neg (fun h => h.2 h0)]
  · rw [if_neg (by simpa using h0), if_pos ⟨rfl, h0⟩, hl]

theorem head_bitText {s : List Byte} (h : BitText s) : s.head? ≠ some (ch '+') ∧ s.head? ≠ some (ch '-') := by
  obtain ⟨h0, h1⟩ := h
  cases s with
  | nil => exact absurd rfl h0
  | cons c cs =>
    rw [List.head?_cons]
    rcases h1 c (by simp) with h | h <;> subst h <;> decide

theorem head_hexText {s : List Byte} (h : HexText s) : s.head? ≠ some (ch '+') ∧ s.head? ≠ some (ch '-') := by
  obtain ⟨h0, h1⟩ := h
  cases s with
  | nil => exact absurd rfl h0
  | cons c cs =>
    rw [List.head?_cons]
    have := h1 c (by simp)
    revert this
    clear h1 h0
    revert c
    decide +kernel

theorem plus_ne (ds : List Byte) : ¬ (ch '+' :: ds).head? = some (ch '-') := by
  rw [List.head?_cons]
  decide

theorem minus_ne (ds : List Byte) : ¬ (ch '-' :: ds).head? = some (ch '+') := by
  rw [List.head?_cons]
  decide

theorem expectText_plain (lower : List Byte → List Byte) {s : List Byte} (h : s.head? ≠ some (ch '+') ∧ s.head? ≠ some (ch '-'))
    (out : List Byte) : expectText lower s out = assertEq (lower s) out := by
  cases s with
  | nil => rfl
  | cons c cs =>
    unfold expectText
    dsimp only
    rw [if_neg (fun e => h.1 (by rw [e]; rfl)), if_neg (fun e => h.2 (by rw [e]; rfl))]

theorem expectText_plus (lower : List Byte → List Byte) (ds out : List Byte) :
    expectText lower (ch '+' :: ds) out = assertEq (lower ds) out := by
  unfold expectText
  dsimp only
  rw [if_pos rfl]

theorem denotes_self {r : BitVecValue} {w : Nat} {x : BitVec w} (h : Denotes r x) : Denotes ⟨w, r.words⟩ x :=
  ⟨h.width_lt, rfl, h.length_eq, h.val_eq⟩

theorem fromToBitStr_plain (m : Mode) {s : List Byte} (h : BitText s) (hlen : s.length < 2 ^ 32) : fromToBitStr m s = ok () := by
  obtain ⟨n, hn⟩ := digitsVal_bitText h
  obtain ⟨r, h1, h2⟩ := C75_bit_str m hn hlen (.inl rfl)
  obtain ⟨h3, h4⟩ := numeral_plus (bits := 1) hn (s := s) (.inl rfl)
  rw [Nat.one_mul] at h4
  obtain ⟨r', h5, h6⟩ := (C35_from_bit_str m (s := s) (by omega)).2.1 _ h3
  rw [h1] at h5
  cases h5
  obtain ⟨e1, e2⟩ := api_fromBitStr h1
  have hw : r.width = s.length := h6.width_eq.trans h4
  unfold BitVecValue.toBitStr at h2
  have hz := assertUnusedBitsZero_of (denotes_self h6)
  rw [h4] at hz
  rw [hw] at e1 e2 h2
  unfold fromToBitStr
  dsimp only
  rw [e1, ok_bind, if_neg (head_bitText h).1, assertEq_self, ok_bind,
    show List.replicate (divCeil s.length BITS) 0#64 = valueVecZeros s.length from rfl, e2, ok_bind]
  dsimp only [unwrap]
  rw [ok_bind, hz, ok_bind, if_neg (head_bitText h).2, h2, ok_bind, expectText_plain _ (head_bitText h)]
  exact assertEq_self _

theorem fromToBitStr_plus (m : Mode) {ds : List Byte} (h : BitText ds) (hlen : ds.length + 1 < 2 ^ 32) :
    fromToBitStr m (ch '+' :: ds) = ok () ↔ ds.length % 64 ≠ 0 := by
  obtain ⟨n, hn⟩ := digitsVal_bitText h
  have hpos := length_pos_of h
  obtain ⟨r, h1, h2⟩ := C75_bit_str m hn (by omega) (.inr rfl)
  obtain ⟨h3, h4⟩ := numeral_plus (bits := 1) hn (s := ch '+' :: ds) (.inr rfl)
  rw [Nat.one_mul] at h4
  obtain ⟨r', h5, h6⟩ := (C35_from_bit_str m (s := ch '+' :: ds) (by omega)).2.1 _ h3
  rw [h1] at h5
  cases h5
  obtain ⟨e1, e2⟩ := api_fromBitStr h1
  have hw : r.width = ds.length := h6.width_eq.trans h4
  unfold BitVecValue.toBitStr at h2
  have hz := assertUnusedBitsZero_of (denotes_self h6)
  rw [h4] at hz
  rw [hw] at e1 e2 h2
  unfold fromToBitStr
  dsimp only
  rw [e1, ok_bind, if_pos (by rfl), subC_ok (by simp), ok_bind, assertEq_of (by simp), ok_bind]
  by_cases h0 : ds.length % 64 = 0
  · refine iff_of_false (fun e => ?_) (fun h => h h0)
    cases hr : Strings.fromStrRadix m (ch '+' :: ds) 2 (List.replicate (divCeil (ch '+' :: ds).length BITS) 0#64) ds.length with
    | panic p => rw [hr] at e; cases e
    | ok o =>
      have hl := Strings.keeps_fromStrRadix hr
      obtain ⟨o, x⟩ := o
      rw [hr, ok_bind] at e
      cases x with
      | error x => cases e
      | ok u =>
        dsimp only [unwrap] at e hl
        rw [List.length_replicate, List.length_cons] at hl
        change _ = (ds.length + 1 + 63) / 64 at hl
        rw [ok_bind, (assertUnusedBitsZero_ok' h0), ok_bind, if_neg (plus_ne _), Strings.toBitStr,
          Strings.toBitStrInternal_eq hpos (fun e => by rw [e] at hl; simp at hl; omega), ok_bind, expectText_plus, assertEq_ok] at e
        have := congrArg List.length e
        rw [List.nil_append, msbDigits_length] at this
        change ds.length = _ at this
        omega
  · refine iff_of_true ?_ h0
    rw [show List.replicate (divCeil (ch '+' :: ds).length BITS) 0#64 = valueVecZeros ds.length by
      show List.replicate ((ds.length + 1 + 63) / 64) 0#64 = List.replicate ((ds.length + 63) / 64) 0#64
      congr 1; omega, e2, ok_bind]
    dsimp only [unwrap]
    rw [ok_bind, hz, ok_bind, if_neg (plus_ne _), h2, ok_bind, expectText_plus]
    exact assertEq_self _
where
  assertUnusedBitsZero_ok' {v : List Word} {w : Nat} (h : w % 64 = 0) : assertUnusedBitsZero v w = ok () := by
    unfold assertUnusedBitsZero
    dsimp only [BITS]
    rw [if_neg (by omega)]

theorem fromToBitStr_minus (m : Mode) {ds : List Byte} (h : BitText ds) (hlen : ds.length + 1 < 2 ^ 32) :
    fromToBitStr m (ch '-' :: ds) = ok () ↔ ds.length % 64 ≠ 0 := by
  obtain ⟨n, hn⟩ := digitsVal_bitText h
  obtain ⟨r, h1, h2⟩ := C75_bit_str_signed_partial m m hn hlen
  obtain ⟨h3, h4⟩ := numeral_minus (bits := 1) hn
  rw [Nat.one_mul] at h4
  obtain ⟨r', h5, h6⟩ := (C35_from_bit_str m (s := ch '-' :: ds) (by omega)).2.1 _ h3
  rw [h1] at h5
  cases h5
  obtain ⟨e1, e2⟩ := api_fromBitStr h1
  have hw : r.width = ds.length + 1 := h6.width_eq.trans h4
  unfold BitVecValue.toBitStrSigned at h2
  have hz := assertUnusedBitsZero_of (denotes_self h6)
  rw [h4] at hz
  rw [hw] at e1 e2 h2
  unfold fromToBitStr
  dsimp only
  rw [e1, ok_bind, if_neg (minus_ne _), assertEq_of (by simp), ok_bind,
    show List.replicate (divCeil (ch '-' :: ds).length BITS) 0#64 = valueVecZeros (ds.length + 1) from rfl, e2, ok_bind]
  dsimp only [unwrap]
  rw [ok_bind, hz, ok_bind, if_pos (by rfl), h2, ok_bind, expectText_minus id (fun _ => rfl) (by decide) hn, assertEq_ok]
  by_cases h0 : ds.length % 64 = 0
  · rw [if_pos h0]
    refine iff_of_false (fun e => ?_) (fun h => h h0)
    have := congrArg List.length e
    unfold normalised at this
    split at this <;> simp only [id, List.length_cons, List.length_append, List.length_replicate] at this <;> omega
  · rw [if_neg h0]
    exact iff_of_true rfl h0

/-- **C127** `test_from_to_bit_str` fails exactly for numerals with a sign and a multiple of 64 digits. -/
theorem C127_from_to_bit_str (m : Mode) {s : List Byte} (h : test_from_to_bit_str.generated s) :
    test_from_to_bit_str.run m s = ok () ↔
      ¬ ((s.head? = some (ch '+') ∨ s.head? = some (ch '-')) ∧ (s.length - 1) % 64 = 0) := by
  obtain ⟨h, hlen⟩ := h
  show fromToBitStr m s = ok () ↔ _
  rcases h with rfl | h | ⟨ds, h, rfl | rfl⟩
  · exact iff_of_true (by cases m <;> decide +kernel) (by decide)
  · exact iff_of_true (fromToBitStr_plain m h hlen) (fun e => by
      have := head_bitText h
      rcases e.1 with e | e
      · exact this.1 e
      · exact this.2 e)
  · rw [fromToBitStr_plus m h hlen]
    simp
  · rw [fromToBitStr_minus m h hlen]
    simp

theorem fromToHexStr_plain (m : Mode) {s : List Byte} (h : HexText s) (hlen : 4 * s.length < 2 ^ 32) : fromToHexStr m s = ok () := by
  obtain ⟨n, hn⟩ := digitsVal_hexText h
  obtain ⟨r, h1, h2⟩ := C75_hex_str m m hn hlen (.inl rfl)
  obtain ⟨h3, h4⟩ := numeral_plus (bits := 4) hn (s := s) (.inl rfl)
  obtain ⟨r', h5, h6⟩ := (C36_from_hex_str m (s := s) (by omega)).2.1 _ h3
  rw [h1] at h5
  cases h5
  obtain ⟨e1, e2⟩ := api_fromHexStr h1
  have hw : r.width = 4 * s.length := h6.width_eq.trans h4
  unfold BitVecValue.toHexStr at h2
  have hz := assertUnusedBitsZero_of (denotes_self h6)
  rw [h4] at hz
  rw [hw] at e1 e2 h2
  unfold fromToHexStr
  dsimp only
  rw [e1, ok_bind, if_neg (head_hexText h).1, if_neg (head_hexText h).2, mulC_ok (by show _ < 18446744073709551616; omega), ok_bind,
    assertEq_of (Nat.mul_comm _ _), ok_bind,
    show List.replicate (divCeil (4 * s.length) BITS) 0#64 = valueVecZeros (4 * s.length) from rfl, e2, ok_bind]
  dsimp only [unwrap]
  rw [ok_bind, hz, ok_bind, if_neg (head_hexText h).2, h2, ok_bind, expectText_plain _ (head_hexText h)]
  exact assertEq_self _

theorem fromToHexStr_plus (m : Mode) {ds : List Byte} (h : HexText ds) (hlen : 4 * (ds.length + 1) < 2 ^ 32) :
    fromToHexStr m (ch '+' :: ds) = ok () := by
  obtain ⟨n, hn⟩ := digitsVal_hexText h
  obtain ⟨r, h1, h2⟩ := C75_hex_str m m hn (by omega) (.inr rfl)
  obtain ⟨h3, h4⟩ := numeral_plus (bits := 4) hn (s := ch '+' :: ds) (.inr rfl)
  obtain ⟨r', h5, h6⟩ := (C36_from_hex_str m (s := ch '+' :: ds) (by omega)).2.1 _ h3
  rw [h1] at h5
  cases h5
  obtain ⟨e1, e2⟩ := api_fromHexStr h1
  have hw : r.width = 4 * ds.length := h6.width_eq.trans h4
  unfold BitVecValue.toHexStr at h2
  have hz := assertUnusedBitsZero_of (denotes_self h6)
  rw [h4] at hz
  rw [hw] at e1 e2 h2
  unfold fromToHexStr
  dsimp only
  rw [e1, ok_bind, if_pos (by rfl), subC_ok (by simp), ok_bind, List.length_cons, Nat.add_sub_cancel,
    mulC_ok (by show _ < 18446744073709551616; omega), ok_bind, assertEq_of (Nat.mul_comm _ _), ok_bind,
    show List.replicate (divCeil (4 * ds.length) BITS) 0#64 = valueVecZeros (4 * ds.length) from rfl, e2, ok_bind]
  dsimp only [unwrap]
  rw [ok_bind, hz, ok_bind, if_neg (plus_ne _), h2, ok_bind, expectText_plus]
  exact assertEq_self _

theorem fromToHexStr_minus (m : Mode) {ds : List Byte} (h : HexText ds) (hlen : 4 * (ds.length + 1) < 2 ^ 32) :
    fromToHexStr m (ch '-' :: ds) = ok () := by
  obtain ⟨n, hn⟩ := digitsVal_hexText h
  obtain ⟨r, h1, h2⟩ := C75_hex_str_signed m m hn (by omega)
  obtain ⟨h3, h4⟩ := numeral_minus (bits := 4) hn
  obtain ⟨r', h5, h6⟩ := (C36_from_hex_str m (s := ch '-' :: ds) (by omega)).2.1 _ h3
  rw [h1] at h5
  cases h5
  obtain ⟨e1, e2⟩ := api_fromHexStr h1
  have hw : r.width = 4 * ds.length + 1 := h6.width_eq.trans h4
  unfold BitVecValue.toHexStrSigned at h2
  have hz := assertUnusedBitsZero_of (denotes_self h6)
  rw [h4] at hz
  rw [hw] at e1 e2 h2
  unfold fromToHexStr
  dsimp only
  rw [e1, ok_bind, if_neg (minus_ne _), if_pos (by rfl), subC_ok (by simp), ok_bind, List.length_cons, Nat.add_sub_cancel,
    mulC_ok (by show _ < 18446744073709551616; omega), ok_bind, addC_ok (by show _ < 18446744073709551616; omega), ok_bind,
    assertEq_of (by rw [Nat.mul_comm]), ok_bind,
    show List.replicate (divCeil (4 * ds.length + 1) BITS) 0#64 = valueVecZeros (4 * ds.length + 1) from rfl, e2, ok_bind]
  dsimp only [unwrap]
  rw [ok_bind, hz, ok_bind, if_pos (by rfl), h2, ok_bind, expectText_minus (fun t => t.map asciiLower) (fun _ => rfl) (by decide) hn, assertEq_self]

theorem pass_fromToHexStr : test_from_to_hex_str.Passes := by
  rintro m s ⟨h, hlen⟩
  show fromToHexStr m s = ok ()
  rcases h with rfl | h | ⟨ds, h, rfl | rfl⟩
  · cases m <;> decide +kernel
  · exact fromToHexStr_plain m h hlen
  · exact fromToHexStr_plus m h hlen
  · exact fromToHexStr_minus m h hlen

/-- **C127** `test_to_from_decimal_str` passes exactly for values of at most 128 bits. -/
theorem C127_to_from_decimal_str (m : Mode) {s : List Byte} (h : test_to_from_decimal_str.generated s) :
    test_to_from_decimal_str.run m s = ok () ↔ numeralWidth 1 s ≤ 128 := by
  obtain ⟨h, hlen⟩ := h
  show toFromDecimalStr m s = ok () ↔ _
  by_cases h0 : s = []
  · subst h0
    exact iff_of_true (by cases m <;> decide +kernel) (by decide)
  have hz : ∃ z, signedVal 2 s = some z := by
    rcases h with h | h | ⟨ds, h, hs | hs⟩
    · exact absurd h h0
    · obtain ⟨n, hn⟩ := digitsVal_bitText h
      exact ⟨_, (numeral_plus (bits := 1) hn (.inl rfl)).1⟩
    · obtain ⟨n, hn⟩ := digitsVal_bitText h
      exact ⟨_, (numeral_plus (bits := 1) hn (.inr hs)).1⟩
    · obtain ⟨n, hn⟩ := digitsVal_bitText h
      exact ⟨_, hs ▸ (numeral_minus (bits := 1) hn).1⟩
  obtain ⟨z, hz⟩ := hz
  have hle : numeralWidth 1 s ≤ s.length := by
    unfold numeralWidth
    have := List.length_pos_iff.mpr h0
    split
    · omega
    · split <;> omega
  have hpos : 0 < numeralWidth 1 s := by
    rcases h with h | h | ⟨ds, h, hs | hs⟩
    · exact absurd h h0
    · obtain ⟨n, hn⟩ := digitsVal_bitText h
      rw [(numeral_plus (bits := 1) hn (.inl rfl)).2]
      have := length_pos_of h
      omega
    · obtain ⟨n, hn⟩ := digitsVal_bitText h
      rw [(numeral_plus (bits := 1) hn (.inr hs)).2]
      have := length_pos_of h
      omega
    · obtain ⟨n, hn⟩ := digitsVal_bitText h
      rw [hs, (numeral_minus (bits := 1) hn).2]
      omega
  obtain ⟨r, h1, h2⟩ := (C35_from_bit_str m (s := s) (by omega)).2.1 _ hz
  generalize BitVec.ofInt (numeralWidth 1 s) z = x at h2
  generalize numeralWidth 1 s = w at *
  unfold toFromDecimalStr
  rw [h1, ok_bind]
  dsimp only [unwrap]
  rw [ok_bind]
  by_cases hw : w ≤ 128
  · refine iff_of_true ?_ hw
    obtain ⟨t, h3, h4⟩ := C32_to_dec_str_partial m h2 (Nat.lt_of_lt_of_le x.isLt (Nat.pow_le_pow_right (by decide) hw)) (.inr (by omega))
    obtain ⟨r', h5, h6⟩ := (C37_from_str_radix_small_partial m (s := t) (radix := 10) (by decide) (by decide) hpos hw).1 _
      (numeral_plus (bits := 1) h4.1 (.inl rfl)).1 (by rw [Int.natAbs_natCast]; exact x.isLt)
    rw [h3, ok_bind, h2.width_eq, h5, ok_bind]
    dsimp only [unwrap]
    rw [ok_bind, C15_eq_owned m h2 h6, ok_bind]
    refine assert_of (decide_eq_true ⟨rfl, ?_⟩)
    rw [BitVec.ofInt_natCast, BitVec.ofNat_toNat, BitVec.setWidth_eq]
  · refine iff_of_false (fun e => ?_) hw
    cases hd : BitVecValue.toDecStr m r with
    | panic p => rw [hd] at e; cases e
    | ok t =>
      have hd' : BitVecValue.toDecStr .release r = ok t := by
        cases m
        · exact (BitVecValue_toDecStr_le r).1 t hd
        · exact hd
      have ht : ∃ n, digitsVal 10 t = some n := by
        by_cases hx : x.toNat < 2 ^ 128
        · obtain ⟨t', h3, h4⟩ := C32_to_dec_str_partial .release h2 hx (.inl rfl)
          rw [hd'] at h3
          cases h3
          exact ⟨_, h4.1⟩
        · obtain ⟨p, hp⟩ := C32_to_dec_str_wide_panics .release h2 (by omega)
          rw [hd'] at hp
          cases hp
      obtain ⟨n, hn⟩ := ht
      rw [hd, ok_bind, h2.width_eq, C37_dec_wide_panics m (by omega) (numeral_plus (bits := 1) hn (.inl rfl)).1] at e
      cases e

/-! ## src/bv/io/bytes.rs, src/bv/io/bigint.rs -/

theorem fromToBytesLe_ok (m : Mode) (b : List Byte) (hlen : 8 * b.length < 2 ^ 32) : fromToBytesLe m b = ok () := by
  have hw : ∃ w, bytesWidth m b = ok w ∧ b.length = (w + 7) / 8 ∧ bytesVal b < 2 ^ w := by
    unfold bytesWidth
    cases hl : b.getLast? with
    | none =>
      rw [List.getLast?_eq_none_iff] at hl
      subst hl
      exact ⟨0, rfl, rfl, by decide⟩
    | some last =>
      obtain ⟨ini, hb⟩ := List.getLast?_eq_some_iff.mp hl
      subst hb
      rw [List.length_append, List.length_singleton] at hlen ⊢
      have h8 := bits_le (n := last.toNat) (w := 8) last.isLt
      dsimp only
      rw [subC_ok (by omega), ok_bind, mulC_ok (by show _ < 18446744073709551616; omega), ok_bind,
        addC_ok (by show _ < 18446744073709551616; omega), ok_bind,
        Nat.mod_eq_of_lt (by show _ < 4294967296; omega)]
      refine ⟨_, rfl, by omega, ?_⟩
      rw [bytesVal_append, show (ini.length + 1 - 1) * 8 + max (bits last.toNat) 1 = 8 * ini.length + max (bits last.toNat) 1 by omega,
        Nat.pow_add]
      have h1 := bytesVal_lt ini
      have h2 : bytesVal [last] < 2 ^ max (bits last.toNat) 1 := by
        simp only [bytesVal, Nat.mul_zero, Nat.add_zero]
        unfold bits
        split
        · rename_i h; rw [h]; decide
        · exact Nat.lt_of_lt_of_le Nat.lt_log2_self (Nat.pow_le_pow_right (by decide) (Nat.le_max_left _ _))
      calc bytesVal ini + 2 ^ (8 * ini.length) * bytesVal [last]
          < 2 ^ (8 * ini.length) + 2 ^ (8 * ini.length) * bytesVal [last] := by omega
        _ = 2 ^ (8 * ini.length) * (bytesVal [last] + 1) := by rw [Nat.mul_add, Nat.mul_one, Nat.add_comm]
        _ ≤ _ := Nat.mul_le_mul_left _ h2
  obtain ⟨w, h1, h2, h3⟩ := hw
  obtain ⟨r, h4, h5, h6⟩ := C40_bytes_first m (by omega) h2 h3
  unfold fromToBytesLe
  rw [h1, ok_bind]
  unfold BitVecValue.fromBytesLe at h4
  have hd := h5.denotes
  cases hr : Bytes.fromBytesLe m b w (valueVecZeros w) with
  | panic p => rw [hr] at h4; cases h4
  | ok o =>
    rw [hr] at h4
    cases h4
    dsimp only
    rw [show List.replicate (divCeil w BITS) 0#64 = valueVecZeros w from rfl, hr, ok_bind, assertUnusedBitsZero_of hd, ok_bind]
    exact assertEq_of h6.symm

theorem pass_fromToBytesLe : test_from_to_bytes_le.Passes := fromToBytesLe_ok

theorem pass_fromToBigInt : test_from_to_big_int.Passes := by
  rintro m ⟨t, neg⟩ ⟨n, h, hn⟩
  dsimp only at h
  show (match digitsVal 10 t with
    | some n => fromToBigInt m (if neg then -(n : Int) else n)
    | none => .panic .unwrap) = ok ()
  rw [h]
  dsimp only
  have hz : (if neg then -(n : Int) else n).natAbs = n := by cases neg <;> simp
  generalize (if neg then -(n : Int) else n) = z at hz
  obtain ⟨r, h1, h2, h3⟩ := C42_of_big_int m (z := z) (B := 2 ^ 32 - 64) (by omega) (by rw [hz]; exact hn)
  unfold BitVecValue.ofBigInt at h1
  unfold fromToBigInt
  cases hw : Big.countBigIntBits m z with
  | panic p => rw [hw] at h1; cases h1
  | ok w =>
    rw [hw, ok_bind] at h1
    rw [ok_bind, show List.replicate (divCeil w BITS) 0#64 = valueVecZeros w from rfl]
    unfold BitVecValue.fromBigInt at h1
    cases hr : Big.fromBigInt m z w (valueVecZeros w) with
    | panic p => rw [hr] at h1; cases h1
    | ok o =>
      rw [hr] at h1
      cases h1
      change Big.toBigInt m o w = ok z at h3
      rw [ok_bind, assertUnusedBitsZero_of h2.denotes, ok_bind, h3, ok_bind, assertEq_self]

theorem pass_fromToBigUint : test_from_to_big_uint.Passes := by
  rintro m t ⟨n, h, hn⟩
  show (match digitsVal 10 t with
    | some n => fromToBigUint m n
    | none => .panic .unwrap) = ok ()
  rw [h]
  dsimp only
  obtain ⟨r, h1, h2, h3, _⟩ := C41_of_big_uint m (n := n) (B := 2 ^ 32 - 64) (by omega) hn
  unfold BitVecValue.ofBigUint at h1
  unfold fromToBigUint
  cases hw : Big.countBigUintBits m n with
  | panic p => rw [hw] at h1; cases h1
  | ok w =>
    rw [hw, ok_bind] at h1
    rw [ok_bind, show List.replicate (divCeil w BITS) 0#64 = valueVecZeros w from rfl]
    unfold BitVecValue.fromBigUint at h1
    cases hr : Big.fromBigUint m n w (valueVecZeros w) with
    | panic p => rw [hr] at h1; cases h1
    | ok o =>
      rw [hr] at h1
      cases h1
      change Big.toBigUint o = n at h3
      rw [ok_bind, assertUnusedBitsZero_of h2.denotes, ok_bind, h3, assertEq_self]

/-! ## src/bv/borrowed.rs, src/bv/indexed.rs, tests/value.rs -/

theorem pass_checkHash : borrowed_test_is_neg.Passes := by
  rintro m s ⟨h, hlen⟩
  obtain ⟨n, hn⟩ := digitsVal_bitText h
  obtain ⟨h3, h4⟩ := numeral_plus (bits := 1) hn (s := s) (.inl rfl)
  obtain ⟨r, h5, h6⟩ := (C35_from_bit_str m (s := s) (by omega)).2.1 _ h3
  show checkHash m s = ok ()
  unfold checkHash
  rw [h5, ok_bind]
  dsimp only [unwrap]
  rw [ok_bind, show r.ofRef = r from rfl, C15_eq_owned m h6 h6, ok_bind, assert_of (decide_eq_true ⟨rfl, rfl⟩), ok_bind]
  exact assertEq_self _

theorem pass_interner : prop_test_interner.Passes := by
  rintro m ⟨z, w⟩ ⟨h0, hw, hz⟩
  dsimp only at h0 hw hz
  show internerSame m z w = ok ()
  obtain ⟨v, h1, h2⟩ := C42_from_big_int m h0 hw z
  have hist : History [v, v] := by
    refine ⟨?_, ?_⟩
    · intro u hu
      have : u = v := by simpa using hu
      subst this
      exact ⟨h2.canonical, by rw [h2.width_eq]; exact h0⟩
    · simp only [totalWords, List.map_cons, List.map_nil, List.sum_cons, List.sum_nil, h2.width_eq]
      omega
  obtain ⟨s, is, h3, h4, h5⟩ := C46_read_back m [v, v] hist
  obtain ⟨i0, i1, h6, h7, h8⟩ := C47_unique m [v, v] hist h3 0 1 v v rfl rfl
  have he : i0 = i1 := h8.mpr ⟨rfl, rfl⟩
  have h9 := h5 0 v i0 rfl h6
  unfold internAll internAll internAll at h3
  unfold internerSame
  rw [h1, ok_bind]
  cases ha : ValueInterner.getIndex m .new v with
  | panic p => rw [ha] at h3; cases h3
  | ok o =>
    obtain ⟨s1, j0⟩ := o
    rw [ha, ok_bind] at h3
    rw [ok_bind]
    dsimp only at h3 ⊢
    rw [ok_bind]
    cases hb : ValueInterner.getIndex m s1 v with
    | panic p => rw [hb] at h3; cases h3
    | ok o =>
      obtain ⟨s2, j1⟩ := o
      rw [hb] at h3
      cases h3
      cases h6
      cases h7
      subst he
      rw [ok_bind]
      dsimp only
      rw [assertEq_self, ok_bind, assertEq_self, ok_bind, h9, ok_bind, ok_bind, C15_eq_owned m h2 h2, ok_bind]
      exact assert_of (decide_eq_true ⟨rfl, rfl⟩)

theorem pass_i64 : i64_roundtrip.Passes := by
  intro m v _
  show i64Roundtrip m v = ok ()
  obtain ⟨r, h1, h2⟩ := C05_i64_round_trip_partial m (w := 64) (by decide) (by decide) v
    (by have := BitVec.le_toInt v; have := BitVec.toInt_lt (x := v); constructor <;> assumption) (.inl (by decide))
  unfold i64Roundtrip
  rw [h1, ok_bind, h2, ok_bind]
  exact assertEq_self _

theorem pass_u64 : u64_roundtrip.Passes := by
  intro m v _
  show u64Roundtrip m v = ok ()
  obtain ⟨r, h1, h2⟩ := C05_u64_round_trip m (w := 64) (by decide) (by decide) v v.isLt
  unfold u64Roundtrip
  rw [h1, ok_bind, h2]
  exact assertEq_self _

theorem pass_i32 : i32_to_ibig.Passes := by
  intro m v _
  show i32ToIbig m v = ok ()
  have hv : (v.signExtend 64).toInt = v.toInt := BitVec.toInt_signExtend_of_le (by decide)
  have h1 := BitVec.le_toInt v
  have h2 := BitVec.toInt_lt (x := v)
  obtain ⟨r, z, h3, h4, h5⟩ := C02_from_i64 m (w := 32) (by decide) (by decide) (v.signExtend 64) (by rw [hv]; exact ⟨h1, h2⟩)
  unfold i32ToIbig
  rw [h3, ok_bind, C42_to_big_int m h4, ok_bind, h5, hv, assertEq_self]

/-! ## The remaining tests -/

/-- **C127** `test_mul` passes exactly for widths of at most 64 bits. -/
theorem C127_mul (m : Mode) {a b : Int} {w : Nat} (ha : BigIntOf w a) (hb : BigIntOf w b) :
    test_mul.run m (a, b, w) = ok () ↔ w ≤ 64 := by
  show mul m a b w = ok () ↔ _
  by_cases hw : w ≤ 64
  · refine iff_of_true (arith_of m ha hb fun va vb h1 h2 => ?_) hw
    obtain ⟨r, h3, h4⟩ := C09_mul_partial m ha.1 hw h1 h2
    rw [BitVecValue.mul, BitVecValue.arithBin_eq (w := w) rfl rfl h1.length_eq h2.length_eq] at h3
    dsimp only at h3
    rw [← BitVec.ofInt_mul] at h4
    cases hr : Arith.mul m (valueVecZeros w) va vb w with
    | panic p => rw [hr] at h3; cases h3
    | ok o =>
      rw [hr] at h3
      cases h3
      exact ⟨o, rfl, h4⟩
  · refine iff_of_false (fun e => ?_) hw
    obtain ⟨va, h1, h2⟩ := fromBigInt_eq m ha
    obtain ⟨vb, h3, h4⟩ := fromBigInt_eq m hb
    unfold mul arith at e
    rw [h1, ok_bind, h3, ok_bind, show Arith.mul m (valueVecZeros w) va vb w = .panic .todo by unfold Arith.mul; rw [if_neg hw]] at e
    cases e

theorem bitText_one' (b : Bool) : ch '1' = bitText b ↔ b = true := by cases b <;> decide

/-- **C127** `test_shift_left` fails exactly when the amount is a multiple of 64 below the width, the width is not a multiple of 64,
and there is a 1 among the digits that are shifted into the unused part of the last word. -/
theorem C127_shift_left (m : Mode) {s : List Byte} {n : Nat} (h : ShiftArgs (s, n)) :
    test_shift_left.run m (s, n) = ok () ↔
      ¬ (n % 64 = 0 ∧ n < s.length ∧ s.length % 64 ≠ 0 ∧ ch '1' ∈ (s.take n).drop (n - (64 - s.length % 64))) := by
  obtain ⟨v, u, x, y, h1, h2, h3, h4, h5⟩ := shift_eq m h false false (.inr rfl)
  have hpos := length_pos_of h.1
  obtain ⟨r, hr1, hr2, hr3⟩ := Arith.shiftLeft_spec (m := m) (d := valueVecZeros s.length) (b := u) hpos h1.width_lt
    (length_valueVecZeros _) h1.length_eq (List.length_pos_iff.mp (h2.len_pos hpos))
  have hu : wordsVal u = n := h2.val_eq.trans h4
  rw [length_valueVecZeros] at hr2 hr3
  rw [hu] at hr3
  show shift m s n false false = ok () ↔ _
  rw [h5 r (by rw [if_neg (by decide), hr1])]
  have hcase : (∀ i, s.length ≤ i → bit r i = false) ↔
      ¬ (n % 64 = 0 ∧ n < s.length ∧ s.length % 64 ≠ 0 ∧ ch '1' ∈ (s.take n).drop (n - (64 - s.length % 64))) := by
    have hget : ∀ k, (∃ hk : k < s.length, s[k] = ch '1') ↔ k < s.length ∧ x.getLsbD (s.length - 1 - k) = true := by
      intro k
      constructor
      · rintro ⟨hk, e⟩
        refine ⟨hk, ?_⟩
        have := text_get x k
        rw [h3, if_pos hk, List.getElem?_eq_getElem hk, Option.some.injEq, e, bitText_one'] at this
        exact this
      · rintro ⟨hk, e⟩
        refine ⟨hk, ?_⟩
        have := text_get x k
        rw [h3, if_pos hk, List.getElem?_eq_getElem hk, Option.some.injEq] at this
        rw [this, (bitText_one' _).mpr e]
    constructor
    · rintro hz ⟨c1, c2, c3, c4⟩
      obtain ⟨j, hj, ej⟩ := List.getElem_of_mem c4
      rw [List.length_drop, List.length_take] at hj
      rw [List.getElem_drop, List.getElem_take] at ej
      have := (hget (n - (64 - s.length % 64) + j)).mp ⟨by omega, ej⟩
      have hb := hz (s.length - 1 - (n - (64 - s.length % 64) + j) + n) (by omega)
      rw [hr3, decide_eq_true c2, if_pos c1, decide_eq_true (by omega), decide_eq_true (by omega), Nat.add_sub_cancel, h1.bit,
        this.2] at hb
      cases hb
    · intro hc i hi
      apply Bool.eq_false_iff.mpr
      intro hb
      rw [hr3] at hb
      simp only [Bool.and_eq_true, decide_eq_true_eq] at hb
      obtain ⟨⟨⟨b1, b2⟩, b3⟩, b4⟩ := hb
      by_cases c1 : n % 64 = 0
      · rw [if_pos c1] at b2
        rw [h1.bit] at b4
        have hlt : i - n < s.length := by
          apply Classical.byContradiction
          intro hge
          rw [BitVec.getLsbD_of_ge _ _ (by omega)] at b4
          cases b4
        refine hc ⟨c1, b1, by omega, ?_⟩
        obtain ⟨hk, e⟩ := (hget (s.length - 1 - (i - n))).mpr
          ⟨by omega, by rw [show s.length - 1 - (s.length - 1 - (i - n)) = i - n by omega]; exact b4⟩
        have hmem := List.getElem_mem (l := (s.take n).drop (n - (64 - s.length % 64)))
          (n := s.length - 1 - (i - n) - (n - (64 - s.length % 64))) (by rw [List.length_drop, List.length_take]; omega)
        rw [List.getElem_drop, List.getElem_take] at hmem
        have hidx : n - (64 - s.length % 64) + (s.length - 1 - (i - n) - (n - (64 - s.length % 64))) = s.length - 1 - (i - n) := by omega
        simp only [hidx] at hmem
        rwa [e] at hmem
      · rw [if_neg c1] at b2
        omega
  rw [← hcase, ← assertUnusedBitsZero_ok hr2]
  constructor
  · intro e
    cases ha : assertUnusedBitsZero r s.length with
    | panic p => rw [ha] at e; cases e
    | ok _ => rfl
  · intro e
    have hz := (assertUnusedBitsZero_ok hr2).mp e
    have hd : Denotes ⟨s.length, r⟩ (x <<< n) := Denotes.of_bit h1.width_lt rfl hr2 fun i => by
      dsimp only
      by_cases hi : i < s.length
      · rw [hr3, h1.bit, BitVec.getLsbD_shiftLeft, decide_eq_true hi, Bool.true_and]
        have : i < if n % 64 = 0 then 64 * ((s.length + 63) / 64) else s.length := by split <;> omega
        rw [decide_eq_true this, Bool.and_true]
        by_cases hn : n ≤ i
        · rw [decide_eq_true (p := n < s.length) (by omega), decide_eq_true hn, decide_eq_false (p := i < n) (by omega)]; rfl
        · rw [decide_eq_false hn, decide_eq_true (p := i < n) (by omega), Bool.and_false]; rfl
      · rw [hz i (by omega), BitVec.getLsbD_of_ge _ _ (by omega)]
    rw [e, ok_bind, toBitStr_words hd, ok_bind, text_shiftLeft, if_neg (by decide), assertEq_self]

/-! ## C127 -/

end Tests
open Tests

/-- **C127, full statement** (false of the code, see `C127_refuted`): every randomised test of the repository passes on all arguments
that its generators describe, in all builds. -/
def C127_statement : Prop := ∀ t ∈ Tests.all, t.Passes

/-- **C127, proved part**: all tests except `test_shift_left`, `test_mul`, `test_from_to_bit_str` and `test_to_from_decimal_str`. Missing:
these four fail on some of their arguments; `C127_shift_left`, `C127_mul`, `C127_from_to_bit_str` and `C127_to_from_decimal_str` say on
which. -/
theorem C127_passes_partial (t : RandomTest) (h : t ∈ Tests.all) (h1 : t ≠ test_shift_left) (h2 : t ≠ test_mul)
    (h3 : t ≠ test_from_to_bit_str) (h4 : t ≠ test_to_from_decimal_str) : t.Passes := by
  unfold Tests.all at h
  simp only [List.mem_cons, List.not_mem_nil, or_false] at h
  rcases h with rfl | rfl | rfl | rfl | rfl | rfl | rfl | rfl | rfl | rfl | rfl | rfl | rfl | rfl | rfl | rfl | rfl | rfl | rfl | rfl |
    rfl | rfl | rfl | rfl | rfl | rfl | rfl | rfl
  · exact pass_isNeg
  · exact pass_concat
  · exact pass_slice
  · exact pass_shiftRight
  · exact absurd rfl h1
  · exact pass_arithmeticShiftRight
  · exact pass_zeroExtend
  · exact pass_signExtend
  · exact pass_add
  · exact pass_sub
  · exact absurd rfl h2
  · exact pass_cmpGreater
  · exact pass_cmpGreaterSigned
  · exact pass_cmpGreaterEqual
  · exact pass_cmpGreaterEqualSigned
  · exact pass_cmpEqual
  · exact pass_cmpEqualSigned
  · exact absurd rfl h3
  · exact pass_fromToHexStr
  · exact absurd rfl h4
  · exact pass_fromToBytesLe
  · exact pass_fromToBigInt
  · exact pass_fromToBigUint
  · exact pass_checkHash
  · exact pass_interner
  · exact pass_i64
  · exact pass_u64
  · exact pass_i32

/-- **C127, why the failures are not seen**: a generator draws at most 32 digits for each `+` in a pattern, and no generated text of that
length makes one of the three tests that are not ignored fail. -/
theorem C127_short (m : Mode) :
    (∀ a, test_shift_left.generated a → a.1.length ≤ 32 → test_shift_left.run m a = ok ()) ∧
    (∀ s, test_from_to_bit_str.generated s → s.length ≤ 33 → test_from_to_bit_str.run m s = ok ()) ∧
    (∀ s, test_to_from_decimal_str.generated s → s.length ≤ 33 → test_to_from_decimal_str.run m s = ok ()) := by
  refine ⟨fun ⟨s, n⟩ h hl => ?_, fun s h hl => ?_, fun s h hl => ?_⟩
  · refine (C127_shift_left m h).mpr fun ⟨c1, c2, _, c4⟩ => ?_
    have : n = 0 := by dsimp only at hl; omega
    subst this
    simp at c4
  · refine (C127_from_to_bit_str m h).mpr fun ⟨c1, c2⟩ => ?_
    obtain ⟨h, _⟩ := h
    rcases h with rfl | h | ⟨ds, h, rfl | rfl⟩
    · simp at c1
    · have := head_bitText h
      rcases c1 with c1 | c1
      · exact this.1 c1
      · exact this.2 c1
    all_goals
      have := length_pos_of h
      rw [List.length_cons] at hl c2
      omega
  · refine (C127_to_from_decimal_str m h).mpr ?_
    unfold numeralWidth
    change List.length s ≤ 33 at hl
    split
    · omega
    · split <;> omega

/-- **C127 is false of the code**: a `+` and 64 zeros are not printed as 64 zeros. -/
theorem C127_refuted : ¬ C127_statement := fun h => by
  have h1 : test_from_to_bit_str.generated (ch '+' :: List.replicate 64 (ch '0')) :=
    ⟨.inr (.inr ⟨List.replicate 64 (ch '0'), ⟨by decide, fun c hc => .inl (List.eq_of_mem_replicate hc)⟩, .inl rfl⟩), by decide⟩
  have h2 := h test_from_to_bit_str (by simp [Tests.all]) .debug _ h1
  exact (C127_from_to_bit_str .debug h1).mp h2 ⟨.inl rfl, by decide⟩

/-! Arguments that the generators describe, and failures of the other three tests. -/

example : test_slice.generated ((List.replicate 99 (ch '1')), 70, 3) ∧ test_concat.generated ([ch '1', ch '0'], [ch '1']) ∧
    test_add.generated (-5, 7, 90) ∧ test_from_to_hex_str.generated (ch '-' :: [ch 'F', ch '0']) :=
  ⟨⟨⟨by decide, fun c hc => .inr (List.eq_of_mem_replicate hc)⟩, by decide, by decide, by decide⟩,
    ⟨⟨by decide, by decide⟩, ⟨by decide, by decide⟩, by decide⟩, ⟨⟨by decide, by decide, by decide⟩, by decide, by decide, by decide⟩,
    .inr (.inr ⟨_, ⟨by decide, by decide⟩, .inr rfl⟩), by decide⟩

example : ShiftArgs (List.replicate 65 (ch '1'), 64) ∧ ∀ m, test_shift_left.run m (List.replicate 65 (ch '1'), 64) ≠ ok () := by
  have h : ShiftArgs (List.replicate 65 (ch '1'), 64) :=
    ⟨⟨by decide, fun c hc => .inr (List.eq_of_mem_replicate hc)⟩, by decide, by decide, by decide⟩
  exact ⟨h, fun m e => (C127_shift_left m h).mp e (by decide)⟩

example (m : Mode) : test_mul.run m (3, 5, 65) ≠ ok () ∧ test_mul.run m (-3, 5, 64) = ok () :=
  ⟨fun e => absurd ((C127_mul m ⟨by decide, by decide, by decide⟩ ⟨by decide, by decide, by decide⟩).mp e) (by decide),
    (C127_mul m ⟨by decide, by decide, by decide⟩ ⟨by decide, by decide, by decide⟩).mpr (by decide)⟩

example (m : Mode) : test_to_from_decimal_str.run m (List.replicate 129 (ch '1')) ≠ ok () := fun e =>
  absurd ((C127_to_from_decimal_str m ⟨.inr (.inl ⟨by decide +kernel, fun c hc => .inr (List.eq_of_mem_replicate hc)⟩), by decide +kernel⟩).mp e)
    (by decide +kernel)

end Baa

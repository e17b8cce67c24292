import Verif.Props.Arith
import Verif.Props.Convert
import Verif.Props.Slice
import Verif.Props.Compare
import Verif.Spec.Checksum

/-!
# C155: a cyclic redundancy check detects bursts
-/

namespace Baa
open Res

variable {w : Nat}

/-- One step on bit-vectors. -/
def crcBv (g r : BitVec w) (b : Bool) : BitVec w := ((r + r) ^^^ (if b then 1#w else 0#w)) ^^^ (if r.msb then g else 0#w)

theorem add_self_getLsbD_zero (r : BitVec w) : (r + r).getLsbD 0 = false := by
  rw [BitVec.getLsbD, BitVec.toNat_add, Nat.testBit_zero, decide_eq_false_iff_not]
  rcases Nat.eq_zero_or_pos w with rfl | h
  · simp [Nat.mod_one]
  · obtain ⟨k, rfl⟩ : ∃ k, w = k + 1 := ⟨w - 1, by omega⟩
    rw [Nat.mod_mod_of_dvd _ ⟨2 ^ k, by rw [Nat.pow_succ, Nat.mul_comm]⟩]
    omega

theorem crcStep_spec (m : Mode) (hw : 0 < w) {g r : BitVecValue} {x y : BitVec w} (hg : Denotes g x) (hr : Denotes r y) (b : Bool) :
    ∃ s, crcStep m g r b = ok s ∧ Denotes s (crcBv x y b) := by
  obtain ⟨d, h1, d1⟩ := C06_add m hw hr hr
  have he : ∃ e, (if b then d.setBit 0 else ok d) = ok e ∧ Denotes e ((y + y) ^^^ (if b then 1#w else 0#w)) := by
    cases b with
    | false => exact ⟨d, rfl, by simpa using d1⟩
    | true =>
      obtain ⟨e, v, h2, d2, hv⟩ := C24_set_bit d1 (pos := 0) hw
      refine ⟨e, h2, ?_⟩
      have : v = (y + y) ^^^ (if true then 1#w else 0#w) := by
        apply BitVec.eq_of_getLsbD_eq
        intro j hj
        rw [hv, if_pos rfl, BitVec.getLsbD_xor, BitVec.getLsbD_one]
        by_cases e : j = 0
        · subst e
          rw [add_self_getLsbD_zero]
          simp [hw]
        · simp [e]
      exact this ▸ d2
  obtain ⟨e, h2, d2⟩ := he
  unfold crcStep crcBv
  rw [(C25_is_negative m hw hr).1, ok_bind, h1, ok_bind]
  by_cases c : y.msb = true
  · obtain ⟨s, h3, d3⟩ := C10_xor m d2 hg
    refine ⟨s, ?_, by rw [if_pos c]; exact d3⟩
    cases b <;> simp_all
  · refine ⟨e, ?_, by rw [if_neg c]; simpa using d2⟩
    cases b <;> simp_all

theorem crc_spec (m : Mode) (hw : 0 < w) {g : BitVecValue} {x : BitVec w} (hg : Denotes g x) (bs : List Bool) :
    ∀ {r : BitVecValue} {y : BitVec w}, Denotes r y → ∃ s, crc m g r bs = ok s ∧ Denotes s (bs.foldl (crcBv x) y) := by
  induction bs with
  | nil => exact fun hr => ⟨_, rfl, hr⟩
  | cons b bs ih =>
    intro r y hr
    obtain ⟨s, h1, d1⟩ := crcStep_spec m hw hg hr b
    obtain ⟨t, h2, d2⟩ := ih d1
    exact ⟨t, by rw [crc, h1, ok_bind, h2], d2⟩

theorem testBit_double (n i : Nat) : (2 * n).testBit i = (decide (1 ≤ i) && n.testBit (i - 1)) := by
  cases i with
  | zero => simp [Nat.testBit_zero]
  | succ i =>
    rw [Nat.testBit_succ, Nat.mul_div_cancel_left n (by decide)]
    simp

theorem testBit_toNat_bool (b : Bool) (i : Nat) : b.toNat.testBit i = (decide (i = 0) && b) := by
  cases i with
  | zero => cases b <;> rfl
  | succ i => cases b <;> simp [Nat.testBit_succ]

theorem double_xor (a b : Nat) : 2 * (a ^^^ b) = (2 * a) ^^^ (2 * b) := by
  apply Nat.eq_of_testBit_eq
  intro i
  simp only [Nat.testBit_xor, testBit_double]
  cases decide (1 ≤ i) <;> simp

theorem double_add_bit (n : Nat) (b : Bool) : 2 * n + b.toNat = (2 * n) ^^^ b.toNat := by
  apply Nat.eq_of_testBit_eq
  intro i
  rw [Nat.testBit_xor, testBit_double, testBit_toNat_bool]
  cases i with
  | zero => cases b <;> simp [Nat.testBit_zero] <;> omega
  | succ i =>
    rw [Nat.testBit_succ]
    have : (2 * n + b.toNat) / 2 = n := by cases b <;> simp <;> omega
    rw [this]
    simp

theorem testBit_generator (g : BitVec w) (i : Nat) : (2 ^ w + g.toNat).testBit i = (decide (i = w) ^^ g.getLsbD i) := by
  rcases Nat.lt_trichotomy i w with h | h | h
  · rw [Nat.testBit_two_pow_add_gt h, BitVec.getLsbD]
    simp [Nat.ne_of_lt h]
  · subst h
    rw [Nat.testBit_two_pow_add_eq]
    simp [BitVec.getLsbD, Nat.testBit_lt_two_pow g.isLt]
  · have hg := g.isLt
    have : 2 ^ w + g.toNat < 2 ^ i := by
      have : 2 ^ (w + 1) ≤ 2 ^ i := Nat.pow_le_pow_right (by decide) h
      omega
    rw [Nat.testBit_lt_two_pow this, BitVec.getLsbD_of_ge g i (by omega)]
    simp
    omega

/-- A step without truncation. -/
theorem crcBv_toNat (hw : 0 < w) (g r : BitVec w) (b : Bool) :
    (crcBv g r b).toNat = ((2 * r.toNat) ^^^ b.toNat) ^^^ (if r.msb then 2 ^ w + g.toNat else 0) := by
  apply Nat.eq_of_testBit_eq
  intro i
  have e1 : (if r.msb then 2 ^ w + g.toNat else 0).testBit i = (r.msb && (decide (i = w) ^^ g.getLsbD i)) := by
    cases r.msb <;> simp [testBit_generator]
  have e2 : (if r.msb then g else 0#w).getLsbD i = (r.msb && g.getLsbD i) := by
    cases r.msb <;> simp
  have e3 : (if b then 1#w else 0#w).getLsbD i = (decide (i = 0) && b) := by
    cases b <;> simp [BitVec.getLsbD_one, hw]
  have e4 : (r + r).getLsbD i = (decide (i < w) && (2 * r.toNat).testBit i) := by
    rw [BitVec.getLsbD, BitVec.toNat_add, Nat.testBit_mod_two_pow, Nat.two_mul]
  have e5 : r.msb = r.toNat.testBit (w - 1) := by rw [BitVec.msb_eq_getLsbD_last]; rfl
  rw [crcBv, ← BitVec.getLsbD, BitVec.getLsbD_xor, BitVec.getLsbD_xor, Nat.testBit_xor, Nat.testBit_xor, e1, e2, e3, e4,
    testBit_toNat_bool, testBit_double]
  rcases Nat.lt_trichotomy i w with h | h | h
  · simp [h, Nat.ne_of_lt h]
  · subst h
    rw [BitVec.getLsbD_of_ge g i (Nat.le_refl _), ← e5]
    have : i ≠ 0 := by omega
    have h1 : 1 ≤ i := by omega
    simp [this, h1]
  · rw [BitVec.getLsbD_of_ge g i (by omega)]
    have : r.toNat.testBit (i - 1) = false := Nat.testBit_lt_two_pow (Nat.lt_of_lt_of_le r.isLt (Nat.pow_le_pow_right (by decide) (by omega)))
    simp [this, Nat.not_lt.2 (Nat.le_of_lt h), Nat.ne_of_gt h, show i ≠ 0 by omega]

theorem messageNumber_append (bs : List Bool) (b : Bool) : messageNumber (bs ++ [b]) = 2 * messageNumber bs + b.toNat := by
  simp [messageNumber]

theorem polyTimes_append (q : List Bool) (b : Bool) (p : Nat) :
    polyTimes (q ++ [b]) p = (2 * polyTimes q p) ^^^ (if b then p else 0) := by
  simp [polyTimes]

theorem xor_cancel_four (a b c t : Nat) : (a ^^^ b) ^^^ c = (a ^^^ t) ^^^ ((b ^^^ c) ^^^ t) := by
  apply Nat.eq_of_testBit_eq
  intro i
  simp only [Nat.testBit_xor]
  cases a.testBit i <;> cases b.testBit i <;> cases c.testBit i <;> cases t.testBit i <;> rfl

theorem crcBv_remainder (hw : 0 < w) (g : BitVec w) (bs : List Bool) :
    ∀ (done q : List Bool) (r : BitVec w), messageNumber done = polyTimes q (2 ^ w + g.toNat) ^^^ r.toNat →
      ∃ q', messageNumber (done ++ bs) = polyTimes q' (2 ^ w + g.toNat) ^^^ (bs.foldl (crcBv g) r).toNat := by
  induction bs with
  | nil => exact fun done q r h => ⟨q, by simpa using h⟩
  | cons b bs ih =>
    intro done q r h
    obtain ⟨q', h'⟩ := ih (done ++ [b]) (q ++ [r.msb]) (crcBv g r b) (by
      rw [messageNumber_append, polyTimes_append, crcBv_toNat hw, double_add_bit, h, double_xor]
      exact xor_cancel_four _ _ _ _)
    exact ⟨q', by simpa using h'⟩

/-- **C155** The register is the remainder of the message on division by the generator, in the polynomials over the field with
two elements. -/
theorem C155_remainder (m : Mode) (hw : 0 < w) {g r : BitVecValue} {x : BitVec w} (hg : Denotes g x) (hr : Denotes r (0#w))
    (bs : List Bool) :
    ∃ s y q, crc m g r bs = ok s ∧ Denotes s (y : BitVec w) ∧ messageNumber bs = polyTimes q (2 ^ w + x.toNat) ^^^ y.toNat := by
  obtain ⟨s, h1, d1⟩ := crc_spec m hw hg bs hr
  obtain ⟨q, hq⟩ := crcBv_remainder hw x bs [] [] 0#w (by simp [messageNumber, polyTimes])
  exact ⟨s, _, q, h1, d1, by simpa using hq⟩

/-! ### Bursts -/

theorem add_self_getLsbD (r : BitVec w) (i : Nat) :
    (r + r).getLsbD i = (decide (i < w) && (decide (1 ≤ i) && r.getLsbD (i - 1))) := by
  rw [BitVec.getLsbD, BitVec.toNat_add, Nat.testBit_mod_two_pow, ← Nat.two_mul, testBit_double]
  rfl

theorem crcBv_getLsbD (hw : 0 < w) (g r : BitVec w) (b : Bool) (i : Nat) :
    (crcBv g r b).getLsbD i =
      (((decide (i < w) && (decide (1 ≤ i) && r.getLsbD (i - 1))) ^^ (decide (i = 0) && b)) ^^ (r.msb && g.getLsbD i)) := by
  have e2 : (if r.msb then g else 0#w).getLsbD i = (r.msb && g.getLsbD i) := by
    cases r.msb <;> simp
  have e3 : (if b then 1#w else 0#w).getLsbD i = (decide (i = 0) && b) := by
    cases b <;> simp [BitVec.getLsbD_one, hw]
  rw [crcBv, BitVec.getLsbD_xor, BitVec.getLsbD_xor, e2, e3, add_self_getLsbD]

theorem crcBv_xor (hw : 0 < w) (g r s : BitVec w) (b c : Bool) :
    crcBv g r b ^^^ crcBv g s c = crcBv g (r ^^^ s) (b ^^ c) := by
  apply BitVec.eq_of_getLsbD_eq
  intro i _
  rw [BitVec.getLsbD_xor, crcBv_getLsbD hw, crcBv_getLsbD hw, crcBv_getLsbD hw, BitVec.getLsbD_xor, BitVec.msb_xor]
  cases decide (i < w) <;> cases decide (1 ≤ i) <;> cases decide (i = 0) <;> cases r.getLsbD (i - 1) <;>
    cases s.getLsbD (i - 1) <;> cases b <;> cases c <;> cases r.msb <;> cases s.msb <;> cases g.getLsbD i <;> rfl

theorem crcBv_ne_zero (hw : 0 < w) {g r : BitVec w} (hg : g.getLsbD 0 = true) (h : r ≠ 0#w) : crcBv g r false ≠ 0#w := by
  intro e
  have hm : r.msb = false := by
    have := congrArg (fun v => v.getLsbD 0) e
    simp only [crcBv_getLsbD hw, hg] at this
    simpa using this
  apply h
  apply BitVec.eq_of_getLsbD_eq
  intro i hi
  rw [BitVec.getLsbD_zero]
  by_cases c : i + 1 < w
  · have := congrArg (fun v => v.getLsbD (i + 1)) e
    simp only [crcBv_getLsbD hw, hm] at this
    simpa [c] using this
  · obtain rfl : i = w - 1 := by omega
    rw [← BitVec.msb_eq_getLsbD_last]
    exact hm

theorem foldl_crcBv_same (hw : 0 < w) {g : BitVec w} (hg : g.getLsbD 0 = true) (bs : List Bool) :
    ∀ r s : BitVec w, r ≠ s → bs.foldl (crcBv g) r ≠ bs.foldl (crcBv g) s := by
  induction bs with
  | nil => exact fun _ _ h => h
  | cons b bs ih =>
    intro r s h
    apply ih
    intro e
    have := crcBv_xor hw g r s b b
    rw [e, BitVec.xor_self, Bool.xor_self] at this
    refine crcBv_ne_zero hw hg ?_ this.symm
    intro e
    exact h (BitVec.xor_eq_zero_iff.1 e)

/-- The first `w` bits only fill the register. -/
theorem crcBv_fill (hw : 0 < w) (g : BitVec w) (bs : List Bool) :
    ∀ (k : Nat) (r : BitVec w), r.toNat < 2 ^ k → k + bs.length ≤ w → (r ≠ 0#w ∨ true ∈ bs) → bs.foldl (crcBv g) r ≠ 0#w := by
  induction bs with
  | nil => exact fun k r _ _ h => by simpa using h
  | cons b bs ih =>
    intro k r hr hk h
    have hk' : k + 1 + bs.length ≤ w := by simpa [Nat.add_assoc, Nat.add_comm 1] using hk
    have hm : r.msb = false := by
      rw [BitVec.msb_eq_getLsbD_last, BitVec.getLsbD]
      exact Nat.testBit_lt_two_pow (Nat.lt_of_lt_of_le hr (Nat.pow_le_pow_right (by decide) (by omega)))
    have hv : (crcBv g r b).toNat = 2 * r.toNat + b.toNat := by
      rw [crcBv_toNat hw, hm, double_add_bit]
      simp
    have hb : b.toNat ≤ 1 := by cases b <;> decide
    refine ih (k + 1) _ (by rw [hv, Nat.pow_succ]; omega) hk' ?_
    by_cases c : true ∈ bs
    · exact .inr c
    · left
      intro e
      have h0 : 2 * r.toNat + b.toNat = 0 := by rw [← hv, e]; rfl
      rcases h with h | h
      · exact h (BitVec.eq_of_toNat_eq (by simp; omega))
      · rcases List.mem_cons.1 h with h | h
        · subst h
          simp at h0
        · exact c h

theorem foldl_crcBv_xor (hw : 0 < w) (g : BitVec w) :
    ∀ (as bs : List Bool) (r s : BitVec w), as.length = bs.length →
      as.foldl (crcBv g) r ^^^ bs.foldl (crcBv g) s = (List.zipWith xor as bs).foldl (crcBv g) (r ^^^ s)
  | [], [], r, s, _ => rfl
  | a :: as, b :: bs, r, s, h => by
    rw [List.foldl_cons, List.foldl_cons, List.zipWith_cons_cons, List.foldl_cons, ← crcBv_xor hw]
    exact foldl_crcBv_xor hw g as bs _ _ (by simpa using h)

theorem mem_zipWith_xor : ∀ {as bs : List Bool}, as.length = bs.length → as ≠ bs → true ∈ List.zipWith xor as bs
  | [], [], _, h => absurd rfl h
  | a :: as, b :: bs, hl, h => by
    rw [List.zipWith_cons_cons, List.mem_cons]
    by_cases c : a = b
    · exact .inr (mem_zipWith_xor (by simpa using hl) (by rintro rfl; exact h (by rw [c])))
    · left
      cases a <;> cases b <;> simp_all

/-- **C155** A generator with a constant term detects every error that is confined to as many neighbouring bits as the register
has: two messages that differ there, and nowhere else, leave different registers. -/
theorem C155_burst (m : Mode) (hw : 0 < w) {g r : BitVecValue} {x y : BitVec w} (hg : Denotes g x) (hr : Denotes r y)
    (hx : x.getLsbD 0 = true) (before sent received after : List Bool) (hl : sent.length = received.length)
    (hn : sent.length ≤ w) (hne : sent ≠ received) :
    ∃ s t, crc m g r (before ++ sent ++ after) = ok s ∧ crc m g r (before ++ received ++ after) = ok t ∧
      BitVecValue.isEqual m s t = ok false := by
  obtain ⟨s, h1, d1⟩ := crc_spec m hw hg (before ++ sent ++ after) hr
  obtain ⟨t, h2, d2⟩ := crc_spec m hw hg (before ++ received ++ after) hr
  refine ⟨s, t, h1, h2, ?_⟩
  rw [C15_is_equal m d1 d2, decide_eq_false]
  simp only [List.foldl_append]
  refine foldl_crcBv_same hw hx after _ _ fun e => ?_
  have := foldl_crcBv_xor hw x sent received (before.foldl (crcBv x) y) (before.foldl (crcBv x) y) hl
  rw [e, BitVec.xor_self, BitVec.xor_self] at this
  exact crcBv_fill hw x _ 0 0#w (by simp) (by simpa [hl] using hl ▸ hn) (.inr (mem_zipWith_xor hl hne)) this.symm

/-- **C155** The registers of two messages of one length combine as the messages do. -/
theorem C155_linear (m : Mode) (hw : 0 < w) {g r z : BitVecValue} {x y : BitVec w} (hg : Denotes g x) (hr : Denotes r y)
    (hz : Denotes z (0#w)) (as bs : List Bool) (hl : as.length = bs.length) :
    ∃ s t u v, crc m g r as = ok s ∧ crc m g z bs = ok t ∧ crc m g r (List.zipWith xor as bs) = ok u ∧
      BitVecValue.xor m s t = ok v ∧ u = v := by
  obtain ⟨s, h1, d1⟩ := crc_spec m hw hg as hr
  obtain ⟨t, h2, d2⟩ := crc_spec m hw hg bs hz
  obtain ⟨u, h3, d3⟩ := crc_spec m hw hg (List.zipWith xor as bs) hr
  obtain ⟨v, h4, d4⟩ := C10_xor m d1 d2
  refine ⟨s, t, u, v, h1, h2, h3, h4, ?_⟩
  rw [foldl_crcBv_xor hw x as bs y 0#w hl, BitVec.xor_zero] at d4
  exact d3.repr_unique d4

/-- The check value of CRC-8 (generator `x^8 + x^2 + x + 1`): the text `123456789`, followed by eight zeros, leaves `0xf4`. -/
example : crc .debug (encode 0x07#8) (encode 0#8)
    (([0x31#8, 0x32#8, 0x33#8, 0x34#8, 0x35#8, 0x36#8, 0x37#8, 0x38#8, 0x39#8, 0#8].map fun c : BitVec 8 =>
      [c.getLsbD 7, c.getLsbD 6, c.getLsbD 5, c.getLsbD 4, c.getLsbD 3, c.getLsbD 2, c.getLsbD 1, c.getLsbD 0]).flatten) =
    ok (encode 0xf4#8) := by decide +kernel

/-- A burst of seventy bits in a register of two words. -/
example : ∃ s t, crc .release (encode 0x1b#70) (encode 5#70) ([true] ++ List.replicate 70 true ++ [false]) = ok s ∧
    crc .release (encode 0x1b#70) (encode 5#70) ([true] ++ List.replicate 70 false ++ [false]) = ok t ∧
    BitVecValue.isEqual .release s t = ok false :=
  C155_burst .release (by decide) (encode_denotes 0x1b#70 (by decide)) (encode_denotes 5#70 (by decide)) (by decide) _ _ _ _
    (by simp) (by simp) (by decide)

/-- The bound is sharp: an error of nine bits that equals the generator leaves an eight-bit register as it is. -/
theorem C155_bound_is_sharp :
    ∃ s, crc .debug (encode 0x07#8) (encode 0#8) [true, false, false, false, false, false, true, true, true] = ok s ∧
      crc .debug (encode 0x07#8) (encode 0#8) (List.replicate 9 false) = ok s := ⟨encode 0#8, by decide +kernel⟩

/-- Without a constant term two wrong bits next to each other can go unnoticed. -/
theorem C155_even_generator :
    ∃ s, crc .debug (encode 0x80#8) (encode 0#8) ([true, true] ++ List.replicate 7 false) = ok s ∧
      crc .debug (encode 0x80#8) (encode 0#8) ([false, false] ++ List.replicate 7 false) = ok s := ⟨encode 0#8, by decide +kernel⟩

end Baa

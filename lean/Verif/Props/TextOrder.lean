import Verif.Props.Strings
import Verif.Props.BytesBig
import Verif.Spec.Text

/-!
# C102: the texts of values are ordered like the values

Sorting the printed values of one width as strings sorts the values. The specification is the dictionary order of byte sequences, which
is the order of Rust's `str` and `[u8]`.
-/

namespace Baa
open Res

/-! ## Lemmas -/

/-- A character whose case is fixed. -/
def isLower (c : Byte) : Bool := lowerDigits.contains c

theorem digit_order : ∀ c d : Byte, isLower c = true → isLower d = true →
    ∃ x y, digitOf 36 c = some x ∧ digitOf 36 d = some y ∧ (c.toNat < d.toNat ↔ x < y) ∧ (c = d ↔ x = y) := by
  have h : ∀ i, i < 36 → ∀ j, j < 36 → ∀ c d, lowerDigits[i]? = some c → lowerDigits[j]? = some d →
      digitOf 36 c = some i ∧ digitOf 36 d = some j ∧ (c.toNat < d.toNat ↔ i < j) ∧ (c = d ↔ i = j) := by
    have h1 : ∀ i : Fin 36, ∀ j : Fin 36, digitOf 36 (lowerDigits[i.val]'(by have := i.isLt; exact this)) = some i.val ∧
        digitOf 36 (lowerDigits[j.val]'(by have := j.isLt; exact this)) = some j.val ∧
        ((lowerDigits[i.val]'(by have := i.isLt; exact this)).toNat < (lowerDigits[j.val]'(by have := j.isLt; exact this)).toNat ↔ i.val < j.val) ∧
        ((lowerDigits[i.val]'(by have := i.isLt; exact this)) = (lowerDigits[j.val]'(by have := j.isLt; exact this)) ↔ i.val = j.val) := by
      decide +kernel
    intro i hi j hj c d hc hd
    have := h1 ⟨i, hi⟩ ⟨j, hj⟩
    rw [List.getElem?_eq_getElem (show i < lowerDigits.length from hi)] at hc
    rw [List.getElem?_eq_getElem (show j < lowerDigits.length from hj)] at hd
    cases hc
    cases hd
    exact this
  intro c d hc hd
  have hc' := List.contains_iff_mem.mp hc
  have hd' := List.contains_iff_mem.mp hd
  obtain ⟨i, hi, rfl⟩ := List.getElem_of_mem hc'
  obtain ⟨j, hj, rfl⟩ := List.getElem_of_mem hd'
  exact ⟨i, j, h i hi j hj _ _ (List.getElem?_eq_getElem hi) (List.getElem?_eq_getElem hj)⟩

theorem digitOf_36 {radix : Nat} {c : Byte} {d : Nat} (hr : radix ≤ 36) (h : digitOf radix c = some d) : digitOf 36 c = some d := by
  unfold digitOf at h ⊢
  split at h
  · rename_i k hk
    split at h
    · cases h
      rw [if_pos (by omega)]
    · cases h
  · cases h

/-- Numerals of the same length: the prefix that has been read decides if it differs, else the rest does. -/
theorem digitsFrom_order {radix : Nat} (hr : radix ≤ 36) (s t : List Byte) (hlen : s.length = t.length)
    (hs : ∀ c ∈ s, isLower c = true) (ht : ∀ c ∈ t, isLower c = true) {a b n k : Nat} (h1 : digitsFrom radix a s = some n)
    (h2 : digitsFrom radix b t = some k) : (a < b → n < k) ∧ (a = b → (textLess s t = true ↔ n < k) ∧ (s = t ↔ n = k)) := by
  induction s generalizing t a b with
  | nil =>
    cases t with
    | nil =>
      cases h1
      cases h2
      refine ⟨id, fun e => ⟨⟨fun h => (by cases h), fun h => by omega⟩, ⟨fun _ => e, fun _ => rfl⟩⟩⟩
    | cons d ds => cases hlen
  | cons c cs ih =>
    cases t with
    | nil => cases hlen
    | cons d ds =>
      rw [digitsFrom] at h1 h2
      cases hc : digitOf radix c with
      | none => rw [hc] at h1; cases h1
      | some x =>
        cases hd : digitOf radix d with
        | none => rw [hd] at h2; cases h2
        | some y =>
          rw [hc] at h1
          rw [hd] at h2
          dsimp only at h1 h2
          have hx := digitOf_lt hc
          have hy := digitOf_lt hd
          obtain ⟨x', y', hx', hy', hlt, heq⟩ := digit_order c d (hs c (by simp)) (ht d (by simp))
          rw [digitOf_36 hr hc] at hx'
          rw [digitOf_36 hr hd] at hy'
          cases hx'
          cases hy'
          obtain ⟨i1, i2⟩ := ih ds (by simpa using hlen) (fun z hz => hs z (by simp [hz])) (fun z hz => ht z (by simp [hz])) h1 h2
          refine ⟨fun hab => i1 ?_, fun hab => ?_⟩
          · have : (a + 1) * radix ≤ b * radix := Nat.mul_le_mul_right _ hab
            rw [Nat.add_mul] at this
            omega
          · subst hab
            rw [textLess]
            by_cases hcd : c = d
            · rw [if_pos hcd]
              obtain ⟨j1, j2⟩ := i2 (by rw [heq.mp hcd])
              refine ⟨j1, ?_⟩
              rw [← j2, hcd]
              simp
            · rw [if_neg hcd]
              have hne : x ≠ y := fun e => hcd (heq.mpr e)
              rw [decide_eq_true_iff, hlt]
              rcases Nat.lt_or_gt_of_ne hne with h | h
              · have := i1 (by omega)
                refine ⟨⟨fun _ => this, fun _ => h⟩, ⟨fun e => ?_, fun e => by omega⟩⟩
                cases e
                exact absurd rfl hcd
              · have : k < n := by
                  -- the same statement with the two numerals exchanged
                  have key : ∀ (cs ds : List Byte), cs.length = ds.length → ∀ {a b n k : Nat}, digitsFrom radix a cs = some n →
                      digitsFrom radix b ds = some k → b < a → k < n := by
                    intro cs
                    induction cs with
                    | nil =>
                      intro ds hl a b n k g1 g2 hba
                      cases ds with
                      | nil => cases g1; cases g2; exact hba
                      | cons d ds => cases hl
                    | cons c cs ihc =>
                      intro ds hl a b n k g1 g2 hba
                      cases ds with
                      | nil => cases hl
                      | cons d ds =>
                        rw [digitsFrom] at g1 g2
                        cases hc : digitOf radix c with
                        | none => rw [hc] at g1; cases g1
                        | some u =>
                          cases hd : digitOf radix d with
                          | none => rw [hd] at g2; cases g2
                          | some v =>
                            rw [hc] at g1
                            rw [hd] at g2
                            have := digitOf_lt hd
                            refine ihc ds (by simpa using hl) g1 g2 ?_
                            have h3 : (b + 1) * radix ≤ a * radix := Nat.mul_le_mul_right _ hba
                            rw [Nat.add_mul] at h3
                            omega
                  exact key cs ds (by simpa using hlen) h1 h2 (by omega)
                refine ⟨⟨fun e => by omega, fun e => by omega⟩, ⟨fun e => ?_, fun e => by omega⟩⟩
                cases e
                exact absurd rfl hcd

theorem digitsVal_order {radix : Nat} (hr : radix ≤ 36) {s t : List Byte} (hlen : s.length = t.length)
    (hs : ∀ c ∈ s, isLower c = true) (ht : ∀ c ∈ t, isLower c = true) {n k : Nat} (h1 : digitsVal radix s = some n)
    (h2 : digitsVal radix t = some k) : textLess s t = decide (n < k) ∧ decide (s = t) = decide (n = k) := by
  unfold digitsVal at h1 h2
  split at h1
  · cases h1
  · split at h2
    · cases h2
    · obtain ⟨h3, h4⟩ := (digitsFrom_order hr s t hlen hs ht h1 h2).2 rfl
      exact ⟨Bool.eq_iff_iff.mpr (by rw [h3, decide_eq_true_iff]), by simp only [h4]⟩

/-- In radix 10 and below every digit has only one character. -/
theorem isLower_of_digit {c : Byte} {d : Nat} (h : digitOf 10 c = some d) : isLower c = true := by
  have key : ∀ c : Byte, (digitOf 10 c).isSome = true → isLower c = true := by decide +kernel
  exact key c (by rw [h]; rfl)

theorem digitOf_mono {r r' : Nat} (hr : r ≤ r') {c : Byte} {d : Nat} (h : digitOf r c = some d) : digitOf r' c = some d := by
  unfold digitOf at h ⊢
  split at h
  · split at h
    · cases h
      rw [if_pos (by omega)]
    · cases h
  · cases h

theorem isLower_of_digits {radix : Nat} (hr : radix ≤ 10) (s : List Byte) {a n : Nat} (h : digitsFrom radix a s = some n) :
    ∀ c ∈ s, isLower c = true := by
  induction s generalizing a with
  | nil => intro c hc; cases hc
  | cons c cs ih =>
    rw [digitsFrom] at h
    cases hc : digitOf radix c with
    | none => rw [hc] at h; cases h
    | some x =>
      rw [hc] at h
      intro z hz
      rcases List.mem_cons.mp hz with rfl | hz
      · exact isLower_of_digit (digitOf_mono hr hc)
      · exact ih h z hz

theorem isLower_of_digitsVal {radix : Nat} (hr : radix ≤ 10) {s : List Byte} {n : Nat} (h : digitsVal radix s = some n) :
    ∀ c ∈ s, isLower c = true := by
  unfold digitsVal at h
  split at h
  · cases h
  · exact isLower_of_digits hr s h

theorem isLower_take {c : Byte} (h : c ∈ lowerDigits.take 16) : isLower c = true :=
  List.contains_iff_mem.mpr (List.mem_of_mem_take h)

/-- The size of a numeral: below `radix ^ length`, and at least `radix ^ (length - 1)` times its first digit. -/
theorem digitsFrom_bounds {radix : Nat} (s : List Byte) {a n : Nat} (h : digitsFrom radix a s = some n) :
    a * radix ^ s.length ≤ n ∧ n < (a + 1) * radix ^ s.length := by
  induction s generalizing a with
  | nil =>
    cases h
    simp
  | cons c cs ih =>
    rw [digitsFrom] at h
    cases hc : digitOf radix c with
    | none => rw [hc] at h; cases h
    | some x =>
      rw [hc] at h
      obtain ⟨h1, h2⟩ := ih h
      have hx := digitOf_lt hc
      rw [List.length_cons, Nat.pow_succ']
      have e1 : a * (radix * radix ^ cs.length) ≤ (a * radix + x) * radix ^ cs.length := by
        rw [← Nat.mul_assoc]
        exact Nat.mul_le_mul_right _ (by omega)
      have e2 : (a * radix + x + 1) * radix ^ cs.length ≤ (a + 1) * (radix * radix ^ cs.length) := by
        rw [← Nat.mul_assoc]
        refine Nat.mul_le_mul_right _ ?_
        rw [Nat.add_mul]
        omega
      omega

theorem isDecimal_length {n : Nat} {s : List Byte} (h : IsDecimal n s) : 0 < s.length ∧ n < 10 ^ s.length ∧
    (s.length = 1 ∨ 10 ^ (s.length - 1) ≤ n) := by
  obtain ⟨h1, h2⟩ := h
  unfold digitsVal at h1
  split at h1
  · cases h1
  · rename_i hne
    have hb := digitsFrom_bounds s h1
    cases s with
    | nil => exact absurd rfl hne
    | cons c cs =>
      refine ⟨by simp, by simpa using hb.2, ?_⟩
      by_cases h0 : c = ch '0'
      · left
        rw [h2 (by rw [h0]; rfl)]
        rfl
      · right
        rw [digitsFrom] at h1
        cases hc : digitOf 10 c with
        | none => rw [hc] at h1; cases h1
        | some x =>
          rw [hc] at h1
          have hx : x ≠ 0 := by
            intro e
            subst e
            have key : ∀ c : Byte, digitOf 10 c = some 0 → c = ch '0' := by decide +kernel
            exact h0 (key c hc)
          have := (digitsFrom_bounds cs h1).1
          rw [Nat.zero_mul, Nat.zero_add] at this
          refine Nat.le_trans ?_ this
          rw [List.length_cons, Nat.add_sub_cancel]
          exact Nat.le_mul_of_pos_left _ (by omega)

theorem isDecimal_order {n k : Nat} {s t : List Byte} (hs : IsDecimal n s) (ht : IsDecimal k t) :
    shortLess s t = decide (n < k) ∧ decide (s = t) = decide (n = k) := by
  obtain ⟨s1, s2, s3⟩ := isDecimal_length hs
  obtain ⟨t1, t2, t3⟩ := isDecimal_length ht
  unfold shortLess
  have pow : ∀ {i j : Nat}, i ≤ j → 10 ^ i ≤ 10 ^ j := fun h => Nat.pow_le_pow_right (by decide) h
  rcases Nat.lt_trichotomy s.length t.length with h | h | h
  · have h3 : n < k := by
      have := pow (show s.length ≤ t.length - 1 by omega)
      rcases t3 with t3 | t3 <;> omega
    rw [decide_eq_true h, decide_eq_true h3, decide_eq_false (show ¬ n = k by omega),
      decide_eq_false (show ¬ s = t from fun e => by rw [e] at h; omega)]
    exact ⟨rfl, rfl⟩
  · have h1 := digitsVal_order (by decide) h (isLower_of_digitsVal (by decide) hs.1) (isLower_of_digitsVal (by decide) ht.1) hs.1 ht.1
    rw [decide_eq_false (show ¬ s.length < t.length by omega), decide_eq_true h, Bool.false_or, Bool.true_and]
    exact h1
  · have h3 : k < n := by
      have := pow (show t.length ≤ s.length - 1 by omega)
      rcases s3 with s3 | s3 <;> omega
    rw [decide_eq_false (show ¬ s.length < t.length by omega), decide_eq_false (show ¬ s.length = t.length by omega), Bool.false_and,
      Bool.or_false, decide_eq_false (show ¬ n < k by omega), decide_eq_false (show ¬ n = k by omega),
      decide_eq_false (show ¬ s = t from fun e => by rw [e] at h; omega)]
    exact ⟨rfl, rfl⟩

theorem bytesVal_lt' (s : List Byte) : bytesVal s < 2 ^ (8 * s.length) := by
  induction s with
  | nil => simp [bytesVal]
  | cons b bs ih =>
    have := b.isLt
    rw [bytesVal, List.length_cons, Nat.mul_add, Nat.pow_add, Nat.mul_one, Nat.mul_comm (2 ^ _)]
    omega

/-- Byte sequences of the same length, most significant byte first. -/
theorem bytes_order (s t : List Byte) (hlen : s.length = t.length) :
    textLess s t = decide (bytesVal s.reverse < bytesVal t.reverse) := by
  induction s generalizing t with
  | nil =>
    cases t with
    | nil => rfl
    | cons d ds => cases hlen
  | cons c cs ih =>
    cases t with
    | nil => cases hlen
    | cons d ds =>
      have hl : cs.length = ds.length := by simpa using hlen
      rw [textLess, List.reverse_cons, List.reverse_cons, bytesVal_append, bytesVal_append, List.length_reverse, List.length_reverse, ← hl]
      have e : ∀ b : Byte, bytesVal [b] = b.toNat := fun b => by simp [bytesVal]
      rw [e, e]
      have h1 := bytesVal_lt' cs.reverse
      have h2 := bytesVal_lt' ds.reverse
      rw [List.length_reverse] at h1 h2
      rw [← hl] at h2
      by_cases hcd : c = d
      · rw [if_pos hcd, ih ds hl, hcd]
        congr 1
        exact propext ⟨fun h => by omega, fun h => by omega⟩
      · rw [if_neg hcd]
        congr 1
        have hne : c.toNat ≠ d.toNat := fun e => hcd (BitVec.eq_of_toNat_eq e)
        generalize hp : 2 ^ (8 * cs.length) = p at *
        rcases Nat.lt_or_gt_of_ne hne with h | h
        · have : p * (c.toNat + 1) ≤ p * d.toNat := Nat.mul_le_mul_left _ h
          rw [Nat.mul_add] at this
          exact propext ⟨fun _ => by omega, fun _ => h⟩
        · have : p * (d.toNat + 1) ≤ p * c.toNat := Nat.mul_le_mul_left _ h
          rw [Nat.mul_add] at this
          exact propext ⟨fun _ => by omega, fun _ => by omega⟩

/-! ## C102 -/

/-- **C102** (binary): values of one width compare like their bit strings in dictionary order. -/
theorem C102_bits (m : Mode) {w : Nat} {a b : BitVecValue} {x y : BitVec w} (ha : Denotes a x) (hb : Denotes b y) :
    ∃ s t, BitVecValue.toBitStr a = ok s ∧ BitVecValue.toBitStr b = ok t ∧ BitVecValue.isLess m a b = ok (textLess s t) ∧
      BitVecValue.isEqual m a b = ok (decide (s = t)) := by
  rw [C16_is_less m ha hb, C15_is_equal m ha hb]
  by_cases h0 : w = 0
  · subst h0
    rw [C30_to_bit_str ha, C30_to_bit_str hb, BitVec.eq_nil x, BitVec.eq_nil y]
    exact ⟨_, _, rfl, rfl, rfl, rfl⟩
  · obtain ⟨s, h1, h2, h3⟩ := C30_to_bit_str_value (by omega) ha
    obtain ⟨t, h4, h5, h6⟩ := C30_to_bit_str_value (by omega) hb
    obtain ⟨h7, h8⟩ := digitsVal_order (by decide) (h2.trans h5.symm) (isLower_of_digitsVal (by decide) h3)
      (isLower_of_digitsVal (by decide) h6) h3 h6
    exact ⟨s, t, h1, h4, by rw [h7], by rw [h8]; simp only [BitVec.toNat_eq]⟩

/-- **C102** (hexadecimal): the same for hexadecimal strings. -/
theorem C102_hex (m : Mode) {w : Nat} {a b : BitVecValue} {x y : BitVec w} (ha : Denotes a x) (hb : Denotes b y) :
    ∃ s t, BitVecValue.toHexStr m a = ok s ∧ BitVecValue.toHexStr m b = ok t ∧ BitVecValue.isLess m a b = ok (textLess s t) ∧
      BitVecValue.isEqual m a b = ok (decide (s = t)) := by
  rw [C16_is_less m ha hb, C15_is_equal m ha hb]
  by_cases h0 : w = 0
  · subst h0
    rw [C31_to_hex_str_width_zero m ha, C31_to_hex_str_width_zero m hb, BitVec.eq_nil x, BitVec.eq_nil y]
    exact ⟨_, _, rfl, rfl, rfl, rfl⟩
  · obtain ⟨s, h1, h2, h2', h3⟩ := C31_to_hex_str m (by omega) ha
    obtain ⟨t, h4, h5, h5', h6⟩ := C31_to_hex_str m (by omega) hb
    obtain ⟨h7, h8⟩ := digitsVal_order (by decide) (h2.trans h5.symm) (fun c hc => isLower_take (h2' c hc))
      (fun c hc => isLower_take (h5' c hc)) h3 h6
    exact ⟨s, t, h1, h4, by rw [h7], by rw [h8]; simp only [BitVec.toNat_eq]⟩

/-- **C102** (decimal): values that can be printed in decimal compare like their decimal strings, the shorter one first. This also
holds for values of different widths, which the library itself does not compare. -/
theorem C102_dec (m : Mode) {w v : Nat} {a b : BitVecValue} {x : BitVec w} {y : BitVec v} (ha : Denotes a x) (hb : Denotes b y)
    {s t : List Byte} (hs : BitVecValue.toDecStr m a = ok s) (ht : BitVecValue.toDecStr m b = ok t) :
    shortLess s t = decide (x.toNat < y.toNat) ∧ (s = t ↔ x.toNat = y.toNat) ∧
      (w = v → BitVecValue.isLess m a b = ok (shortLess s t) ∧ BitVecValue.isEqual m a b = ok (decide (s = t))) := by
  have dec : ∀ {w : Nat} {a : BitVecValue} {x : BitVec w} {s : List Byte}, Denotes a x → BitVecValue.toDecStr m a = ok s →
      IsDecimal x.toNat s := by
    intro w a x s ha hs
    by_cases hx : x.toNat < 2 ^ 128
    · by_cases hw : m = .release ∨ w * 3 < 2 ^ 32
      · obtain ⟨s', h1, h2⟩ := C32_to_dec_str_partial m ha hx hw
        rw [hs] at h1
        cases h1
        exact h2
      · exfalso
        have hm : m = .debug := by cases m <;> simp_all
        subst hm
        unfold BitVecValue.toDecStr Strings.toDecStr at hs
        rw [ha.width_eq, mulC, if_neg (fun h => hw (.inr h))] at hs
        cases hs
    · obtain ⟨p, hp⟩ := C32_to_dec_str_wide_panics m ha (by omega)
      rw [hs] at hp
      cases hp
  obtain ⟨h1, h2⟩ := isDecimal_order (dec ha hs) (dec hb ht)
  refine ⟨h1, decide_eq_decide.mp h2, fun e => ?_⟩
  subst e
  rw [C16_is_less m ha hb, C15_is_equal m ha hb, h1, h2]
  simp only [BitVec.toNat_eq, and_self]

/-- **C102** (bytes): values of one width compare like their bytes, read from the most significant one. -/
theorem C102_bytes (m : Mode) {w : Nat} {a b : BitVecValue} {x y : BitVec w} (ha : Denotes a x) (hb : Denotes b y) :
    BitVecValue.isLess m a b = ok (textLess (BitVecValue.toBytesLe a).reverse (BitVecValue.toBytesLe b).reverse) ∧
    BitVecValue.isEqual m a b = ok (decide (BitVecValue.toBytesLe a = BitVecValue.toBytesLe b)) := by
  obtain ⟨h1, h2⟩ := C40_to_bytes_le ha
  obtain ⟨h3, h4⟩ := C40_to_bytes_le hb
  constructor
  · rw [C16_is_less m ha hb, bytes_order _ _ (by simp [h1, h3]), List.reverse_reverse, List.reverse_reverse, h2, h4]
  · rw [C15_is_equal m ha hb]
    congr 1
    apply decide_eq_decide.mpr
    constructor
    · intro e
      rw [ha.eq_encode, hb.eq_encode, e]
    · intro e
      apply BitVec.eq_of_toNat_eq
      rw [← h2, ← h4, e]

example : BitVecValue.toBitStr (encode 5#4) = ok ("0101".toList.map ch) ∧ BitVecValue.toBitStr (encode 6#4) = ok ("0110".toList.map ch) ∧
    textLess ("0101".toList.map ch) ("0110".toList.map ch) = true ∧
    BitVecValue.toDecStr .debug (encode 9#70) = ok ("9".toList.map ch) ∧
    BitVecValue.toDecStr .debug (encode 10#70) = ok ("10".toList.map ch) ∧
    textLess ("9".toList.map ch) ("10".toList.map ch) = false ∧ shortLess ("9".toList.map ch) ("10".toList.map ch) = true ∧
    BitVecValue.isLess .debug (encode 9#70) (encode 10#70) = ok true ∧
    textLess (BitVecValue.toBytesLe (encode 256#70)).reverse (BitVecValue.toBytesLe (encode 255#70)).reverse = false := by
  decide +kernel

end Baa

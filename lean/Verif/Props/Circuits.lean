import Verif.Props.Cache
import Verif.Spec.Circuits

/-!
# C162: circuits of gates compute what the operations compute
-/

namespace Baa
open Res

variable {w : Nat}

/-! ## Gates -/

theorem gate_xor (m : Mode) (p q : Bool) :
    BitVecValue.xor m (encode (BitVec.ofBool p)) (encode (BitVec.ofBool q)) = ok (encode (BitVec.ofBool (p ^^ q))) := by
  obtain ⟨r, h1, h2⟩ := C10_xor m (encode_denotes (BitVec.ofBool p) (by decide)) (encode_denotes (BitVec.ofBool q) (by decide))
  rw [h1, h2.eq_encode]
  cases p <;> cases q <;> rfl

theorem gate_and (m : Mode) (p q : Bool) :
    BitVecValue.and m (encode (BitVec.ofBool p)) (encode (BitVec.ofBool q)) = ok (encode (BitVec.ofBool (p && q))) := by
  obtain ⟨r, h1, h2, -⟩ := C10_and m (encode_denotes (BitVec.ofBool p) (by decide)) (encode_denotes (BitVec.ofBool q) (by decide))
  rw [h1, h2.eq_encode]
  cases p <;> cases q <;> rfl

theorem gate_or (m : Mode) (p q : Bool) :
    BitVecValue.or m (encode (BitVec.ofBool p)) (encode (BitVec.ofBool q)) = ok (encode (BitVec.ofBool (p || q))) := by
  obtain ⟨r, h1, h2⟩ := C10_or m (encode_denotes (BitVec.ofBool p) (by decide)) (encode_denotes (BitVec.ofBool q) (by decide))
  rw [h1, h2.eq_encode]
  cases p <;> cases q <;> rfl

theorem gate_not (m : Mode) (p : Bool) :
    BitVecValue.not m (encode (BitVec.ofBool p)) = ok (encode (BitVec.ofBool (!p))) := by
  obtain ⟨r, h1, h2⟩ := C11_not m (by decide) (encode_denotes (BitVec.ofBool p) (by decide))
  rw [h1, h2.eq_encode]
  cases p <;> rfl

theorem wire_spec (m : Mode) {a : BitVecValue} {x : BitVec w} (ha : Denotes a x) {i : Nat} (h : i < w) :
    wire m a i = ok (encode (BitVec.ofBool (x.getLsbD i))) := by
  obtain ⟨r, h1, h2⟩ := C19_slice m ha h (Nat.le_refl i)
  have e : i - i + 1 = 1 := by omega
  rw [e] at h2
  rw [wire, h1, h2.eq_encode]
  congr 2
  ext j hj
  have : j = 0 := by omega
  subst this
  simp

theorem fullAdder_spec (m : Mode) (p q c : Bool) :
    fullAdder m (encode (BitVec.ofBool p)) (encode (BitVec.ofBool q)) (encode (BitVec.ofBool c)) =
      ok (encode (BitVec.ofBool (p ^^ (q ^^ c))), encode (BitVec.ofBool (Bool.atLeastTwo p q c))) := by
  rw [fullAdder, gate_xor, ok_bind, gate_xor, ok_bind, gate_and, ok_bind, gate_and, ok_bind, gate_or, ok_bind]
  cases p <;> cases q <;> cases c <;> rfl

/-! ## Adders -/

/-- The sum of two values and a carry. -/
def carrySum (x y : BitVec w) (c : Bool) : BitVec w := x + y + BitVec.setWidth w (BitVec.ofBool c)

theorem rippleFrom_spec (m : Mode) {a b : BitVecValue} {x y : BitVec w} (ha : Denotes a x) (hb : Denotes b y) (c : Bool) :
    ∀ (n i : Nat), 0 < i → i + n = w →
      rippleFrom m a b n i (encode ((carrySum x y c).setWidth i)) (encode (BitVec.ofBool (BitVec.carry i x y c))) =
        ok (encode (carrySum x y c), encode (BitVec.ofBool (BitVec.carry w x y c)))
  | 0, i, _, h => by
    have : i = w := by omega
    subst this
    rw [rippleFrom, BitVec.setWidth_eq]
  | n + 1, i, h0, h => by
    have hi : i < w := by omega
    have hlt := ha.width_lt
    rw [rippleFrom, wire_spec m ha hi, ok_bind, wire_spec m hb hi, ok_bind, fullAdder_spec, ok_bind]
    dsimp only
    obtain ⟨r, r1, r2⟩ := C21_concat_partial m (encode_denotes (BitVec.ofBool ((carrySum x y c).getLsbD i)) (by decide))
      (encode_denotes ((carrySum x y c).setWidth i) (by omega)) (by omega) (.inl ⟨by omega, h0⟩)
    have e : (carrySum x y c).getLsbD i = (x.getLsbD i ^^ (y.getLsbD i ^^ BitVec.carry i x y c)) := BitVec.getLsbD_add_add_bool hi x y c
    rw [← e, r1, ok_bind, ← BitVec.carry_succ]
    have s : r = encode ((carrySum x y c).setWidth (i + 1)) := by
      rw [r2.eq_encode, BitVec.setWidth_succ]
      rw [BitVec.cons]
      simp only [encode, BitVec.toNat_cast]
      rw [show (1 + i + 63) / 64 = (i + 1 + 63) / 64 by omega]
      congr 1
      omega
    rw [s]
    exact rippleFrom_spec m ha hb c n (i + 1) (by omega) (by omega)

theorem rippleAdder_spec (m : Mode) (hw : 0 < w) {a b : BitVecValue} {x y : BitVec w} (ha : Denotes a x) (hb : Denotes b y) (c : Bool) :
    rippleAdder m a b (encode (BitVec.ofBool c)) = ok (encode (carrySum x y c), encode (BitVec.ofBool (BitVec.carry w x y c))) := by
  rw [rippleAdder, wire_spec m ha hw, ok_bind, wire_spec m hb hw, ok_bind, fullAdder_spec, ok_bind]
  dsimp only
  have h := rippleFrom_spec m ha hb c (w - 1) 1 (by decide) (by omega)
  rw [ha.width_eq, ← h, BitVec.carry_succ, BitVec.carry_zero]
  congr 2
  ext j hj
  have : j = 0 := by omega
  subst this
  have e := BitVec.getLsbD_add_add_bool hw x y c
  rw [BitVec.carry_zero] at e
  simp [carrySum, e]

/-- **C162** A ripple-carry adder made of single-bit gates gives the sum that `add` gives, and its carry says whether the sum
of the numbers needs another bit. -/
theorem C162_adder (m : Mode) (hw : 0 < w) {a b z : BitVecValue} {x y : BitVec w} (ha : Denotes a x) (hb : Denotes b y) (hz : Denotes z 0#1) :
    ∃ s c, rippleAdder m a b z = ok (s, c) ∧ BitVecValue.add m a b = ok s ∧
      BitVecValue.toBool c = ok (some (decide (2 ^ w ≤ x.toNat + y.toNat))) := by
  obtain ⟨s, h1, h2⟩ := C06_add m hw ha hb
  have h := rippleAdder_spec m hw ha hb false
  rw [show encode (BitVec.ofBool false) = z from hz.eq_encode.symm] at h
  refine ⟨_, _, h, ?_, ?_⟩
  · rw [h1, h2.eq_encode, carrySum]
    simp
  · rw [BitVec.carry_width]
    by_cases q : 2 ^ w ≤ x.toNat + y.toNat
    · simp only [Bool.toNat_false, Nat.add_zero, ge_iff_le, decide_eq_true q]
      decide
    · simp only [Bool.toNat_false, Nat.add_zero, ge_iff_le, decide_eq_false q]
      decide

/-- **C162** The subtractor gives the difference that `sub` gives, and its last carry says whether the first number is at
least the second, at every width. -/
theorem C162_subtractor (m : Mode) (hw : 0 < w) {a b : BitVecValue} {x y : BitVec w} (ha : Denotes a x) (hb : Denotes b y) :
    ∃ s c, subtractor m a b = ok (s, c) ∧ BitVecValue.sub m a b = ok s ∧
      BitVecValue.toBool c = ok (some (decide (y.toNat ≤ x.toNat))) := by
  obtain ⟨s, h1, h2⟩ := C07_sub m hw ha hb
  obtain ⟨n, n1, n2⟩ := C11_not m hw hb
  have h := rippleAdder_spec m hw ha n2 true
  have t : BitVecValue.tru m = ok (encode (BitVec.ofBool true)) := tru_encode m
  refine ⟨_, _, by rw [subtractor, n1, ok_bind, t, ok_bind, h], ?_, ?_⟩
  · rw [h1, h2.eq_encode, carrySum]
    congr 2
    rw [BitVec.sub_eq_add_neg, BitVec.neg_eq_not_add, BitVec.add_assoc]
    congr 2
    apply BitVec.eq_of_toNat_eq
    simp
  · rw [← BitVec.ule_eq_carry, BitVec.ule]
    by_cases q : y.toNat ≤ x.toNat
    · simp only [decide_eq_true q]
      decide
    · simp only [decide_eq_false q]
      decide

/-! ## Comparator -/

theorem comparator_spec (m : Mode) {a b : BitVecValue} {x y : BitVec w} (ha : Denotes a x) (hb : Denotes b y) :
    ∀ (is : List Nat) (e : Bool), (∀ i ∈ is, i < w) → comparator m a b is (encode (BitVec.ofBool e)) =
      ok (encode (BitVec.ofBool (e && is.all fun i => x.getLsbD i == y.getLsbD i)))
  | [], e, _ => by simp [comparator]
  | i :: is, e, h => by
    have hi := h i (by simp)
    rw [comparator, wire_spec m ha hi, ok_bind, wire_spec m hb hi, ok_bind, gate_xor, ok_bind, gate_not, ok_bind, gate_and, ok_bind,
      comparator_spec m ha hb is _ fun k q => h k (List.mem_cons_of_mem _ q), List.all_cons, Bool.and_assoc]
    congr 4
    cases x.getLsbD i <;> cases y.getLsbD i <;> rfl

/-- **C162** The comparator gives the answer of `is_equal`. -/
theorem C162_comparator (m : Mode) {a b o : BitVecValue} {x y : BitVec w} (ha : Denotes a x) (hb : Denotes b y) (ho : Denotes o 1#1) :
    ∃ c e, comparator m a b (List.range w) o = ok c ∧ BitVecValue.isEqual m a b = ok e ∧ BitVecValue.toBool c = ok (some e) := by
  have h := comparator_spec m ha hb (List.range w) true fun i => List.mem_range.1
  rw [show encode (BitVec.ofBool true) = o from ho.eq_encode.symm] at h
  refine ⟨_, _, h, C15_is_equal m ha hb, ?_⟩
  have e : (true && (List.range w).all fun i => x.getLsbD i == y.getLsbD i) = decide (x = y) := by
    rw [Bool.true_and, Bool.eq_iff_iff, List.all_eq_true, decide_eq_true_iff]
    constructor
    · intro q
      apply BitVec.eq_of_getLsbD_eq
      intro i hi
      simpa using q i (List.mem_range.2 hi)
    · rintro rfl i _
      simp
  rw [e]
  by_cases q : x = y
  · rw [decide_eq_true q]; decide
  · rw [decide_eq_false q]; decide

/-! ## Barrel shifter -/

theorem multiplexer_spec (m : Mode) (hw : 0 < w) (hlt : w < 2 ^ 32) (s : Bool) (x y : BitVec w) :
    multiplexer m (encode (BitVec.ofBool s)) (encode x) (encode y) = ok (encode (if s then x else y)) := by
  obtain ⟨n, rfl⟩ : ∃ n, w = 1 + n := ⟨w - 1, by omega⟩
  have e : (encode x).width - 1 = n := by simp only [encode]; omega
  obtain ⟨k, k1, k2, -⟩ := C23_sign_extend m (by decide) (encode_denotes (BitVec.ofBool s) (by decide)) n hlt
  obtain ⟨o, o1, o2⟩ := C11_not m hw k2
  obtain ⟨p, p1, p2, -⟩ := C10_and m k2 (encode_denotes x hlt)
  obtain ⟨q, q1, q2, -⟩ := C10_and m o2 (encode_denotes y hlt)
  obtain ⟨r, r1, r2⟩ := C10_or m p2 q2
  rw [multiplexer, e, k1, ok_bind, o1, ok_bind, p1, ok_bind, q1, ok_bind, r1, r2.eq_encode]
  congr 2
  cases s
  · have : (BitVec.ofBool false).signExtend (1 + n) = 0#(1 + n) := by
      ext i hi
      simp [BitVec.getElem_signExtend, BitVec.msb_eq_getLsbD_last]
    rw [this]
    simp
  · have : (BitVec.ofBool true).signExtend (1 + n) = BitVec.allOnes (1 + n) := by
      ext i hi
      simp [BitVec.getElem_signExtend, BitVec.msb_eq_getLsbD_last]
    rw [this]
    simp

theorem shiftedWires_spec (m : Mode) (hlt : w < 2 ^ 32) (x : BitVec w) {s : Nat} (hs : 0 < s) :
    shiftedWires m (encode x) s = ok (encode (x <<< s)) := by
  have ew : (encode x).width = w := rfl
  rw [shiftedWires, ew]
  by_cases h : s < w
  · rw [if_pos h]
    obtain ⟨t, rfl⟩ : ∃ t, w = t + 1 + s := ⟨w - 1 - s, by omega⟩
    obtain ⟨r, r1, r2⟩ := C19_slice m (encode_denotes x hlt) (msb := t) (lsb := 0) (by omega) (by omega)
    rw [show t - 0 + 1 = t + 1 by omega] at r2
    obtain ⟨q, q1, q2⟩ := C21_concat_partial m r2 (C01_zero (w := s) (by omega)) (by omega) (.inl ⟨by omega, hs⟩)
    rw [show t + 1 + s - 1 - s = t by omega, r1, ok_bind, q1, q2.eq_encode]
    congr 2
    ext i hi
    rw [BitVec.getElem_append, BitVec.getElem_shiftLeft]
    by_cases c : i < s
    · simp [c]
    · simp only [c, ↓reduceDIte, decide_false, Bool.not_false, Bool.true_and, BitVec.getElem_extractLsb', Nat.zero_add]
      rw [BitVec.getLsbD_eq_getElem (by omega)]
  · rw [if_neg h, (C01_zero (w := w) hlt).eq_encode, BitVec.shiftLeft_eq_zero (by omega)]

theorem barrelShifter_spec (m : Mode) (hw : 0 < w) {b : BitVecValue} {y : BitVec w} (hb : Denotes b y) (x : BitVec w) :
    ∀ (n k : Nat), k + n = w → barrelShifter m b (List.range' k n) (encode (x <<< (y.toNat % 2 ^ k))) = ok (encode (x <<< y.toNat))
  | 0, k, h => by
    have : k = w := by omega
    subst this
    rw [Nat.mod_eq_of_lt y.isLt]
    rfl
  | n + 1, k, h => by
    have hlt := hb.width_lt
    rw [List.range'_succ, barrelShifter, wire_spec m hb (by omega), ok_bind, shiftedWires_spec m hlt _ (Nat.two_pow_pos k), ok_bind,
      multiplexer_spec m hw hlt, ok_bind]
    have e : (if y.getLsbD k = true then x <<< (y.toNat % 2 ^ k) <<< 2 ^ k else x <<< (y.toNat % 2 ^ k)) = x <<< (y.toNat % 2 ^ (k + 1)) := by
      rw [Nat.mod_pow_succ, BitVec.getLsbD, ← Nat.toNat_testBit]
      cases y.toNat.testBit k
      · simp
      · simp [BitVec.shiftLeft_add]
    rw [e]
    exact barrelShifter_spec m hw hb x n (k + 1) (by omega)

/-- **C162** The barrel shifter shifts by the number that the second value stands for, at every width and by any amount. -/
theorem C162_shifter (m : Mode) (hw : 0 < w) {a b : BitVecValue} {x y : BitVec w} (ha : Denotes a x) (hb : Denotes b y) :
    ∃ r, barrelShifter m b (List.range w) a = ok r ∧ Denotes r (x <<< y.toNat) := by
  have h := barrelShifter_spec m hw hb x w 0 (by omega)
  rw [Nat.pow_zero, Nat.mod_one, BitVec.shiftLeft_zero, ← ha.eq_encode, ← List.range_eq_range'] at h
  exact ⟨_, h, encode_denotes _ ha.width_lt⟩

/-! ## Multiplier -/

theorem arrayMultiplier_spec (m : Mode) (hw : 0 < w) {a b : BitVecValue} {x y : BitVec w} (ha : Denotes a x) (hb : Denotes b y) :
    ∀ (n k : Nat), k + n = w →
      arrayMultiplier m a b (List.range' k n) (encode (x * BitVec.ofNat w (y.toNat % 2 ^ k))) = ok (encode (x * y))
  | 0, k, h => by
    have : k = w := by omega
    subst this
    rw [Nat.mod_eq_of_lt y.isLt, BitVec.ofNat_toNat, BitVec.setWidth_eq]
    rfl
  | n + 1, k, h => by
    have hlt := hb.width_lt
    have t : (if k = 0 then ok a else shiftedWires m a k) = ok (encode (x <<< k)) := by
      by_cases c : k = 0
      · rw [if_pos c, c, BitVec.shiftLeft_zero, ← ha.eq_encode]
      · rw [if_neg c, ha.eq_encode, shiftedWires_spec m hlt _ (by omega)]
    have f : BitVecValue.fals m = ok (encode (BitVec.ofBool false)) := fals_encode m
    rw [List.range'_succ, arrayMultiplier, wire_spec m hb (by omega), ok_bind, t, ok_bind, ha.width_eq, (C01_zero (w := w) hlt).eq_encode,
      multiplexer_spec m hw hlt, ok_bind, f, ok_bind, rippleAdder_spec m hw (encode_denotes _ hlt) (encode_denotes _ hlt), ok_bind]
    dsimp only
    have e : carrySum (x * BitVec.ofNat w (y.toNat % 2 ^ k)) (if y.getLsbD k = true then x <<< k else 0#w) false =
        x * BitVec.ofNat w (y.toNat % 2 ^ (k + 1)) := by
      rw [Nat.mod_pow_succ, BitVec.getLsbD, ← Nat.toNat_testBit, carrySum, BitVec.ofNat_add, BitVec.mul_add]
      cases y.toNat.testBit k
      · simp
      · have p : x <<< k = x * BitVec.ofNat w (2 ^ k) := by
          apply BitVec.eq_of_toNat_eq
          simp [BitVec.toNat_shiftLeft, Nat.shiftLeft_eq, Nat.mul_mod]
        simp [p]
    rw [e]
    exact arrayMultiplier_spec m hw ha hb n (k + 1) (by omega)

/-- **C162** The multiplier gives the product at every width. -/
theorem C162_multiplier (m : Mode) (hw : 0 < w) {a b : BitVecValue} {x y : BitVec w} (ha : Denotes a x) (hb : Denotes b y) :
    ∃ r, arrayMultiplier m a b (List.range w) (BitVecValue.zero w) = ok r ∧ Denotes r (x * y) := by
  have h := arrayMultiplier_spec m hw ha hb w 0 (by omega)
  rw [Nat.pow_zero, Nat.mod_one, show x * BitVec.ofNat w 0 = 0#w by simp, ← (C01_zero (w := w) ha.width_lt).eq_encode,
    ← List.range_eq_range'] at h
  exact ⟨_, h, encode_denotes _ ha.width_lt⟩

example : arrayMultiplier .debug (encode (-3#12)) (encode 7#12) (List.range 12) (BitVecValue.zero 12) = ok (encode (-21#12)) := by
  decide +kernel

example : rippleAdder .debug (encode (-1#70)) (encode 5#70) (encode 0#1) = ok (encode 4#70, encode 1#1) ∧
    subtractor .debug (encode 3#9) (encode 5#9) = ok (encode (-2#9), encode 0#1) ∧
    comparator .debug (encode 3#9) (encode 3#9) (List.range 9) (encode 1#1) = ok (encode 1#1) ∧
    barrelShifter .debug (encode 64#70) (List.range 70) (encode 5#70) = ok (encode (5#70 <<< 64)) := by
  decide +kernel

end Baa

import Verif.Props.Arith
import Verif.Props.Compare
import Verif.Props.Convert
import Verif.Props.Slice

/-!
# C64–C69: the exported `mask` and the algebraic laws of the operations

The laws are stated about the calls themselves: both sides of a law return, and they return the same value.
-/

namespace Baa
open Res

/-! ## C64 the exported function `mask` -/

/-- **C64** For 1 to 64 bits `mask` is the word whose lowest `bits` bits are set and no others. -/
theorem C64_mask {n : Nat} (h0 : 0 < n) (h : n ≤ 64) :
    ∃ r, Arith.mask n = ok r ∧ r.toNat = 2 ^ n - 1 ∧ ∀ i, r.getLsbD i = decide (i < n) := Arith.mask_spec h0 h

/-- **C64** `mask 0` is the full word, not the empty one: the callers use it for the last word of a value, where
`width % 64 = 0` means that all 64 bits are in use. -/
theorem C64_mask_zero : Arith.mask 0 = ok (BitVec.allOnes 64) := rfl

/-- **C64** More than 64 bits are rejected, in release builds too. -/
theorem C64_mask_panics {n : Nat} (h : 64 < n) : Panics (Arith.mask n) := by
  unfold Arith.mask
  have h1 : ¬ n < 64 := by omega
  rw [if_neg (by unfold BITS; omega)]
  exact ⟨.assert, by simp [assert, BITS, h1]⟩

example : Arith.mask 5 = ok 31#64 ∧ Arith.mask 64 = ok 0xffffffffffffffff#64 ∧ Panics (Arith.mask 65) :=
  ⟨by decide, by decide, C64_mask_panics (by decide)⟩

variable (m : Mode) {w : Nat} {a b c : BitVecValue} {x y z : BitVec w}

/-! ## C65 additive laws -/

/-- **C65** Addition is commutative. -/
theorem C65_add_comm (hw : 0 < w) (ha : Denotes a x) (hb : Denotes b y) :
    ∃ r, BitVecValue.add m a b = ok r ∧ BitVecValue.add m b a = ok r := by
  obtain ⟨r, h1, d1⟩ := C06_add m hw ha hb
  obtain ⟨s, h2, d2⟩ := C06_add m hw hb ha
  refine ⟨r, h1, ?_⟩
  rw [h2, d2.repr_unique (BitVec.add_comm x y ▸ d1)]

/-- **C65** Addition is associative. -/
theorem C65_add_assoc (hw : 0 < w) (ha : Denotes a x) (hb : Denotes b y) (hc : Denotes c z) :
    ∃ ab bc r, BitVecValue.add m a b = ok ab ∧ BitVecValue.add m b c = ok bc ∧
      BitVecValue.add m ab c = ok r ∧ BitVecValue.add m a bc = ok r := by
  obtain ⟨ab, h1, d1⟩ := C06_add m hw ha hb
  obtain ⟨bc, h2, d2⟩ := C06_add m hw hb hc
  obtain ⟨r, h3, d3⟩ := C06_add m hw d1 hc
  obtain ⟨s, h4, d4⟩ := C06_add m hw ha d2
  refine ⟨ab, bc, r, h1, h2, h3, ?_⟩
  rw [h4, d4.repr_unique (BitVec.add_assoc x y z ▸ d3)]

/-- **C65** Zero is neutral. -/
theorem C65_add_zero (hw : 0 < w) (ha : Denotes a x) : BitVecValue.add m a (BitVecValue.zero w) = ok a := by
  obtain ⟨r, h1, d1⟩ := C06_add m hw ha (C01_zero ha.width_lt)
  rw [h1, d1.repr_unique ((BitVec.add_zero x).symm ▸ ha)]

/-- **C65** Subtraction undoes addition and addition undoes subtraction. -/
theorem C65_add_sub_cancel (hw : 0 < w) (ha : Denotes a x) (hb : Denotes b y) :
    (∃ s, BitVecValue.add m a b = ok s ∧ BitVecValue.sub m s b = ok a) ∧
    (∃ s, BitVecValue.sub m a b = ok s ∧ BitVecValue.add m s b = ok a) := by
  obtain ⟨s, h1, d1⟩ := C06_add m hw ha hb
  obtain ⟨r, h2, d2⟩ := C07_sub m hw d1 hb
  obtain ⟨s', h1', d1'⟩ := C07_sub m hw ha hb
  obtain ⟨r', h2', d2'⟩ := C06_add m hw d1' hb
  refine ⟨⟨s, h1, ?_⟩, ⟨s', h1', ?_⟩⟩
  · rw [h2, d2.repr_unique ((BitVec.add_sub_cancel x y).symm ▸ ha)]
  · rw [h2', d2'.repr_unique ((BitVec.sub_add_cancel x y).symm ▸ ha)]

/-- **C65** Subtracting is adding the negation. -/
theorem C65_sub_eq_add_neg (hw : 0 < w) (ha : Denotes a x) (hb : Denotes b y) :
    ∃ n r, BitVecValue.negate m b = ok n ∧ BitVecValue.add m a n = ok r ∧ BitVecValue.sub m a b = ok r := by
  obtain ⟨n, h1, d1⟩ := C08_negate m hw hb
  obtain ⟨r, h2, d2⟩ := C06_add m hw ha d1
  obtain ⟨s, h3, d3⟩ := C07_sub m hw ha hb
  refine ⟨n, r, h1, h2, ?_⟩
  rw [h3, d3.repr_unique (x := x - y) (by rw [BitVec.sub_eq_add_neg]; exact d2)]

/-- **C65** Negation is the complement plus one. -/
theorem C65_negate_eq_not_add_one (hw : 0 < w) (ha : Denotes a x) :
    ∃ n o r, BitVecValue.not m a = ok n ∧ BitVecValue.fromU64 m 1#64 w = ok o ∧ BitVecValue.add m n o = ok r ∧
      BitVecValue.negate m a = ok r := by
  obtain ⟨n, h1, d1⟩ := C11_not m hw ha
  obtain ⟨o, h2, d2⟩ := C01_from_u64 m hw ha.width_lt 1#64 (show 1 < 2 ^ w from Nat.one_lt_two_pow (by omega))
  obtain ⟨r, h3, d3⟩ := C06_add m hw d1 d2
  obtain ⟨s, h4, d4⟩ := C08_negate m hw ha
  refine ⟨n, o, r, h1, h2, h3, ?_⟩
  rw [h4, d4.repr_unique (x := -x) (by rw [BitVec.neg_eq_not_add]; exact d3)]

example : Denotes (encode 200#130) 200#130 ∧ Denotes (encode (BitVec.allOnes 130)) (BitVec.allOnes 130) ∧
    BitVecValue.add .debug (encode 200#130) (encode (BitVec.allOnes 130)) = ok (encode 199#130) ∧
    BitVecValue.add .debug (encode (BitVec.allOnes 130)) (encode 200#130) = ok (encode 199#130) :=
  ⟨encode_denotes _ (by decide), encode_denotes _ (by decide), by decide +kernel, by decide +kernel⟩

/-! ## C66 multiplicative laws -/

/-- **C66** Multiplication is commutative. -/
theorem C66_mul_comm (hw : 0 < w) (hw64 : w ≤ 64) (ha : Denotes a x) (hb : Denotes b y) :
    ∃ r, BitVecValue.mul m a b = ok r ∧ BitVecValue.mul m b a = ok r := by
  obtain ⟨r, h1, d1⟩ := C09_mul_partial m hw hw64 ha hb
  obtain ⟨s, h2, d2⟩ := C09_mul_partial m hw hw64 hb ha
  refine ⟨r, h1, ?_⟩
  rw [h2, d2.repr_unique (BitVec.mul_comm x y ▸ d1)]

/-- **C66** Multiplication is associative. -/
theorem C66_mul_assoc (hw : 0 < w) (hw64 : w ≤ 64) (ha : Denotes a x) (hb : Denotes b y) (hc : Denotes c z) :
    ∃ ab bc r, BitVecValue.mul m a b = ok ab ∧ BitVecValue.mul m b c = ok bc ∧
      BitVecValue.mul m ab c = ok r ∧ BitVecValue.mul m a bc = ok r := by
  obtain ⟨ab, h1, d1⟩ := C09_mul_partial m hw hw64 ha hb
  obtain ⟨bc, h2, d2⟩ := C09_mul_partial m hw hw64 hb hc
  obtain ⟨r, h3, d3⟩ := C09_mul_partial m hw hw64 d1 hc
  obtain ⟨s, h4, d4⟩ := C09_mul_partial m hw hw64 ha d2
  refine ⟨ab, bc, r, h1, h2, h3, ?_⟩
  rw [h4, d4.repr_unique (BitVec.mul_assoc x y z ▸ d3)]

/-- **C66** Multiplication distributes over addition. -/
theorem C66_mul_add (hw : 0 < w) (hw64 : w ≤ 64) (ha : Denotes a x) (hb : Denotes b y) (hc : Denotes c z) :
    ∃ s ab ac r, BitVecValue.add m b c = ok s ∧ BitVecValue.mul m a b = ok ab ∧ BitVecValue.mul m a c = ok ac ∧
      BitVecValue.mul m a s = ok r ∧ BitVecValue.add m ab ac = ok r := by
  obtain ⟨s, h1, d1⟩ := C06_add m hw hb hc
  obtain ⟨ab, h2, d2⟩ := C09_mul_partial m hw hw64 ha hb
  obtain ⟨ac, h3, d3⟩ := C09_mul_partial m hw hw64 ha hc
  obtain ⟨r, h4, d4⟩ := C09_mul_partial m hw hw64 ha d1
  obtain ⟨t, h5, d5⟩ := C06_add m hw d2 d3
  refine ⟨s, ab, ac, r, h1, h2, h3, h4, ?_⟩
  rw [h5, d5.repr_unique (BitVec.mul_add (x := x) (y := y) (z := z) ▸ d4)]

/-- **C66** One is neutral, zero annihilates. -/
theorem C66_mul_one (hw : 0 < w) (hw64 : w ≤ 64) (ha : Denotes a x) :
    (∃ o, BitVecValue.fromU64 m 1#64 w = ok o ∧ BitVecValue.mul m a o = ok a) ∧
    BitVecValue.mul m a (BitVecValue.zero w) = ok (BitVecValue.zero w) := by
  obtain ⟨o, h2, d2⟩ := C01_from_u64 m hw ha.width_lt 1#64 (show 1 < 2 ^ w from Nat.one_lt_two_pow (by omega))
  obtain ⟨r, h3, d3⟩ := C09_mul_partial m hw hw64 ha d2
  obtain ⟨s, h4, d4⟩ := C09_mul_partial m hw hw64 ha (C01_zero ha.width_lt)
  refine ⟨⟨o, h2, ?_⟩, ?_⟩
  · have e : x * BitVec.ofNat w (1#64).toNat = x := BitVec.mul_one x
    rw [h3, d3.repr_unique (e.symm ▸ ha)]
  · have e : x * 0#w = 0#w := BitVec.mul_zero
    rw [h4, d4.repr_unique (e.symm ▸ C01_zero ha.width_lt)]

example : BitVecValue.mul .debug (encode 200#8) (encode 3#8) = ok (encode 88#8) ∧
    BitVecValue.mul .debug (encode 3#8) (encode 200#8) = ok (encode 88#8) ∧ Denotes (encode 200#8) 200#8 :=
  ⟨by decide +kernel, by decide +kernel, encode_denotes _ (by decide)⟩

/-! ## C67 Boolean algebra -/

/-- **C67** `and`, `or`, `xor` are commutative. -/
theorem C67_comm (ha : Denotes a x) (hb : Denotes b y) :
    (∃ r, BitVecValue.and m a b = ok r ∧ BitVecValue.and m b a = ok r) ∧
    (∃ r, BitVecValue.or m a b = ok r ∧ BitVecValue.or m b a = ok r) ∧
    (∃ r, BitVecValue.xor m a b = ok r ∧ BitVecValue.xor m b a = ok r) := by
  obtain ⟨r1, h1, d1, _⟩ := C10_and m ha hb
  obtain ⟨s1, g1, e1, _⟩ := C10_and m hb ha
  obtain ⟨r2, h2, d2⟩ := C10_or m ha hb
  obtain ⟨s2, g2, e2⟩ := C10_or m hb ha
  obtain ⟨r3, h3, d3⟩ := C10_xor m ha hb
  obtain ⟨s3, g3, e3⟩ := C10_xor m hb ha
  refine ⟨⟨r1, h1, ?_⟩, ⟨r2, h2, ?_⟩, ⟨r3, h3, ?_⟩⟩
  · rw [g1, e1.repr_unique (BitVec.and_comm x y ▸ d1)]
  · rw [g2, e2.repr_unique (BitVec.or_comm x y ▸ d2)]
  · rw [g3, e3.repr_unique (BitVec.xor_comm x y ▸ d3)]

/-- **C67** De Morgan: `not (a and b) = (not a) or (not b)` and `not (a or b) = (not a) and (not b)`. -/
theorem C67_de_morgan (hw : 0 < w) (ha : Denotes a x) (hb : Denotes b y) :
    ∃ na nb, BitVecValue.not m a = ok na ∧ BitVecValue.not m b = ok nb ∧
      (∃ s r, BitVecValue.and m a b = ok s ∧ BitVecValue.not m s = ok r ∧ BitVecValue.or m na nb = ok r) ∧
      (∃ s r, BitVecValue.or m a b = ok s ∧ BitVecValue.not m s = ok r ∧ BitVecValue.and m na nb = ok r) := by
  obtain ⟨na, h1, d1⟩ := C11_not m hw ha
  obtain ⟨nb, h2, d2⟩ := C11_not m hw hb
  obtain ⟨s, h3, d3, _⟩ := C10_and m ha hb
  obtain ⟨r, h4, d4⟩ := C11_not m hw d3
  obtain ⟨t, h5, d5⟩ := C10_or m d1 d2
  obtain ⟨s', h3', d3'⟩ := C10_or m ha hb
  obtain ⟨r', h4', d4'⟩ := C11_not m hw d3'
  obtain ⟨t', h5', d5', _⟩ := C10_and m d1 d2
  refine ⟨na, nb, h1, h2, ⟨s, r, h3, h4, ?_⟩, ⟨s', r', h3', h4', ?_⟩⟩
  · rw [h5, d5.repr_unique (BitVec.not_and (x := x) (y := y) ▸ d4)]
  · rw [h5', d5'.repr_unique (BitVec.not_or (x := x) (y := y) ▸ d4')]

/-- **C67** `xor` twice with the same value gives back the operand; `xor` with itself gives zero. -/
theorem C67_xor_cancel (ha : Denotes a x) (hb : Denotes b y) :
    (∃ s, BitVecValue.xor m a b = ok s ∧ BitVecValue.xor m s b = ok a) ∧
    BitVecValue.xor m a a = ok (BitVecValue.zero w) := by
  obtain ⟨s, h1, d1⟩ := C10_xor m ha hb
  obtain ⟨r, h2, d2⟩ := C10_xor m d1 hb
  obtain ⟨t, h3, d3⟩ := C10_xor m ha ha
  refine ⟨⟨s, h1, ?_⟩, ?_⟩
  · have e : x ^^^ y ^^^ y = x := by rw [BitVec.xor_assoc, BitVec.xor_self, BitVec.xor_zero]
    rw [h2, d2.repr_unique (e.symm ▸ ha)]
  · rw [h3, d3.repr_unique (BitVec.xor_self (x := x) ▸ C01_zero ha.width_lt)]

/-- **C67** `and`, `or`, `xor` are associative. -/
theorem C67_assoc (ha : Denotes a x) (hb : Denotes b y) (hc : Denotes c z) :
    (∃ ab bc r, BitVecValue.and m a b = ok ab ∧ BitVecValue.and m b c = ok bc ∧ BitVecValue.and m ab c = ok r ∧ BitVecValue.and m a bc = ok r) ∧
    (∃ ab bc r, BitVecValue.or m a b = ok ab ∧ BitVecValue.or m b c = ok bc ∧ BitVecValue.or m ab c = ok r ∧ BitVecValue.or m a bc = ok r) ∧
    (∃ ab bc r, BitVecValue.xor m a b = ok ab ∧ BitVecValue.xor m b c = ok bc ∧ BitVecValue.xor m ab c = ok r ∧ BitVecValue.xor m a bc = ok r) := by
  refine ⟨?_, ?_, ?_⟩
  · obtain ⟨ab, h1, d1, _⟩ := C10_and m ha hb
    obtain ⟨bc, h2, d2, _⟩ := C10_and m hb hc
    obtain ⟨r, h3, d3, _⟩ := C10_and m d1 hc
    obtain ⟨s, h4, d4, _⟩ := C10_and m ha d2
    exact ⟨ab, bc, r, h1, h2, h3, by rw [h4, d4.repr_unique (BitVec.and_assoc x y z ▸ d3)]⟩
  · obtain ⟨ab, h1, d1⟩ := C10_or m ha hb
    obtain ⟨bc, h2, d2⟩ := C10_or m hb hc
    obtain ⟨r, h3, d3⟩ := C10_or m d1 hc
    obtain ⟨s, h4, d4⟩ := C10_or m ha d2
    exact ⟨ab, bc, r, h1, h2, h3, by rw [h4, d4.repr_unique (BitVec.or_assoc x y z ▸ d3)]⟩
  · obtain ⟨ab, h1, d1⟩ := C10_xor m ha hb
    obtain ⟨bc, h2, d2⟩ := C10_xor m hb hc
    obtain ⟨r, h3, d3⟩ := C10_xor m d1 hc
    obtain ⟨s, h4, d4⟩ := C10_xor m ha d2
    exact ⟨ab, bc, r, h1, h2, h3, by rw [h4, d4.repr_unique (BitVec.xor_assoc x y z ▸ d3)]⟩

/-- **C67** `or` distributes over `and`, and `and` over `xor`. -/
theorem C67_distribute (ha : Denotes a x) (hb : Denotes b y) (hc : Denotes c z) :
    (∃ s ab ac r, BitVecValue.and m b c = ok s ∧ BitVecValue.or m a b = ok ab ∧ BitVecValue.or m a c = ok ac ∧
      BitVecValue.or m a s = ok r ∧ BitVecValue.and m ab ac = ok r) ∧
    (∃ s ab ac r, BitVecValue.xor m b c = ok s ∧ BitVecValue.and m a b = ok ab ∧ BitVecValue.and m a c = ok ac ∧
      BitVecValue.and m a s = ok r ∧ BitVecValue.xor m ab ac = ok r) := by
  obtain ⟨s1, h1, d1, _⟩ := C10_and m hb hc
  obtain ⟨s2, h2, d2⟩ := C10_or m ha hb
  obtain ⟨s3, h3, d3⟩ := C10_or m ha hc
  obtain ⟨s4, h4, d4⟩ := C10_or m ha d1
  obtain ⟨s5, h5, d5, _⟩ := C10_and m d2 d3
  obtain ⟨s6, h6, d6⟩ := C10_xor m hb hc
  obtain ⟨s7, h7, d7, _⟩ := C10_and m ha hb
  obtain ⟨s8, h8, d8, _⟩ := C10_and m ha hc
  obtain ⟨s9, h9, d9, _⟩ := C10_and m ha d6
  obtain ⟨s10, h10, d10⟩ := C10_xor m d7 d8
  refine ⟨⟨s1, s2, s3, s4, h1, h2, h3, h4, ?_⟩, ⟨s6, s7, s8, s9, h6, h7, h8, h9, ?_⟩⟩
  · rw [h5, d5.repr_unique (v := s4)]
    have e : (x ||| y) &&& (x ||| z) = x ||| (y &&& z) := by
      ext i hi; simp only [BitVec.getElem_and, BitVec.getElem_or]; cases x[i] <;> simp
    rw [e]; exact d4
  · rw [h10, d10.repr_unique (v := s9)]
    have e : (x &&& y) ^^^ (x &&& z) = x &&& (y ^^^ z) := by
      ext i hi; simp only [BitVec.getElem_and, BitVec.getElem_xor]; cases x[i] <;> simp
    rw [e]; exact d9

/-- **C67** `and` and `or` are idempotent, absorb each other, and `and` distributes over `or`. -/
theorem C67_lattice (ha : Denotes a x) (hb : Denotes b y) (hc : Denotes c z) :
    BitVecValue.and m a a = ok a ∧ BitVecValue.or m a a = ok a ∧
    (∃ s, BitVecValue.or m a b = ok s ∧ BitVecValue.and m a s = ok a) ∧
    (∃ s, BitVecValue.and m a b = ok s ∧ BitVecValue.or m a s = ok a) ∧
    (∃ s ab ac r, BitVecValue.or m b c = ok s ∧ BitVecValue.and m a b = ok ab ∧ BitVecValue.and m a c = ok ac ∧
      BitVecValue.and m a s = ok r ∧ BitVecValue.or m ab ac = ok r) := by
  obtain ⟨s1, h1, d1, _⟩ := C10_and m ha ha
  obtain ⟨s2, h2, d2⟩ := C10_or m ha ha
  obtain ⟨s3, h3, d3⟩ := C10_or m ha hb
  obtain ⟨s4, h4, d4, _⟩ := C10_and m ha d3
  obtain ⟨s5, h5, d5, _⟩ := C10_and m ha hb
  obtain ⟨s6, h6, d6⟩ := C10_or m ha d5
  obtain ⟨s7, h7, d7⟩ := C10_or m hb hc
  obtain ⟨s8, h8, d8, _⟩ := C10_and m ha hc
  obtain ⟨s9, h9, d9, _⟩ := C10_and m ha d7
  obtain ⟨s10, h10, d10⟩ := C10_or m d5 d8
  refine ⟨?_, ?_, ⟨s3, h3, ?_⟩, ⟨s5, h5, ?_⟩, ⟨s7, s5, s8, s9, h7, h5, h8, h9, ?_⟩⟩
  · rw [h1, d1.repr_unique (x := x &&& x) (by rw [BitVec.and_self]; exact ha)]
  · rw [h2, d2.repr_unique (x := x ||| x) (by rw [BitVec.or_self]; exact ha)]
  · rw [h4, d4.repr_unique (v := a)]
    have e : x &&& (x ||| y) = x := by
      ext i hi; simp only [BitVec.getElem_and, BitVec.getElem_or]; cases x[i] <;> simp
    rw [e]; exact ha
  · rw [h6, d6.repr_unique (v := a)]
    have e : x ||| (x &&& y) = x := by
      ext i hi; simp only [BitVec.getElem_and, BitVec.getElem_or]; cases x[i] <;> simp
    rw [e]; exact ha
  · rw [h10, d10.repr_unique (v := s9)]
    have e : (x &&& y) ||| (x &&& z) = x &&& (y ||| z) := by
      ext i hi; simp only [BitVec.getElem_and, BitVec.getElem_or]; cases x[i] <;> simp
    rw [e]; exact d9

/-- **C67** A value and its complement: `and` gives zero, `or` and `xor` give all ones. -/
theorem C67_complement (hw : 0 < w) (ha : Denotes a x) :
    ∃ n o, BitVecValue.not m a = ok n ∧ BitVecValue.ones m w = ok o ∧
      BitVecValue.and m a n = ok (BitVecValue.zero w) ∧ BitVecValue.or m a n = ok o ∧ BitVecValue.xor m a n = ok o := by
  obtain ⟨n, h1, d1⟩ := C11_not m hw ha
  obtain ⟨o, h2, d2⟩ := C01_ones m hw ha.width_lt
  obtain ⟨r1, h3, d3, _⟩ := C10_and m ha d1
  obtain ⟨r2, h4, d4⟩ := C10_or m ha d1
  obtain ⟨r3, h5, d5⟩ := C10_xor m ha d1
  refine ⟨n, o, h1, h2, ?_, ?_, ?_⟩
  · rw [h3, d3.repr_unique (v := BitVecValue.zero w)]
    have e : x &&& ~~~x = 0#w := by ext i hi; simp
    rw [e]; exact C01_zero ha.width_lt
  · rw [h4, d4.repr_unique (v := o)]
    have e : x ||| ~~~x = BitVec.allOnes w := by ext i hi; simp
    rw [e]; exact d2
  · rw [h5, d5.repr_unique (v := o)]
    have e : x ^^^ ~~~x = BitVec.allOnes w := by ext i hi; simp
    rw [e]; exact d2

example : BitVecValue.not .debug (encode 5#70) = ok (encode (~~~5#70)) ∧
    BitVecValue.and .debug (encode 5#70) (encode (~~~5#70)) = ok (BitVecValue.zero 70) ∧ Denotes (encode 5#70) 5#70 :=
  ⟨by decide +kernel, by decide +kernel, encode_denotes _ (by decide)⟩

/-! ## C68 order laws -/

/-- **C68** Trichotomy: exactly one of `is_less`, `is_equal`, `is_greater` answers true. -/
theorem C68_trichotomy (ha : Denotes a x) (hb : Denotes b y) :
    (BitVecValue.isLess m a b = ok true ∧ BitVecValue.isEqual m a b = ok false ∧ BitVecValue.isGreater m a b = ok false) ∨
    (BitVecValue.isLess m a b = ok false ∧ BitVecValue.isEqual m a b = ok true ∧ BitVecValue.isGreater m a b = ok false) ∨
    (BitVecValue.isLess m a b = ok false ∧ BitVecValue.isEqual m a b = ok false ∧ BitVecValue.isGreater m a b = ok true) := by
  rw [C16_is_less m ha hb, C15_is_equal m ha hb, C16_is_greater m ha hb]
  rcases Nat.lt_trichotomy x.toNat y.toNat with h | h | h
  · have h1 : x ≠ y := fun e => by subst e; omega
    left; simp [h, h1]; omega
  · have h1 : x = y := BitVec.eq_of_toNat_eq h
    subst h1; right; left; simp
  · have h1 : x ≠ y := fun e => by subst e; omega
    right; right; simp [h, h1]; omega

/-- **C68** Trichotomy of the signed comparisons. -/
theorem C68_trichotomy_signed (hw : 0 < w) (ha : Denotes a x) (hb : Denotes b y) :
    (BitVecValue.isLessSigned m a b = ok true ∧ BitVecValue.isEqual m a b = ok false ∧
      BitVecValue.isGreaterSigned m a b = ok false) ∨
    (BitVecValue.isLessSigned m a b = ok false ∧ BitVecValue.isEqual m a b = ok true ∧
      BitVecValue.isGreaterSigned m a b = ok false) ∨
    (BitVecValue.isLessSigned m a b = ok false ∧ BitVecValue.isEqual m a b = ok false ∧
      BitVecValue.isGreaterSigned m a b = ok true) := by
  rw [C18_is_less_signed m hw ha hb, C15_is_equal m ha hb, C18_is_greater_signed m hw ha hb]
  rcases Int.lt_trichotomy x.toInt y.toInt with h | h | h
  · have h1 : x ≠ y := fun e => by subst e; omega
    left; simp [h, h1]; omega
  · have h1 : x = y := BitVec.eq_of_toInt_eq h
    subst h1; right; left; simp
  · have h1 : x ≠ y := fun e => by subst e; omega
    right; right; simp [h, h1]; omega

/-- **C68** The strict orders are transitive. -/
theorem C68_transitive (hw : 0 < w) (ha : Denotes a x) (hb : Denotes b y) (hc : Denotes c z) :
    (BitVecValue.isLess m a b = ok true → BitVecValue.isLess m b c = ok true → BitVecValue.isLess m a c = ok true) ∧
    (BitVecValue.isLessSigned m a b = ok true → BitVecValue.isLessSigned m b c = ok true →
      BitVecValue.isLessSigned m a c = ok true) := by
  rw [C16_is_less m ha hb, C16_is_less m hb hc, C16_is_less m ha hc, C18_is_less_signed m hw ha hb,
    C18_is_less_signed m hw hb hc, C18_is_less_signed m hw ha hc]
  simp only [Res.ok.injEq, decide_eq_true_eq]
  exact ⟨Nat.lt_trans, Int.lt_trans⟩

/-- **C68** Signed greater-or-equal is a total order: reflexive, antisymmetric, transitive, total, and the negation of
signed less. -/
theorem C68_signed_total_order (hw : 0 < w) (ha : Denotes a x) (hb : Denotes b y) (hc : Denotes c z) :
    BitVecValue.isGreaterOrEqualSigned m a a = ok true ∧
    (BitVecValue.isGreaterOrEqualSigned m a b = ok true → BitVecValue.isGreaterOrEqualSigned m b a = ok true → a = b) ∧
    (BitVecValue.isGreaterOrEqualSigned m a b = ok true → BitVecValue.isGreaterOrEqualSigned m b c = ok true →
      BitVecValue.isGreaterOrEqualSigned m a c = ok true) ∧
    (BitVecValue.isGreaterOrEqualSigned m a b = ok true ∨ BitVecValue.isGreaterOrEqualSigned m b a = ok true) ∧
    (BitVecValue.isGreaterOrEqualSigned m a b = ok true ↔ BitVecValue.isLessSigned m a b = ok false) := by
  rw [C18_is_greater_or_equal_signed m hw ha ha, C18_is_greater_or_equal_signed m hw ha hb,
    C18_is_greater_or_equal_signed m hw hb ha, C18_is_greater_or_equal_signed m hw hb hc,
    C18_is_greater_or_equal_signed m hw ha hc, C18_is_less_signed m hw ha hb]
  simp only [Res.ok.injEq, decide_eq_true_eq, decide_eq_false_iff_not]
  refine ⟨Int.le_refl _, fun h1 h2 => ?_, fun h1 h2 => ?_, ?_, ?_⟩
  · have e : x = y := BitVec.eq_of_toInt_eq (Int.le_antisymm h2 h1)
    subst e; exact ha.repr_unique hb
  · exact Int.le_trans h2 h1
  · omega
  · omega

theorem lt_of_highest_bit {x y k : Nat} (hx : x.testBit k = true) (hy : y.testBit k = false)
    (hs : ∀ i, k < i → x.testBit i = y.testBit i) : y < x := by
  have h1 : x / 2 ^ (k + 1) = y / 2 ^ (k + 1) := Nat.eq_of_testBit_eq fun i => by
    rw [Nat.testBit_div_two_pow, Nat.testBit_div_two_pow, hs _ (by omega)]
  rw [Nat.pow_succ, ← Nat.div_div_eq_div_mul, ← Nat.div_div_eq_div_mul] at h1
  rw [Nat.testBit_eq_decide_div_mod_eq, decide_eq_true_eq] at hx
  rw [Nat.testBit_eq_decide_div_mod_eq, decide_eq_false_iff_not] at hy
  refine Nat.lt_of_not_le fun h => ?_
  have := Nat.div_le_div_right (c := 2 ^ k) h
  omega

/-- **C68** The unsigned order is decided by the highest differing bit. -/
theorem C68_highest_bit (ha : Denotes a x) (hb : Denotes b y) {k : Nat}
    (hx : x.getLsbD k = true) (hy : y.getLsbD k = false) (hs : ∀ i, k < i → x.getLsbD i = y.getLsbD i) :
    BitVecValue.isGreater m a b = ok true := by
  rw [C16_is_greater m ha hb]
  have : y.toNat < x.toNat := lt_of_highest_bit (k := k) (by rw [BitVec.testBit_toNat]; exact hx)
    (by rw [BitVec.testBit_toNat]; exact hy) (fun j hj => by rw [BitVec.testBit_toNat, BitVec.testBit_toNat, hs j hj])
  simp [this]

example : BitVecValue.isLess .debug (encode 5#70) (encode (BitVec.twoPow 70 69)) = ok true ∧
    BitVecValue.isLessSigned .debug (encode (BitVec.twoPow 70 69)) (encode 5#70) = ok true ∧
    Denotes (encode (BitVec.twoPow 70 69)) (BitVec.twoPow 70 69) :=
  ⟨by decide +kernel, by decide +kernel, encode_denotes _ (by decide)⟩

/-! ## C69 laws of the right shifts -/

/-- **C69** Shifting right by zero changes nothing. -/
theorem C69_shift_zero (hw : 0 < w) (ha : Denotes a x) :
    BitVecValue.shiftRight m a (BitVecValue.zero w) = ok a ∧
    BitVecValue.arithmeticShiftRight m a (BitVecValue.zero w) = ok a := by
  obtain ⟨r, h1, d1⟩ := C13_shift_right m hw ha (C01_zero ha.width_lt)
  obtain ⟨s, h2, d2⟩ := C14_arithmetic_shift_right m hw ha (C01_zero ha.width_lt)
  have e1 : x >>> (0#w).toNat = x := by simp
  have e2 : x.sshiftRight (0#w).toNat = x := by simp
  rw [h1, h2, d1.repr_unique (e1.symm ▸ ha), d2.repr_unique (e2.symm ▸ ha)]
  exact ⟨rfl, rfl⟩

/-- **C69** Two right shifts in a row are one right shift by the sum of the amounts, if the sum does not wrap around. -/
theorem C69_shift_shift (hw : 0 < w) (ha : Denotes a x) (hb : Denotes b y) (hc : Denotes c z)
    (hlt : y.toNat + z.toNat < 2 ^ w) :
    ∃ s, BitVecValue.add m b c = ok s ∧
      (∃ t r, BitVecValue.shiftRight m a b = ok t ∧ BitVecValue.shiftRight m t c = ok r ∧
        BitVecValue.shiftRight m a s = ok r) ∧
      (∃ t r, BitVecValue.arithmeticShiftRight m a b = ok t ∧ BitVecValue.arithmeticShiftRight m t c = ok r ∧
        BitVecValue.arithmeticShiftRight m a s = ok r) := by
  obtain ⟨s, h1, d1⟩ := C06_add m hw hb hc
  have hs : (y + z).toNat = y.toNat + z.toNat := by rw [BitVec.toNat_add, Nat.mod_eq_of_lt hlt]
  obtain ⟨t, h2, d2⟩ := C13_shift_right m hw ha hb
  obtain ⟨r, h3, d3⟩ := C13_shift_right m hw d2 hc
  obtain ⟨q, h4, d4⟩ := C13_shift_right m hw ha d1
  obtain ⟨t', h2', d2'⟩ := C14_arithmetic_shift_right m hw ha hb
  obtain ⟨r', h3', d3'⟩ := C14_arithmetic_shift_right m hw d2' hc
  obtain ⟨q', h4', d4'⟩ := C14_arithmetic_shift_right m hw ha d1
  refine ⟨s, h1, ⟨t, r, h2, h3, ?_⟩, ⟨t', r', h2', h3', ?_⟩⟩
  · rw [h4, d4.repr_unique (v := r)]
    rw [hs, BitVec.shiftRight_add]; exact d3
  · rw [h4', d4'.repr_unique (v := r')]
    rw [hs, BitVec.sshiftRight_add]; exact d3'

/-- **C69** A right shift by `k` is the slice of the bits from `k` up, zero extended; an arithmetic right shift is the same
slice, sign extended. -/
theorem C69_shift_slice (ha : Denotes a x) (hb : Denotes b y) (hk : y.toNat < w) :
    ∃ s r r', BitVecValue.slice m a (w - 1) y.toNat = ok s ∧
      BitVecValue.zeroExtend m s y.toNat = ok r ∧ BitVecValue.shiftRight m a b = ok r ∧
      BitVecValue.signExtend m s y.toNat = ok r' ∧ BitVecValue.arithmeticShiftRight m a b = ok r' := by
  have hw : 0 < w := by omega
  have hlt := ha.width_lt
  obtain ⟨s, h1, d1⟩ := C19_slice m ha (msb := w - 1) (lsb := y.toNat) (by omega) (by omega)
  obtain ⟨r, h2, d2, _⟩ := C22_zero_extend_partial m d1 y.toNat (by omega) (.inl (by omega))
  obtain ⟨r', h3, d3, _⟩ := C23_sign_extend m (by omega) d1 y.toNat (by omega)
  obtain ⟨q, h4, d4⟩ := C13_shift_right m hw ha hb
  obtain ⟨q', h5, d5⟩ := C14_arithmetic_shift_right m hw ha hb
  refine ⟨s, r, r', h1, h2, ?_, h3, ?_⟩
  · rw [h4, d4.repr_unique (v := r)]
    refine Denotes.of_bit hlt (by rw [d2.width_eq]; omega) (by rw [d2.length_eq]; congr 1; omega) fun i => ?_
    rw [d2.bit]
    simp only [BitVec.getLsbD_setWidth, BitVec.getLsbD_extractLsb', BitVec.getLsbD_ushiftRight]
    by_cases h : y.toNat + i < w
    · simp [show i < w - 1 - y.toNat + 1 + y.toNat by omega, show i < w - 1 - y.toNat + 1 by omega]
    · rw [BitVec.getLsbD_of_ge x _ (by omega)]; simp
  · rw [h5, d5.repr_unique (v := r')]
    refine Denotes.of_bit hlt (by rw [d3.width_eq]; omega) (by rw [d3.length_eq]; congr 1; omega) fun i => ?_
    rw [d3.bit]
    simp only [BitVec.getLsbD_signExtend, BitVec.getLsbD_sshiftRight, BitVec.getLsbD_extractLsb', BitVec.msb_eq_getLsbD_last]
    by_cases h : w ≤ i
    · simp [h, show ¬ i < w - 1 - y.toNat + 1 + y.toNat by omega]
    · by_cases h' : y.toNat + i < w
      · simp [h, h', show i < w - 1 - y.toNat + 1 + y.toNat by omega, show i < w - 1 - y.toNat + 1 by omega]
      · simp [h, h', show i < w - 1 - y.toNat + 1 + y.toNat by omega, show ¬ i < w - 1 - y.toNat + 1 by omega,
          show y.toNat + (w - 1 - y.toNat) = w - 1 by omega]

example : BitVecValue.arithmeticShiftRight .debug (encode (BitVec.intMin 70)) (encode 65#70) =
      ok (encode ((BitVec.intMin 70).sshiftRight 65)) ∧
    BitVecValue.slice .debug (encode (BitVec.intMin 70)) 69 65 = ok (encode 16#5) ∧
    BitVecValue.signExtend .debug (encode 16#5) 65 = ok (encode ((BitVec.intMin 70).sshiftRight 65)) ∧
    Denotes (encode 65#70) 65#70 :=
  ⟨by decide +kernel, by decide +kernel, by decide +kernel, encode_denotes _ (by decide)⟩

end Baa

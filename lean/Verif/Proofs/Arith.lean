import Verif.Proofs.Words

/-!
# Word-list level correctness of src/bv/arithmetic.rs
-/

namespace Baa
namespace Arith
open Res

/-! ## Masks -/

theorem mask_ok {k : Nat} (h : k ≤ 64) :
    mask k = ok (if k = 64 ∨ k = 0 then BitVec.allOnes 64 else (1#64 <<< k) - 1#64) := by
  unfold mask BITS
  by_cases hk : k = 64 ∨ k = 0
  · simp [hk]
  · have : k < 64 := by omega
    simp [hk, assert, this]

theorem one_shl_sub_one_toNat {k : Nat} (h : k < 64) : ((1#64 <<< k) - 1#64).toNat = 2 ^ k - 1 := by
  have h1 : (2:Nat) ^ k < 2 ^ 64 := Nat.pow_lt_pow_right (by decide) h
  have h2 : 0 < (2:Nat) ^ k := Nat.two_pow_pos k
  rw [BitVec.toNat_sub, BitVec.toNat_shiftLeft]
  simp only [BitVec.toNat_ofNat, Nat.shiftLeft_eq]
  rw [Nat.mod_eq_of_lt (a := 1 % 2 ^ 64 * 2 ^ k)]
  · omega
  · omega

/-- `mask k` as a number, for `0 < k ≤ 64`. -/
theorem mask_spec {k : Nat} (h0 : 0 < k) (h : k ≤ 64) : ∃ mk, mask k = ok mk ∧ mk.toNat = 2 ^ k - 1 ∧
    ∀ i, mk.getLsbD i = decide (i < k) := by
  refine ⟨_, mask_ok h, ?_⟩
  have key : (if k = 64 ∨ k = 0 then BitVec.allOnes 64 else (1#64 <<< k) - 1#64).toNat = 2 ^ k - 1 := by
    by_cases hk : k = 64
    · subst hk; rfl
    · rw [if_neg (by omega), one_shl_sub_one_toNat (by omega)]
  refine ⟨key, fun i => ?_⟩
  rw [← BitVec.testBit_toNat, key, Nat.testBit_two_pow_sub_one]

/-! ## `mask_msb` -/

theorem dropLast_concat_getLast {α : Type} (l : List α) (h : l ≠ []) : l.dropLast ++ [l.getLast h] = l :=
  List.dropLast_concat_getLast h

theorem and_mask_toNat (w mk : Word) (k : Nat) (h : mk.toNat = 2 ^ k - 1) : (w &&& mk).toNat = w.toNat % 2 ^ k := by
  rw [BitVec.toNat_and, h, Nat.and_two_pow_sub_one_eq_mod]

theorem maskMsb_spec {m : Mode} {dst : List Word} {width : Nat} (hl : dst.length = (width + 63) / 64)
    (hw : 0 < width) :
    ∃ r, maskMsb m dst width = ok r ∧ r.length = dst.length ∧ wordsVal r = wordsVal dst % 2 ^ width := by
  have hne : dst ≠ [] := by
    intro h; rw [h] at hl; simp at hl; omega
  obtain ⟨init, l, rfl⟩ : ∃ init l, dst = init ++ [l] := ⟨_, _, (dropLast_concat_getLast dst hne).symm⟩
  have hlen : init.length + 1 = (width + 63) / 64 := by simpa using hl
  -- the last word holds `k` bits
  obtain ⟨k, hk0, hk64, hkw⟩ : ∃ k, 0 < k ∧ k ≤ 64 ∧ width = 64 * init.length + k :=
    ⟨width - 64 * init.length, by omega, by omega, by omega⟩
  have hmask : ∃ mk, mask (width % 64) = ok mk ∧ mk.toNat = 2 ^ k - 1 := by
    by_cases hk : k = 64
    · refine ⟨BitVec.allOnes 64, ?_, by subst hk; rfl⟩
      have : width % 64 = 0 := by omega
      rw [this]; rfl
    · have : width % 64 = k := by omega
      rw [this]
      obtain ⟨mk, h1, h2, _⟩ := mask_spec hk0 hk64
      exact ⟨mk, h1, h2⟩
  obtain ⟨mk, hmk, hmkv⟩ := hmask
  refine ⟨init ++ [l &&& mk], ?_, by simp, ?_⟩
  · unfold maskMsb
    rw [debugAssert_of (by simp [divCeil, BITS, hlen])]
    simp [hmk, lastU_append]
  · rw [wordsVal_append, wordsVal_append, wordsVal_cons, wordsVal_cons, and_mask_toNat _ _ _ hmkv, hkw]
    simp only [wordsVal_nil, Nat.mul_zero, Nat.add_zero]
    rw [Nat.pow_add]
    have hlt := wordsVal_lt init
    generalize 2 ^ (64 * init.length) = P at *
    have hP : 0 < P := by omega
    rw [Nat.mod_mul]
    rw [Nat.add_mul_mod_self_left, Nat.mod_eq_of_lt hlt, Nat.add_mul_div_left _ _ hP, Nat.div_eq_of_lt hlt, Nat.zero_add]

theorem maskMsb_bit {m : Mode} {dst : List Word} {width : Nat} (hl : dst.length = (width + 63) / 64)
    (hw : 0 < width) :
    ∃ r, maskMsb m dst width = ok r ∧ r.length = dst.length ∧ ∀ i, bit r i = (decide (i < width) && bit dst i) := by
  obtain ⟨r, h1, h2, h3⟩ := maskMsb_spec (m := m) hl hw
  refine ⟨r, h1, h2, fun i => ?_⟩
  unfold bit
  rw [h3, Nat.testBit_mod_two_pow]

/-! ## Copying -/

theorem assign_eq (d s : List Word) : assign d s = s.take d.length ++ d.drop s.length := by
  induction d generalizing s with
  | nil => simp [assign]
  | cons x xs ih =>
    cases s with
    | nil => simp [assign]
    | cons y ys => simp [assign, ih]

theorem assign_length (d s : List Word) : (assign d s).length = d.length := by
  rw [assign_eq]; simp; omega

theorem assign_of_le {d s : List Word} (h : d.length ≤ s.length) : assign d s = s.take d.length := by
  rw [assign_eq, List.drop_eq_nil_of_le h, List.append_nil]

theorem assign_of_eq {d s : List Word} (h : d.length = s.length) : assign d s = s := by
  rw [assign_of_le (by omega), h, List.take_length]

theorem clear_eq (d : List Word) : clear d = List.replicate d.length 0#64 := by
  simp [clear, List.map_const']

theorem set_eq (d : List Word) : set d = List.replicate d.length (BitVec.allOnes 64) := by
  simp [set, List.map_const']

theorem bit_replicate_ones (n i : Nat) : bit (List.replicate n (BitVec.allOnes 64)) i = decide (i < 64 * n) := by
  rw [bit_eq_getD]
  by_cases h : i < 64 * n
  · have h1 : i / 64 < n := by omega
    have h2 : i % 64 < 64 := by omega
    rw [List.getD_eq_getElem?_getD, List.getElem?_replicate, if_pos h1, Option.getD_some, BitVec.getLsbD_allOnes]
    simp [h, h2]
  · have h1 : ¬ i / 64 < n := by omega
    simp [List.getD_eq_getElem?_getD, h, h1]

/-! ## Bitwise operations -/

theorem bitwiseUnOp_eq (op : Word → Word) {d s : List Word} (h : d.length = s.length) :
    bitwiseUnOp op d s = s.map op := by
  induction d generalizing s with
  | nil => cases s with
    | nil => rfl
    | cons _ _ => simp at h
  | cons x xs ih => cases s with
    | nil => simp at h
    | cons y ys => simp [bitwiseUnOp, ih (by simpa using h)]

theorem bitwiseBinOp_eq (op : Word → Word → Word) {d a b : List Word} (h : d.length = a.length)
    (h' : a.length = b.length) : bitwiseBinOp op d a b = List.zipWith op a b := by
  induction d generalizing a b with
  | nil => cases a with
    | nil => rfl
    | cons _ _ => simp at h
  | cons x xs ih => cases a with
    | nil => simp at h
    | cons y ys => cases b with
      | nil => simp at h'
      | cons z zs => simp [bitwiseBinOp, ih (by simpa using h) (by simpa using h')]

theorem bit_zipWith (op : Word → Word → Word) (bop : Bool → Bool → Bool)
    (hop : ∀ (x y : Word) i, i < 64 → (op x y).getLsbD i = bop (x.getLsbD i) (y.getLsbD i)) (h0 : bop false false = false)
    {a b : List Word} (h : a.length = b.length) (i : Nat) :
    bit (List.zipWith op a b) i = bop (bit a i) (bit b i) := by
  induction a generalizing b i with
  | nil => cases b with
    | nil => simp [h0]
    | cons _ _ => simp at h
  | cons x xs ih => cases b with
    | nil => simp at h
    | cons y ys =>
      rw [List.zipWith_cons_cons, bit_cons, bit_cons, bit_cons]
      by_cases hi : i < 64
      · rw [if_pos hi, if_pos hi, if_pos hi, hop _ _ _ hi]
      · simp only [hi, if_false]
        exact ih (by simpa using h) _

theorem bit_map_not (s : List Word) (i : Nat) :
    bit (s.map fun e => ~~~e) i = (decide (i < 64 * s.length) && !bit s i) := by
  induction s generalizing i with
  | nil => simp
  | cons x xs ih =>
    rw [List.map_cons, bit_cons, bit_cons, ih]
    by_cases hi : i < 64
    · have h1 : i < 64 * (x :: xs).length := by simp; omega
      rw [if_pos hi, if_pos hi, BitVec.getLsbD_not, decide_eq_true h1, decide_eq_true hi]
    · have h1 : decide (i < 64 * (x :: xs).length) = decide (i - 64 < 64 * xs.length) := by
        simp; omega
      simp only [hi, if_false, h1]

/-! ## Addition, subtraction, negation -/

theorem adc_spec {c : Nat} (hc : c ≤ 1) (a b : Word) :
    (adc c a b).1.toNat + 2 ^ 64 * (adc c a b).2 = c + a.toNat + b.toNat ∧ (adc c a b).2 ≤ 1 := by
  have ha := a.isLt
  have hb := b.isLt
  simp only [adc, BITS, BitVec.toNat_ofNat, Nat.shiftRight_eq_div_pow]
  omega

theorem addLoop_spec {c : Nat} (hc : c ≤ 1) {d a b : List Word} (h : d.length = a.length) (h' : a.length = b.length) :
    (addLoop c d a b).length = a.length ∧
    ∃ c' ≤ 1, wordsVal (addLoop c d a b) + 2 ^ (64 * a.length) * c' = wordsVal a + wordsVal b + c := by
  induction d generalizing a b c with
  | nil =>
    cases a with
    | cons _ _ => simp at h
    | nil => cases b with
      | cons _ _ => simp at h'
      | nil => exact ⟨rfl, c, hc, by simp [addLoop]⟩
  | cons x xs ih => cases a with
    | nil => simp at h
    | cons y ys => cases b with
      | nil => simp at h'
      | cons z zs =>
        obtain ⟨s1, s2⟩ := adc_spec hc y z
        obtain ⟨l1, c', hc', e⟩ := ih s2 (a := ys) (b := zs) (by simpa using h) (by simpa using h')
        refine ⟨by simp [addLoop, l1], c', hc', ?_⟩
        simp only [addLoop, wordsVal_cons, List.length_cons]
        rw [two_pow_mul_succ, Nat.mul_assoc]
        generalize 2 ^ (64 * ys.length) * c' = Q at *
        omega

theorem addLoop_val {c : Nat} (hc : c ≤ 1) {d a b : List Word} (h : d.length = a.length) (h' : a.length = b.length) :
    wordsVal (addLoop c d a b) = (wordsVal a + wordsVal b + c) % 2 ^ (64 * a.length) := by
  obtain ⟨l, c', _, e⟩ := addLoop_spec hc h h'
  rw [← e, Nat.add_mul_mod_self_left, Nat.mod_eq_of_lt]
  rw [← l]; exact wordsVal_lt _

theorem subLoop_eq (c : Nat) (d a b : List Word) : subLoop c d a b = addLoop c d a (b.map fun e => ~~~e) := by
  induction d generalizing a b c with
  | nil => simp [subLoop, addLoop]
  | cons x xs ih => cases a with
    | nil => simp [subLoop, addLoop]
    | cons y ys => cases b with
      | nil => simp [subLoop, addLoop]
      | cons z zs => simp [subLoop, addLoop, ih]

theorem wordsVal_map_not (b : List Word) :
    wordsVal (b.map fun e => ~~~e) = 2 ^ (64 * b.length) - 1 - wordsVal b := by
  induction b with
  | nil => rfl
  | cons x xs ih =>
    have h1 := wordsVal_lt xs
    have hx := x.isLt
    rw [List.map_cons, wordsVal_cons, wordsVal_cons, ih, List.length_cons, two_pow_mul_succ, BitVec.toNat_not]
    generalize 2 ^ (64 * xs.length) = P at *
    omega

theorem subLoop_length {c : Nat} (hc : c ≤ 1) {d a b : List Word} (h : d.length = a.length) (h' : a.length = b.length) :
    (subLoop c d a b).length = a.length := by
  rw [subLoop_eq]; exact (addLoop_spec hc h (by simpa using h')).1

theorem subLoop_val {d a b : List Word} (h : d.length = a.length) (h' : a.length = b.length) :
    wordsVal (subLoop 1 d a b) = (wordsVal a + (2 ^ (64 * a.length) - wordsVal b)) % 2 ^ (64 * a.length) := by
  rw [subLoop_eq, addLoop_val (by omega) h (by simpa using h'), wordsVal_map_not, ← h']
  have := wordsVal_lt b
  rw [← h'] at this
  congr 1
  omega

theorem negateLoop_eq (c : Nat) (d : List Word) :
    negateLoop c d = addLoop c d (List.replicate d.length 0#64) (d.map fun e => ~~~e) := by
  induction d generalizing c with
  | nil => rfl
  | cons x xs ih => simp [negateLoop, addLoop, ih, List.replicate_succ]

theorem negateLoop_length (d : List Word) : (negateLoop 1 d).length = d.length := by
  rw [negateLoop_eq]
  have := (addLoop_spec (c := 1) (by omega) (d := d) (a := List.replicate d.length 0#64)
    (b := d.map fun e => ~~~e) (by simp) (by simp)).1
  simpa using this

theorem negateLoop_val (d : List Word) :
    wordsVal (negateLoop 1 d) = (2 ^ (64 * d.length) - wordsVal d) % 2 ^ (64 * d.length) := by
  rw [negateLoop_eq, addLoop_val (by omega) (by simp) (by simp), wordsVal_map_not, wordsVal_replicate_zero]
  have := wordsVal_lt d
  rw [List.length_replicate]
  congr 1
  omega

theorem pow_mod_pow_mod (x : Nat) {a b : Nat} (h : a ≤ b) : x % 2 ^ b % 2 ^ a = x % 2 ^ a :=
  Nat.mod_mod_of_dvd _ (Nat.pow_dvd_pow 2 h)

theorem add_spec {m : Mode} {d a b : List Word} {width : Nat} (hw : 0 < width) (hd : d.length = (width + 63) / 64)
    (ha : a.length = (width + 63) / 64) (hb : b.length = (width + 63) / 64) :
    ∃ r, add m d a b width = ok r ∧ r.length = (width + 63) / 64 ∧
      wordsVal r = (wordsVal a + wordsVal b) % 2 ^ width := by
  have hl := (addLoop_spec (c := 0) (by omega) (d := d) (a := a) (b := b) (by omega) (by omega)).1
  obtain ⟨r, h1, h2, h3⟩ := maskMsb_spec (m := m) (dst := addLoop 0 d a b) (width := width) (by omega) hw
  refine ⟨r, h1, by omega, ?_⟩
  rw [h3, addLoop_val (by omega) (by omega) (by omega), pow_mod_pow_mod _ (by omega), Nat.add_zero]

theorem two_pow_mod_self_add (x y : Nat) {a b : Nat} (h : a ≤ b) (hy : y < 2 ^ a) :
    (x + (2 ^ b - y)) % 2 ^ a = (x + (2 ^ a - y)) % 2 ^ a := by
  obtain ⟨k, rfl⟩ := Nat.exists_eq_add_of_le h
  rw [Nat.pow_add]
  have hk : 0 < 2 ^ k := Nat.two_pow_pos k
  obtain ⟨q, hq⟩ : ∃ q, 2 ^ k = q + 1 := ⟨2 ^ k - 1, by omega⟩
  rw [hq, Nat.mul_add]
  have : x + (2 ^ a * q + 2 ^ a * 1 - y) = (x + (2 ^ a - y)) + 2 ^ a * q := by omega
  rw [this, Nat.add_mul_mod_self_left]

theorem sub_spec {m : Mode} {d a b : List Word} {width : Nat} (hw : 0 < width) (hd : d.length = (width + 63) / 64)
    (ha : a.length = (width + 63) / 64) (hb : b.length = (width + 63) / 64) (hbv : wordsVal b < 2 ^ width) :
    ∃ r, sub m d a b width = ok r ∧ r.length = (width + 63) / 64 ∧
      wordsVal r = (wordsVal a + (2 ^ width - wordsVal b)) % 2 ^ width := by
  have hl := subLoop_length (c := 1) (by omega) (d := d) (a := a) (b := b) (by omega) (by omega)
  obtain ⟨r, h1, h2, h3⟩ := maskMsb_spec (m := m) (dst := subLoop 1 d a b) (width := width) (by omega) hw
  refine ⟨r, h1, by omega, ?_⟩
  rw [h3, subLoop_val (by omega) (by omega), pow_mod_pow_mod _ (by omega), two_pow_mod_self_add _ _ (by omega) hbv]

theorem negateInPlace_spec {m : Mode} {d : List Word} {width : Nat} (hw : 0 < width)
    (hd : d.length = (width + 63) / 64) :
    ∃ r, negateInPlace m d width = ok r ∧ r.length = (width + 63) / 64 ∧
      wordsVal r = (2 ^ (64 * d.length) - wordsVal d) % 2 ^ width := by
  obtain ⟨r, h1, h2, h3⟩ := maskMsb_spec (m := m) (dst := negateLoop 1 d) (width := width)
    (by rw [negateLoop_length]; omega) hw
  refine ⟨r, h1, by rw [h2, negateLoop_length]; omega, ?_⟩
  rw [h3, negateLoop_val, pow_mod_pow_mod _ (by omega)]

theorem negateInPlace_spec' {m : Mode} {d : List Word} {width : Nat} (hw : 0 < width)
    (hd : d.length = (width + 63) / 64) (hv : wordsVal d < 2 ^ width) :
    ∃ r, negateInPlace m d width = ok r ∧ r.length = (width + 63) / 64 ∧
      wordsVal r = (2 ^ width - wordsVal d) % 2 ^ width := by
  obtain ⟨r, h1, h2, h3⟩ := negateInPlace_spec (m := m) hw hd
  refine ⟨r, h1, h2, ?_⟩
  have := two_pow_mod_self_add 0 (wordsVal d) (a := width) (b := 64 * d.length) (by omega) hv
  simp only [Nat.zero_add] at this
  rw [h3, this]

/-! ## Shifting loops -/

theorem sliceLoop_length (sr sl : Nat) (mk prev : Word) (ds ss : List Word) :
    (sliceLoop sr sl mk prev ds ss).length = ds.length := by
  induction ds generalizing ss prev with
  | nil => simp [sliceLoop]
  | cons x xs ih => cases ss with
    | nil => simp [sliceLoop]
    | cons y ys => simp [sliceLoop, ih]

theorem bit_sliceLoop {sr : Nat} (h0 : 0 < sr) (h : sr < 64) {mk : Word} (hmk : ∀ i, mk.getLsbD i = decide (i < sr))
    (p : Word) {ds ss : List Word} (hl : ds.length ≤ ss.length) (i : Nat) (hi : i < 64 * ds.length) :
    bit (sliceLoop sr (64 - sr) mk (p >>> sr) ds ss) i = bit (p :: ss) (i + sr) := by
  induction ds generalizing p ss i with
  | nil => simp at hi
  | cons x xs ih => cases ss with
    | nil => simp at hl
    | cons y ys =>
      rw [sliceLoop, bit_cons, bit_cons]
      by_cases h1 : i < 64
      · rw [if_pos h1, BitVec.getLsbD_or, BitVec.getLsbD_ushiftRight, BitVec.getLsbD_shiftLeft, BitVec.getLsbD_and, hmk]
        by_cases h2 : i + sr < 64
        · have h3 : i < 64 - sr := by omega
          rw [if_pos h2, Nat.add_comm sr i, decide_eq_true h3]
          simp
        · have h3 : ¬ i < 64 - sr := by omega
          have h4 : 64 ≤ sr + i := by omega
          have h5 : i - (64 - sr) < sr := by omega
          have h6 : i + sr - 64 < 64 := by omega
          have h7 : i - (64 - sr) = i + sr - 64 := by omega
          simp only [h2, if_false, bit_cons, h6, if_true]
          rw [BitVec.getLsbD_of_ge _ _ h4, h7]
          rw [h7] at h5
          simp [h1, h3, h5]
      · have h2 : ¬ i + sr < 64 := by omega
        rw [if_neg h1, if_neg h2, ih y (by simpa using hl) (i - 64) (by simp at hi; omega)]
        congr 1; omega

theorem concatLoop_length (sr off : Nat) (mk prev : Word) (ds ss : List Word) :
    (concatLoop sr off mk prev ds ss).length = ds.length := by
  induction ds generalizing ss prev with
  | nil => simp [concatLoop]
  | cons x xs ih => cases ss with
    | nil => simp [concatLoop]
    | cons y ys => simp [concatLoop, ih]

theorem bit_concatLoop {off : Nat} (h0 : 0 < off) (h : off < 64) {mk : Word}
    (hmk : ∀ i, mk.getLsbD i = decide (i < 64 - off)) (prev : Word) (hp : ∀ i, off ≤ i → prev.getLsbD i = false)
    {ds ss : List Word} (hl : ds.length ≤ ss.length) (i : Nat) (hi : i < 64 * ds.length) :
    bit (concatLoop (64 - off) off mk prev ds ss) i = if i < off then prev.getLsbD i else bit ss (i - off) := by
  induction ds generalizing prev ss i with
  | nil => simp at hi
  | cons x xs ih => cases ss with
    | nil => simp at hl
    | cons y ys =>
      rw [concatLoop, bit_cons, bit_cons]
      by_cases h1 : i < 64
      · rw [if_pos h1, BitVec.getLsbD_or, BitVec.getLsbD_shiftLeft, BitVec.getLsbD_and, hmk]
        by_cases h2 : i < off
        · simp [h2]
        · have h3 : i - off < 64 - off := by omega
          have h4 : i - off < 64 := by omega
          rw [hp i (by omega), if_neg h2, if_pos h4, decide_eq_true h1, decide_eq_false h2, decide_eq_true h3]
          simp
      · have h2 : ¬ i < off := by omega
        rw [if_neg h1, if_neg h2]
        have hp' : ∀ j, off ≤ j → (y >>> (64 - off)).getLsbD j = false := by
          intro j hj
          rw [BitVec.getLsbD_ushiftRight, BitVec.getLsbD_of_ge _ _ (by omega)]
        rw [ih _ hp' (by simpa using hl) (i - 64) (by simp at hi; omega)]
        by_cases h3 : i - 64 < off
        · have h4 : i - off < 64 := by omega
          rw [if_pos h3, if_pos h4, BitVec.getLsbD_ushiftRight]
          congr 1; omega
        · have h4 : ¬ i - off < 64 := by omega
          rw [if_neg h3, if_neg h4]
          congr 1; omega

theorem shiftLeftLoop_length (shl shr : Nat) (prev : Word) (ds ss : List Word) :
    (shiftLeftLoop shl shr prev ds ss).length = ds.length := by
  induction ds generalizing ss prev with
  | nil => simp [shiftLeftLoop]
  | cons x xs ih => cases ss with
    | nil => simp [shiftLeftLoop]
    | cons y ys =>
      rw [shiftLeftLoop]
      split <;> simp [ih]

theorem shiftLeftLoop_zero (shr : Nat) (prev : Word) {ds ss : List Word} (h : ds.length ≤ ss.length) :
    shiftLeftLoop 0 shr prev ds ss = ss.take ds.length := by
  induction ds generalizing ss prev with
  | nil => simp [shiftLeftLoop]
  | cons x xs ih => cases ss with
    | nil => simp at h
    | cons y ys => simp [shiftLeftLoop, ih _ (by simpa using h)]

theorem bit_shiftLeftLoop {shl : Nat} (h0 : 0 < shl) (h : shl < 64) (prev : Word)
    (hp : ∀ i, shl ≤ i → prev.getLsbD i = false) {ds ss : List Word} (hl : ds.length ≤ ss.length) (i : Nat)
    (hi : i < 64 * ds.length) :
    bit (shiftLeftLoop shl (64 - shl) prev ds ss) i = if i < shl then prev.getLsbD i else bit ss (i - shl) := by
  induction ds generalizing prev ss i with
  | nil => simp at hi
  | cons x xs ih => cases ss with
    | nil => simp at hl
    | cons y ys =>
      rw [shiftLeftLoop, if_neg (by omega), bit_cons, bit_cons]
      by_cases h1 : i < 64
      · rw [if_pos h1, BitVec.getLsbD_or, BitVec.getLsbD_shiftLeft]
        by_cases h2 : i < shl
        · simp [h2]
        · have h4 : i - shl < 64 := by omega
          rw [hp i (by omega), if_neg h2, if_pos h4, decide_eq_true h1, decide_eq_false h2]
          simp
      · have h2 : ¬ i < shl := by omega
        rw [if_neg h1, if_neg h2]
        have hp' : ∀ j, shl ≤ j → (y >>> (64 - shl)).getLsbD j = false := by
          intro j hj
          rw [BitVec.getLsbD_ushiftRight, BitVec.getLsbD_of_ge _ _ (by omega)]
        rw [ih _ hp' (by simpa using hl) (i - 64) (by simp at hi; omega)]
        by_cases h3 : i - 64 < shl
        · have h4 : i - shl < 64 := by omega
          rw [if_pos h3, if_pos h4, BitVec.getLsbD_ushiftRight]
          congr 1; omega
        · have h4 : ¬ i - shl < 64 := by omega
          rw [if_neg h3, if_neg h4]
          congr 1; omega

end Arith
end Baa

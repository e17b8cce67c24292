import Verif.Props.Arith
import Verif.Props.Convert
import Verif.Props.Slice
import Verif.Spec.Hamming

/-!
# C157: a Hamming code corrects one wrong bit and detects two
-/

namespace Baa
open Res

variable {n r : Nat}

theorem toggleBit_spec {v : BitVecValue} {x : BitVec n} (hv : Denotes v x) {i : Nat} (hi : i < n) :
    ∃ b, toggleBit v i = ok b ∧ Denotes b (x ^^^ BitVec.twoPow n i) := by
  rw [toggleBit, C24_is_bit_set hv hi, ok_bind]
  by_cases c : x.getLsbD i = true
  · obtain ⟨b, z, h1, h2, h3⟩ := C24_clear_bit hv hi
    refine ⟨b, by rw [if_pos c, h1], ?_⟩
    have : z = x ^^^ BitVec.twoPow n i := by
      apply BitVec.eq_of_getLsbD_eq
      intro j hj
      rw [h3, BitVec.getLsbD_xor, BitVec.getLsbD_twoPow]
      by_cases e : j = i
      · subst e
        simp [c, hi]
      · simp [e, Ne.symm e]
    exact this ▸ h2
  · replace c : x.getLsbD i = false := by simpa using c
    obtain ⟨b, z, h1, h2, h3⟩ := C24_set_bit hv hi
    refine ⟨b, by rw [if_neg (by simp [c]), h1], ?_⟩
    have : z = x ^^^ BitVec.twoPow n i := by
      apply BitVec.eq_of_getLsbD_eq
      intro j hj
      rw [h3, BitVec.getLsbD_xor, BitVec.getLsbD_twoPow]
      by_cases e : j = i
      · subst e
        rw [c]
        simp [hi]
      · simp [e, Ne.symm e]
    exact this ▸ h2

/-- The syndrome of a bit-vector, over the bits in a list. -/
def syndBv (r : Nat) (x : BitVec n) (l : List Nat) (s : BitVec r) : BitVec r :=
  l.foldl (fun s i => if x.getLsbD i then s ^^^ BitVec.ofNat r (i + 1) else s) s

theorem syndromeOf_spec (m : Mode) (h0 : 0 < r) (hr : r < 2 ^ 32) (hn : n < 2 ^ r) (hn' : n < 2 ^ 32) {v : BitVecValue} {x : BitVec n} (hv : Denotes v x)
    (l : List Nat) : ∀ {t : BitVecValue} {s : BitVec r}, (∀ i ∈ l, i < n) → Denotes t s →
      ∃ u, syndromeOf m r v t l = ok u ∧ Denotes u (syndBv r x l s) := by
  induction l with
  | nil => exact fun _ ht => ⟨_, rfl, ht⟩
  | cons i l ih =>
    intro t s hl ht
    have hi := hl i (by simp)
    have e : (BitVec.ofNat 64 (i + 1)).toNat = i + 1 := by rw [BitVec.toNat_ofNat, Nat.mod_eq_of_lt (by omega)]
    obtain ⟨k, k1, k2⟩ := C01_from_u64 m h0 hr (BitVec.ofNat 64 (i + 1)) (by omega)
    rw [e] at k2
    obtain ⟨q, q1, q2⟩ := C10_xor m ht k2
    have hs : ∃ u, (if x.getLsbD i then BitVecValue.xor m t k else ok t) = ok u ∧
        Denotes u (if x.getLsbD i then s ^^^ BitVec.ofNat r (i + 1) else s) := by
      by_cases c : x.getLsbD i = true
      · exact ⟨q, by rw [if_pos c, q1], by rw [if_pos c]; exact q2⟩
      · exact ⟨t, by rw [if_neg c], by rw [if_neg c]; exact ht⟩
    obtain ⟨u, u1, u2⟩ := hs
    obtain ⟨u', w1, w2⟩ := ih (fun j hj => hl j (by simp [hj])) u2
    refine ⟨u', ?_, w2⟩
    rw [syndromeOf, C24_is_bit_set hv hi, ok_bind, k1, ok_bind, u1, ok_bind, w1]

theorem syndrome_spec (m : Mode) (h0 : 0 < r) (hr : r < 2 ^ 32) (hn : n < 2 ^ r) {v : BitVecValue} {x : BitVec n} (hv : Denotes v x) :
    ∃ u, syndrome m r v = ok u ∧ Denotes u (syndBv r x (List.range n) 0#r) := by
  have := syndromeOf_spec m h0 hr hn hv.1 hv (List.range n) (fun i hi => List.mem_range.1 hi) (C01_zero hr)
  rwa [syndrome, hv.width_eq]

theorem syndBv_acc (x : BitVec n) (l : List Nat) : ∀ s t : BitVec r, syndBv r x l (s ^^^ t) = syndBv r x l s ^^^ t := by
  induction l with
  | nil => exact fun _ _ => rfl
  | cons i l ih =>
    intro s t
    unfold syndBv at ih ⊢
    rw [List.foldl_cons, List.foldl_cons, ← ih]
    by_cases c : x.getLsbD i = true
    · rw [if_pos c, if_pos c, BitVec.xor_assoc, BitVec.xor_comm t, BitVec.xor_assoc]
    · rw [if_neg c, if_neg c]

theorem syndBv_other (x : BitVec n) {i : Nat} (l : List Nat) : ∀ s : BitVec r, i ∉ l → syndBv r (x ^^^ BitVec.twoPow n i) l s = syndBv r x l s := by
  induction l with
  | nil => exact fun _ _ => rfl
  | cons j l ih =>
    intro s h
    have hj : ¬ i = j := fun e => h (by simp [e])
    unfold syndBv at ih ⊢
    rw [List.foldl_cons, List.foldl_cons, ih _ fun q => h (by simp [q])]
    simp [BitVec.getLsbD_xor, BitVec.getLsbD_twoPow, hj]

theorem syndBv_toggle (x : BitVec n) {i : Nat} (hi : i < n) (l : List Nat) : ∀ s : BitVec r, l.Nodup → i ∈ l →
    syndBv r (x ^^^ BitVec.twoPow n i) l s = syndBv r x l s ^^^ BitVec.ofNat r (i + 1) := by
  induction l with
  | nil => exact fun _ _ h => absurd h (by simp)
  | cons j l ih =>
    intro s hd h
    obtain ⟨d1, d2⟩ := List.nodup_cons.1 hd
    by_cases e : i = j
    · subst e
      have h1 : syndBv r (x ^^^ BitVec.twoPow n i) (i :: l) s =
          syndBv r (x ^^^ BitVec.twoPow n i) l (if x.getLsbD i then s else s ^^^ BitVec.ofNat r (i + 1)) := by
        rw [syndBv, List.foldl_cons, syndBv]
        congr 1
        have hb : (x ^^^ BitVec.twoPow n i).getLsbD i = !x.getLsbD i := by
          rw [BitVec.getLsbD_xor, BitVec.getLsbD_twoPow]
          simp [hi]
        rw [hb]
        cases x.getLsbD i <;> rfl
      have h2 : syndBv r x (i :: l) s = syndBv r x l (if x.getLsbD i then s ^^^ BitVec.ofNat r (i + 1) else s) := rfl
      rw [h1, h2, syndBv_other _ _ _ d1, ← syndBv_acc]
      congr 1
      cases x.getLsbD i
      · rfl
      · simp [BitVec.xor_assoc]
    · have h3 : (x ^^^ BitVec.twoPow n i).getLsbD j = x.getLsbD j := by
        simp [BitVec.getLsbD_xor, BitVec.getLsbD_twoPow, e]
      have := ih (if x.getLsbD j then s ^^^ BitVec.ofNat r (j + 1) else s) d2 (by simpa [e] using h)
      unfold syndBv at this ⊢
      rw [List.foldl_cons, List.foldl_cons, h3, this]

/-- The check bits that are toggled. -/
def checksBv (s : BitVec r) (ks : List Nat) (x : BitVec n) : BitVec n :=
  ks.foldl (fun x k => if s.getLsbD k then x ^^^ BitVec.twoPow n (2 ^ k - 1) else x) x

theorem check_lt (hrn : 2 ^ r ≤ 2 * n) {k : Nat} (hk : k < r) : 2 ^ k - 1 < n := by
  have h1 : 2 ^ (k + 1) ≤ 2 ^ r := Nat.pow_le_pow_right (by decide) hk
  have h2 : 0 < 2 ^ k := Nat.two_pow_pos k
  rw [Nat.pow_succ] at h1
  omega

theorem toggleChecks_spec (hrn : 2 ^ r ≤ 2 * n) {t : BitVecValue} {s : BitVec r} (ht : Denotes t s) (ks : List Nat) :
    ∀ {v : BitVecValue} {x : BitVec n}, (∀ k ∈ ks, k < r) → Denotes v x →
      ∃ b, toggleChecks t v ks = ok b ∧ Denotes b (checksBv s ks x) := by
  induction ks with
  | nil => exact fun _ hv => ⟨_, rfl, hv⟩
  | cons k ks ih =>
    intro v x hk hv
    have hk' := hk k (by simp)
    obtain ⟨b, b1, b2⟩ := toggleBit_spec hv (check_lt hrn hk')
    have hs : ∃ u, (if s.getLsbD k then toggleBit v (2 ^ k - 1) else ok v) = ok u ∧
        Denotes u (if s.getLsbD k then x ^^^ BitVec.twoPow n (2 ^ k - 1) else x) := by
      by_cases c : s.getLsbD k = true
      · exact ⟨b, by rw [if_pos c, b1], by rw [if_pos c]; exact b2⟩
      · exact ⟨v, by rw [if_neg c], by rw [if_neg c]; exact hv⟩
    obtain ⟨u, u1, u2⟩ := hs
    obtain ⟨w, w1, w2⟩ := ih (fun j hj => hk j (by simp [hj])) u2
    exact ⟨w, by rw [toggleChecks, C24_is_bit_set ht hk', ok_bind, u1, ok_bind, w1], w2⟩

theorem checksBv_data (s : BitVec r) {j : Nat} (hj : ∀ k, j ≠ 2 ^ k - 1) (ks : List Nat) :
    ∀ x : BitVec n, (checksBv s ks x).getLsbD j = x.getLsbD j := by
  induction ks with
  | nil => exact fun _ => rfl
  | cons k ks ih =>
    intro x
    unfold checksBv at ih ⊢
    rw [List.foldl_cons, ih]
    have := (hj k).symm
    cases s.getLsbD k <;> simp [BitVec.getLsbD_xor, BitVec.getLsbD_twoPow, this]

/-- After the check bits below `j` the syndrome has lost its bits below `j`. -/
theorem syndBv_checks (hrn : 2 ^ r ≤ 2 * n) (s : BitVec r) (x : BitVec n) (hs : syndBv r x (List.range n) 0#r = s) :
    ∀ j, j ≤ r → ∀ i, (syndBv r (checksBv s (List.range j) x) (List.range n) 0#r).getLsbD i = (s.getLsbD i && decide (j ≤ i)) := by
  intro j
  induction j with
  | zero => intro _ i; simp [checksBv, hs]
  | succ j ih =>
    intro hj i
    have hc : checksBv s (List.range (j + 1)) x =
        if s.getLsbD j then checksBv s (List.range j) x ^^^ BitVec.twoPow n (2 ^ j - 1) else checksBv s (List.range j) x := by
      simp [checksBv, List.range_succ]
    have hp : 2 ^ j - 1 + 1 = 2 ^ j := by have := Nat.two_pow_pos j; omega
    have ih := ih (by omega)
    by_cases c : s.getLsbD j = true
    · rw [hc, if_pos c, syndBv_toggle _ (check_lt hrn (by omega)) _ _ List.nodup_range (List.mem_range.2 (check_lt hrn (by omega))),
        BitVec.getLsbD_xor, ih, hp, BitVec.getLsbD_ofNat, Nat.testBit_two_pow]
      by_cases e : j = i
      · subst e
        simp [c, show j < r by omega]
      · by_cases q : j ≤ i
        · simp [e, q, show j + 1 ≤ i by omega]
        · simp [e, q, show ¬ j + 1 ≤ i by omega]
    · rw [hc, if_neg c, ih]
      by_cases e : j = i
      · subst e
        simp [c]
      · by_cases q : j ≤ i
        · simp [q, show j + 1 ≤ i by omega]
        · simp [q, show ¬ j + 1 ≤ i by omega]

theorem ofNat_ne_zero_of_lt {i : Nat} (hn : n < 2 ^ r) (hi : i < n) : BitVec.ofNat r (i + 1) ≠ 0#r := by
  intro e
  have := congrArg BitVec.toNat e
  rw [BitVec.toNat_ofNat, Nat.mod_eq_of_lt (by omega)] at this
  simp at this

/-- **C157** The word with its check bits set keeps its data bits and is left alone by a correction. When one bit of it is wrong,
whichever it is, correction gives it back. When two bits are wrong, that is noticed. -/
theorem C157_hamming (m : Mode) (h0 : 0 < r) (hn : n < 2 ^ r) (hrn : 2 ^ r ≤ 2 * n) {v : BitVecValue} {x : BitVec n} (hv : Denotes v x) :
    ∃ a c, protect m r v = ok a ∧ Denotes a (c : BitVec n) ∧ (∀ j, (∀ k, j ≠ 2 ^ k - 1) → c.getLsbD j = x.getLsbD j) ∧
      intact m r a = ok true ∧ repair m r a = ok a ∧
      (∀ i b, i < n → Denotes b (c ^^^ BitVec.twoPow n i) → intact m r b = ok false ∧ repair m r b = ok a) ∧
      ∀ i j b, i < j → j < n → Denotes b (c ^^^ BitVec.twoPow n i ^^^ BitVec.twoPow n j) → intact m r b = ok false := by
  have hn32 : n < 2 ^ 32 := hv.1
  have hr : r ≤ 32 := by
    have : 2 ^ r < 2 ^ 33 := by omega
    have := (Nat.pow_lt_pow_iff_right (a := 2) (by decide)).1 this
    omega
  have hr32 : r < 2 ^ 32 := by omega
  obtain ⟨u, u1, u2⟩ := syndrome_spec m h0 hr32 hn hv
  obtain ⟨a, a1, a2⟩ := toggleChecks_spec hrn u2 (List.range r) (fun k hk => List.mem_range.1 hk) hv
  have hz : syndBv r (checksBv (syndBv r x (List.range n) 0#r) (List.range r) x) (List.range n) 0#r = 0#r := by
    apply BitVec.eq_of_getLsbD_eq
    intro i hi
    rw [syndBv_checks hrn _ x rfl r (Nat.le_refl _)]
    simp [show ¬ r ≤ i by omega]
  have hd : ∀ j, (∀ k, j ≠ 2 ^ k - 1) →
      (checksBv (syndBv r x (List.range n) 0#r) (List.range r) x).getLsbD j = x.getLsbD j := fun j hj => checksBv_data _ hj _ _
  generalize checksBv (syndBv r x (List.range n) 0#r) (List.range r) x = c at a2 hz hd
  obtain ⟨s, s1, s2⟩ := syndrome_spec m h0 hr32 hn a2
  rw [hz] at s2
  refine ⟨a, c, by rw [protect, u1, ok_bind, a1], a2, hd, ?_, ?_, ?_, ?_⟩
  · rw [intact, s1, ok_bind, C25_is_zero s2]
    simp
  · rw [repair, s1, ok_bind, C25_is_zero s2]
    simp
  · intro i b hi hb
    obtain ⟨t, t1, t2⟩ := syndrome_spec m h0 hr32 hn hb
    rw [syndBv_toggle _ hi _ _ List.nodup_range (List.mem_range.2 hi), hz, BitVec.zero_xor] at t2
    have hne := ofNat_ne_zero_of_lt hn hi
    have e : (BitVec.ofNat r (i + 1)).toNat = i + 1 := by rw [BitVec.toNat_ofNat, Nat.mod_eq_of_lt (by omega)]
    obtain ⟨q, q1, q2⟩ := toggleBit_spec hb hi
    rw [BitVec.xor_assoc, BitVec.xor_self, BitVec.xor_zero] at q2
    refine ⟨by rw [intact, t1, ok_bind, C25_is_zero t2, decide_eq_false hne], ?_⟩
    rw [repair, t1, ok_bind, C25_is_zero t2, decide_eq_false hne, if_neg (by simp), C03_to_u64 t2, e, if_pos (by omega), unwrap, ok_bind,
      BitVec.toNat_ofNat, Nat.mod_eq_of_lt (by omega), Nat.add_sub_cancel, q1, q2.repr_unique a2]
  · intro i j b hij hj hb
    obtain ⟨t, t1, t2⟩ := syndrome_spec m h0 hr32 hn hb
    rw [syndBv_toggle _ hj _ _ List.nodup_range (List.mem_range.2 hj), syndBv_toggle _ (by omega) _ _ List.nodup_range (List.mem_range.2 (by omega)),
      hz, BitVec.zero_xor] at t2
    rw [intact, t1, ok_bind, C25_is_zero t2, decide_eq_false]
    intro e
    have := congrArg BitVec.toNat (BitVec.xor_eq_zero_iff.1 e)
    rw [BitVec.toNat_ofNat, BitVec.toNat_ofNat, Nat.mod_eq_of_lt (by omega), Nat.mod_eq_of_lt (by omega)] at this
    omega

/-- The code with four data bits and three check bits: `1011` becomes `1010101`, and a wrong bit is put right. -/
example : protect .debug 3 (encode 0b1010100#7) = ok (encode 0b1010101#7) ∧
    repair .debug 3 (encode 0b1000101#7) = ok (encode 0b1010101#7) ∧ repair .debug 3 (encode 0b1010100#7) = ok (encode 0b1010101#7) ∧
    intact .debug 3 (encode 0b0000101#7) = ok false := by decide +kernel

/-- A word of a hundred bits, with seven check bits. -/
example : ∃ a c, protect .release 7 (encode 0x123456789abcdef#100) = ok a ∧ Denotes a (c : BitVec 100) ∧
    repair .release 7 (encode (c ^^^ BitVec.twoPow 100 70)) = ok a := by
  obtain ⟨a, c, h1, h2, -, -, -, h3, -⟩ := C157_hamming .release (n := 100) (r := 7) (by decide) (by decide) (by decide)
    (encode_denotes 0x123456789abcdef#100 (by decide))
  exact ⟨a, c, h1, h2, (h3 70 _ (by decide) (encode_denotes _ (by decide))).2⟩

/-- Three wrong bits can go unnoticed, and two wrong bits can make a third one wrong. -/
theorem C157_three_errors : intact .debug 3 (encode 0#7) = ok true ∧ intact .debug 3 (encode 0b111#7) = ok true ∧
    repair .debug 3 (encode 0b011#7) = ok (encode 0b111#7) := by decide +kernel

end Baa

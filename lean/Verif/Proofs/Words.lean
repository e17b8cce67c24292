import Verif.Spec

/-!
# Word lists as numbers: basic lemmas
-/

namespace Baa
open Res

@[simp] theorem wordsVal_nil : wordsVal [] = 0 := rfl
theorem wordsVal_cons (w : Word) (ws : List Word) : wordsVal (w :: ws) = w.toNat + 2 ^ 64 * wordsVal ws := rfl

theorem two_pow_mul_succ (n : Nat) : 2 ^ (64 * (n + 1)) = 2 ^ 64 * 2 ^ (64 * n) := by
  rw [Nat.mul_add, Nat.pow_add, Nat.mul_comm]

theorem wordsVal_lt (ws : List Word) : wordsVal ws < 2 ^ (64 * ws.length) := by
  induction ws with
  | nil => simp
  | cons w ws ih =>
    rw [wordsVal_cons, List.length_cons, two_pow_mul_succ]
    have hw := w.isLt
    have : 2 ^ 64 * (wordsVal ws + 1) ≤ 2 ^ 64 * 2 ^ (64 * ws.length) := Nat.mul_le_mul_left _ ih
    rw [Nat.mul_add] at this
    omega

theorem wordsVal_append (a b : List Word) : wordsVal (a ++ b) = wordsVal a + 2 ^ (64 * a.length) * wordsVal b := by
  induction a with
  | nil => simp
  | cons w ws ih =>
    rw [List.cons_append, wordsVal_cons, wordsVal_cons, List.length_cons, two_pow_mul_succ, ih,
      Nat.mul_add, Nat.mul_assoc, Nat.add_assoc]

theorem wordsVal_replicate_zero (n : Nat) : wordsVal (List.replicate n 0#64) = 0 := by
  induction n with
  | zero => rfl
  | succ n ih => rw [List.replicate_succ, wordsVal_cons, ih]; rfl

theorem wordsVal_inj {a b : List Word} (hl : a.length = b.length) (h : wordsVal a = wordsVal b) : a = b := by
  induction a generalizing b with
  | nil => cases b with
    | nil => rfl
    | cons _ _ => simp at hl
  | cons x xs ih =>
    cases b with
    | nil => simp at hl
    | cons y ys =>
      rw [wordsVal_cons, wordsVal_cons] at h
      have hx := x.isLt
      have hy := y.isLt
      have h1 : x.toNat = y.toNat := by omega
      have h2 : wordsVal xs = wordsVal ys := by omega
      rw [ih (by simpa using hl) h2, BitVec.eq_of_toNat_eq h1]

theorem bit_cons (w : Word) (ws : List Word) (i : Nat) :
    bit (w :: ws) i = if i < 64 then w.getLsbD i else bit ws (i - 64) := by
  unfold bit
  rw [wordsVal_cons, Nat.add_comm, Nat.testBit_two_pow_mul_add _ w.isLt]
  rfl

@[simp] theorem bit_nil (i : Nat) : bit [] i = false := by simp [bit]

theorem bit_eq_getD (ws : List Word) (i : Nat) : bit ws i = (ws.getD (i / 64) 0#64).getLsbD (i % 64) := by
  induction ws generalizing i with
  | nil => simp
  | cons w ws ih =>
    rw [bit_cons]
    by_cases h : i < 64
    · have h1 : i / 64 = 0 := by omega
      have h2 : i % 64 = i := by omega
      simp [h, h1, h2]
    · have h1 : i / 64 = (i - 64) / 64 + 1 := by omega
      have h2 : i % 64 = (i - 64) % 64 := by omega
      rw [if_neg h, ih, h1, h2]
      simp

theorem bit_of_ge (ws : List Word) (i : Nat) (h : 64 * ws.length ≤ i) : bit ws i = false := by
  unfold bit
  apply Nat.testBit_lt_two_pow
  exact Nat.lt_of_lt_of_le (wordsVal_lt ws) (Nat.pow_le_pow_right (by decide) h)

theorem bit_append (a b : List Word) (i : Nat) :
    bit (a ++ b) i = if i < 64 * a.length then bit a i else bit b (i - 64 * a.length) := by
  unfold bit
  rw [wordsVal_append, Nat.add_comm, Nat.testBit_two_pow_mul_add _ (wordsVal_lt a)]

theorem bit_replicate_zero (n i : Nat) : bit (List.replicate n 0#64) i = false := by
  simp [bit, wordsVal_replicate_zero]

theorem wordsVal_eq_of_bit {ws : List Word} {x : Nat} (h : ∀ i, bit ws i = x.testBit i) : wordsVal ws = x :=
  Nat.eq_of_testBit_eq h

theorem eq_of_bit {a b : List Word} (hl : a.length = b.length) (h : ∀ i, bit a i = bit b i) : a = b :=
  wordsVal_inj hl (Nat.eq_of_testBit_eq h)

theorem bit_drop (ws : List Word) (n i : Nat) : bit (ws.drop n) i = bit ws (i + 64 * n) := by
  rw [bit_eq_getD, bit_eq_getD]
  have h1 : (i + 64 * n) / 64 = n + i / 64 := by omega
  have h2 : (i + 64 * n) % 64 = i % 64 := by omega
  rw [h1, h2]
  simp [List.getD_eq_getElem?_getD, List.getElem?_drop]

theorem bit_take (ws : List Word) (n i : Nat) : bit (ws.take n) i = (decide (i < 64 * n) && bit ws i) := by
  rw [bit_eq_getD, bit_eq_getD]
  by_cases h : i < 64 * n
  · have h1 : i / 64 < n := by omega
    simp [List.getD_eq_getElem?_getD, h, h1]
  · have h1 : ¬ i / 64 < n := by omega
    simp [List.getD_eq_getElem?_getD, List.getElem?_take, h, h1]

theorem bit_set (ws : List Word) (n : Nat) (w : Word) (i : Nat) (hn : n < ws.length) :
    bit (ws.set n w) i = if i / 64 = n then w.getLsbD (i % 64) else bit ws i := by
  rw [bit_eq_getD, bit_eq_getD]
  by_cases h : i / 64 = n
  · subst h
    simp [List.getD_eq_getElem?_getD, hn]
  · have h' : n ≠ i / 64 := fun e => h e.symm
    simp [List.getD_eq_getElem?_getD, h, h']

/-! ## Denotes and Canonical -/

theorem divCeil_64 (w : Nat) : divCeil w 64 = (w + 63) / 64 := rfl

@[simp] theorem length_valueVecZeros (w : Nat) : (valueVecZeros w).length = (w + 63) / 64 := by
  simp [valueVecZeros, divCeil]

theorem toWords_length (n x : Nat) : (toWords n x).length = n := by
  induction n generalizing x with
  | zero => rfl
  | succ n ih => simp [toWords, ih]

theorem wordsVal_toWords (n x : Nat) : wordsVal (toWords n x) = x % 2 ^ (64 * n) := by
  induction n generalizing x with
  | zero => simp [toWords, Nat.mod_one]
  | succ n ih =>
    rw [toWords, wordsVal_cons, ih, two_pow_mul_succ, Nat.mod_mul, BitVec.toNat_ofNat]

theorem Denotes.canonical {v : BitVecValue} {w : Nat} {x : BitVec w} (h : Denotes v x) : Canonical v := by
  obtain ⟨h1, h2, h3, h4⟩ := h
  subst h2
  exact ⟨h1, h3, by rw [h4]; exact x.isLt⟩

theorem Canonical.denotes {v : BitVecValue} (h : Canonical v) :
    Denotes v (BitVec.ofNat v.width (wordsVal v.words)) :=
  ⟨h.width_lt, rfl, h.length_eq, by rw [BitVec.toNat_ofNat, Nat.mod_eq_of_lt h.val_lt]⟩

theorem canonical_iff (v : BitVecValue) : Canonical v ↔ ∃ (w : Nat) (x : BitVec w), Denotes v x :=
  ⟨fun h => ⟨_, _, h.denotes⟩, fun ⟨_, _, h⟩ => h.canonical⟩

theorem encode_denotes {w : Nat} (x : BitVec w) (hw : w < 2 ^ 32) : Denotes (encode x) x := by
  refine ⟨hw, rfl, toWords_length _ _, ?_⟩
  rw [encode, wordsVal_toWords, Nat.mod_eq_of_lt]
  exact Nat.lt_of_lt_of_le x.isLt (Nat.pow_le_pow_right (by decide) (by omega))

/-- The representation is unique. -/
theorem Denotes.eq_encode {v : BitVecValue} {w : Nat} {x : BitVec w} (h : Denotes v x) : v = encode x := by
  have he := encode_denotes x h.width_lt
  cases v with
  | mk vw ws =>
    have hw : vw = w := h.width_eq
    subst hw
    have : ws = (encode x).words := wordsVal_inj (h.length_eq.trans he.length_eq.symm) (h.val_eq.trans he.val_eq.symm)
    rw [this]; rfl

theorem Denotes.value_unique {v : BitVecValue} {w : Nat} {x y : BitVec w} (h : Denotes v x) (h' : Denotes v y) :
    x = y := BitVec.eq_of_toNat_eq (h.val_eq.symm.trans h'.val_eq)

theorem Denotes.repr_unique {u v : BitVecValue} {w : Nat} {x : BitVec w} (h : Denotes u x) (h' : Denotes v x) :
    u = v := h.eq_encode.trans h'.eq_encode.symm

theorem Denotes.bit {v : BitVecValue} {w : Nat} {x : BitVec w} (h : Denotes v x) (i : Nat) :
    bit v.words i = x.getLsbD i := by
  unfold Baa.bit
  rw [h.val_eq]; rfl

theorem Denotes.of_bit {v : BitVecValue} {w : Nat} {x : BitVec w} (h1 : w < 2 ^ 32) (h2 : v.width = w)
    (h3 : v.words.length = (w + 63) / 64) (h4 : ∀ i, Baa.bit v.words i = x.getLsbD i) : Denotes v x :=
  ⟨h1, h2, h3, wordsVal_eq_of_bit h4⟩

theorem Denotes.len_pos {v : BitVecValue} {w : Nat} {x : BitVec w} (h : Denotes v x) (hw : 0 < w) :
    0 < v.words.length := by rw [h.length_eq]; omega

/-! ## `Res` helpers -/

theorem debugAssert_true (m : Mode) : debugAssert m true = ok () := by cases m <;> rfl

theorem debugAssert_of {m : Mode} {b : Bool} (h : b = true) : debugAssert m b = ok () := by
  subst h; exact debugAssert_true m

theorem debugAssert_decide_of {m : Mode} {p : Prop} [Decidable p] (h : p) :
    debugAssert m (decide p) = ok () := debugAssert_of (by simp [h])

theorem subC_ok {m : Mode} {M a b : Nat} (h : b ≤ a) : subC m M a b = ok (a - b) := by simp [subC, h]
theorem addC_ok {m : Mode} {M a b : Nat} (h : a + b < M) : addC m M a b = ok (a + b) := by simp [addC, h]
theorem mulC_ok {m : Mode} {M a b : Nat} (h : a * b < M) : mulC m M a b = ok (a * b) := by simp [mulC, h]

theorem sliceR_ok {α : Type} {l : List α} {lo hi : Nat} (h : lo ≤ hi) (h' : hi ≤ l.length) :
    sliceR l lo hi = ok ((l.drop lo).take (hi - lo)) := by simp [sliceR, h, h']

theorem sliceR_full {α : Type} {l : List α} {n : Nat} (h : l.length = n) : sliceR l 0 n = ok l := by
  subst h; simp [sliceR]

theorem modifyRange_full {α : Type} {l : List α} {n : Nat} (h : l.length = n) (f : List α → Res (List α)) :
    modifyRange l 0 n f = f l := by
  simp only [modifyRange, sliceR_full h, ok_bind]
  cases f l with
  | ok s => simp [← h]
  | panic p => rfl

theorem idx_ok {α : Type} {l : List α} {i : Nat} (h : i < l.length) : idx l i = ok l[i] := by
  simp [idx, h]

theorem setIdx_ok {α : Type} {l : List α} {i : Nat} {x : α} (h : i < l.length) : setIdx l i x = ok (l.set i x) := by
  simp [setIdx, h]

theorem lastU_ok {α : Type} {l : List α} (h : l ≠ []) : lastU l = ok (l.getLast h) := by
  simp [lastU, List.getLast?_eq_some_getLast h]

theorem lastU_append {α : Type} (l : List α) (x : α) : lastU (l ++ [x]) = ok x := by
  simp [lastU]

end Baa

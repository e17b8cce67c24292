import Verif.Proofs.BytesBig

/-! # Lemmas about printing and parsing -/

namespace Baa
open Res

/-! ## Digits -/

theorem byte_forall {p : Byte → Prop} [DecidablePred p] (h : ∀ n, n < 256 → p (BitVec.ofNat 8 n)) (c : Byte) : p c := by
  have := h c.toNat c.isLt
  rwa [BitVec.ofNat_toNat, BitVec.setWidth_eq] at this

theorem toDigit36 (c : Byte) : toDigit 36 c = digitOf 36 c := by
  revert c
  apply byte_forall
  decide +kernel

theorem hexDigitValue_eq (c : Byte) : Strings.hexDigitValue c = digitOf 16 c := by
  revert c
  apply byte_forall
  decide +kernel

theorem binDigitValue_eq (c : Byte) : Strings.binDigitValue c = digitOf 2 c := by
  revert c
  apply byte_forall
  decide +kernel

theorem toDigit_bind {radix : Nat} (h : radix ≤ 36) (c : Byte) :
    toDigit radix c = (toDigit 36 c).bind fun d => if d < radix then some d else none := by
  unfold toDigit
  dsimp only
  generalize (if 48 ≤ BitVec.toNat c ∧ BitVec.toNat c ≤ 57 then some (BitVec.toNat c - 48)
    else
      if 97 ≤ BitVec.toNat c ∧ BitVec.toNat c ≤ 122 then some (BitVec.toNat c - 97 + 10)
      else if 65 ≤ BitVec.toNat c ∧ BitVec.toNat c ≤ 90 then some (BitVec.toNat c - 65 + 10) else none) = o
  cases o with
  | none => rfl
  | some d =>
    by_cases h1 : d < radix
    · have h2 : d < 36 := by omega
      simp [h1, h2]
    · by_cases h2 : d < 36 <;> simp [h1, h2]

theorem digitOf_bind {radix : Nat} (h : radix ≤ 36) (c : Byte) :
    digitOf radix c = (digitOf 36 c).bind fun d => if d < radix then some d else none := by
  unfold digitOf
  generalize (List.range 36).find? (fun d => lowerDigits[d]? == some c || upperDigits[d]? == some c) = o
  cases o with
  | none => rfl
  | some d =>
    by_cases h1 : d < radix
    · have h2 : d < 36 := by omega
      simp [h1, h2]
    · by_cases h2 : d < 36 <;> simp [h1, h2]

theorem toDigit_eq {radix : Nat} (h : radix ≤ 36) (c : Byte) : toDigit radix c = digitOf radix c := by
  rw [toDigit_bind h, digitOf_bind h, toDigit36]

theorem digitOf_lt {radix : Nat} {c : Byte} {d : Nat} (h : digitOf radix c = some d) : d < radix := by
  unfold digitOf at h
  split at h
  · split at h
    · cases h; assumption
    · cases h
  · cases h

/-! ## Digit strings -/

theorem digitsFrom_append (radix acc : Nat) (a b : List Byte) :
    digitsFrom radix acc (a ++ b) = (digitsFrom radix acc a).bind fun v => digitsFrom radix v b := by
  induction a generalizing acc with
  | nil => rfl
  | cons c a ih =>
    rw [List.cons_append, digitsFrom, digitsFrom]
    cases digitOf radix c with
    | none => rfl
    | some d => exact ih _

theorem digitsFrom_acc (radix acc : Nat) (s : List Byte) :
    digitsFrom radix acc s = (digitsFrom radix 0 s).map fun v => acc * radix ^ s.length + v := by
  induction s generalizing acc with
  | nil => simp [digitsFrom]
  | cons c s ih =>
    rw [digitsFrom, digitsFrom]
    cases digitOf radix c with
    | none => rfl
    | some d =>
      simp only
      rw [ih, ih (0 * radix + d), Option.map_map]
      congr 1
      funext v
      simp only [Function.comp, List.length_cons, Nat.pow_succ, Nat.zero_mul, Nat.zero_add, Nat.add_mul, Nat.mul_assoc]
      rw [Nat.mul_comm radix, Nat.add_assoc]

theorem digitsFrom_lt {radix : Nat} {s : List Byte} {n : Nat} (h : digitsFrom radix 0 s = some n) :
    n < radix ^ s.length := by
  induction s generalizing n with
  | nil => simp [digitsFrom] at h; subst h; simp
  | cons c s ih =>
    rw [digitsFrom] at h
    cases hd : digitOf radix c with
    | none => rw [hd] at h; cases h
    | some d =>
      rw [hd] at h
      simp only [Nat.zero_mul, Nat.zero_add] at h
      rw [digitsFrom_acc] at h
      cases hs : digitsFrom radix 0 s with
      | none => rw [hs] at h; cases h
      | some k =>
        rw [hs, Option.map_some] at h
        cases h
        have h1 := ih hs
        have h2 := digitOf_lt hd
        rw [List.length_cons, Nat.pow_succ, Nat.mul_comm (radix ^ s.length) radix]
        have : (d + 1) * radix ^ s.length ≤ radix * radix ^ s.length := Nat.mul_le_mul_right _ h2
        rw [Nat.add_mul, Nat.one_mul] at this
        omega

theorem digitsVal_lt {radix : Nat} {s : List Byte} {n : Nat} (h : digitsVal radix s = some n) :
    s ≠ [] ∧ n < radix ^ s.length := by
  unfold digitsVal at h
  split at h
  · cases h
  · exact ⟨by assumption, digitsFrom_lt h⟩

theorem le_of_digitsFrom {radix acc : Nat} (hr : 0 < radix) {s : List Byte} {n : Nat}
    (h : digitsFrom radix acc s = some n) : acc ≤ n := by
  rw [digitsFrom_acc] at h
  cases hs : digitsFrom radix 0 s with
  | none => rw [hs] at h; cases h
  | some k =>
    rw [hs, Option.map_some] at h
    cases h
    have : acc * 1 ≤ acc * radix ^ s.length := Nat.mul_le_mul_left _ (Nat.pow_pos hr)
    omega

/-! ## Most-significant-first digit lists -/

/-- The `n` base-`b` digits of `v`, most significant first, printed with `f`. -/
def msbDigits (b : Nat) (f : Nat → Byte) (v n : Nat) : List Byte :=
  (List.range n).reverse.map fun i => f (v / b ^ i % b)

theorem msbDigits_length (b : Nat) (f : Nat → Byte) (v n : Nat) : (msbDigits b f v n).length = n := by
  simp [msbDigits]

theorem msbDigits_succ (b : Nat) (f : Nat → Byte) (v n : Nat) :
    msbDigits b f v (n + 1) = f (v / b ^ n % b) :: msbDigits b f v n := by
  simp [msbDigits, List.range_succ]

theorem msbDigits_mod (b : Nat) (f : Nat → Byte) (v n : Nat) {k : Nat} (h : n ≤ k) :
    msbDigits b f (v % b ^ k) n = msbDigits b f v n := by
  unfold msbDigits
  apply List.map_congr_left
  intro i hi
  have hi : i < n := by simpa using hi
  congr 1
  obtain ⟨j, hj⟩ : ∃ j, k = i + (1 + j) := ⟨k - i - 1, by omega⟩
  rw [hj, Nat.pow_add, Nat.mod_mul_right_div_self, Nat.pow_add, Nat.pow_one, Nat.mod_mul_right_mod]

theorem msbDigits_append (b : Nat) (hb : 0 < b) (f : Nat → Byte) (lo hi k n : Nat) (hlo : lo < b ^ n) :
    msbDigits b f (lo + b ^ n * hi) (k + n) = msbDigits b f hi k ++ msbDigits b f lo n := by
  induction k with
  | zero =>
    rw [Nat.zero_add, show msbDigits b f hi 0 = [] from rfl, List.nil_append,
      ← msbDigits_mod b f _ n (Nat.le_refl n), Nat.add_mul_mod_self_left, Nat.mod_eq_of_lt hlo]
  | succ k ih =>
    rw [show k + 1 + n = (k + n) + 1 by omega, msbDigits_succ, ih, msbDigits_succ, List.cons_append]
    congr 2
    rw [Nat.add_comm k n, Nat.pow_add, ← Nat.div_div_eq_div_mul, Nat.add_mul_div_left _ _ (Nat.pow_pos hb),
      Nat.div_eq_of_lt hlo, Nat.zero_add]

theorem digitsFrom_msbDigits {b : Nat} (hb : 0 < b) {f : Nat → Byte} (hf : ∀ d, d < b → digitOf b (f d) = some d)
    (acc v n : Nat) : digitsFrom b acc (msbDigits b f v n) = some (acc * b ^ n + v % b ^ n) := by
  induction n generalizing acc with
  | zero => simp [msbDigits, digitsFrom, Nat.mod_one]
  | succ n ih =>
    rw [msbDigits_succ, digitsFrom, hf _ (Nat.mod_lt _ hb)]
    simp only
    rw [ih, Nat.add_mul, Nat.pow_succ, Nat.mul_assoc, Nat.mul_comm b, Nat.mod_mul, Nat.mul_comm (b ^ n) (v / b ^ n % b)]
    congr 1
    omega

/-- Concatenating the digits of all words, most significant word first. -/
theorem flatten_msbDigits {b q : Nat} (hb : 0 < b) (hq : b ^ q = 2 ^ 64) (f : Nat → Byte) (ws : List Word) :
    (ws.reverse.map fun w => msbDigits b f w.toNat q).flatten = msbDigits b f (wordsVal ws) (q * ws.length) := by
  induction ws with
  | nil => rfl
  | cons w ws ih =>
    rw [List.reverse_cons, List.map_append, List.flatten_append, ih, List.length_cons, Nat.mul_succ, wordsVal_cons, ← hq,
      msbDigits_append b hb f _ _ _ _ (by rw [hq]; exact w.isLt)]
    simp

/-! ## Printing -/

namespace Strings

/-- A binary digit. -/
def binChar (d : Nat) : Byte := if d = 1 then ch '1' else ch '0'

theorem digitOf_binChar : ∀ d, d < 2 → digitOf 2 (binChar d) = some d := by decide +kernel
theorem digitOf_hexChar : ∀ d, d < 16 → digitOf 16 (hexChar d) = some d := by decide +kernel

theorem bitChar_eq (w : Word) (i : Nat) : bitChar w i = binChar (w.toNat / 2 ^ i % 2) := by
  unfold bitChar binChar
  rw [Arith.and_one_beq, ← BitVec.testBit_toNat, Nat.testBit_eq_decide_div_mod_eq]
  by_cases h : w.toNat / 2 ^ i % 2 = 1 <;> simp [h]

theorem bitChars_eq (w : Word) (n : Nat) : bitChars w n = msbDigits 2 binChar w.toNat n := by
  unfold bitChars msbDigits
  apply List.map_congr_left
  intro i _
  exact bitChar_eq w i

theorem hexDigitOf_eq (w : Word) (i : Nat) : hexDigitOf w i = hexChar (w.toNat / 16 ^ i % 16) := by
  unfold hexDigitOf
  congr 1
  rw [BitVec.toNat_and, BitVec.toNat_ushiftRight, Nat.shiftRight_eq_div_pow, show (15#64).toNat = 2 ^ 4 - 1 from rfl,
    Nat.and_two_pow_sub_one_eq_mod, Nat.mul_comm, Nat.pow_mul]

theorem hexChars_eq (w : Word) (n : Nat) : hexChars w n = msbDigits 16 hexChar w.toNat n := by
  unfold hexChars msbDigits
  apply List.map_congr_left
  intro i _
  exact hexDigitOf_eq w i

theorem toBitStrInternal_eq {values : List Word} {width : Nat} (hw : 0 < width) (hv : values ≠ []) (out : List Byte) :
    toBitStrInternal values width out =
      ok (out ++ msbDigits 2 binChar (wordsVal values) ((width - 1) % 64 + 1 + 64 * (values.length - 1))) := by
  obtain ⟨ini, last, rfl⟩ : ∃ ini last, values = ini ++ [last] :=
    ⟨values.dropLast, values.getLast hv, (List.dropLast_concat_getLast hv).symm⟩
  unfold toBitStrInternal
  rw [if_neg (by omega), lastU_append, ok_bind]
  dsimp only
  congr 1
  have h1 : ((ini ++ [last]).reverse.drop 1) = ini.reverse := by simp
  rw [h1, List.append_assoc, bitChars_eq]
  congr 1
  have h2 : (fun w => bitChars w BITS) = fun w : Word => msbDigits 2 binChar w.toNat 64 := by
    funext w; exact bitChars_eq w 64
  rw [h2, flatten_msbDigits (by decide) rfl, wordsVal_append, Arith.wordsVal_singleton, List.length_append,
    List.length_singleton, Nat.add_sub_cancel, msbDigits_append 2 (by decide) _ _ _ _ _ (wordsVal_lt ini)]

theorem toHexStrInternal_eq {m : Mode} {values : List Word} {width : Nat} (hl : values.length = (width + 63) / 64)
    (hw : 0 < width) (out : List Byte) :
    toHexStrInternal m values width out = ok (out ++ msbDigits 16 hexChar (wordsVal values) ((width + 3) / 4)) := by
  have hv : values ≠ [] := by
    intro h; rw [h] at hl; simp at hl; omega
  obtain ⟨ini, last, rfl⟩ : ∃ ini last, values = ini ++ [last] :=
    ⟨values.dropLast, values.getLast hv, (List.dropLast_concat_getLast hv).symm⟩
  rw [List.length_append, List.length_singleton] at hl
  have hd : divCeil width BITS = (width + 63) / 64 := rfl
  have h16 : (16 : Nat) ^ (16 * ini.length) = 2 ^ (64 * ini.length) := by
    rw [show (16 : Nat) = 2 ^ 4 from rfl, ← Nat.pow_mul]
    congr 1; omega
  unfold toHexStrInternal
  rw [debugAssert_of (by simp [hd]; omega), ok_bind, if_neg (by omega)]
  rw [lastU_append, ok_bind]
  dsimp only
  congr 1
  have h2 : (fun w => hexChars w 16) = fun w : Word => msbDigits 16 hexChar w.toNat 16 := by
    funext w; exact hexChars_eq w 16
  have hdig : divCeil (width % BITS) 4 = (width % 64 + 3) / 4 := rfl
  rw [h2, hdig, hexChars_eq, List.append_assoc]
  congr 1
  by_cases hz : width % 64 = 0
  · have e1 : (width % 64 + 3) / 4 = 0 := by omega
    rw [e1, if_neg (by omega), List.drop_zero, flatten_msbDigits (b := 16) (by decide) rfl, List.length_append,
      List.length_singleton, show msbDigits 16 hexChar last.toNat 0 = [] from rfl, List.nil_append]
    congr 1
    omega
  · rw [if_pos (by omega), show (ini ++ [last]).reverse.drop 1 = ini.reverse by simp, flatten_msbDigits (b := 16) (by decide) rfl,
      wordsVal_append, Arith.wordsVal_singleton, ← h16, ← msbDigits_append 16 (by decide) _ _ _ _ _
        (by rw [h16]; exact wordsVal_lt ini)]
    congr 1
    omega

theorem wordsUsed_eq_zero {ws : List Word} (h : wordsVal ws = 0) : wordsUsed ws = 0 := by
  have h1 : ws = List.replicate ws.length 0#64 :=
    wordsVal_inj (by simp) (by rw [wordsVal_replicate_zero]; exact h)
  unfold wordsUsed
  rw [h1, List.reverse_replicate, List.length_replicate]
  generalize ws.length = n
  suffices ∀ n k, wordsUsedLoop k (List.replicate n 0#64) = 0 from this n n
  intro n
  induction n with
  | zero => intro k; rfl
  | succ n ih => intro k; rw [List.replicate_succ, wordsUsedLoop]; simp [ih]

theorem wordsUsed_append_zero (ws : List Word) (w : Word) :
    wordsUsed (ws ++ [w]) = if w = 0#64 then wordsUsed ws else ws.length + 1 := by
  unfold wordsUsed
  rw [List.reverse_append, List.reverse_singleton, List.singleton_append, wordsUsedLoop, List.length_append,
    List.length_singleton]
  by_cases h : w = 0#64 <;> simp [h]

/-- `words_used` is the least number of words that can hold the value. -/
theorem wordsUsed_le_iff (ws : List Word) (k : Nat) : wordsUsed ws ≤ k ↔ wordsVal ws < 2 ^ (64 * k) := by
  suffices ∀ n, ∀ ws : List Word, ws.length = n → (wordsUsed ws ≤ k ↔ wordsVal ws < 2 ^ (64 * k)) from this _ ws rfl
  intro n
  induction n with
  | zero =>
    intro ws h
    have := List.length_eq_zero_iff.mp h
    subst this
    simp [wordsUsed, wordsUsedLoop, Nat.two_pow_pos]
  | succ n ih =>
    intro ws h
    have hv : ws ≠ [] := by intro e; rw [e] at h; simp at h
    obtain ⟨ini, last, rfl⟩ : ∃ ini last, ws = ini ++ [last] :=
      ⟨ws.dropLast, ws.getLast hv, (List.dropLast_concat_getLast hv).symm⟩
    rw [List.length_append, List.length_singleton] at h
    rw [wordsUsed_append_zero, wordsVal_append, Arith.wordsVal_singleton]
    by_cases hl : last = 0#64
    · rw [if_pos hl, hl, ih ini (by omega)]; simp
    · have hl' : last.toNat ≠ 0 := fun e => hl (BitVec.eq_of_toNat_eq e)
      have h1 := wordsVal_lt ini
      have h2 := last.isLt
      rw [if_neg hl]
      constructor
      · intro hk
        have : 2 ^ (64 * (ini.length + 1)) ≤ 2 ^ (64 * k) := Nat.pow_le_pow_right (by decide) (by omega)
        refine Nat.lt_of_lt_of_le ?_ this
        have := wordsVal_lt (ini ++ [last])
        rwa [wordsVal_append, Arith.wordsVal_singleton, List.length_append, List.length_singleton] at this
      · intro hk
        by_cases hc : ini.length + 1 ≤ k
        · exact hc
        · exfalso
          have : 2 ^ (64 * k) ≤ 2 ^ (64 * ini.length) := Nat.pow_le_pow_right (by decide) (by omega)
          have : 2 ^ (64 * ini.length) * 1 ≤ 2 ^ (64 * ini.length) * last.toNat := Nat.mul_le_mul_left _ (by omega)
          omega

theorem digitOf_digitChar : ∀ d, d < 10 → digitOf 10 (ch d.digitChar) = some d := by decide +kernel
theorem digitChar_ne_zero : ∀ d, d < 10 → d ≠ 0 → ch d.digitChar ≠ ch '0' := by decide +kernel

theorem digitsFrom_decimal (n : Nat) : digitsFrom 10 0 (decimal n) = some n := by
  unfold decimal
  induction n using Nat.strongRecOn with
  | ind n ih =>
    by_cases h : n < 10
    · rw [Nat.toDigits_of_lt_base h, List.map_singleton, digitsFrom, digitOf_digitChar n h]
      simp [digitsFrom]
    · rw [Nat.toDigits_of_base_le (by decide) (by omega), List.map_append, digitsFrom_append, ih (n / 10) (by omega),
        Option.bind_some, List.map_singleton, digitsFrom, digitOf_digitChar _ (Nat.mod_lt _ (by decide))]
      simp only [digitsFrom]
      congr 1
      omega

theorem decimal_ne_nil (n : Nat) : decimal n ≠ [] := by
  unfold decimal
  simp [Nat.toDigits_ne_nil]

theorem decimal_zero : decimal 0 = [ch '0'] := by decide +kernel

/-- No leading zero. -/
theorem decimal_head {n : Nat} (hn : n ≠ 0) : (decimal n).head? ≠ some (ch '0') := by
  unfold decimal
  induction n using Nat.strongRecOn with
  | ind n ih =>
    by_cases h : n < 10
    · rw [Nat.toDigits_of_lt_base h, List.map_singleton, List.head?_cons]
      intro e
      exact digitChar_ne_zero n h hn (Option.some.inj e)
    · have := ih (n / 10) (by omega) (by omega)
      rw [Nat.toDigits_of_base_le (by decide) (by omega), List.map_append, List.head?_append]
      cases hh : (List.map ch (Nat.toDigits 10 (n / 10))).head? with
      | none => simp [Nat.toDigits_ne_nil] at hh
      | some c => rw [hh] at this; simpa using this

theorem digitOf_ten_head {n : Nat} : ∃ c cs d, decimal n = c :: cs ∧ digitOf 10 c = some d := by
  have h1 := digitsFrom_decimal n
  cases h : decimal n with
  | nil => exact absurd h (decimal_ne_nil n)
  | cons c cs =>
    rw [h, digitsFrom] at h1
    cases hd : digitOf 10 c with
    | none => rw [hd] at h1; cases h1
    | some d => exact ⟨c, cs, d, rfl, hd⟩

theorem wordsToU128_eq (m : Mode) (w0 w1 : Word) (ws : List Word) :
    wordsToU128 m (w0 :: w1 :: ws) = ok (w0.toNat + 2 ^ 64 * w1.toNat) := by
  unfold wordsToU128
  rw [debugAssert_of (by simp), ok_bind]
  simp only [idx, List.getElem?_cons_zero, List.getElem?_cons_succ, ok_bind]
  congr 1
  have h0 := w0.isLt
  have h1 := w1.isLt
  have e1 : (w1.setWidth 128 <<< 64 : BitVec 128).toNat = w1.toNat <<< 64 := by
    rw [BitVec.toNat_shiftLeft, BitVec.toNat_setWidth, Nat.mod_eq_of_lt (by omega), Nat.shiftLeft_eq, Nat.mod_eq_of_lt] <;> omega
  have e2 : (w0.setWidth 128 : BitVec 128).toNat = w0.toNat := by
    rw [BitVec.toNat_setWidth, Nat.mod_eq_of_lt (by omega)]
  rw [BitVec.toNat_or, e1, e2, ← Nat.shiftLeft_add_eq_or_of_lt h0, Nat.shiftLeft_eq]
  omega

theorem toDecStrInternal_eq (m : Mode) {ws : List Word} (h : wordsVal ws < 2 ^ 128) :
    toDecStrInternal m ws = ok (decimal (wordsVal ws)) := by
  have h2 := (wordsUsed_le_iff ws 2).mpr h
  have h1 := wordsUsed_le_iff ws 1
  have h0 := wordsUsed_le_iff ws 0
  rw [Nat.mul_zero, Nat.pow_zero] at h0
  rw [Nat.mul_one] at h1
  unfold toDecStrInternal
  have hc : wordsUsed ws = 0 ∨ wordsUsed ws = 1 ∨ wordsUsed ws = 2 := by omega
  rcases hc with hc | hc | hc
  · have : wordsVal ws = 0 := by omega
    rw [hc, this, decimal_zero]
  · rw [hc]
    have hlt : wordsVal ws < 2 ^ 64 := h1.mp (by omega)
    have hne : ¬ wordsVal ws < 1 := fun e => by have := h0.mpr e; omega
    cases hws : ws with
    | nil => rw [hws] at hne; simp [wordsVal] at hne
    | cons w0 ws' =>
      rw [hws, wordsVal_cons] at hlt
      have : wordsVal ws' = 0 := by omega
      simp only [idx, List.getElem?_cons_zero, ok_bind, wordsVal_cons, this, Nat.mul_zero, Nat.add_zero]
  · rw [hc]
    have hge : ¬ wordsVal ws < 2 ^ 64 := fun e => by have := h1.mpr e; omega
    match ws, h, hge with
    | [], _, hge => simp [wordsVal] at hge
    | [w0], _, hge => exact absurd w0.isLt (by rw [Arith.wordsVal_singleton] at hge; exact hge)
    | w0 :: w1 :: ws', h, _ =>
      rw [wordsVal_cons, wordsVal_cons] at h
      have hw0 := w0.isLt
      have hw1 := w1.isLt
      have : wordsVal ws' = 0 := by omega
      simp only [wordsToU128_eq, ok_bind, wordsVal_cons, this, Nat.mul_zero, Nat.add_zero]

theorem toDecStrInternal_todo (m : Mode) {ws : List Word} (h : 2 ^ 128 ≤ wordsVal ws) :
    toDecStrInternal m ws = panic .todo := by
  have h2 : ¬ wordsUsed ws ≤ 2 := fun e => by have := (wordsUsed_le_iff ws 2).mp e; omega
  have h3 := (wordsUsed_le_iff ws ws.length).mpr (wordsVal_lt ws)
  obtain ⟨k, hk⟩ : ∃ k, wordsUsed ws = k + 3 := ⟨wordsUsed ws - 3, by omega⟩
  unfold toDecStrInternal
  rw [hk]
  simp only
  rw [sliceR_ok (by omega) (by omega)]
  rfl

/-! ## Parsing -/

/-- The standard library's digit loop computes the numeral, or reports an error. -/
theorem stdParseLoop_eq {M radix : Nat} (hr : 0 < radix) (hr' : radix ≤ 36) (acc : Nat) (s : List Byte) (ha : acc < M) :
    (∀ n, digitsFrom radix acc s = some n →
      stdParseLoop M radix acc s = if n < M then .ok n else .error .posOverflow) ∧
    (digitsFrom radix acc s = none → ∃ e, stdParseLoop M radix acc s = .error e) := by
  induction s generalizing acc with
  | nil => exact ⟨fun n h => by cases h; rw [stdParseLoop, if_pos ha], fun h => by cases h⟩
  | cons c s ih =>
    rw [digitsFrom, stdParseLoop, toDigit_eq hr']
    cases hd : digitOf radix c with
    | none => exact ⟨fun n h => (by cases h), fun _ => ⟨_, rfl⟩⟩
    | some d =>
      simp only
      by_cases h1 : acc * radix + d < M
      · rw [if_neg (by omega), if_neg (by omega)]
        exact ih _ h1
      · have e : (if acc * radix ≥ M then Except.error StdIntError.posOverflow
            else if acc * radix + d ≥ M then .error .posOverflow
            else stdParseLoop M radix (acc * radix + d) s) = .error .posOverflow := by
          by_cases h2 : acc * radix ≥ M
          · rw [if_pos h2]
          · rw [if_neg h2, if_pos (by omega)]
        rw [e]
        refine ⟨fun n h => ?_, fun _ => ⟨_, rfl⟩⟩
        have := le_of_digitsFrom hr h
        rw [if_neg (by omega)]

theorem digitOf_plus (radix : Nat) : digitOf radix (ch '+') = none := by
  have : (List.range 36).find? (fun d => lowerDigits[d]? == some (ch '+') || upperDigits[d]? == some (ch '+')) = none := by
    decide +kernel
  unfold digitOf
  rw [this]

theorem digitOf_minus (radix : Nat) : digitOf radix (ch '-') = none := by
  have : (List.range 36).find? (fun d => lowerDigits[d]? == some (ch '-') || upperDigits[d]? == some (ch '-')) = none := by
    decide +kernel
  unfold digitOf
  rw [this]

/-- `uN::from_str_radix` on a non-empty string. -/
theorem stdFromStrRadix_eq {M radix : Nat} (hr : 2 ≤ radix) (hr' : radix ≤ 36) (hM : 0 < M) {s : List Byte}
    (hs : s ≠ []) :
    (∀ n, unsignedVal radix s = some n →
      stdFromStrRadix M radix s = ok (if n < M then .ok n else .error .posOverflow)) ∧
    (unsignedVal radix s = none → ∃ e, stdFromStrRadix M radix s = ok (.error e)) := by
  have key := fun s => stdParseLoop_eq (M := M) (radix := radix) (by omega) hr' 0 s hM
  unfold stdFromStrRadix
  rw [if_neg (by omega)]
  match s, hs with
  | [c], _ =>
    simp only [unsignedVal, stripPlus, List.head?_cons, Option.some.injEq, List.tail_cons]
    by_cases h1 : c = ch '+'
    · rw [if_pos h1, if_pos (Or.inl h1)]
      exact ⟨fun n h => (by simp [digitsVal] at h), fun _ => ⟨_, rfl⟩⟩
    · rw [if_neg h1, digitsVal, if_neg (by simp)]
      by_cases h2 : c = ch '-'
      · rw [if_pos (Or.inr h2), h2, digitsFrom, digitOf_minus]
        exact ⟨fun n h => (by cases h), fun _ => ⟨_, rfl⟩⟩
      · rw [if_neg (by simp [h1, h2])]
        refine ⟨fun n h => by rw [(key [c]).1 n h], fun h => ?_⟩
        obtain ⟨e, he⟩ := (key [c]).2 h
        exact ⟨e, by rw [he]⟩
  | c :: c' :: cs, _ =>
    simp only [unsignedVal, stripPlus, List.head?_cons, Option.some.injEq, List.tail_cons]
    by_cases h1 : c = ch '+'
    · rw [if_pos h1, if_pos h1, digitsVal, if_neg (by simp)]
      refine ⟨fun n h => by rw [(key (c' :: cs)).1 n h], fun h => ?_⟩
      obtain ⟨e, he⟩ := (key (c' :: cs)).2 h
      exact ⟨e, by rw [he]⟩
    · rw [if_neg h1, if_neg h1, digitsVal, if_neg (by simp)]
      refine ⟨fun n h => by rw [(key (c :: c' :: cs)).1 n h], fun h => ?_⟩
      obtain ⟨e, he⟩ := (key (c :: c' :: cs)).2 h
      exact ⟨e, by rw [he]⟩

theorem set_zero_eq {α : Type} (l : List α) (x : α) (h : l ≠ []) : l.set 0 x = x :: l.drop 1 := by
  cases l with
  | nil => exact absurd rfl h
  | cons a l => rfl

/-- The digit loop of `parse_base_2` / `parse_base_16`. `bits` bits per digit, `pw` digits per word. -/
theorem parseLoop_spec {m : Mode} {bits pw : Nat} (hbp : bits * pw = 64) {dv : Byte → Option Nat}
    (hdv : ∀ c, dv c = digitOf (2 ^ bits) c) {n : Nat} (hn : n < U64) (cs : List Byte) :
    ∀ (ii : Nat) (out : List Word) (outIi : Nat) (word : Word), ii + cs.length = n → n ≠ 0 → outIi < out.length →
      (ii = 0 → outIi = (n - 1) / pw) → (0 < ii → outIi = cs.length / pw) →
      word.toNat * 2 ^ (bits * cs.length) < 2 ^ (64 * (outIi + 1)) →
      (∀ v, digitsFrom (2 ^ bits) 0 cs = some v → ∃ out' word', 
        parseLoop m bits pw dv n ii out outIi word cs = ok (out', .ok (0, word')) ∧
        out'.length = out.length ∧
        wordsVal ((out'.set 0 word').take (outIi + 1)) = word.toNat * 2 ^ (bits * cs.length) + v ∧
        (out'.set 0 word').drop (outIi + 1) = out.drop (outIi + 1)) ∧
      (digitsFrom (2 ^ bits) 0 cs = none → ∃ out', out'.length = out.length ∧
        parseLoop m bits pw dv n ii out outIi word cs = ok (out', .error .invalidDigit)) := by
  have hpw : 0 < pw := Nat.pos_of_ne_zero fun h => by rw [h] at hbp; omega
  have hble : bits ≤ 64 := by
    have : bits * 1 ≤ bits * pw := Nat.mul_le_mul_left _ hpw
    omega
  induction cs with
  | nil =>
    intro ii out outIi word h1 h2 h3 h4 h5 h6
    have : outIi = 0 := by rw [h5 (by simp at h1; omega)]; simp
    subst this
    refine ⟨fun v hv => ?_, fun h => by cases h⟩
    cases hv
    refine ⟨out, word, rfl, rfl, ?_, ?_⟩
    · rw [set_zero_eq _ _ (by intro e; rw [e] at h3; simp at h3)]
      simp [Arith.wordsVal_singleton]
    · rw [set_zero_eq _ _ (by intro e; rw [e] at h3; simp at h3)]
      rfl
  | cons c cs ih =>
    intro ii out outIi word h1 h2 h3 h4 h5 h6
    rw [List.length_cons] at h1 h6 h5
    have hr : n - ii - 1 = cs.length := by omega
    -- the state after the optional flush
    have hstate : ∃ (out1 : List Word) (outIi1 : Nat) (word1 : Word),
        (∀ k : List Word × Nat × Word → Res (List Word × Except IntErrorKind (Nat × Word)),
        ((if ii > 0 then do
            let k ← addC m U64 cs.length 1
            if k % pw = 0 then
              let out ← setIdx out outIi word
              let outIi ← subC m U64 outIi 1
              ok (out, outIi, 0#64)
            else ok (out, outIi, word)
          else ok (out, outIi, word)) >>= k) = k (out1, outIi1, word1)) ∧
        out1.length = out.length ∧ outIi1 < out1.length ∧ outIi1 = cs.length / pw ∧
        word1.toNat * 2 ^ (bits * (cs.length + 1)) < 2 ^ (64 * (outIi1 + 1)) ∧
        ∀ (F : List Word) (v : Nat), F.length = out.length →
          wordsVal (F.take (outIi1 + 1)) = word1.toNat * 2 ^ (bits * (cs.length + 1)) + v →
          F.drop (outIi1 + 1) = out1.drop (outIi1 + 1) →
          wordsVal (F.take (outIi + 1)) = word.toNat * 2 ^ (bits * (cs.length + 1)) + v ∧
          F.drop (outIi + 1) = out.drop (outIi + 1) := by
      by_cases hii : ii > 0
      · have h5' := h5 hii
        by_cases hf : (cs.length + 1) % pw = 0
        · -- flush
          have hdiv : (cs.length + 1) = pw * outIi := by
            rw [h5', Nat.mul_div_cancel' (Nat.dvd_of_mod_eq_zero hf)]
          have hpos : 0 < outIi := Nat.pos_of_ne_zero fun e => by rw [e] at hdiv; simp at hdiv
          have e64 : bits * (cs.length + 1) = 64 * outIi := by rw [hdiv, ← Nat.mul_assoc, hbp]
          have hidx : outIi - 1 = cs.length / pw := by
            have e : cs.length = pw * (outIi - 1) + (pw - 1) := by
              have : pw * outIi = pw * (outIi - 1) + pw := by
                rw [← Nat.mul_succ]; congr 1; omega
              omega
            rw [e, Nat.mul_add_div hpw, Nat.div_eq_of_lt (by omega)]; omega
          refine ⟨out.set outIi word, outIi - 1, 0#64, fun k => ?_, by simp, by simp; omega, hidx, ?_, ?_⟩
          · rw [if_pos hii, addC_ok (by show _ < U64; omega), ok_bind, if_pos hf, setIdx_ok h3, ok_bind,
              subC_ok (by omega), ok_bind, ok_bind]
          · simp [Nat.two_pow_pos]
          · intro F v hF hv hd
            have e1 : outIi - 1 + 1 = outIi := by omega
            rw [e1] at hv hd
            have hd' : F.drop outIi = word :: out.drop (outIi + 1) := by
              rw [hd, List.drop_set, if_neg (by omega), Nat.sub_self,
                set_zero_eq _ _ (by rw [Ne, List.drop_eq_nil_iff]; omega), List.drop_drop]
            constructor
            · have e2 : F.take (outIi + 1) = F.take outIi ++ [word] := by
                rw [List.take_add, hd']; rfl
              rw [e2, wordsVal_append, hv, Arith.wordsVal_singleton, List.length_take, Nat.min_eq_left (by omega), e64,
                Nat.mul_comm (2 ^ (64 * outIi))]
              simp; omega
            · have : F.drop (outIi + 1) = (F.drop outIi).drop 1 := by rw [List.drop_drop]
              rw [this, hd']; rfl
        · -- no flush
          have hidx : outIi = cs.length / pw := by
            rw [h5', Nat.succ_div_of_not_dvd (fun hdvd => hf (Nat.mod_eq_zero_of_dvd hdvd))]
          refine ⟨out, outIi, word, fun k => ?_, rfl, h3, hidx, h6, fun F v _ h h' => ⟨h, h'⟩⟩
          rw [if_pos hii, addC_ok (by show _ < U64; omega), ok_bind, if_neg hf, ok_bind]
      · have : ii = 0 := by omega
        refine ⟨out, outIi, word, fun k => ?_, rfl, h3, ?_, h6, fun F v _ h h' => ⟨h, h'⟩⟩
        · rw [if_neg hii, ok_bind]
        · rw [h4 this]; congr 1; omega
    obtain ⟨out1, outIi1, word1, s1, s2, s3, s4, s5, s6⟩ := hstate
    rw [parseLoop, subC_ok (by omega), ok_bind, subC_ok (by omega), ok_bind, hr, s1]
    simp only [hdv]
    rw [digitsFrom]
    cases hd : digitOf (2 ^ bits) c with
    | none => exact ⟨fun v hv => (by cases hv), fun _ => ⟨out1, s2, rfl⟩⟩
    | some d =>
      have hdlt := digitOf_lt hd
      have hd64 : d < 2 ^ 64 := Nat.lt_of_lt_of_le hdlt (Nat.pow_le_pow_right (by decide) hble)
      -- the updated word
      have hwlt : word1.toNat * 2 ^ bits < 2 ^ 64 := by
        have e : bits * (cs.length + 1) = bits + bits * cs.length := by rw [Nat.mul_succ]; omega
        have hle : bits * cs.length + 64 ≥ 64 * (outIi1 + 1) - 64 + 64 := by
          have : pw * outIi1 ≤ cs.length := by rw [s4]; exact Nat.mul_div_le _ _
          have := Nat.mul_le_mul_left bits this
          rw [← Nat.mul_assoc, hbp] at this
          omega
        rw [e, Nat.pow_add, ← Nat.mul_assoc] at s5
        have h64 : 2 ^ (64 * (outIi1 + 1)) ≤ 2 ^ 64 * 2 ^ (bits * cs.length) := by
          rw [← Nat.pow_add]; exact Nat.pow_le_pow_right (by decide) (by omega)
        exact Nat.lt_of_mul_lt_mul_right (Nat.lt_of_lt_of_le s5 h64)
      have hw2 : ((word1 <<< bits) ||| BitVec.ofNat 64 d).toNat = word1.toNat * 2 ^ bits + d := by
        rw [BitVec.toNat_or, BitVec.toNat_shiftLeft, BitVec.toNat_ofNat, Nat.mod_eq_of_lt hd64, Nat.shiftLeft_eq,
          Nat.mod_eq_of_lt hwlt, ← Nat.shiftLeft_eq, ← Nat.shiftLeft_add_eq_or_of_lt hdlt, Nat.shiftLeft_eq]
      have hmul : (word1.toNat * 2 ^ bits + d) * 2 ^ (bits * cs.length) =
          word1.toNat * 2 ^ (bits * (cs.length + 1)) + d * 2 ^ (bits * cs.length) := by
        rw [Nat.add_mul, Nat.mul_assoc, ← Nat.pow_add, Nat.mul_succ, Nat.add_comm bits]
      have hlt2 : ((word1 <<< bits) ||| BitVec.ofNat 64 d).toNat * 2 ^ (bits * cs.length) < 2 ^ (64 * (outIi1 + 1)) := by
        rw [hw2]
        have hle : bits * (cs.length + 1) ≤ 64 * (outIi1 + 1) := by
          have h7 : cs.length < pw * (outIi1 + 1) := by
            rw [s4]; exact Nat.lt_mul_div_succ _ hpw
          have := Nat.mul_le_mul_left bits h7
          rw [← Nat.mul_assoc, hbp] at this
          exact this
        obtain ⟨t, ht⟩ : ∃ t, 64 * (outIi1 + 1) = bits * (cs.length + 1) + t := ⟨_, (Nat.add_sub_of_le hle).symm⟩
        rw [ht, Nat.pow_add, Nat.mul_comm (2 ^ (bits * (cs.length + 1)))] at s5 ⊢
        have s5' : word1.toNat < 2 ^ t := Nat.lt_of_mul_lt_mul_right s5
        have e : bits * (cs.length + 1) = bits + bits * cs.length := by rw [Nat.mul_succ]; omega
        rw [e, Nat.pow_add, ← Nat.mul_assoc]
        apply Nat.mul_lt_mul_of_pos_right _ (Nat.two_pow_pos _)
        have : (word1.toNat + 1) * 2 ^ bits ≤ 2 ^ t * 2 ^ bits := Nat.mul_le_mul_right _ s5'
        rw [Nat.add_mul, Nat.one_mul] at this
        omega
      obtain ⟨ih1, ih2⟩ := ih (ii + 1) out1 outIi1 ((word1 <<< bits) ||| BitVec.ofNat 64 d) (by omega) h2 s3
        (fun e => by omega) (fun _ => s4) hlt2
      simp only [Nat.zero_mul, Nat.zero_add]
      rw [digitsFrom_acc]
      constructor
      · intro v hv
        cases hcs : digitsFrom (2 ^ bits) 0 cs with
        | none => rw [hcs] at hv; cases hv
        | some k =>
          rw [hcs, Option.map_some] at hv
          cases hv
          obtain ⟨out', word', g1, g2, g3, g4⟩ := ih1 k hcs
          refine ⟨out', word', g1, by omega, ?_⟩
          have hpow : (2 ^ bits) ^ cs.length = 2 ^ (bits * cs.length) := by rw [← Nat.pow_mul]
          rw [hpow]
          apply s6 _ (d * 2 ^ (bits * cs.length) + k) (by simp; omega)
          · rw [g3, hw2, hmul]; omega
          · exact g4
      · intro hnone
        cases hcs : digitsFrom (2 ^ bits) 0 cs with
        | none =>
          obtain ⟨out', g1, g2⟩ := ih2 hcs
          exact ⟨out', by omega, g2⟩
        | some k => rw [hcs] at hnone; cases hnone

/-- A digit string too long for the output panics when the first word is written. -/
theorem parseLoop_panics {m : Mode} {bits pw : Nat} {dv : Byte → Option Nat}
    (hdv : ∀ c, dv c = digitOf (2 ^ bits) c) {n : Nat} (hn : n < U64) {out : List Word} {outIi : Nat} (h0 : 0 < out.length)
    (h3 : out.length ≤ outIi) (cs : List Byte) :
    ∀ (ii : Nat) (word : Word) (acc v : Nat), ii + cs.length = n → n ≠ 0 →
      (ii = 0 → outIi = (n - 1) / pw) → (0 < ii → outIi = cs.length / pw) → digitsFrom (2 ^ bits) acc cs = some v →
      parseLoop m bits pw dv n ii out outIi word cs = panic .bounds := by
  induction cs with
  | nil =>
    intro ii word acc v h1 h2 h4 h5 hv
    have : outIi = 0 := by rw [h5 (by simp at h1; omega)]; simp
    omega
  | cons c cs ih =>
    intro ii word acc v h1 h2 h4 h5 hv
    rw [List.length_cons] at h1 h5
    have hr : n - ii - 1 = cs.length := by omega
    rw [digitsFrom] at hv
    cases hd : digitOf (2 ^ bits) c with
    | none => rw [hd] at hv; cases hv
    | some d =>
      rw [hd] at hv
      rw [parseLoop, subC_ok (by omega), ok_bind, subC_ok (by omega), ok_bind, hr]
      by_cases hii : ii > 0
      · rw [if_pos hii, addC_ok (by omega), ok_bind]
        by_cases hf : (cs.length + 1) % pw = 0
        · rw [if_pos hf]
          have : setIdx out outIi word = panic .bounds := by
            unfold setIdx; rw [if_neg (by omega)]
          rw [this]
          rfl
        · rw [if_neg hf, ok_bind]
          simp only [hdv, hd]
          have hidx : outIi = cs.length / pw := by
            rw [h5 hii, Nat.succ_div_of_not_dvd (fun hdvd => hf (Nat.mod_eq_zero_of_dvd hdvd))]
          exact ih (ii + 1) _ _ v (by omega) h2 (fun e => by omega) (fun _ => hidx) hv
      · rw [if_neg hii, ok_bind]
        simp only [hdv, hd]
        exact ih (ii + 1) _ _ v (by omega) h2 (fun e => by omega)
          (fun _ => by rw [h4 (by omega)]; congr 1; omega) hv

/-- What a successful magnitude parse leaves in the output. -/
def MagOk (m : Mode) (mag : List Byte) (radix : Nat) (out : List Word) (w n : Nat) : Prop :=
  ∃ out', parseMagnitude m mag radix out w = ok (out', .ok ()) ∧ out'.length = out.length ∧ wordsVal out' = n

theorem parseMagnitude_small {m : Mode} {w radix : Nat} {out : List Word} {s : List Byte} (h0 : 1 ≤ w) (hw : w ≤ 128)
    (hl : out.length = (w + 63) / 64) (hr : 2 ≤ radix) (hr' : radix ≤ 36) (hs : s ≠ []) :
    (∀ n, unsignedVal radix s = some n → n < 2 ^ (64 * out.length) → MagOk m s radix out w n) ∧
    (∀ n, unsignedVal radix s = some n → 2 ^ (64 * out.length) ≤ n →
      parseMagnitude m s radix out w = ok (out, .error .exceedsWidth)) ∧
    (unsignedVal radix s = none → ∃ e, parseMagnitude m s radix out w = ok (out, .error e)) := by
  have hc : out.length = 1 ∨ out.length = 2 := by omega
  match out, hl, hc with
  | [o], hl, _ =>
    have hle : w ≤ 64 := by simp at hl; omega
    obtain ⟨h1, h2⟩ := stdFromStrRadix_eq (M := U64) hr hr' (by decide) hs
    have hM : (2 : Nat) ^ (64 * [o].length) = U64 := rfl
    rw [hM]
    refine ⟨fun n hn hlt => ?_, fun n hn hge => ?_, fun hn => ?_⟩
    · refine ⟨[BitVec.ofNat 64 n], ?_, rfl, ?_⟩
      · rw [parseMagnitude, debugAssert_decide_of hle, ok_bind, h1 n hn, if_pos hlt, ok_bind]
      · rw [Arith.wordsVal_singleton, BitVec.toNat_ofNat, Nat.mod_eq_of_lt hlt]
    · rw [parseMagnitude, debugAssert_decide_of hle, ok_bind, h1 n hn, if_neg (by omega), ok_bind]
      rfl
    · obtain ⟨e, he⟩ := h2 hn
      exact ⟨translateErr e, by rw [parseMagnitude, debugAssert_decide_of hle, ok_bind, he, ok_bind]⟩
  | [o1, o2], hl, _ =>
    obtain ⟨h1, h2⟩ := stdFromStrRadix_eq (M := U128) hr hr' (by decide) hs
    have hM : (2 : Nat) ^ (64 * [o1, o2].length) = U128 := by
      simp only [List.length_cons, List.length_nil]
    rw [hM]
    refine ⟨fun n hn hlt => ?_, fun n hn hge => ?_, fun hn => ?_⟩
    · refine ⟨[BitVec.ofNat 64 n, BitVec.ofNat 64 (n >>> 64)], ?_, rfl, ?_⟩
      · rw [parseMagnitude, debugAssert_decide_of hw, ok_bind, h1 n hn, if_pos hlt, ok_bind]
      · rw [wordsVal_cons, Arith.wordsVal_singleton, BitVec.toNat_ofNat, BitVec.toNat_ofNat, Nat.shiftRight_eq_div_pow]
        have hlt' : n < 340282366920938463463374607431768211456 := hlt
        omega
    · rw [parseMagnitude, debugAssert_decide_of hw, ok_bind, h1 n hn, if_neg (by omega), ok_bind]
      rfl
    · obtain ⟨e, he⟩ := h2 hn
      exact ⟨translateErr e, by rw [parseMagnitude, debugAssert_decide_of hw, ok_bind, he, ok_bind]⟩

theorem parseMagnitude_of_wide {m : Mode} {w radix : Nat} {out : List Word} {s : List Byte} (hw : 128 < w)
    (hl : out.length = (w + 63) / 64) :
    parseMagnitude m s radix out w =
      if s = [ch '+'] then ok (out, .error .invalidDigit)
      else if radix = 2 then parseBase2 m (stripPlus s) out w
      else if radix = 10 then panic .todo
      else if radix = 16 then parseBase16 m (stripPlus s) out
      else panic .todo := by
  have e : (if s.head? = some (ch '+') then s.drop 1 else s) = stripPlus s := by
    unfold stripPlus; simp only [List.drop_one]
  match out, hl with
  | [], hl => simp at hl; omega
  | [_], hl => simp at hl; omega
  | [_, _], hl => simp at hl; omega
  | _ :: _ :: _ :: _, hl =>
    rw [parseMagnitude, debugAssert_of (by simp [divCeil, BITS, hl] ), ok_bind]
    · dsimp only
      rw [e]
    · intro a h; cases h
    · intro a b h; cases h

theorem setIdx_zero {out : List Word} {w : Word} (h : 0 < out.length) : setIdx out 0 w = ok (out.set 0 w) := setIdx_ok h

/-- Both hand-written digit parsers: `k` words are written, the others keep their contents. -/
theorem parseBase2_spec {m : Mode} {w : Nat} {ds : List Byte} {out : List Word} (hd : ds ≠ []) (hlen : ds.length ≤ w)
    (hw : w < U32) (hl : out.length = (w + 63) / 64) :
    (∀ n, digitsVal 2 ds = some n → ∃ out', parseBase2 m ds out w = ok (out', .ok ()) ∧ out'.length = out.length ∧
      wordsVal (out'.take ((ds.length + 63) / 64)) = n ∧
      out'.drop ((ds.length + 63) / 64) = out.drop ((ds.length + 63) / 64)) ∧
    (digitsVal 2 ds = none → ∃ out', out'.length = out.length ∧
      parseBase2 m ds out w = ok (out', .error .invalidDigit)) := by
  have hU : (U32 : Nat) = 4294967296 := rfl
  have hU' : (U64 : Nat) = 18446744073709551616 := rfl
  have hpos : 0 < ds.length := List.length_pos_iff.mpr hd
  have hdc : divCeil ds.length BITS = (ds.length + 63) / 64 := rfl
  obtain ⟨g1, g2⟩ := parseLoop_spec (m := m) (bits := 1) (pw := 64) rfl (dv := binDigitValue) binDigitValue_eq
    (n := ds.length) (by omega) ds 0 out ((ds.length + 63) / 64 - 1) 0#64 (by omega) (by omega) (by omega)
    (fun _ => by omega) (fun h => by omega) (by simp [Nat.two_pow_pos])
  have hk : (ds.length + 63) / 64 - 1 + 1 = (ds.length + 63) / 64 := by omega
  rw [hk] at g1
  rw [Nat.pow_one] at g1 g2
  unfold parseBase2 digitsVal
  rw [if_neg hd]
  dsimp only
  rw [Nat.mod_eq_of_lt (show ds.length < U32 by omega), if_neg (by omega), hdc, subC_ok (by omega), ok_bind]
  constructor
  · intro n hn
    obtain ⟨out', word', h1, h2, h3, h4⟩ := g1 n hn
    refine ⟨out'.set 0 word', ?_, by simp [h2], ?_, h4⟩
    · rw [h1, ok_bind]
      dsimp only
      rw [debugAssert_of (by rfl), ok_bind, setIdx_zero (by omega), ok_bind]
    · rw [h3]; simp
  · intro hn
    obtain ⟨out', h1, h2⟩ := g2 hn
    exact ⟨out', h1, by rw [h2, ok_bind]⟩

theorem parseBase16_spec {m : Mode} {ds : List Byte} {out : List Word} (hd : ds ≠ [])
    (hlen : (4 * ds.length + 63) / 64 ≤ out.length) (hw : 4 * ds.length < U32) :
    (∀ n, digitsVal 16 ds = some n → ∃ out', parseBase16 m ds out = ok (out', .ok ()) ∧ out'.length = out.length ∧
      wordsVal (out'.take ((4 * ds.length + 63) / 64)) = n ∧
      out'.drop ((4 * ds.length + 63) / 64) = out.drop ((4 * ds.length + 63) / 64)) ∧
    (digitsVal 16 ds = none → ∃ out', out'.length = out.length ∧
      parseBase16 m ds out = ok (out', .error .invalidDigit)) := by
  have hU : (U32 : Nat) = 4294967296 := rfl
  have hU' : (U64 : Nat) = 18446744073709551616 := rfl
  have hpos : 0 < ds.length := List.length_pos_iff.mpr hd
  have hdc : divCeil (ds.length * 4) BITS = (4 * ds.length + 63) / 64 := by
    show (ds.length * 4 + 63) / 64 = _
    rw [Nat.mul_comm]
  obtain ⟨g1, g2⟩ := parseLoop_spec (m := m) (bits := 4) (pw := 16) rfl (dv := hexDigitValue) hexDigitValue_eq
    (n := ds.length) (by omega) ds 0 out ((4 * ds.length + 63) / 64 - 1) 0#64 (by omega) (by omega) (by omega)
    (fun _ => by omega) (fun h => by omega) (by simp [Nat.two_pow_pos])
  have hk : (4 * ds.length + 63) / 64 - 1 + 1 = (4 * ds.length + 63) / 64 := by omega
  rw [hk] at g1
  rw [show (2 : Nat) ^ 4 = 16 from rfl] at g1 g2
  unfold parseBase16 digitsVal
  rw [if_neg hd]
  dsimp only
  rw [Nat.mod_eq_of_lt (show ds.length < U32 by omega), mulC_ok (by omega), ok_bind, hdc, subC_ok (by omega), ok_bind]
  constructor
  · intro n hn
    obtain ⟨out', word', h1, h2, h3, h4⟩ := g1 n hn
    refine ⟨out'.set 0 word', ?_, by simp [h2], ?_, h4⟩
    · rw [h1, ok_bind]
      dsimp only
      rw [debugAssert_of (by rfl), ok_bind, setIdx_zero (by omega), ok_bind, ok_bind]
    · rw [h3]; simp
  · intro hn
    obtain ⟨out', h1, h2⟩ := g2 hn
    exact ⟨out', h1, by rw [h2, ok_bind]⟩

theorem wordsVal_take_drop_zero {out out' : List Word} {k : Nat} (hz : wordsVal out = 0) (hd : out'.drop k = out.drop k) :
    wordsVal out' = wordsVal (out'.take k) := by
  have h1 : wordsVal (out.drop k) = 0 := by
    have := wordsVal_append (out.take k) (out.drop k)
    rw [List.take_append_drop, hz] at this
    have h2 : 2 ^ (64 * (List.take k out).length) * wordsVal (List.drop k out) = 0 := by omega
    rcases Nat.mul_eq_zero.mp h2 with h | h
    · exact absurd h (Nat.ne_of_gt (Nat.two_pow_pos _))
    · exact h
  have := wordsVal_append (out'.take k) (out'.drop k)
  rw [List.take_append_drop, hd, h1] at this
  simpa using this

theorem stripPlus_ne_nil {s : List Byte} (h : s ≠ []) (h' : s ≠ [ch '+']) : stripPlus s ≠ [] := by
  unfold stripPlus
  split
  · next hh =>
    match s, h, h' with
    | [c], _, h' => simp at hh; subst hh; exact absurd rfl h'
    | c :: c' :: cs, _, _ => simp
  · exact h

theorem unsignedVal_plus (radix : Nat) : unsignedVal radix [ch '+'] = none := by
  simp [unsignedVal, stripPlus, digitsVal]

/-- The hand-written binary parser, started on a zero value. -/
theorem parseMagnitude_wide2 {m : Mode} {w : Nat} {out : List Word} {s : List Byte} (hw : 128 < w) (hw' : w < U32)
    (hl : out.length = (w + 63) / 64) (hs : s ≠ []) (hlen : (stripPlus s).length ≤ w) :
    (∀ n, unsignedVal 2 s = some n → ∃ out', parseMagnitude m s 2 out w = ok (out', .ok ()) ∧
      out'.length = out.length ∧ wordsVal (out'.take (((stripPlus s).length + 63) / 64)) = n ∧
      out'.drop (((stripPlus s).length + 63) / 64) = out.drop (((stripPlus s).length + 63) / 64)) ∧
    (unsignedVal 2 s = none → ∃ out' e, parseMagnitude m s 2 out w = ok (out', .error e)) := by
  rw [parseMagnitude_of_wide hw hl]
  by_cases hp : s = [ch '+']
  · rw [if_pos hp, hp, unsignedVal_plus]
    exact ⟨fun n h => (by cases h), fun _ => ⟨_, _, rfl⟩⟩
  · rw [if_neg hp, if_pos rfl]
    obtain ⟨g1, g2⟩ := parseBase2_spec (m := m) (stripPlus_ne_nil hs hp) hlen hw' hl
    refine ⟨g1, fun h => ?_⟩
    obtain ⟨out', _, h2⟩ := g2 h
    exact ⟨out', _, h2⟩

theorem parseMagnitude_wide16 {m : Mode} {w : Nat} {out : List Word} {s : List Byte} (hw : 128 < w)
    (hl : out.length = (w + 63) / 64) (hs : s ≠ []) (hlen : (4 * (stripPlus s).length + 63) / 64 ≤ out.length)
    (hu : 4 * (stripPlus s).length < U32) :
    (∀ n, unsignedVal 16 s = some n → ∃ out', parseMagnitude m s 16 out w = ok (out', .ok ()) ∧
      out'.length = out.length ∧ wordsVal (out'.take ((4 * (stripPlus s).length + 63) / 64)) = n ∧
      out'.drop ((4 * (stripPlus s).length + 63) / 64) = out.drop ((4 * (stripPlus s).length + 63) / 64)) ∧
    (unsignedVal 16 s = none → ∃ out' e, parseMagnitude m s 16 out w = ok (out', .error e)) := by
  rw [parseMagnitude_of_wide hw hl]
  by_cases hp : s = [ch '+']
  · rw [if_pos hp, hp, unsignedVal_plus]
    exact ⟨fun n h => (by cases h), fun _ => ⟨_, _, rfl⟩⟩
  · rw [if_neg hp, if_neg (by decide), if_neg (by decide), if_pos rfl]
    obtain ⟨g1, g2⟩ := parseBase16_spec (m := m) (out := out) (stripPlus_ne_nil hs hp) hlen hu
    refine ⟨g1, fun h => ?_⟩
    obtain ⟨out', _, h2⟩ := g2 h
    exact ⟨out', _, h2⟩

theorem signedVal_some {radix : Nat} {s : List Byte} {z : Int} (h : signedVal radix s = some z) :
    s ≠ [] ∧ stripMinus s ≠ [] ∧ unsignedVal radix (stripMinus s) = some z.natAbs ∧
      z = if s.head? = some (ch '-') then -(z.natAbs : Int) else z.natAbs := by
  have key : ∀ t n, unsignedVal radix t = some n → t ≠ [] := by
    intro t n h e
    subst e
    simp [unsignedVal, stripPlus, digitsVal] at h
  unfold signedVal at h
  unfold stripMinus
  split at h
  · next hm =>
    rw [if_pos hm, if_pos hm]
    cases hu : unsignedVal radix s.tail with
    | none => rw [hu] at h; cases h
    | some n =>
      rw [hu, Option.map_some] at h
      cases h
      exact ⟨by intro e; subst e; simp at hm, key _ _ hu, by simp, by simp⟩
  · next hm =>
    rw [if_neg hm, if_neg hm]
    cases hu : unsignedVal radix s with
    | none => rw [hu] at h; cases h
    | some n =>
      rw [hu, Option.map_some] at h
      cases h
      exact ⟨key _ _ hu, key _ _ hu, by simp, by simp⟩

theorem signedVal_none {radix : Nat} {s : List Byte} (h : signedVal radix s = none) :
    unsignedVal radix (stripMinus s) = none := by
  unfold signedVal at h
  unfold stripMinus
  split at h
  · next hm => rw [if_pos hm]; simpa using h
  · next hm => rw [if_neg hm]; simpa using h

theorem fromStrRadix_eq {m : Mode} {s : List Byte} {radix : Nat} {out : List Word} {w : Nat} (hs : s ≠ []) (hw : 1 ≤ w) :
    fromStrRadix m s radix out w =
      if stripMinus s = [] then ok (out, .error .invalidDigit)
      else parseMagnitude m (stripMinus s) radix out w >>= fun p =>
        match p with
        | (out, .error e) => ok (out, .error e)
        | (out, .ok ()) =>
          if s.head? = some (ch '-') then Arith.negateInPlace m out w >>= fun out => ok (out, .ok ())
          else ok (out, .ok ()) := by
  have e : (if s.head? == some (ch '-') then s.drop 1 else s) = stripMinus s := by
    unfold stripMinus
    by_cases h : s.head? = some (ch '-')
    · simp only [h, beq_self_eq_true, if_true, List.drop_one]
    · rw [if_neg h, if_neg (by simpa using h)]
  unfold fromStrRadix
  rw [if_neg hs]
  dsimp only
  rw [e, if_neg (by omega)]
  simp only [beq_iff_eq]
  rfl

theorem fromStrRadix_ok {m : Mode} {s : List Byte} {radix : Nat} {out : List Word} {w : Nat} {z : Int} (hw : 1 ≤ w)
    (hl : out.length = (w + 63) / 64) (hz : signedVal radix s = some z)
    (hm : MagOk m (stripMinus s) radix out w z.natAbs) (hfit : s.head? = some (ch '-') ∨ z.natAbs < 2 ^ w) :
    ∃ out', fromStrRadix m s radix out w = ok (out', .ok ()) ∧ out'.length = out.length ∧
      wordsVal out' = (BitVec.ofInt w z).toNat := by
  obtain ⟨h1, h2, h3, h4⟩ := signedVal_some hz
  obtain ⟨o, g1, g2, g3⟩ := hm
  rw [fromStrRadix_eq h1 hw, if_neg h2, g1, ok_bind]
  dsimp only
  by_cases hneg : s.head? = some (ch '-')
  · rw [if_pos hneg] at h4 ⊢
    obtain ⟨r, k1, k2, k3⟩ := Arith.negateInPlace_spec (m := m) (d := o) (width := w) (by omega) (by omega)
    refine ⟨r, by rw [k1, ok_bind], by omega, ?_⟩
    rw [k3, g3, h4, BitVec.ofInt_neg, BitVec.toNat_neg, BitVec.ofInt_natCast, BitVec.toNat_ofNat]
    have hlt : z.natAbs < 2 ^ (64 * o.length) := by rw [← g3]; exact wordsVal_lt o
    have hpow : 2 ^ (64 * o.length) = 2 ^ w * 2 ^ (64 * o.length - w) := by
      rw [← Nat.pow_add]; congr 1; omega
    generalize hk : 64 * o.length - w = k at hpow
    clear hk
    rw [hpow] at hlt ⊢
    rw [Int.natAbs_neg, Int.natAbs_natCast]
    have hp : 0 < 2 ^ w := Nat.two_pow_pos w
    obtain ⟨q, r', hqr, hr'⟩ : ∃ q r', z.natAbs = 2 ^ w * q + r' ∧ r' < 2 ^ w :=
      ⟨z.natAbs / 2 ^ w, z.natAbs % 2 ^ w, (Nat.div_add_mod _ _).symm, Nat.mod_lt _ hp⟩
    rw [hqr] at hlt ⊢
    have hmod : (2 ^ w * q + r') % 2 ^ w = r' := by rw [Nat.mul_add_mod, Nat.mod_eq_of_lt hr']
    rw [hmod]
    have hq : q + 1 ≤ 2 ^ k := by
      have : 2 ^ w * q < 2 ^ w * 2 ^ k := by omega
      exact Nat.lt_of_mul_lt_mul_left this
    obtain ⟨t, ht⟩ : ∃ t, 2 ^ k = q + 1 + t := ⟨_, (Nat.add_sub_of_le hq).symm⟩
    rw [ht, show 2 ^ w * (q + 1 + t) - (2 ^ w * q + r') = 2 ^ w * t + (2 ^ w - r') by
      rw [Nat.mul_add, Nat.mul_add, Nat.mul_one]; omega, Nat.mul_add_mod]
  · rw [if_neg hneg] at h4 ⊢
    have hfit' := hfit.resolve_left hneg
    exact ⟨o, rfl, g2, by rw [g3, h4, BitVec.ofInt_natCast, BitVec.toNat_ofNat, Int.natAbs_natCast,
      Nat.mod_eq_of_lt hfit']⟩

theorem fromStrRadix_err {m : Mode} {s : List Byte} {radix : Nat} {out o : List Word} {w : Nat} {e : IntErrorKind}
    (hw : 1 ≤ w) (hs : s ≠ []) (hs' : stripMinus s ≠ [])
    (hm : parseMagnitude m (stripMinus s) radix out w = ok (o, .error e)) :
    fromStrRadix m s radix out w = ok (o, .error e) := by
  rw [fromStrRadix_eq hs hw, if_neg hs', hm, ok_bind]

theorem fromStrRadix_panic {m : Mode} {s : List Byte} {radix : Nat} {out : List Word} {w : Nat} {p : Panic}
    (hw : 1 ≤ w) (hs : s ≠ []) (hs' : stripMinus s ≠ [])
    (hm : parseMagnitude m (stripMinus s) radix out w = panic p) :
    fromStrRadix m s radix out w = panic p := by
  rw [fromStrRadix_eq hs hw, if_neg hs', hm]
  rfl

/-- `determine_width_from_str_radix`. -/
theorem determineWidth_eq {m : Mode} {s : List Byte} {radix bits : Nat} (h : radix = 2 ∧ bits = 1 ∨ radix = 16 ∧ bits = 4)
    (hlen : numeralWidth bits s < U32) : determineWidth m s radix = ok (numeralWidth bits s) := by
  have hU : (U32 : Nat) = 4294967296 := rfl
  have hb : 1 ≤ bits := by omega
  have key : ∀ n k, bits * n + k < U32 → ((if radix = 2 then ok (n % U32) else if radix = 16 then mulC m U32 (n % U32) 4
      else panic .todo) >>= fun b => addC m U32 b k) = ok (bits * n + k) := by
    intro n k hn
    have : 1 * n ≤ bits * n := Nat.mul_le_mul_right _ hb
    rw [Nat.mod_eq_of_lt (by omega)]
    rcases h with ⟨h1, h2⟩ | ⟨h1, h2⟩
    · subst h1 h2
      rw [if_pos rfl, ok_bind, addC_ok (by omega), Nat.one_mul]
    · subst h1 h2
      rw [if_neg (by decide), if_pos rfl, mulC_ok (by omega), ok_bind, addC_ok (by omega), Nat.mul_comm]
  unfold determineWidth
  rw [debugAssert_of (by rcases h with ⟨h1, _⟩ | ⟨h1, _⟩ <;> simp [h1]), ok_bind]
  dsimp only
  have h3 : ¬ ch '+' = ch '-' := by decide
  have h4 : ¬ (some (ch '+') == some (ch '-')) = true := by decide
  match s, hlen with
  | [], hlen =>
    have := key 0 0 (by omega)
    simpa [numeralWidth] using this
  | [c], hlen =>
    by_cases h1 : c = ch '-'
    · have := key 0 1 (by omega)
      simp only [h1, numeralWidth, List.head?_cons, beq_self_eq_true, if_true, or_true]
      simpa using this
    · by_cases h2 : c = ch '+'
      · have := key 0 0 (by omega)
        simp only [h2, numeralWidth, List.head?_cons, if_true, true_or, Option.some.injEq, if_neg h3, if_neg h4]
        simpa using this
      · simp only [numeralWidth, List.head?_cons, Option.some.injEq, h1, h2, if_false] at hlen
        have := key 1 0 (by simp at hlen; omega)
        simp only [numeralWidth, List.head?_cons, Option.some.injEq, h1, h2, or_self, if_false, beq_iff_eq]
        simpa using this
  | c :: c' :: cs, hlen =>
    by_cases h1 : c = ch '-'
    · simp only [h1, numeralWidth, List.head?_cons, if_true] at hlen
      have := key ((c' :: cs).length) 1 (by simpa using hlen)
      simp only [h1, numeralWidth, List.head?_cons, beq_self_eq_true, if_true, or_true]
      rw [this]
      rfl
    · by_cases h2 : c = ch '+'
      · simp only [h2, numeralWidth, List.head?_cons, Option.some.injEq, if_neg h3, if_true] at hlen
        have := key ((c' :: cs).length) 0 (by simpa using hlen)
        simp only [h2, numeralWidth, List.head?_cons, if_true, true_or, Option.some.injEq, if_neg h3, if_neg h4]
        rw [this]
        rfl
      · simp only [numeralWidth, List.head?_cons, Option.some.injEq, h1, h2, if_false] at hlen
        have := key ((c' :: cs).length + 1) 0 (by simpa using hlen)
        simp only [numeralWidth, List.head?_cons, Option.some.injEq, h1, h2, or_self, if_false, beq_iff_eq]
        rw [this]
        rfl

end Strings
end Baa

import Verif.Props.Algorithms
import Verif.Props.Strings
import Verif.Spec.Decimal

/-!
# C150: decimal text at every width
-/

namespace Baa
open Res Strings

theorem decChar : ∀ d, d < 10 → ch '0' + BitVec.ofNat 8 d = ch d.digitChar := by decide +kernel

theorem decDigit_eq (c : Byte) : (decDigit c).map BitVec.toNat = digitOf 10 c := by
  have h : ∀ i : Fin 256, (decDigit (BitVec.ofFin i)).map BitVec.toNat = digitOf 10 (BitVec.ofFin i) := by decide +kernel
  exact h c.toFin

theorem decimal_small {n : Nat} (h : n < 10) : decimal n = [ch n.digitChar] := by
  rw [decimal, Nat.toDigits_of_lt_base h, List.map_singleton]

theorem decimal_step {n : Nat} (h : 10 ≤ n) : decimal n = decimal (n / 10) ++ [ch (n % 10).digitChar] := by
  rw [decimal, decimal, Nat.toDigits_of_base_le (by decide) h, List.map_append, List.map_singleton]

section
variable (m : Mode) {w : Nat}

theorem decDigits_spec (h0 : 4 ≤ w) (hlt : w + 1 < 2 ^ 32) {ten : BitVecValue} (ht : Denotes ten 10#w) :
    ∀ (fuel : Nat) {a : BitVecValue} {x : BitVec w} (acc : List Byte), Denotes a x → x.toNat < 10 ^ fuel → 0 < fuel →
    decDigits m ten fuel a acc = ok (decimal x.toNat ++ acc)
  | 0, _, _, _, _, _, h => absurd h (Nat.lt_irrefl _)
  | fuel + 1, a, x, acc, ha, hx, _ => by
    have h16 : 10 < 2 ^ w := Nat.lt_of_lt_of_le (by decide : 10 < 2 ^ 4) (Nat.pow_le_pow_right (by decide) h0)
    have e10 : (10#w).toNat = 10 := by rw [BitVec.toNat_ofNat, Nat.mod_eq_of_lt h16]
    have ne : (10#w) ≠ 0#w := fun e => by
      have := congrArg BitVec.toNat e
      rw [e10, BitVec.toNat_ofNat, Nat.zero_mod] at this
      cases this
    obtain ⟨q, r, d1, d2, -⟩ := C135_divide m (by omega) hlt ha ht
    obtain ⟨hq, hr⟩ := d2 ne
    have er : (x % 10#w).toNat = x.toNat % 10 := by rw [BitVec.toNat_umod, e10]
    have eq : (x / 10#w).toNat = x.toNat / 10 := by rw [BitVec.toNat_udiv, e10]
    have hm : x.toNat % 10 < 10 := Nat.mod_lt _ (by decide)
    have hc : ch '0' + (BitVec.ofNat 64 (x.toNat % 10)).setWidth 8 = ch (x.toNat % 10).digitChar := by
      rw [BitVec.setWidth_ofNat_of_le (by decide), decChar _ hm]
    rw [decDigits, ha.width_eq, d1, ok_bind]
    dsimp only
    rw [C03_to_u64 hr, er, if_pos (by omega)]
    dsimp only
    rw [hc, C25_is_zero hq]
    by_cases hz : x / 10#w = 0#w
    · rw [if_pos (decide_eq_true hz)]
      rw [hz, BitVec.toNat_ofNat, Nat.zero_mod] at eq
      have h10 : x.toNat < 10 := by omega
      rw [Nat.mod_eq_of_lt h10, decimal_small h10]
      rfl
    · rw [if_neg (by simpa using hz)]
      have h10 : 10 ≤ x.toNat := by
        apply Nat.le_of_not_lt
        intro h
        exact hz (BitVec.eq_of_toNat_eq (by rw [eq, BitVec.toNat_ofNat, Nat.zero_mod]; omega))
      have hf : 0 < fuel := by
        cases fuel with
        | zero => rw [Nat.zero_add, Nat.pow_one] at hx; omega
        | succ n => exact Nat.succ_pos _
      rw [decDigits_spec h0 hlt ht fuel _ hq (by rw [eq]; rw [Nat.pow_succ] at hx; omega) hf, eq, decimal_step h10, List.append_assoc]
      rfl

variable {a : BitVecValue} {x : BitVec w}

theorem printDec_decimal (h0 : 0 < w) (hlt : w + 5 < 2 ^ 32) (ha : Denotes a x) : printDec m a = ok (decimal x.toNat) := by
  obtain ⟨b, b1, b2, -⟩ := C22_zero_extend_partial m ha 4 (by omega) (.inl h0)
  have h16 : 10 < 2 ^ (w + 4) := Nat.lt_of_lt_of_le (by decide : 10 < 2 ^ 4) (Nat.pow_le_pow_right (by decide) (by omega))
  obtain ⟨t, t1, t2⟩ := C01_from_u64 m (w := w + 4) (by omega) (by omega) 10#64 h16
  have hx : (x.setWidth (w + 4)).toNat = x.toNat := BitVec.toNat_setWidth_of_le (by omega)
  have hp : 2 ^ w ≤ 10 ^ w := Nat.pow_le_pow_left (by decide) w
  rw [printDec, b1, ok_bind, ha.width_eq, t1, ok_bind,
    decDigits_spec m (by omega) (by omega) t2 w [] b2 (by rw [hx]; exact Nat.lt_of_lt_of_le x.isLt hp) h0, hx, List.append_nil]

/-- C150: the loop prints the number in decimal, without leading zeros. -/
theorem C150_print (h0 : 0 < w) (hlt : w + 5 < 2 ^ 32) (ha : Denotes a x) : ∃ s, printDec m a = ok s ∧ IsDecimal x.toNat s := by
  refine ⟨_, printDec_decimal m h0 hlt ha, ?_, fun h => ?_⟩
  · unfold digitsVal
    rw [if_neg (decimal_ne_nil _), digitsFrom_decimal]
  · by_cases hz : x.toNat = 0
    · rw [hz, decimal_zero]
    · exact absurd h (decimal_head hz)

/-- C150: it prints what `to_dec_str` prints, where that returns at all. -/
theorem C150_agrees (h0 : 0 < w) (hlt : w + 5 < 2 ^ 32) (ha : Denotes a x) {s : List Byte} (hs : BitVecValue.toDecStr m a = ok s) :
    printDec m a = ok s := by
  rw [printDec_decimal m h0 hlt ha]
  by_cases hx : x.toNat < 2 ^ 128
  · unfold BitVecValue.toDecStr toDecStr at hs
    cases h : mulC m U32 a.width 3 with
    | panic p => rw [h] at hs; cases hs
    | ok k =>
      rw [h, ok_bind, toDecStrInternal_eq m (by rw [ha.val_eq]; exact hx), ha.val_eq] at hs
      exact hs
  · obtain ⟨p, hp⟩ := C32_to_dec_str_wide_panics m ha (by omega)
    rw [hp] at hs
    cases hs

theorem parseDigits_spec (h0 : 4 ≤ w) (hlt : w < 2 ^ 32) : ∀ (s : List Byte) {a : BitVecValue} {n : Nat}, Denotes a (BitVec.ofNat w n) →
    (∀ k, digitsFrom 10 n s = some k → ∃ r, parseDigits m w a s = ok (some r) ∧ Denotes r (BitVec.ofNat w k)) ∧
    (digitsFrom 10 n s = none → parseDigits m w a s = ok none)
  | [], a, n, ha => ⟨fun k h => by
      cases h
      exact ⟨a, rfl, ha⟩, fun h => by cases h⟩
  | c :: cs, a, n, ha => by
    have h16 : 10 < 2 ^ w := Nat.lt_of_lt_of_le (by decide : 10 < 2 ^ 4) (Nat.pow_le_pow_right (by decide) h0)
    have hd := decDigit_eq c
    rw [digitsFrom, ← hd, parseDigits]
    cases hc : decDigit c with
    | none => exact ⟨fun k h => (by cases h), fun _ => rfl⟩
    | some d =>
      rw [hc] at hd
      have h10 : d.toNat < 10 := by
        have := hd.symm
        unfold digitOf at this
        split at this
        · split at this
          · cases this; assumption
          · cases this
        · cases this
      obtain ⟨p, p1, p2⟩ := C06_add m (by omega) ha ha
      obtain ⟨q, q1, q2⟩ := C06_add m (by omega) p2 p2
      obtain ⟨r, r1, r2⟩ := C06_add m (by omega) q2 q2
      obtain ⟨t, t1, t2⟩ := C06_add m (by omega) r2 p2
      obtain ⟨u, u1, u2⟩ := C01_from_u64 m (w := w) (by omega) hlt d (by omega)
      obtain ⟨v, v1, v2⟩ := C06_add m (by omega) t2 u2
      simp only [← BitVec.ofNat_add] at v2
      rw [show n + n + (n + n) + (n + n + (n + n)) + (n + n) + d.toNat = n * 10 + d.toNat by omega] at v2
      obtain ⟨i1, i2⟩ := parseDigits_spec h0 hlt cs v2
      dsimp only [Option.map]
      rw [p1, ok_bind, q1, ok_bind, r1, ok_bind, t1, ok_bind, u1, ok_bind, v1, ok_bind]
      exact ⟨i1, i2⟩

/-- C150: the loop reads every decimal numeral, modulo `2^w`, and rejects every other text. -/
theorem C150_parse (h0 : 4 ≤ w) (hlt : w < 2 ^ 32) (s : List Byte) :
    (∀ n, digitsVal 10 s = some n → ∃ r, parseDec m w s = ok (some r) ∧ Denotes r (BitVec.ofNat w n)) ∧
    (digitsVal 10 s = none → parseDec m w s = ok none) := by
  unfold digitsVal parseDec
  by_cases hs : s = []
  · rw [if_pos hs, if_pos hs]
    exact ⟨fun n h => (by cases h), fun _ => rfl⟩
  · rw [if_neg hs, if_neg hs]
    exact parseDigits_spec m h0 hlt s (n := 0) (C01_zero hlt)

/-- C150: what one loop prints the other one reads. -/
theorem C150_round_trip (m' : Mode) (h0 : 4 ≤ w) (hlt : w + 5 < 2 ^ 32) (ha : Denotes a x) :
    (printDec m a >>= fun s => parseDec m' w s) = ok (some a) := by
  obtain ⟨s, s1, s2, -⟩ := C150_print m (by omega) hlt ha
  obtain ⟨r, r1, r2⟩ := (C150_parse m' h0 (by omega) s).1 _ s2
  rw [BitVec.ofNat_toNat, BitVec.setWidth_eq] at r2
  rw [s1, ok_bind, r1, r2.repr_unique ha]

end

example : printDec .debug (encode (BitVec.twoPow 129 128)) = ok ("340282366920938463463374607431768211456".toList.map ch) ∧
    BitVecValue.toDecStr .debug (encode (BitVec.twoPow 129 128)) = panic .todo := by
  decide +kernel

example : printDec .debug (encode 0#1) = ok ("0".toList.map ch) ∧ printDec .debug (encode 7#3) = ok ("7".toList.map ch) := by
  decide +kernel

example : parseDec .debug 129 ("340282366920938463463374607431768211456".toList.map ch) = ok (some (encode (BitVec.twoPow 129 128))) ∧
    parseDec .debug 4 ("17".toList.map ch) = ok (some (encode 1#4)) ∧ parseDec .debug 129 ("12a".toList.map ch) = ok none ∧
    parseDec .debug 129 [] = ok none := by
  decide +kernel

end Baa

import Verif.Props.Parse
import Verif.Props.Convert
import Verif.Spec.Text

/-!
# C75: printing what was parsed

C38 parses what was printed; this is the other direction, for all numerals. It is the claim the repository's own property tests
`test_from_to_bit_str` and `test_from_to_hex_str` check on strings of up to 32 digits (src/bv/io/strings.rs:386-419, 436-470).
-/

namespace Baa
open Res Strings

/-! ## Digit strings are determined by length and value -/

theorem digitsFrom_unique {b : Nat} : ∀ (s t : List Byte) (acc acc' v : Nat), s.length = t.length →
    digitsFrom b acc s = some v → digitsFrom b acc' t = some v → acc = acc' ∧ s.map (digitOf b) = t.map (digitOf b)
  | [], [], acc, acc', v, _, hs, ht => by
    simp only [digitsFrom, Option.some.injEq] at hs ht
    exact ⟨by omega, rfl⟩
  | c :: cs, c' :: cs', acc, acc', v, hl, hs, ht => by
    rw [digitsFrom] at hs ht
    cases hc : digitOf b c with
    | none => rw [hc] at hs; cases hs
    | some d =>
      cases hc' : digitOf b c' with
      | none => rw [hc'] at ht; cases ht
      | some d' =>
        rw [hc] at hs
        rw [hc'] at ht
        have h1 := digitOf_lt hc
        have h2 := digitOf_lt hc'
        obtain ⟨h3, h4⟩ := digitsFrom_unique cs cs' _ _ v (by simpa using hl) hs ht
        have hb : 0 < b := by omega
        have hq : acc = acc' := by
          have e1 : (acc * b + d) / b = acc := by
            rw [Nat.mul_comm, Nat.mul_add_div hb, Nat.div_eq_of_lt h1, Nat.add_zero]
          have e2 : (acc' * b + d') / b = acc' := by
            rw [Nat.mul_comm, Nat.mul_add_div hb, Nat.div_eq_of_lt h2, Nat.add_zero]
          rw [← e1, ← e2, h3]
        subst hq
        have hd : d = d' := by omega
        subst hd
        exact ⟨rfl, by rw [List.map_cons, List.map_cons, h4, hc, hc']⟩

theorem digitsFrom_some_digits {b : Nat} : ∀ (s : List Byte) (acc v : Nat), digitsFrom b acc s = some v →
    ∀ c ∈ s, ∃ d, digitOf b c = some d
  | [], _, _, _, _, h => by cases h
  | c :: cs, acc, v, hs, c', h => by
    rw [digitsFrom] at hs
    cases hc : digitOf b c with
    | none => rw [hc] at hs; cases hs
    | some d =>
      rw [hc] at hs
      rcases List.mem_cons.mp h with rfl | h
      · exact ⟨d, hc⟩
      · exact digitsFrom_some_digits cs _ v hs c' h

theorem msbDigits_of_digitsVal {b : Nat} {f : Nat → Byte} {g : Byte → Byte}
    (hf : ∀ d, d < b → digitOf b (f d) = some d) (hg : ∀ c d, digitOf b c = some d → g c = f d)
    {s : List Byte} {v : Nat} (hs : digitsVal b s = some v) :
    msbDigits b f v s.length = s.map g := by
  obtain ⟨hne, hlt⟩ := digitsVal_lt hs
  have hpos : 0 < s.length := List.length_pos_iff.mpr hne
  have hb : 0 < b := by
    apply Nat.pos_of_ne_zero
    intro e
    rw [e, Nat.zero_pow hpos] at hlt
    omega
  have h1 := digitsVal_msbDigits hb hf hpos hlt
  unfold digitsVal at hs h1
  rw [if_neg hne] at hs
  rw [if_neg (by intro e; have := msbDigits_length b f v s.length; rw [e] at this; simp at this; omega)] at h1
  obtain ⟨_, h2⟩ := digitsFrom_unique _ _ _ _ v (msbDigits_length b f v s.length) h1 hs
  apply List.ext_getElem (by simp [msbDigits_length])
  intro i hi hi'
  have hi2 : i < s.length := by simpa using hi'
  obtain ⟨d, hd⟩ := digitsFrom_some_digits _ _ _ hs s[i] (List.getElem_mem _)
  have h3 : digitOf b (msbDigits b f v s.length)[i] = some d := by
    have := congrArg (fun l => l[i]?) h2
    simp only [List.getElem?_map, List.getElem?_eq_getElem hi, List.getElem?_eq_getElem hi2, Option.map_some,
      Option.some.injEq] at this
    rw [this, hd]
  have h4 : ∃ d', d' < b ∧ (msbDigits b f v s.length)[i] = f d' := by
    refine ⟨v / b ^ (s.length - 1 - i) % b, Nat.mod_lt _ hb, ?_⟩
    simp only [msbDigits, List.getElem_map, List.getElem_reverse, List.getElem_range, List.length_range]
  obtain ⟨d', hd', e⟩ := h4
  rw [e, hf d' hd'] at h3
  cases h3
  rw [e, List.getElem_map, hg _ _ hd]

theorem msbDigits_bin {s : List Byte} {v : Nat} (hs : digitsVal 2 s = some v) : msbDigits 2 binChar v s.length = s := by
  have := msbDigits_of_digitsVal (f := binChar) (g := id) digitOf_binChar
    (by
      have : ∀ c : Byte, ∀ d, d < 2 → digitOf 2 c = some d → id c = binChar d := by decide +kernel
      exact fun c d h => this c d (digitOf_lt h) h)
    hs
  rwa [List.map_id] at this

theorem msbDigits_hex {s : List Byte} {v : Nat} (hs : digitsVal 16 s = some v) :
    msbDigits 16 hexChar v s.length = s.map asciiLower :=
  msbDigits_of_digitsVal (f := hexChar) (g := asciiLower) digitOf_hexChar
    (by
      have : ∀ c : Byte, ∀ d, d < 16 → digitOf 16 c = some d → asciiLower c = hexChar d := by decide +kernel
      exact fun c d h => this c d (digitOf_lt h) h)
    hs

/-! ## C33, C34: the exact text -/

theorem numeral_bin (N k : Nat) : msbDigits 2 binChar N k = numeral 2 N k := by
  unfold msbDigits numeral
  refine List.map_congr_left fun i _ => ?_
  have : ∀ d, d < 2 → binChar d = lowerDigits.getD d (ch '?') := by decide +kernel
  exact this _ (Nat.mod_lt _ (by decide))

theorem numeral_hex (N k : Nat) : msbDigits 16 Strings.hexChar N k = numeral 16 N k := by
  unfold msbDigits numeral
  refine List.map_congr_left fun i _ => ?_
  have : ∀ d, d < 16 → Strings.hexChar d = lowerDigits.getD d (ch '?') := by decide +kernel
  exact this _ (Nat.mod_lt _ (by decide))

/-- **C33, exact**, every width above 1: sign and then digits of the magnitude, `w - 1` of them unless `w = 64k+1`, in which case
64 more (zeros) are printed. -/
theorem C33_exact (m : Mode) {w : Nat} (h2 : 2 ≤ w) {a : BitVecValue} {x : BitVec w} (ha : Denotes a x) :
    BitVecValue.toBitStrSigned m a = ok ((if x.toInt < 0 then [ch '-'] else []) ++
      numeral 2 x.toInt.natAbs (if w % 64 = 1 then w - 1 + 64 else w - 1)) := by
  rw [← numeral_bin]
  have hne : ∀ ws : List Word, ws.length = (w + 63) / 64 → ws ≠ [] := by
    intro ws h e; rw [e] at h; simp at h; omega
  have hc : (w - 1 - 1) % 64 + 1 + 64 * ((w + 63) / 64 - 1) = if w % 64 = 1 then w - 1 + 64 else w - 1 := by
    split <;> omega
  unfold BitVecValue.toBitStrSigned toBitStrSigned
  rw [ha.width_eq]
  rcases signed_cases m (by omega) ha with ⟨h1, h3, h4, h5⟩ | ⟨h1, h3, r, h4, h5, h6, h7, h8⟩
  · rw [h1, ok_bind, if_neg (by decide), subC_ok (by omega), ok_bind, toBitStr,
      toBitStrInternal_eq (by omega) (hne _ ha.length_eq), if_neg (by omega), ha.val_eq, ha.length_eq, h4, hc]
  · rw [h1, ok_bind, if_pos rfl, h4, ok_bind, subC_ok (by omega), ok_bind, toBitStrInternal_eq (by omega) (hne _ h5),
      if_pos h3, h6, h5, hc]

/-- **C34, exact**, every width above 1: sign and then the low `w - 1` bits of the magnitude (rounded up to whole digits). -/
theorem C34_exact (m : Mode) {w : Nat} (h2 : 2 ≤ w) {a : BitVecValue} {x : BitVec w} (ha : Denotes a x) :
    BitVecValue.toHexStrSigned m a = ok ((if x.toInt < 0 then [ch '-'] else []) ++
      numeral 16 x.toInt.natAbs ((w - 1 + 3) / 4)) := by
  rw [← numeral_hex]
  have key : ∀ ws : List Word, ∀ out : List Byte, ws.length = (w + 63) / 64 → wordsVal ws = x.toInt.natAbs →
      (selectWordsForWidth m ws (w - 1) >>= fun ws => toHexStrInternal m ws (w - 1) out) =
        ok (out ++ msbDigits 16 hexChar x.toInt.natAbs ((w - 1 + 3) / 4)) := by
    intro ws out hl hv
    rw [selectWordsForWidth_eq m (by omega) hl, ok_bind,
      toHexStrInternal_eq (by rw [List.length_take, Nat.min_eq_left (by omega)]) (by omega), Big.wordsVal_take, hv,
      show 64 * ((w - 1 + 63) / 64) = 4 * (16 * ((w - 1 + 63) / 64)) by omega, ← sixteen_pow,
      msbDigits_mod 16 hexChar _ _ (show (w - 1 + 3) / 4 ≤ 16 * ((w - 1 + 63) / 64) by omega)]
  unfold BitVecValue.toHexStrSigned toHexStrSigned
  rw [ha.width_eq]
  rcases signed_cases m (by omega) ha with ⟨h1, h3, h4, h5⟩ | ⟨h1, h3, r, h4, h5, h6, h7, h8⟩
  · rw [h1, ok_bind, if_neg (by decide), subC_ok (by omega), ok_bind, if_neg (by omega)]
    exact key a.words [] ha.length_eq (by rw [ha.val_eq, h4])
  · rw [h1, ok_bind, if_pos rfl, h4, ok_bind, subC_ok (by omega), ok_bind, if_pos h3]
    exact key r [ch '-'] h5 h6

example : BitVecValue.toBitStrSigned .debug (encode (-1#65)) = ok (ch '-' :: (List.replicate 127 (ch '0') ++ [ch '1'])) ∧
    BitVecValue.toHexStrSigned .debug (encode (-1#65)) = ok (ch '-' :: (List.replicate 15 (ch '0') ++ [ch '1'])) := by
  decide +kernel

/-! ## C75 -/

/-- **C75, full statement**: parsing a numeral (digits, or `+` and digits, or `-` and digits) and printing the result, signed if
there was a `-`, gives the digits back, in lower case, with the `-` if the number is not 0. -/
def C75_statement : Prop := ∀ (m : Mode) (ds : List Byte) (n : Nat),
  (digitsVal 2 ds = some n → ds.length + 1 < 2 ^ 32 →
    (∀ s, s = ds ∨ s = ch '+' :: ds →
      ∃ r, BitVecValue.fromBitStr m s = ok (.ok r) ∧ BitVecValue.toBitStr r = ok ds) ∧
    (∃ r, BitVecValue.fromBitStr m (ch '-' :: ds) = ok (.ok r) ∧
      BitVecValue.toBitStrSigned m r = ok (normalised true n ds))) ∧
  (digitsVal 16 ds = some n → 4 * ds.length + 1 < 2 ^ 32 →
    (∀ s, s = ds ∨ s = ch '+' :: ds →
      ∃ r, BitVecValue.fromHexStr m s = ok (.ok r) ∧ BitVecValue.toHexStr m r = ok (ds.map asciiLower)) ∧
    (∃ r, BitVecValue.fromHexStr m (ch '-' :: ds) = ok (.ok r) ∧
      BitVecValue.toHexStrSigned m r = ok (normalised true n (ds.map asciiLower))))

/-- A numeral with a leading `+` or `-`: value and chosen width. -/
theorem numeral_plus {radix bits : Nat} {ds s : List Byte} {n : Nat} (h : digitsVal radix ds = some n)
    (hs : s = ds ∨ s = ch '+' :: ds) : signedVal radix s = some (n : Int) ∧ numeralWidth bits s = bits * ds.length := by
  rcases hs with rfl | rfl
  · exact ⟨(signedVal_of_digitsVal h).1, numeralWidth_of_digitsVal h⟩
  · constructor
    · unfold signedVal unsignedVal stripPlus
      rw [List.head?_cons, if_neg (by decide), if_pos rfl, List.tail_cons, h]
      rfl
    · unfold numeralWidth
      rw [List.head?_cons, if_neg (by decide), if_pos rfl, List.length_cons, Nat.add_sub_cancel]

theorem numeral_minus {radix bits : Nat} {ds : List Byte} {n : Nat} (h : digitsVal radix ds = some n) :
    signedVal radix (ch '-' :: ds) = some (-(n : Int)) ∧ numeralWidth bits (ch '-' :: ds) = bits * ds.length + 1 := by
  constructor
  · unfold signedVal unsignedVal stripPlus
    rw [List.head?_cons, if_pos rfl, List.tail_cons, if_neg (signedVal_of_digitsVal h).2.2, h]
    rfl
  · unfold numeralWidth
    rw [List.head?_cons, if_pos rfl, List.length_cons, Nat.add_sub_cancel]

/-- A parsed negative numeral has the right value: the chosen width always has room for it. -/
theorem toInt_neg_numeral {n L : Nat} (h : n < 2 ^ L) : (BitVec.ofInt (L + 1) (-(n : Int))).toInt = -(n : Int) := by
  apply toInt_ofInt_of_fits (by omega)
  have h2 : ((2 ^ L : Nat) : Int) = (2 : Int) ^ L := by norm_cast
  unfold FitsSigned
  rw [Nat.add_sub_cancel]
  constructor <;> omega

theorem sign_normalised (n : Nat) (ds : List Byte) :
    ((if -(n : Int) < 0 then [ch '-'] else []) ++ ds) = normalised true n ds := by
  unfold normalised
  by_cases h : n = 0
  · subst h; rfl
  · rw [if_pos (by omega), if_pos ⟨rfl, h⟩]; rfl

/-- Unsigned binary: all numerals. -/
theorem C75_bit_str (m : Mode) {ds s : List Byte} {n : Nat} (h : digitsVal 2 ds = some n) (hlen : ds.length < 2 ^ 32)
    (hs : s = ds ∨ s = ch '+' :: ds) :
    ∃ r, BitVecValue.fromBitStr m s = ok (.ok r) ∧ BitVecValue.toBitStr r = ok ds := by
  obtain ⟨h1, h2⟩ := numeral_plus (bits := 1) h hs
  obtain ⟨hne, hlt⟩ := digitsVal_lt h
  have hpos : 0 < ds.length := List.length_pos_iff.mpr hne
  obtain ⟨r, h3, h4⟩ := (C35_from_bit_str m (s := s) (by rw [h2]; omega)).2.1 _ h1
  have hw : numeralWidth 1 s = ds.length := by omega
  have h5 := denotes_cast h4 hw (BitVec.ofNat _ n) (by rw [BitVec.ofInt_natCast, BitVec.toNat_ofNat, BitVec.toNat_ofNat, hw])
  refine ⟨r, h3, ?_⟩
  unfold BitVecValue.toBitStr toBitStr
  rw [h5.width_eq, toBitStrInternal_eq hpos
    (by intro e; have := h5.length_eq; rw [e] at this; simp at this; omega), List.nil_append,
    show (ds.length - 1) % 64 + 1 + 64 * (r.words.length - 1) = ds.length by have := h5.length_eq; omega, h5.val_eq,
    BitVec.toNat_ofNat, Nat.mod_eq_of_lt hlt, msbDigits_bin h]

/-- Unsigned hexadecimal: all numerals. -/
theorem C75_hex_str (m m' : Mode) {ds s : List Byte} {n : Nat} (h : digitsVal 16 ds = some n) (hlen : 4 * ds.length < 2 ^ 32)
    (hs : s = ds ∨ s = ch '+' :: ds) :
    ∃ r, BitVecValue.fromHexStr m s = ok (.ok r) ∧ BitVecValue.toHexStr m' r = ok (ds.map asciiLower) := by
  obtain ⟨h1, h2⟩ := numeral_plus (bits := 4) h hs
  obtain ⟨hne, hlt⟩ := digitsVal_lt h
  have hpos : 0 < ds.length := List.length_pos_iff.mpr hne
  rw [sixteen_pow] at hlt
  obtain ⟨r, h3, h4⟩ := (C36_from_hex_str m (s := s) (by rw [h2]; omega)).2.1 _ h1
  have h5 := denotes_cast h4 h2 (BitVec.ofNat _ n) (by rw [BitVec.ofInt_natCast, BitVec.toNat_ofNat, BitVec.toNat_ofNat, h2])
  refine ⟨r, h3, ?_⟩
  unfold BitVecValue.toHexStr toHexStr
  rw [h5.width_eq, toHexStrInternal_eq h5.length_eq (by omega), List.nil_append, h5.val_eq, BitVec.toNat_ofNat,
    Nat.mod_eq_of_lt hlt, show (4 * ds.length + 3) / 4 = ds.length by omega, msbDigits_hex h]

/-- Negative hexadecimal: all numerals. -/
theorem C75_hex_str_signed (m m' : Mode) {ds : List Byte} {n : Nat} (h : digitsVal 16 ds = some n)
    (hlen : 4 * ds.length + 1 < 2 ^ 32) :
    ∃ r, BitVecValue.fromHexStr m (ch '-' :: ds) = ok (.ok r) ∧
      BitVecValue.toHexStrSigned m' r = ok (normalised true n (ds.map asciiLower)) := by
  obtain ⟨h1, h2⟩ := numeral_minus (bits := 4) h
  obtain ⟨hne, hlt⟩ := digitsVal_lt h
  have hpos : 0 < ds.length := List.length_pos_iff.mpr hne
  rw [sixteen_pow] at hlt
  obtain ⟨r, h3, h4⟩ := (C36_from_hex_str m (s := ch '-' :: ds) (by rw [h2]; omega)).2.1 _ h1
  rw [h2] at h4
  refine ⟨r, h3, ?_⟩
  rw [C34_exact m' (by omega) h4, ← numeral_hex, toInt_neg_numeral hlt, Int.natAbs_neg, Int.natAbs_natCast,
    show (4 * ds.length + 1 - 1 + 3) / 4 = ds.length by omega, msbDigits_hex h, sign_normalised]

theorem msbDigits_leading_zeros {n L k : Nat} (h : n < 2 ^ L) :
    msbDigits 2 binChar n (L + k) = List.replicate k (ch '0') ++ msbDigits 2 binChar n L := by
  induction k with
  | zero => simp
  | succ k ih =>
    rw [← Nat.add_assoc, msbDigits_succ, ih, List.replicate_succ, List.cons_append,
      Nat.div_eq_of_lt (Nat.lt_of_lt_of_le h (Nat.pow_le_pow_right (by decide) (by omega)))]
    rfl

/-- **C75, proved part, negative binary**: exact text for all numerals. If the number of digits is a multiple of 64, then 64
zeros too many are printed.
Missing: these numerals. -/
theorem C75_bit_str_signed_partial (m m' : Mode) {ds : List Byte} {n : Nat} (h : digitsVal 2 ds = some n)
    (hlen : ds.length + 1 < 2 ^ 32) :
    ∃ r, BitVecValue.fromBitStr m (ch '-' :: ds) = ok (.ok r) ∧
      BitVecValue.toBitStrSigned m' r =
        ok (normalised true n (if ds.length % 64 = 0 then List.replicate 64 (ch '0') ++ ds else ds)) := by
  obtain ⟨h1, h2⟩ := numeral_minus (bits := 1) h
  obtain ⟨hne, hlt⟩ := digitsVal_lt h
  have hpos : 0 < ds.length := List.length_pos_iff.mpr hne
  obtain ⟨r, h3, h4⟩ := (C35_from_bit_str m (s := ch '-' :: ds) (by rw [h2]; omega)).2.1 _ h1
  rw [h2, Nat.one_mul] at h4
  refine ⟨r, h3, ?_⟩
  rw [C33_exact m' (by omega) h4, ← numeral_bin, toInt_neg_numeral hlt, Int.natAbs_neg, Int.natAbs_natCast, Nat.add_sub_cancel]
  by_cases hm : ds.length % 64 = 0
  · rw [if_pos hm, if_pos (show (ds.length + 1) % 64 = 1 by omega), msbDigits_leading_zeros hlt, msbDigits_bin h, sign_normalised]
  · rw [if_neg hm, if_neg (show ¬ (ds.length + 1) % 64 = 1 by omega), msbDigits_bin h, sign_normalised]

/-- **C75 is false of the code**: `-1…1` with 64 digits is printed with 128 digits. -/
theorem C75_refuted : ¬ C75_statement := fun h => by
  have hd : digitsVal 2 (List.replicate 64 (ch '1')) = some (2 ^ 64 - 1) := by decide +kernel
  obtain ⟨r, h1, h2⟩ := ((h .debug (List.replicate 64 (ch '1')) (2 ^ 64 - 1)).1 hd (by decide)).2
  obtain ⟨r', h3, h4⟩ := C75_bit_str_signed_partial .debug .debug hd (by decide)
  rw [h1] at h3
  cases h3
  rw [h2] at h4
  revert h4
  decide +kernel

example : digitsVal 16 ("aB0".toList.map ch) = some 2736 ∧
    normalised true 2736 (("aB0".toList.map ch).map asciiLower) = "-ab0".toList.map ch ∧
    normalised true 0 ("00".toList.map ch) = "00".toList.map ch := by decide +kernel

end Baa

import Verif.Model.Target
import Verif.Props.ArrayLaws
import Verif.Props.Raw
import Verif.Spec.Calls

/-!
# C109: the size of `usize` does not matter
-/

namespace Baa
open Res

theorem alike_rfl {α : Type} {x : Res α} : Alike x x := .inl rfl

theorem alike_bind {α β : Type} {x y : Res α} {f g : α → Res β} (h : Alike x y)
    (hf : ∀ a, x = ok a → Alike (f a) (g a)) : Alike (x >>= f) (y >>= g) := by
  rcases h with h | ⟨⟨p, hp⟩, ⟨q, hq⟩⟩
  · subst h
    cases x with
    | ok a => exact hf a rfl
    | panic p => exact .inl rfl
  · subst hp hq
    exact .inr ⟨⟨p, rfl⟩, ⟨q, rfl⟩⟩

theorem Ptr.size_ge (p : Ptr) : 4294967296 ≤ p.size := by cases p <;> decide

theorem Ptr.bits_ge (p : Ptr) : 32 ≤ p.bits := by cases p <;> decide

theorem subC_one_size (m : Mode) (p : Ptr) {n : Nat} (h : 1 ≤ n) : subC m p.size n 1 = subC m U64 n 1 := by
  unfold subC
  rw [if_pos h, if_pos h]

namespace Target

theorem signExtendWords_eq (p : Ptr) (m : Mode) (dst source : List Word) (srcWidth dstWidth : Nat) :
    signExtendWords p m dst source srcWidth dstWidth = Arith.signExtend m dst source srcWidth dstWidth := by
  cases source with
  | nil =>
    have hn : Panics (Arith.isNeg m [] srcWidth) := by
      unfold Arith.isNeg
      cases subC m U32 srcWidth 1 with
      | ok w => exact ⟨_, rfl⟩
      | panic p => exact ⟨_, rfl⟩
    obtain ⟨q, hq⟩ := hn
    unfold signExtendWords Arith.signExtend
    rw [hq]
    exact rfl
  | cons a l =>
    unfold signExtendWords Arith.signExtend
    rw [subC_one_size m p (show 1 ≤ (a :: l).length from Nat.succ_le_succ (Nat.zero_le _))]

theorem concatWords_eq (p : Ptr) (m : Mode) (dst msb lsb : List Word) (lsbWidth : Nat) (h : dst.length < 4294967296) :
    concatWords p m dst msb lsb lsbWidth = Arith.concat m dst msb lsb lsbWidth := by
  cases lsb with
  | cons a l =>
    unfold concatWords Arith.concat
    rw [subC_one_size m p (show 1 ≤ (a :: l).length from Nat.succ_le_succ (Nat.zero_le _))]
  | nil =>
    have hs := p.size_ge
    unfold concatWords Arith.concat
    dsimp only
    by_cases h0 : lsbWidth % BITS = 0
    · rw [if_pos h0, if_pos h0]
    · rw [if_neg h0, if_neg h0]
      cases Arith.mask (BITS - lsbWidth % BITS) with
      | panic q => exact rfl
      | ok mk =>
        rw [ok_bind, ok_bind]
        have hl : (Arith.assign dst []).length = dst.length := by cases dst <;> exact rfl
        cases m with
        | debug => exact rfl
        | release =>
          have e1 : subC .release p.size ([] : List Word).length 1 = ok (p.size - 1) := by
            unfold subC
            rw [if_neg (by simp)]
            show ok ((p.size + 0 - 1) % p.size) = _
            rw [Nat.mod_eq_of_lt (by omega), Nat.add_zero]
          have e2 : subC .release U64 ([] : List Word).length 1 = ok (U64 - 1) := rfl
          rw [e1, e2, ok_bind, ok_bind]
          have e3 : ∀ n, dst.length ≤ n → idx (Arith.assign dst []) n = panic .bounds := by
            intro n hn
            rw [idx, List.getElem?_eq_none (by omega)]
          rw [e3 _ (by omega), e3 _ (by change _ ≤ 18446744073709551616 - 1; omega)]
          exact rfl

/-! ## Parsing -/

/-- Positions in the output that parsing tells apart: they agree, or (release mode) neither is inside the output. -/
def SamePos (m : Mode) (n i j : Nat) : Prop := i = j ∨ (m = .release ∧ n ≤ i ∧ n ≤ j)

/-- Results of the digit loop that are treated alike. -/
inductive SameLoop (m : Mode) (n : Nat) :
    List Word × Except IntErrorKind (Nat × Word) → List Word × Except IntErrorKind (Nat × Word) → Prop where
  | error (out : List Word) (e : IntErrorKind) : SameLoop m n (out, .error e) (out, .error e)
  | done (out : List Word) (i j : Nat) (w : Word) : out.length = n → SamePos m n i j →
      SameLoop m n (out, .ok (i, w)) (out, .ok (j, w))

/-- Outcomes of the digit loop that are treated alike. -/
def SameLoops (m : Mode) (n : Nat) (x y : Res (List Word × Except IntErrorKind (Nat × Word))) : Prop :=
  (∃ a b, x = ok a ∧ y = ok b ∧ SameLoop m n a b) ∨ (Panics x ∧ Panics y)

theorem setIdx_length {α : Type} {l l' : List α} {i : Nat} {x : α} (h : setIdx l i x = ok l') :
    l'.length = l.length ∧ i < l.length := by
  unfold setIdx at h
  split at h
  · cases h
    exact ⟨List.length_set, by assumption⟩
  · cases h

theorem setIdx_out {α : Type} {l : List α} {i : Nat} (x : α) (h : l.length ≤ i) : setIdx l i x = panic .bounds := by
  unfold setIdx
  rw [if_neg (by omega)]

theorem parseLoop_same (p : Ptr) (m : Mode) (bits perWord : Nat) (dv : Byte → Option Nat) (numDigits n : Nat)
    (hn : n < 4294967296) (hd : numDigits < 4294967296) :
    ∀ (cs : List Byte) (ii : Nat) (out : List Word) (i j : Nat) (w : Word), ii + cs.length = numDigits →
      out.length = n → SamePos m n i j →
      SameLoops m n (parseLoop p m bits perWord dv numDigits ii out i w cs)
        (Strings.parseLoop m bits perWord dv numDigits ii out j w cs) := by
  have hs := p.size_ge
  intro cs
  induction cs with
  | nil => exact fun ii out i j w _ ho hp => .inl ⟨_, _, rfl, rfl, .done _ _ _ _ ho hp⟩
  | cons c cs ih =>
    intro ii out i j w hl ho hp
    have hl' : ii + (cs.length + 1) = numDigits := hl
    unfold parseLoop Strings.parseLoop
    have s1 : ∀ M, subC m M numDigits ii = ok (numDigits - ii) := fun M => by unfold subC; rw [if_pos (by omega)]
    have s2 : ∀ M, subC m M (numDigits - ii) 1 = ok (numDigits - ii - 1) := fun M => by
      unfold subC; rw [if_pos (by omega)]
    have s3 : addC m p.size (numDigits - ii - 1) 1 = ok (numDigits - ii - 1 + 1) := by
      unfold addC; rw [if_pos (by omega)]
    have s4 : addC m U64 (numDigits - ii - 1) 1 = ok (numDigits - ii - 1 + 1) := by
      unfold addC; rw [if_pos (show _ < 18446744073709551616 by omega)]
    rw [s1, s1, ok_bind, ok_bind, s2, s2, ok_bind, ok_bind]
    -- the common continuation
    have cont : ∀ (out : List Word) (i j : Nat) (w : Word), out.length = n → SamePos m n i j →
        SameLoops m n
          (match dv c with
            | none => ok (out, .error .invalidDigit)
            | some v => parseLoop p m bits perWord dv numDigits (ii + 1) out i ((w <<< bits) ||| BitVec.ofNat 64 v) cs)
          (match dv c with
            | none => ok (out, .error .invalidDigit)
            | some v =>
              Strings.parseLoop m bits perWord dv numDigits (ii + 1) out j ((w <<< bits) ||| BitVec.ofNat 64 v) cs) := by
      intro out i j w ho hp
      cases dv c with
      | none => exact .inl ⟨_, _, rfl, rfl, .error _ _⟩
      | some v => exact ih _ _ _ _ _ (by omega) ho hp
    by_cases h0 : ii > 0
    · rw [if_pos h0, if_pos h0, s3, s4, ok_bind, ok_bind]
      by_cases hk : (numDigits - ii - 1 + 1) % perWord = 0
      · rw [if_pos hk, if_pos hk]
        rcases hp with rfl | ⟨rfl, h1, h2⟩
        · cases hset : setIdx out i w with
          | panic q => exact .inr ⟨⟨q, rfl⟩, ⟨q, rfl⟩⟩
          | ok out' =>
            obtain ⟨hlen, hi⟩ := setIdx_length hset
            rw [ok_bind, ok_bind]
            by_cases hi0 : 1 ≤ i
            · have s5 : ∀ M, subC m M i 1 = ok (i - 1) := fun M => by unfold subC; rw [if_pos hi0]
              rw [s5, s5]
              exact cont _ _ _ _ (by omega) (.inl rfl)
            · have hi1 : i = 0 := by omega
              subst hi1
              cases m with
              | debug => exact .inr ⟨⟨_, rfl⟩, ⟨_, rfl⟩⟩
              | release =>
                have s5 : subC .release p.size 0 1 = ok (p.size - 1) := by
                  unfold subC
                  rw [if_neg (by omega)]
                  show ok ((p.size + 0 - 1) % p.size) = _
                  rw [Nat.mod_eq_of_lt (by omega), Nat.add_zero]
                have s6 : subC .release U64 0 1 = ok 18446744073709551615 := rfl
                rw [s5, s6]
                exact cont _ _ _ _ (by omega) (.inr ⟨rfl, by omega, by omega⟩)
        · rw [setIdx_out _ (by omega), setIdx_out _ (by omega)]
          exact .inr ⟨⟨_, rfl⟩, ⟨_, rfl⟩⟩
      · rw [if_neg hk, if_neg hk]
        exact cont _ _ _ _ ho hp
    · rw [if_neg h0, if_neg h0]
      exact cont _ _ _ _ ho hp

theorem parseBase16_same (p : Ptr) (m : Mode) (digits : List Byte) (out : List Word) (hd : digits.length < 4294967296)
    (ho : out.length < 4294967296) : Alike (parseBase16 p m digits out) (Strings.parseBase16 m digits out) := by
  unfold parseBase16 Strings.parseBase16
  dsimp only
  refine alike_bind alike_rfl fun bits _ => ?_
  refine alike_bind alike_rfl fun outIi _ => ?_
  rcases parseLoop_same p m 4 16 Strings.hexDigitValue digits.length out.length ho hd digits 0 out outIi outIi 0#64
    (Nat.zero_add _) rfl (.inl rfl) with ⟨a, b, h1, h2, h3⟩ | ⟨⟨q, hq⟩, ⟨r, hr⟩⟩
  · rw [h1, h2, ok_bind, ok_bind]
    cases h3 with
    | error out e => exact alike_rfl
    | done out i j w hlen hp =>
      rcases hp with rfl | ⟨rfl, _, _⟩
      · exact alike_rfl
      · exact .inl rfl
  · rw [hq, hr]
    exact .inr ⟨⟨_, rfl⟩, ⟨_, rfl⟩⟩

theorem parseBase2_same (p : Ptr) (m : Mode) (digits : List Byte) (out : List Word) (w : Nat)
    (hd : digits.length < 4294967296) (ho : out.length < 4294967296) :
    Alike (parseBase2 p m digits out w) (Strings.parseBase2 m digits out w) := by
  unfold parseBase2 Strings.parseBase2
  dsimp only
  rw [show digits.length % U32 = digits.length from Nat.mod_eq_of_lt hd]
  by_cases hw : digits.length > w
  · rw [if_pos hw, if_pos hw]
    exact alike_rfl
  · rw [if_neg hw, if_neg hw]
    refine alike_bind alike_rfl fun outIi _ => ?_
    rcases parseLoop_same p m 1 64 Strings.binDigitValue digits.length out.length ho hd digits 0 out outIi outIi 0#64
      (Nat.zero_add _) rfl (.inl rfl) with ⟨a, b, h1, h2, h3⟩ | ⟨⟨q, hq⟩, ⟨r, hr⟩⟩
    · rw [h1, h2, ok_bind, ok_bind]
      cases h3 with
      | error out e => exact alike_rfl
      | done out i j w hlen hp =>
        rcases hp with rfl | ⟨rfl, _, _⟩
        · exact alike_rfl
        · exact .inl rfl
    · rw [hq, hr]
      exact .inr ⟨⟨_, rfl⟩, ⟨_, rfl⟩⟩

theorem parseMagnitude_same (p : Ptr) (m : Mode) (value : List Byte) (radix : Nat) (out : List Word) (w : Nat)
    (hd : value.length < 4294967296) (ho : out.length < 4294967296) :
    Alike (parseMagnitude p m value radix out w) (Strings.parseMagnitude m value radix out w) := by
  have tail : Alike
      (debugAssert m (divCeil w BITS == out.length) >>= fun _ =>
        if value = [ch '+'] then ok (out, .error .invalidDigit)
        else
          let digits := if value.head? = some (ch '+') then value.drop 1 else value
          if radix = 2 then parseBase2 p m digits out w
          else if radix = 10 then panic .todo
          else if radix = 16 then parseBase16 p m digits out
          else panic .todo)
      (debugAssert m (divCeil w BITS == out.length) >>= fun _ =>
        if value = [ch '+'] then ok (out, .error .invalidDigit)
        else
          let digits := if value.head? = some (ch '+') then value.drop 1 else value
          if radix = 2 then Strings.parseBase2 m digits out w
          else if radix = 10 then panic .todo
          else if radix = 16 then Strings.parseBase16 m digits out
          else panic .todo) := by
    refine alike_bind alike_rfl fun _ _ => ?_
    split
    · exact alike_rfl
    · have hl : (if value.head? = some (ch '+') then value.drop 1 else value).length < 4294967296 := by
        split
        · rw [List.length_drop]; omega
        · exact hd
      dsimp only
      generalize (if value.head? = some (ch '+') then value.drop 1 else value) = digits at hl
      split
      · exact parseBase2_same p m digits out w hl ho
      · split
        · exact alike_rfl
        · split
          · exact parseBase16_same p m digits out hl ho
          · exact alike_rfl
  match out, tail with
  | [], tail => exact tail
  | [_], _ => exact alike_rfl
  | [_, _], _ => exact alike_rfl
  | _ :: _ :: _ :: _, tail => exact tail

theorem fromStrRadixWords_same (p : Ptr) (m : Mode) (value : List Byte) (radix : Nat) (out : List Word) (w : Nat)
    (hd : value.length < 4294967296) (ho : out.length < 4294967296) :
    Alike (fromStrRadixWords p m value radix out w) (Strings.fromStrRadix m value radix out w) := by
  unfold fromStrRadixWords Strings.fromStrRadix
  split
  · exact alike_rfl
  · have hl : (if (value.head? == some (ch '-')) = true then value.drop 1 else value).length < 4294967296 := by
      split
      · rw [List.length_drop]; omega
      · exact hd
    dsimp only
    generalize (if (value.head? == some (ch '-')) = true then value.drop 1 else value) = digits at hl
    split
    · exact alike_rfl
    · split
      · exact alike_rfl
      · exact alike_bind (parseMagnitude_same p m digits radix out w hl ho) fun _ _ => alike_rfl

/-! ## Views of a buffer -/

theorem toRange_ok (p : Ptr) (m : Mode) (i : BitVecValueIndex) (h : i.index + i.words < p.size) :
    toRange p m i = ok i.toRange := by
  unfold toRange addC
  rw [if_pos h]
  rfl

/-- A range that does not fit is an overflow in debug mode, and has its end before its start in release mode. -/
theorem toRange_wrap (p : Ptr) (m : Mode) (i : BitVecValueIndex) (hi : i.index < 4294967296) (hw : i.width < 4294967296)
    (h : p.size ≤ i.index + i.words) :
    Panics (toRange p m i) ∨ (m = .release ∧ toRange p m i = ok (i.index, i.index + i.words - p.size) ∧ i.words < p.size) := by
  have hs := p.size_ge
  have hww : i.words < p.size := by
    unfold BitVecValueIndex.words divCeil
    change (i.width + 64 - 1) / 64 < _
    omega
  cases m with
  | debug =>
    left
    unfold toRange addC
    rw [if_neg (by omega)]
    exact ⟨_, rfl⟩
  | release =>
    right
    refine ⟨rfl, ?_, hww⟩
    unfold toRange addC
    rw [if_neg (by omega)]
    show ok (i.index, (i.index + i.words) % p.size) = _
    rw [Nat.mod_eq_sub_mod h, Nat.mod_eq_of_lt (by omega)]

theorem sliceR_panics {α : Type} {l : List α} {lo hi : Nat} (h : ¬ (lo ≤ hi ∧ hi ≤ l.length)) : Panics (sliceR l lo hi) := by
  unfold sliceR
  rw [if_neg h]
  exact ⟨_, rfl⟩

theorem slice_range_same (p : Ptr) (m : Mode) (data : List Word) (i : BitVecValueIndex) (hi : i.index < 4294967296)
    (hw : i.width < 4294967296) (hd : data.length < p.size) {β : Type} (f : List Word → Res β) :
    Alike (toRange p m i >>= fun r => sliceR data r.1 r.2 >>= f) (sliceR data i.toRange.1 i.toRange.2 >>= f) := by
  by_cases h : i.index + i.words < p.size
  · rw [toRange_ok p m i h]
    exact alike_rfl
  · have h2 : Panics (sliceR data i.toRange.1 i.toRange.2) := sliceR_panics fun hh => by
      have : i.index + i.words ≤ data.length := hh.2
      omega
    refine .inr ⟨?_, panics_bind h2 _⟩
    rcases toRange_wrap p m i hi hw (by omega) with h3 | ⟨_, h3, h4⟩
    · exact panics_bind h3 _
    · rw [h3, ok_bind]
      exact panics_bind (sliceR_panics fun hh => by have := hh.1; dsimp only at this; omega) _

theorem getRef_same (p : Ptr) (m : Mode) (data : List Word) (i : BitVecValueIndex) (hi : i.index < 4294967296)
    (hw : i.width < 4294967296) (hd : data.length < p.size) :
    Alike (getRef p m data i) (Indexed.getRef data i) :=
  slice_range_same p m data i hi hw hd _

theorem getRef2_same (p : Ptr) (m : Mode) (data : List Word) (a b : BitVecValueIndex) (ha : a.index < 4294967296)
    (hwa : a.width < 4294967296) (hb : b.index < 4294967296) (hwb : b.width < 4294967296) (hd : data.length < p.size) :
    Alike (getRef2 p m data a b) (Indexed.getRef2 data a b) := by
  unfold getRef2 Indexed.getRef2
  have h1 := slice_range_same p m data a ha hwa hd (β := BitVecValue × BitVecValue) fun wa => do
      let rb ← toRange p m b
      let wb ← sliceR data rb.1 rb.2
      ok (⟨a.width, wa⟩, ⟨b.width, wb⟩)
  have h2 : Alike
      (sliceR data a.toRange.1 a.toRange.2 >>= fun wa => do
        let rb ← toRange p m b
        let wb ← sliceR data rb.1 rb.2
        ok ((⟨a.width, wa⟩, ⟨b.width, wb⟩) : BitVecValue × BitVecValue))
      (sliceR data a.toRange.1 a.toRange.2 >>= fun wa => do
        let wb ← sliceR data b.toRange.1 b.toRange.2
        ok ((⟨a.width, wa⟩, ⟨b.width, wb⟩) : BitVecValue × BitVecValue)) :=
    alike_bind alike_rfl fun wa _ => slice_range_same p m data b hb hwb hd _
  rcases h1 with h1 | ⟨h1, h1'⟩
  · rw [h1]; exact h2
  · rcases h2 with h2 | ⟨h2, h2'⟩
    · exact .inr ⟨h1, h2 ▸ h1'⟩
    · exact .inr ⟨h1, h2'⟩

/-- The range of `i` overflows. -/
def Overflows (p : Ptr) (i : BitVecValueIndex) : Prop := p.size ≤ i.index + i.words

/-- The source words, as the 64-bit model takes them. -/
def baseSource (beforeDst afterDst : List Word) (off : Nat) (src : Nat × Nat) : Res (List Word) :=
  if src.1 ≥ off then sliceR afterDst (src.1 - off) (src.2 - off) else sliceR beforeDst src.1 src.2

theorem splitSource_ok (p : Ptr) (m : Mode) (bd ad : List Word) (off : Nat) (src : Nat × Nat) (h : src.1 ≤ src.2) :
    splitSource p m bd ad off src = baseSource bd ad off src := by
  unfold splitSource baseSource
  by_cases hs : src.1 ≥ off
  · rw [if_pos hs, if_pos hs]
    unfold subC
    rw [if_pos hs, if_pos (by omega)]
    rfl
  · rw [if_neg hs, if_neg hs]

theorem baseSource_overflow (p : Ptr) (bd ad : List Word) (off : Nat) (i : BitVecValueIndex) (h : Overflows p i)
    (hb : bd.length < p.size) (ha : ad.length + off < p.size) : Panics (baseSource bd ad off i.toRange) := by
  unfold Overflows at h
  unfold baseSource BitVecValueIndex.toRange
  dsimp only
  split
  · exact sliceR_panics fun hh => by omega
  · exact sliceR_panics fun hh => by omega

theorem splitSource_overflow (p : Ptr) (bd ad : List Word) (off : Nat) (i : BitVecValueIndex) (h : Overflows p i)
    (hw : i.words < p.size) (ha : ad.length + off < p.size) :
    Panics (splitSource p .release bd ad off (i.index, i.index + i.words - p.size)) := by
  unfold Overflows at h
  unfold splitSource
  dsimp only
  split
  · rename_i hs
    have e1 : subC .release p.size i.index off = ok (i.index - off) := by unfold subC; rw [if_pos hs]
    rw [e1, ok_bind]
    by_cases ho : off ≤ i.index + i.words - p.size
    · have e2 : subC .release p.size (i.index + i.words - p.size) off = ok (i.index + i.words - p.size - off) := by
        unfold subC; rw [if_pos ho]
      rw [e2, ok_bind]
      exact sliceR_panics fun hh => by omega
    · have e2 : subC .release p.size (i.index + i.words - p.size) off = ok (i.index + i.words - off) := by
        unfold subC
        rw [if_neg ho]
        show ok ((p.size + (i.index + i.words - p.size) - off) % p.size) = _
        rw [Nat.mod_eq_of_lt (by omega), show p.size + (i.index + i.words - p.size) - off = i.index + i.words - off by omega]
      rw [e2, ok_bind]
      exact sliceR_panics fun hh => by omega
  · exact sliceR_panics fun hh => by omega

/-- Taking out the destination words and continuing. -/
def splitDst {β : Type} (p : Ptr) (m : Mode) (data : List Word) (dst : Nat × Nat)
    (f : List Word → List Word → List Word → Res β) : Res β := do
  let (beforeDst, afterDstStart) ← Indexed.splitAt data dst.1
  let len ← subC m p.size dst.2 dst.1
  let (dstWords, afterDst) ← Indexed.splitAt afterDstStart len
  f beforeDst dstWords afterDst

/-- The same in the 64-bit model. -/
def baseDst {β : Type} (data : List Word) (dst : Nat × Nat) (f : List Word → List Word → List Word → Res β) : Res β := do
  let (beforeDst, afterDstStart) ← Indexed.splitAt data dst.1
  let (dstWords, afterDst) ← Indexed.splitAt afterDstStart (dst.2 - dst.1)
  f beforeDst dstWords afterDst

theorem splitDst_ok {β : Type} (p : Ptr) (m : Mode) (data : List Word) (i : BitVecValueIndex)
    {f g : List Word → List Word → List Word → Res β}
    (hf : ∀ bd dw ad, bd.length ≤ data.length → ad.length + (i.index + i.words) ≤ data.length →
      Alike (f bd dw ad) (g bd dw ad)) :
    Alike (splitDst p m data i.toRange f) (baseDst data i.toRange g) := by
  unfold splitDst baseDst Indexed.splitAt BitVecValueIndex.toRange
  dsimp only
  by_cases h1 : i.index ≤ data.length
  · rw [if_pos h1, ok_bind, ok_bind]
    have e : subC m p.size (i.index + i.words) i.index = ok (i.index + i.words - i.index) := by
      unfold subC; rw [if_pos (by omega)]
    dsimp only
    rw [e, ok_bind]
    by_cases h2 : i.index + i.words - i.index ≤ (data.drop i.index).length
    · rw [if_pos h2, ok_bind, ok_bind]
      refine hf _ _ _ ?_ ?_
      · rw [List.length_take]; omega
      · rw [List.length_drop, List.length_drop] at *
        omega
    · rw [if_neg h2]
      exact .inr ⟨⟨_, rfl⟩, ⟨_, rfl⟩⟩
  · rw [if_neg h1]
    exact .inr ⟨⟨_, rfl⟩, ⟨_, rfl⟩⟩

theorem baseDst_overflow {β : Type} (p : Ptr) (data : List Word) (i : BitVecValueIndex) (h : Overflows p i)
    (hd : data.length < p.size) (f : List Word → List Word → List Word → Res β) : Panics (baseDst data i.toRange f) := by
  unfold Overflows at h
  unfold baseDst Indexed.splitAt BitVecValueIndex.toRange
  dsimp only
  by_cases h1 : i.index ≤ data.length
  · rw [if_pos h1, ok_bind]
    dsimp only
    rw [if_neg (by rw [List.length_drop]; omega)]
    exact ⟨_, rfl⟩
  · rw [if_neg h1]
    exact ⟨_, rfl⟩

theorem splitDst_overflow {β : Type} (p : Ptr) (data : List Word) (i : BitVecValueIndex) (h : Overflows p i)
    (hw : i.words < p.size) (hd : data.length < p.size) (f : List Word → List Word → List Word → Res β) :
    Panics (splitDst p .release data (i.index, i.index + i.words - p.size) f) := by
  unfold Overflows at h
  unfold splitDst Indexed.splitAt
  dsimp only
  by_cases h1 : i.index ≤ data.length
  · rw [if_pos h1, ok_bind]
    have e : subC .release p.size (i.index + i.words - p.size) i.index = ok i.words := by
      unfold subC
      rw [if_neg (by omega)]
      show ok ((p.size + (i.index + i.words - p.size) - i.index) % p.size) = _
      rw [Nat.mod_eq_of_lt (by omega), show p.size + (i.index + i.words - p.size) - i.index = i.words by omega]
    dsimp only
    rw [e, ok_bind, if_neg (by rw [List.length_drop]; omega)]
    exact ⟨_, rfl⟩
  · rw [if_neg h1]
    exact ⟨_, rfl⟩

theorem splitBorrow1_eq (p : Ptr) (m : Mode) (data : List Word) (dst src : Nat × Nat) :
    splitBorrow1 p m data dst src = splitDst p m data dst fun bd dw ad =>
      splitSource p m bd ad dst.2 src >>= fun s => ok (dw, s) := rfl

theorem baseBorrow1_eq (data : List Word) (dst src : Nat × Nat) :
    Indexed.splitBorrow1 data dst src = baseDst data dst fun bd dw ad =>
      baseSource bd ad dst.2 src >>= fun s => ok (dw, s) := rfl

theorem splitBorrow2_eq (p : Ptr) (m : Mode) (data : List Word) (dst a b : Nat × Nat) :
    splitBorrow2 p m data dst a b = splitDst p m data dst fun bd dw ad =>
      splitSource p m bd ad dst.2 a >>= fun s => splitSource p m bd ad dst.2 b >>= fun t => ok (dw, s, t) := rfl

theorem baseBorrow2_eq (data : List Word) (dst a b : Nat × Nat) :
    Indexed.splitBorrow2 data dst a b = baseDst data dst fun bd dw ad =>
      baseSource bd ad dst.2 a >>= fun s => baseSource bd ad dst.2 b >>= fun t => ok (dw, s, t) := rfl

/-- What `to_range` gives for an index with fields of type `u32`: the range, or an overflow. -/
theorem toRange_cases (p : Ptr) (m : Mode) (i : BitVecValueIndex) (hi : i.index < 4294967296) (hw : i.width < 4294967296) :
    (toRange p m i = ok i.toRange ∧ ¬ Overflows p i) ∨ (Overflows p i ∧ Panics (toRange p m i)) ∨
      (Overflows p i ∧ m = .release ∧ toRange p m i = ok (i.index, i.index + i.words - p.size) ∧ i.words < p.size) := by
  by_cases h : i.index + i.words < p.size
  · exact .inl ⟨toRange_ok p m i h, fun ho => by unfold Overflows at ho; omega⟩
  · have ho : Overflows p i := by unfold Overflows; omega
    rcases toRange_wrap p m i hi hw ho with h1 | ⟨h1, h2, h3⟩
    · exact .inr (.inl ⟨ho, h1⟩)
    · exact .inr (.inr ⟨ho, h1, h2, h3⟩)

/-- The source words on both sides, for whatever `to_range` gave. -/
theorem source_same (p : Ptr) (m : Mode) (bd ad : List Word) (off : Nat) (i : BitVecValueIndex) (r : Nat × Nat)
    (hi : i.index < 4294967296) (hw : i.width < 4294967296) (hr : toRange p m i = ok r) (hb : bd.length < p.size)
    (ha : ad.length + off < p.size) : Alike (splitSource p m bd ad off r) (baseSource bd ad off i.toRange) := by
  have hs := p.size_ge
  rcases toRange_cases p m i hi hw with ⟨h, _⟩ | ⟨_, h⟩ | ⟨ho, rfl, h, hww⟩
  · rw [h] at hr
    cases hr
    exact .inl (splitSource_ok p m bd ad off _ (Nat.le_add_right _ _))
  · exact (not_panics h hr).elim
  · rw [h] at hr
    cases hr
    exact .inr ⟨splitSource_overflow p bd ad off i ho hww ha, baseSource_overflow p bd ad off i ho hb ha⟩

theorem panics_bind_ok {α β : Type} (x : Res α) {f : α → Res β} (h : ∀ y, x = ok y → Panics (f y)) : Panics (x >>= f) := by
  cases x with
  | ok y => exact h y rfl
  | panic q => exact ⟨q, rfl⟩

theorem baseDst_panics {β : Type} (data : List Word) (i : BitVecValueIndex) {f : List Word → List Word → List Word → Res β}
    (h : ∀ bd dw ad, bd.length ≤ data.length → ad.length + (i.index + i.words) ≤ data.length → Panics (f bd dw ad)) :
    Panics (baseDst data i.toRange f) := by
  rcases splitDst_ok .p64 .debug data i (f := fun _ _ _ => (panic .assert : Res β)) (g := f)
    (fun bd dw ad h1 h2 => .inr ⟨⟨_, rfl⟩, h bd dw ad h1 h2⟩) with h1 | h1
  · rw [← h1]
    unfold splitDst
    exact panics_bind_ok _ fun _ _ => panics_bind_ok _ fun _ _ => panics_bind_ok _ fun _ _ => ⟨_, rfl⟩
  · exact h1.2

theorem baseBorrow1_overflow (p : Ptr) (data : List Word) (a b : BitVecValueIndex) (hd : data.length < p.size)
    (h : Overflows p a ∨ Overflows p b) : Panics (Indexed.splitBorrow1 data a.toRange b.toRange) := by
  rw [baseBorrow1_eq]
  rcases h with h | h
  · exact baseDst_overflow p data a h hd _
  · exact baseDst_panics data a fun bd dw ad h1 h2 =>
      panics_bind (baseSource_overflow p bd ad _ b h (by omega) (by change _ + (a.index + a.words) < _; omega)) _

theorem baseBorrow2_overflow (p : Ptr) (data : List Word) (a b c : BitVecValueIndex) (hd : data.length < p.size)
    (h : Overflows p a ∨ Overflows p b ∨ Overflows p c) :
    Panics (Indexed.splitBorrow2 data a.toRange b.toRange c.toRange) := by
  rw [baseBorrow2_eq]
  rcases h with h | h | h
  · exact baseDst_overflow p data a h hd _
  · exact baseDst_panics data a fun bd dw ad h1 h2 =>
      panics_bind (baseSource_overflow p bd ad _ b h (by omega) (by change _ + (a.index + a.words) < _; omega)) _
  · exact baseDst_panics data a fun bd dw ad h1 h2 => panics_bind_ok _ fun _ _ =>
      panics_bind (baseSource_overflow p bd ad _ c h (by omega) (by change _ + (a.index + a.words) < _; omega)) _

theorem toRange_panics (p : Ptr) (m : Mode) (i : BitVecValueIndex) (hi : i.index < 4294967296) (hw : i.width < 4294967296)
    (h : Panics (toRange p m i)) : Overflows p i := by
  rcases toRange_cases p m i hi hw with ⟨h1, _⟩ | ⟨h1, _⟩ | ⟨h1, _⟩
  · exact (not_panics h h1).elim
  · exact h1
  · exact h1

theorem getMutRef2_same (p : Ptr) (m : Mode) (data : List Word) (a b : BitVecValueIndex) (ha : a.index < 4294967296)
    (hwa : a.width < 4294967296) (hb : b.index < 4294967296) (hwb : b.width < 4294967296) (hd : data.length < p.size) :
    Alike (getMutRef2 p m data a b) (Indexed.getMutRef2 data a b) := by
  have hs := p.size_ge
  unfold getMutRef2 Indexed.getMutRef2
  cases ea : toRange p m a with
  | panic q =>
    exact .inr ⟨⟨q, rfl⟩, panics_bind (baseBorrow1_overflow p data a b hd (.inl (toRange_panics p m a ha hwa ⟨q, ea⟩))) _⟩
  | ok ra =>
    cases eb : toRange p m b with
    | panic q =>
      exact .inr ⟨⟨q, rfl⟩, panics_bind (baseBorrow1_overflow p data a b hd (.inr (toRange_panics p m b hb hwb ⟨q, eb⟩))) _⟩
    | ok rb =>
      rw [ok_bind, ok_bind]
      refine alike_bind ?_ fun _ _ => alike_rfl
      rcases toRange_cases p m a ha hwa with ⟨h, _⟩ | ⟨_, h⟩ | ⟨ho, rfl, h, hww⟩
      · rw [h] at ea
        cases ea
        rw [splitBorrow1_eq, baseBorrow1_eq]
        exact splitDst_ok p m data a fun bd dw ad h1 h2 =>
          alike_bind (source_same p m bd ad _ b rb hb hwb eb (by omega)
            (by change _ + (a.index + a.words) < _; omega)) fun _ _ => alike_rfl
      · exact (not_panics h ea).elim
      · rw [h] at ea
        cases ea
        rw [splitBorrow1_eq]
        exact .inr ⟨splitDst_overflow p data a ho hww hd _, baseBorrow1_overflow p data a b hd (.inl ho)⟩

theorem getMutRef3_same (p : Ptr) (m : Mode) (data : List Word) (a b c : BitVecValueIndex) (ha : a.index < 4294967296)
    (hwa : a.width < 4294967296) (hb : b.index < 4294967296) (hwb : b.width < 4294967296) (hc : c.index < 4294967296)
    (hwc : c.width < 4294967296) (hd : data.length < p.size) :
    Alike (getMutRef3 p m data a b c) (Indexed.getMutRef3 data a b c) := by
  have hs := p.size_ge
  unfold getMutRef3 Indexed.getMutRef3
  cases ea : toRange p m a with
  | panic q =>
    exact .inr ⟨⟨q, rfl⟩, panics_bind (baseBorrow2_overflow p data a b c hd (.inl (toRange_panics p m a ha hwa ⟨q, ea⟩))) _⟩
  | ok ra =>
    cases eb : toRange p m b with
    | panic q =>
      exact .inr ⟨⟨q, rfl⟩,
        panics_bind (baseBorrow2_overflow p data a b c hd (.inr (.inl (toRange_panics p m b hb hwb ⟨q, eb⟩)))) _⟩
    | ok rb =>
      cases ec : toRange p m c with
      | panic q =>
        exact .inr ⟨⟨q, rfl⟩,
          panics_bind (baseBorrow2_overflow p data a b c hd (.inr (.inr (toRange_panics p m c hc hwc ⟨q, ec⟩)))) _⟩
      | ok rc =>
        rw [ok_bind, ok_bind, ok_bind]
        refine alike_bind ?_ fun _ _ => alike_rfl
        rcases toRange_cases p m a ha hwa with ⟨h, _⟩ | ⟨_, h⟩ | ⟨ho, rfl, h, hww⟩
        · rw [h] at ea
          cases ea
          rw [splitBorrow2_eq, baseBorrow2_eq]
          exact splitDst_ok p m data a fun bd dw ad h1 h2 =>
            alike_bind (source_same p m bd ad _ b rb hb hwb eb (by omega)
              (by change _ + (a.index + a.words) < _; omega)) fun _ _ =>
            alike_bind (source_same p m bd ad _ c rc hc hwc ec (by omega)
              (by change _ + (a.index + a.words) < _; omega)) fun _ _ => alike_rfl
        · exact (not_panics h ea).elim
        · rw [h] at ea
          cases ea
          rw [splitBorrow2_eq]
          exact .inr ⟨splitDst_overflow p data a ho hww hd _, baseBorrow2_overflow p data a b c hd (.inl ho)⟩

/-! ## Dense arrays -/

theorem numElements_eq (p : Ptr) (m : Mode) {iw : Nat} (h : iw < 32) :
    numElements p m iw = ok (2 ^ iw) ∧ Baa.numElements m iw = ok (2 ^ iw) := by
  have hb := p.bits_ge
  constructor
  · unfold numElements
    rw [if_pos (by omega)]
  · unfold Baa.numElements shiftAmount64
    rw [if_pos (by omega)]
    rfl

theorem pow_lt_u32 {iw : Nat} (h : iw < 32) : 2 ^ iw ≤ 2147483648 := by
  have : 2 ^ iw ≤ 2 ^ 31 := Nat.pow_le_pow_right (by decide) (by omega)
  exact this

/-- A product that overflows 32 bits is above the size limit of dense arrays anyway. -/
theorem mul_guard_same (p : Ptr) (m : Mode) (a b : Nat) (hb : a * b < U64) {β : Type} (f : Res β) :
    Alike
      (mulC m p.size a b >>= fun s => debugAssert m (decide (s ≤ DenseArrayValue.maxBytes)) >>= fun _ => f)
      (mulC m U64 a b >>= fun s => debugAssert m (decide (s ≤ DenseArrayValue.maxBytes)) >>= fun _ => f) := by
  have hs := p.size_ge
  have e2 : mulC m U64 a b = ok (a * b) := by unfold mulC; rw [if_pos hb]
  rw [e2]
  by_cases h : a * b < p.size
  · have e1 : mulC m p.size a b = ok (a * b) := by unfold mulC; rw [if_pos h]
    rw [e1]
    exact alike_rfl
  · unfold mulC
    rw [if_neg h]
    cases m with
    | release => exact .inl rfl
    | debug =>
      refine .inr ⟨⟨_, rfl⟩, ?_⟩
      rw [ok_bind]
      refine ⟨.debugAssert, ?_⟩
      have : ¬ a * b ≤ DenseArrayValue.maxBytes := by
        change ¬ a * b ≤ 1024 * 1024 * 1024
        omega
      rw [decide_eq_false this]
      rfl

theorem newDense_same (p : Ptr) (m : Mode) {iw : Nat} (d : BitVecValue) (h : iw < 32) (hd : d.width < 4294967296)
    (hw : d.words.length = divCeil d.width 64) :
    Alike (newDense p m iw d) (DenseArrayValue.new m iw d) := by
  have hs := p.size_ge
  have hp := pow_lt_u32 h
  have hb : divCeil d.width 64 ≤ 67108864 := by unfold divCeil; omega
  have hprod : ∀ k, k ≤ 67108864 → 2 ^ iw * k < U64 := by
    intro k hk
    have := Nat.mul_le_mul hp hk
    change _ < 18446744073709551616
    omega
  unfold newDense DenseArrayValue.new approxStorageSize DenseArrayValue.approxStorageSize
  dsimp only
  rw [(numElements_eq p m h).1, (numElements_eq p m h).2]
  simp only [ok_bind]
  by_cases h1 : d.width = 1
  · simp only [if_pos h1]
    exact alike_rfl
  · simp only [if_neg h1]
    by_cases h2 : d.width ≤ 8
    · simp only [if_pos h2]
      exact alike_rfl
    · simp only [if_neg h2]
      by_cases h3 : d.width ≤ 64
      · simp only [if_pos h3]
        exact mul_guard_same p m _ _ (hprod _ (by decide)) _
      · simp only [if_neg h3]
        rw [hw]
        generalize divCeil d.width 64 = k at *
        have e2 : mulC m U64 (2 ^ iw) k = ok (2 ^ iw * k) := by unfold mulC; rw [if_pos (hprod k hb)]
        by_cases hlt : 2 ^ iw * k < p.size
        · have e1 : mulC m p.size (2 ^ iw) k = ok (2 ^ iw * k) := by unfold mulC; rw [if_pos hlt]
          rw [e1, e2]
          exact alike_rfl
        · cases m with
          | release =>
            have e1 : mulC .release p.size (2 ^ iw) k = ok ((2 ^ iw * k) % p.size) := by unfold mulC; rw [if_neg hlt]
            rw [e1, e2]
            exact .inl rfl
          | debug =>
            have e1 : mulC .debug p.size (2 ^ iw) k = panic .overflow := by unfold mulC; rw [if_neg hlt]
            rw [e1, e2, ok_bind]
            have : ¬ 2 ^ iw * k ≤ DenseArrayValue.maxBytes := by
              change ¬ 2 ^ iw * k ≤ 1024 * 1024 * 1024
              omega
            rw [decide_eq_false this]
            exact .inr ⟨⟨_, rfl⟩, ⟨_, rfl⟩⟩

theorem log2_lt {n k : Nat} (h0 : n ≠ 0) (h : n < 2 ^ k) : Nat.log2 n < k := (Nat.log2_lt h0).2 h

theorem indexWidthFromLen_eq (p : Ptr) {len : Nat} (h : len ≤ 2147483648) :
    indexWidthFromLen p len = DenseArrayValue.indexWidthFromLen len ∧ DenseArrayValue.indexWidthFromLen len < 32 := by
  have hb := p.bits_ge
  unfold indexWidthFromLen DenseArrayValue.indexWidthFromLen leadingZeros
  by_cases h0 : len = 0
  · rw [if_pos h0, if_pos h0]
    exact ⟨rfl, by decide⟩
  · rw [if_neg h0, if_neg h0]
    by_cases h1 : len - 1 = 0
    · rw [if_pos h1, if_pos h1]
      exact ⟨Nat.sub_self _, by decide⟩
    · rw [if_neg h1, if_neg h1]
      have := log2_lt h1 (show len - 1 < 2 ^ 31 by change _ < 2147483648; omega)
      omega

theorem ofBools_eq (p : Ptr) (m : Mode) (vs : List Bool) (h : vs.length ≤ 2147483648) :
    ofBools p m vs = DenseArrayValue.ofBools m vs := by
  obtain ⟨h1, h2⟩ := indexWidthFromLen_eq p h
  unfold ofBools DenseArrayValue.ofBools
  dsimp only
  rw [h1, (numElements_eq p m h2).1, (numElements_eq p m h2).2]

theorem ofU8s_eq (p : Ptr) (m : Mode) (vs : List Byte) (h : vs.length ≤ 2147483648) :
    ofU8s p m vs = DenseArrayValue.ofU8s m vs := by
  obtain ⟨h1, h2⟩ := indexWidthFromLen_eq p h
  unfold ofU8s DenseArrayValue.ofU8s
  dsimp only
  rw [h1, (numElements_eq p m h2).1, (numElements_eq p m h2).2]

theorem ofU64s_eq (p : Ptr) (m : Mode) (vs : List Word) (h : vs.length ≤ 2147483648) :
    ofU64s p m vs = DenseArrayValue.ofU64s m vs := by
  obtain ⟨h1, h2⟩ := indexWidthFromLen_eq p h
  unfold ofU64s DenseArrayValue.ofU64s
  dsimp only
  rw [h1, (numElements_eq p m h2).1, (numElements_eq p m h2).2]

end Target

namespace Target

theorem asUsize_eq (p : Ptr) {n : Nat} (h : n < 4294967296) : asUsize p n = n := by
  have hs := p.size_ge
  exact Nat.mod_eq_of_lt (by omega)

/-- The two products and sums with which an element of a wide array is located. -/
theorem element_bounds {iw dw i : Nat} (h : Fits32 iw dw) (hi : i < 2 ^ iw) :
    divCeil dw BITS * i + divCeil dw BITS < 4294967296 := by
  have h2 := h.2
  have e : divCeil dw BITS = (dw + 63) / 64 := rfl
  rw [e]
  generalize (dw + 63) / 64 = k at *
  have : k * i + k ≤ k * 2 ^ iw := by rw [← Nat.mul_succ]; exact Nat.mul_le_mul_left _ hi
  rw [Nat.mul_comm] at h2
  omega

theorem element_ok (p : Ptr) (m : Mode) {iw dw i : Nat} (h : Fits32 iw dw) (hi : i < 2 ^ iw) :
    mulC m p.size (divCeil dw BITS) i = mulC m U64 (divCeil dw BITS) i ∧
      ∀ s, mulC m U64 (divCeil dw BITS) i = ok s → addC m p.size s (divCeil dw BITS) = addC m U64 s (divCeil dw BITS) := by
  have hs := p.size_ge
  have hb := element_bounds h hi
  generalize divCeil dw BITS = k at *
  have e1 : ∀ M, 4294967296 ≤ M → mulC m M k i = ok (k * i) := fun M hM => by unfold mulC; rw [if_pos (by omega)]
  have e2 : ∀ M, 4294967296 ≤ M → addC m M (k * i) k = ok (k * i + k) := fun M hM => by unfold addC; rw [if_pos (by omega)]
  refine ⟨by rw [e1 _ hs, e1 _ (by decide)], fun s h => ?_⟩
  rw [e1 _ (by decide)] at h
  cases h
  rw [e2 _ hs, e2 _ (by decide)]

theorem selectUsize_eq (p : Ptr) (m : Mode) (a : DenseArrayValue) {i : Nat} (h : Fits32 a.indexWidth a.dataWidth)
    (hi : i < 2 ^ a.indexWidth) : selectUsize p m a i = a.selectUsize m i := by
  unfold selectUsize DenseArrayValue.selectUsize
  cases a.data with
  | bit _ => rfl
  | u8 _ => rfl
  | u64 _ => rfl
  | big _ =>
    dsimp only
    obtain ⟨h1, h2⟩ := element_ok p m h hi
    unfold DenseArrayValue.wordsPerElement
    rw [h1]
    cases hm : mulC m U64 (divCeil a.dataWidth BITS) i with
    | panic q => rw [panic_bind, panic_bind]
    | ok s =>
      rw [ok_bind, ok_bind, h2 s hm]

theorem selectDense_eq (p : Ptr) (m : Mode) (a : DenseArrayValue) (index : BitVecValue) (h : Fits32 a.indexWidth a.dataWidth)
    (hi : ∀ i, index.toU64 = some i → i.toNat < 2 ^ a.indexWidth) : selectDense p m a index = a.select m index := by
  have hp := pow_lt_u32 h.1
  unfold selectDense DenseArrayValue.select
  cases debugAssert m (index.width == a.indexWidth) with
  | panic q => rw [panic_bind, panic_bind]
  | ok _ =>
    rw [ok_bind, ok_bind]
    cases hu : index.toU64 with
    | none => rfl
    | some i =>
      have := hi i hu
      show selectUsize p m a (asUsize p i.toNat) = a.selectUsize m i.toNat
      rw [asUsize_eq p (by omega), selectUsize_eq p m a h this]

theorem storeDense_eq (p : Ptr) (m : Mode) (a : DenseArrayValue) (index data : BitVecValue)
    (h : Fits32 a.indexWidth a.dataWidth) (hi : ∀ i, index.toU64 = some i → i.toNat < 2 ^ a.indexWidth) :
    storeDense p m a index data = a.store m index data := by
  have hp := pow_lt_u32 h.1
  unfold storeDense DenseArrayValue.store
  cases debugAssert m (index.width == a.indexWidth) with
  | panic q => rw [panic_bind, panic_bind]
  | ok _ =>
    rw [ok_bind, ok_bind]
    cases hu : index.toU64 with
    | none => rfl
    | some i =>
      have hlt := hi i hu
      unfold unwrap
      dsimp only
      rw [ok_bind, ok_bind, asUsize_eq p (show i.toNat < 4294967296 by omega)]
      cases debugAssert m (data.width == a.dataWidth) with
      | panic q => rw [panic_bind, panic_bind]
      | ok _ =>
        rw [ok_bind, ok_bind]
        cases a.data with
        | bit _ => rfl
        | u8 _ => rfl
        | u64 _ => rfl
        | big _ =>
          dsimp only
          obtain ⟨h1, h2⟩ := element_ok p m h hlt
          unfold DenseArrayValue.wordsPerElement
          rw [h1]
          cases hm : mulC m U64 (divCeil a.dataWidth BITS) i.toNat with
          | panic q => rw [panic_bind, panic_bind]
          | ok s =>
            rw [ok_bind, ok_bind, h2 s hm]

theorem putU64_eq (p : Ptr) (m : Mode) (d : DenseArrayValue) (i v : Word) (hi : i.toNat < 4294967296) :
    putU64 p m d i v = d.putU64 m i v := by
  unfold putU64 DenseArrayValue.putU64
  rw [asUsize_eq p hi]
  cases d.data <;> rfl

theorem putAllU64_eq (p : Ptr) (m : Mode) (es : List (Word × Word)) (hes : ∀ e ∈ es, e.1.toNat < 4294967296) :
    ∀ d, putAllU64 p m d es = DenseArrayValue.putAllU64 m d es := by
  induction es with
  | nil => exact fun d => rfl
  | cons e es ih =>
    intro d
    rw [putAllU64, DenseArrayValue.putAllU64]
    rw [putU64_eq p m d _ _ (hes e (by simp))]
    cases d.putU64 m e.1 e.2 with
    | panic q => rw [panic_bind, panic_bind]
    | ok d =>
      rw [ok_bind, ok_bind]
      exact ih (fun e he => hes e (by simp [he])) d

theorem store_widths {m : Mode} {a b : DenseArrayValue} {index data : BitVecValue} (h : a.store m index data = ok b) :
    b.indexWidth = a.indexWidth ∧ b.dataWidth = a.dataWidth := by
  unfold DenseArrayValue.store at h
  obtain ⟨_, _, h⟩ := of_bind_ok h
  obtain ⟨_, _, h⟩ := of_bind_ok h
  obtain ⟨_, _, h⟩ := of_bind_ok h
  split at h
  · obtain ⟨_, _, h⟩ := of_bind_ok h
    obtain ⟨_, _, h⟩ := of_bind_ok h
    cases h; exact ⟨rfl, rfl⟩
  · obtain ⟨_, _, h⟩ := of_bind_ok h
    obtain ⟨_, _, h⟩ := of_bind_ok h
    cases h; exact ⟨rfl, rfl⟩
  · obtain ⟨_, _, h⟩ := of_bind_ok h
    obtain ⟨_, _, h⟩ := of_bind_ok h
    cases h; exact ⟨rfl, rfl⟩
  · obtain ⟨_, _, h⟩ := of_bind_ok h
    obtain ⟨_, _, h⟩ := of_bind_ok h
    obtain ⟨_, _, h⟩ := of_bind_ok h
    cases h; exact ⟨rfl, rfl⟩

theorem putAllBig_eq (p : Ptr) (m : Mode) {iw dw : Nat} (hf : Fits32 iw dw) (hdw : 64 < dw) (es : List (Word × BitVecValue))
    (hes : ∀ e ∈ es, e.1.toNat < 2 ^ iw) :
    ∀ (d : DenseArrayValue) (bv : BitVecValue), d.indexWidth = iw → d.dataWidth = dw → Slot bv dw →
      putAllBig p m d bv es = DenseArrayValue.putAllBig m d bv es := by
  induction es with
  | nil => exact fun _ _ _ _ _ => rfl
  | cons e es ih =>
    intro d bv h1 h2 hs
    rw [putAllBig, DenseArrayValue.putAllBig]
    have hlt := hes e (by simp)
    have hle : e.1.toNat < 2 ^ dw := Nat.lt_of_lt_of_le e.1.isLt (Nat.pow_le_pow_right (by decide) (by omega))
    obtain ⟨r, hr1, hr2⟩ := C26_assign_from_u64 m (by omega) hs e.1 hle
    rw [hr1, ok_bind, ok_bind, storeDense_eq p m d r e.2 (by rw [h1, h2]; exact hf) (fun i hi => ?_)]
    · cases hst : d.store m r e.2 with
      | panic q => rw [panic_bind, panic_bind]
      | ok d' =>
        obtain ⟨h3, h4⟩ := store_widths hst
        rw [ok_bind, ok_bind]
        exact ih (fun e he => hes e (by simp [he])) d' r (by rw [h3, h1]) (by rw [h4, h2]) hr2.slot
    · rw [C03_to_u64 hr2, BitVec.toNat_ofNat, Nat.mod_eq_of_lt hle, if_pos e.1.isLt] at hi
      cases hi
      rw [h1, BitVec.toNat_ofNat, Nat.mod_eq_of_lt e.1.isLt]
      exact hlt

/-- Keys of a sparse array of index width `iw` are below `2^iw`. -/
theorem key_lt {iw : Nat} (h : iw ≤ 64) (i : BitVec iw) : (i.setWidth 64).toNat < 2 ^ iw := by
  rw [setWidth64_toNat h]
  exact i.isLt

theorem new_widths {m : Mode} {iw : Nat} {d : BitVecValue} {a : DenseArrayValue} (h : DenseArrayValue.new m iw d = ok a) :
    a.indexWidth = iw ∧ a.dataWidth = d.width := by
  unfold DenseArrayValue.new at h
  obtain ⟨_, _, h⟩ := of_bind_ok h
  obtain ⟨_, _, h⟩ := of_bind_ok h
  obtain ⟨_, _, h⟩ := of_bind_ok h
  obtain ⟨_, _, h⟩ := of_bind_ok h
  cases h
  exact ⟨rfl, rfl⟩

theorem ofSparse_same (p : Ptr) (m : Mode) (env : HashEnv) {iw dw : Nat} {s : SparseArrayValue} {f : BitVec iw → BitVec dw}
    {x : BitVec dw} (hs : SparseInv s f x) (hf : Fits32 iw dw) :
    Alike (ofSparse p m env s) (DenseArrayValue.ofSparse m env s) := by
  have hp := pow_lt_u32 hf.1
  have h32 := hf.1
  unfold ofSparse DenseArrayValue.ofSparse
  by_cases h0 : 0 < dw
  · rw [SparseInv.default_of m hs h0, ok_bind, ok_bind]
    rw [hs.indexWidth]
    refine alike_bind (newDense_same p m (encode x) hf.1 hs.data_lt (encode_denotes x hs.data_lt).slot.length_eq)
      fun a ha => ?_
    refine alike_bind alike_rfl fun _ _ => ?_
    refine alike_bind alike_rfl fun _ _ => ?_
    have hr := hs.rep
    unfold SparseRep at hr
    rcases alike_bind (newDense_same p m (encode x) hf.1 hs.data_lt
      (encode_denotes x hs.data_lt).slot.length_eq) (fun a _ => alike_rfl (x := ok a)) with hn | hn
    · have ha' : DenseArrayValue.new m iw (encode x) = ok a := by
        rw [ha] at hn
        rcases hn' : DenseArrayValue.new m iw (encode x) with b | q
        · rw [hn'] at hn; exact hn.symm
        · rw [hn'] at hn; cases hn
      obtain ⟨w1, w2⟩ := new_widths ha'
      revert hr
      cases s.data with
      | u64u64 d map =>
        intro hr
        dsimp only
        rw [putAllU64_eq p m _ (fun e he => ?_)]
        · exact alike_rfl
        · obtain ⟨i, hi⟩ := hr.2.2.2.keys e ((env.order_perm _).mem_iff.1 he)
          rw [hi]
          have := key_lt hr.1 i
          omega
      | u64big d map =>
        intro hr
        dsimp only
        rw [hs.dataWidth, putAllBig_eq p m hf hr.2.1 _ (fun e he => ?_) a _ w1 w2 (zero_slot hs.data_lt)]
        · exact alike_rfl
        · obtain ⟨i, hi⟩ := hr.2.2.2.keys e ((env.order_perm _).mem_iff.1 he)
          rw [hi]
          exact key_lt hr.1 i
      | bigbig d map => exact fun _ => alike_rfl
    · rw [ha] at hn
      obtain ⟨⟨q, hq⟩, _⟩ := hn
      cases hq
  · have hdw : dw = 0 := by omega
    subst hdw
    have hr := hs.rep
    unfold SparseRep at hr
    revert hr
    unfold SparseArrayValue.default
    cases s.data with
    | u64u64 d map =>
      intro _
      dsimp only
      rw [hs.dataWidth]
      obtain ⟨q, hq⟩ := fromU64_zero_panics m d
      rw [hq]
      exact .inl rfl
    | u64big d map => exact fun hr => absurd hr.2.1 (by omega)
    | bigbig d map => exact fun hr => absurd hr.1 (by omega)

theorem selectAll_eq (p : Ptr) (m : Mode) (a : DenseArrayValue) (h : Fits32 a.indexWidth a.dataWidth) :
    ∀ n i, i + n ≤ 2 ^ a.indexWidth → selectAll p m a i n = DenseArrayValue.selectAll m a i n := by
  intro n
  induction n with
  | zero => exact fun _ _ => rfl
  | succ n ih =>
    intro i hi
    show (selectUsize p m a i >>= fun v => selectAll p m a (i + 1) n >>= fun vs => ok (v :: vs)) =
      (a.selectUsize m i >>= fun v => DenseArrayValue.selectAll m a (i + 1) n >>= fun vs => ok (v :: vs))
    rw [selectUsize_eq p m a h (by omega), ih (i + 1) (by omega)]

theorem toSparse_eq (p : Ptr) (m : Mode) (env : HashEnv) (d : DenseArrayValue) (h : Fits32 d.indexWidth d.dataWidth) :
    toSparse p m env d = d.toSparse m env := by
  unfold toSparse DenseArrayValue.toSparse
  rw [(numElements_eq p m h.1).1, (numElements_eq p m h.1).2]
  cases d.data with
  | bit _ => rfl
  | u8 _ => rfl
  | u64 _ => rfl
  | big _ =>
    dsimp only
    rw [ok_bind, ok_bind, selectAll_eq p m d h _ _ (by omega)]

theorem select_eq (p : Ptr) (m : Mode) (env : HashEnv) {iw dw : Nat} {a : ArrayValue} (hw : a.indexWidth = iw)
    (hdw : a.dataWidth = dw) (h : Fits32 iw dw) {v : BitVecValue} {i : BitVec iw} (hv : Denotes v i) :
    select p m env a v = a.select m env v := by
  cases a with
  | sparse s => rfl
  | dense d =>
    change d.indexWidth = iw at hw
    change d.dataWidth = dw at hdw
    have h32 := h.1
    refine selectDense_eq p m d v (by rw [hw, hdw]; exact h) fun j hj => ?_
    rw [hv.eq_encode, toU64_encode (by omega)] at hj
    cases hj
    rw [hw]
    exact key_lt (by omega) i

theorem store_eq (p : Ptr) (m : Mode) (env : HashEnv) {iw dw : Nat} {a : ArrayValue} (hw : a.indexWidth = iw)
    (hdw : a.dataWidth = dw) (h : Fits32 iw dw) {v : BitVecValue} {i : BitVec iw} (hv : Denotes v i) (e : BitVecValue) :
    store p m env a v e = a.store m env v e := by
  cases a with
  | sparse s => rfl
  | dense d =>
    change d.indexWidth = iw at hw
    change d.dataWidth = dw at hdw
    have h32 := h.1
    have := storeDense_eq p m d v e (by rw [hw, hdw]; exact h) fun j hj => by
      rw [hv.eq_encode, toU64_encode (by omega)] at hj
      cases hj
      rw [hw]
      exact key_lt (by omega) i
    show (storeDense p m d v e >>= fun v => ok (ArrayValue.dense v)) = (d.store m v e >>= fun v => ok (ArrayValue.dense v))
    rw [this]

end Target

theorem Reachable.widths {m : Mode} {iw dw : Nat} {a : ArrayValue} {f : BitVec iw → BitVec dw} (h : Reachable m a f)
    (hi : iw < 2 ^ 32) (hd : dw < 2 ^ 32) : a.indexWidth = iw ∧ a.dataWidth = dw := by
  rcases h.inv hi hd with ⟨d, rfl, h | ⟨_, ⟨rfl, rfl⟩ | ⟨rfl, _, rfl, _⟩⟩⟩ | ⟨s, x, rfl, hs⟩
  · exact ⟨h.indexWidth, h.dataWidth⟩
  · exact ⟨rfl, rfl⟩
  · exact ⟨rfl, rfl⟩
  · exact ⟨hs.indexWidth, hs.dataWidth⟩

theorem Fits32.addressable {iw dw : Nat} (h : Fits32 iw dw) : Addressable iw dw := by
  have h1 := h.1
  have h2 := h.2
  have hp := Target.pow_lt_u32 h1
  refine ⟨by omega, ?_⟩
  change _ < 9223372036854775808
  unfold storageBytes
  split
  · omega
  · split
    · omega
    · rw [← Nat.mul_assoc, Nat.mul_comm _ 8, Nat.mul_assoc]
      omega

/-! ## C109 -/

/-- Sign extension, concatenation and assignment from an `i64` do not depend on the size of `usize`, for any operands. -/
theorem C109_bit_vectors (p : Ptr) (m : Mode) (v w : BitVecValue) (n : Nat) (x : Word) :
    Target.signExtend p m v n = v.signExtend m n ∧ Target.concat p m v w = v.concat m w ∧
      Target.assignFromI64 p m v x = v.assignFromI64 m x := by
  have hz : ∀ n, n < 4294967296 → (valueVecZeros n).length < 4294967296 := fun n h => by
    rw [length_valueVecZeros]; omega
  refine ⟨?_, ?_, ?_⟩
  · unfold Target.signExtend BitVecValue.signExtend
    simp only [Target.signExtendWords_eq]
  · unfold Target.concat BitVecValue.concat
    cases h : addC m U32 v.width w.width with
    | panic q => simp only [ok_bind, panic_bind]
    | ok n =>
      have hn : n < 4294967296 := by
        unfold addC at h
        split at h
        · cases h; assumption
        · cases m with
          | debug => cases h
          | release => cases h; exact Nat.mod_lt _ (by decide)
      rw [ok_bind, ok_bind]
      dsimp only
      rw [Target.concatWords_eq p m _ _ _ _ (hz n hn)]
      split
      · unfold modifyRange
        cases hs : sliceR (valueVecZeros n) 0 1 with
        | panic q => simp only [ok_bind, panic_bind]
        | ok o =>
          have ho : o.length < 4294967296 := by
            unfold sliceR at hs
            split at hs
            · cases hs
              rw [List.length_take]
              omega
            · cases hs
          rw [ok_bind, ok_bind]
          cases sliceR v.words 0 1 with
          | panic q => simp only [panic_bind]
          | ok a =>
            cases sliceR w.words 0 1 with
            | panic q => simp only [ok_bind, panic_bind]
            | ok b =>
              simp only [ok_bind, Target.concatWords_eq p m o _ _ _ ho]
      · rfl
  · unfold Target.assignFromI64 BitVecValue.assignFromI64
    simp only [Target.signExtendWords_eq]

/-- Signed texts do not depend on it either, except for the largest width, where the capacity of the string overflows. -/
theorem C109_signed_text (p : Ptr) (m : Mode) (v : BitVecValue) (h : v.width + 1 < 2 ^ 32) :
    Target.toBitStrSigned p m v = v.toBitStrSigned m ∧ Target.toHexStrSigned p m v = v.toHexStrSigned m := by
  have hs := p.size_ge
  have e : addC m p.size v.width 1 = ok (v.width + 1) := by
    unfold addC; rw [if_pos (by omega)]
  constructor
  · unfold Target.toBitStrSigned BitVecValue.toBitStrSigned Strings.toBitStrSigned
    rw [e]
    rfl
  · unfold Target.toHexStrSigned BitVecValue.toHexStrSigned Strings.toHexStrSigned
    rw [e]
    rfl

/-- Parsing does not depend on it: any text, any destination, as long as the text has fewer than `2^32` bytes and the
destination fewer than `2^32` words. -/
theorem C109_parse (p : Ptr) (m : Mode) (v : BitVecValue) (text : List Byte) (radix width : Nat)
    (ht : text.length < 2 ^ 32) (hv : v.words.length < 2 ^ 32) (hw : width < 2 ^ 32) :
    Alike (Target.assignFromStrRadix p m v text radix) (v.assignFromStrRadix m text radix) ∧
      Alike (Target.fromStrRadix p m text radix width) (BitVecValue.fromStrRadix m text radix width) := by
  have h1 : ∀ v : BitVecValue, v.words.length < 4294967296 →
      Alike (Target.assignFromStrRadix p m v text radix) (v.assignFromStrRadix m text radix) := fun v hv =>
    alike_bind (Target.fromStrRadixWords_same p m text radix v.words v.width ht hv) fun _ _ => alike_rfl
  refine ⟨h1 v hv, alike_bind (h1 _ ?_) fun _ _ => alike_rfl⟩
  show (valueVecZeros width).length < 4294967296
  rw [length_valueVecZeros]
  change width < 4294967296 at hw
  omega

/-- Taking references into a buffer does not depend on it: any indices, any buffer that exists on the target. -/
theorem C109_views (p : Ptr) (m : Mode) (data : List Word) (a b c : BitVecValueIndex) (ha : a.Valid32) (hb : b.Valid32)
    (hc : c.Valid32) (hd : data.length < p.size) :
    Alike (Target.getRef p m data a) (Indexed.getRef data a) ∧
      Alike (Target.getRef p m data a) (Indexed.getMutRef data a) ∧
      Alike (Target.getRef2 p m data a b) (Indexed.getRef2 data a b) ∧
      Alike (Target.getMutRef2 p m data a b) (Indexed.getMutRef2 data a b) ∧
      Alike (Target.getMutRef3 p m data a b c) (Indexed.getMutRef3 data a b c) :=
  ⟨Target.getRef_same p m data a ha.1 ha.2 hd, Target.getRef_same p m data a ha.1 ha.2 hd,
    Target.getRef2_same p m data a b ha.1 ha.2 hb.1 hb.2 hd, Target.getMutRef2_same p m data a b ha.1 ha.2 hb.1 hb.2 hd,
    Target.getMutRef3_same p m data a b c ha.1 ha.2 hb.1 hb.2 hc.1 hc.2 hd⟩

/-- Dense arrays made from slices of at most `2^31` elements. -/
theorem C109_from_slices (p : Ptr) (m : Mode) (bs : List Bool) (us : List Byte) (ws : List Word) (hb : bs.length ≤ 2 ^ 31)
    (hu : us.length ≤ 2 ^ 31) (hw : ws.length ≤ 2 ^ 31) :
    Target.ofBools p m bs = DenseArrayValue.ofBools m bs ∧ Target.ofU8s p m us = DenseArrayValue.ofU8s m us ∧
      Target.ofU64s p m ws = DenseArrayValue.ofU64s m ws :=
  ⟨Target.ofBools_eq p m bs hb, Target.ofU8s_eq p m us hu, Target.ofU64s_eq p m ws hw⟩

/-- Creating a dense array whose index has fewer than 32 bits, with any default: the size limit rejects the same arrays. -/
theorem C109_new_dense (p : Ptr) (m : Mode) {iw dw : Nat} (x : BitVec dw) (hi : iw < 32) (hd : dw < 2 ^ 32) :
    Alike (Target.newDenseArray p m iw (encode x)) (ArrayValue.newDense m iw (encode x)) :=
  alike_bind (Target.newDense_same p m (encode x) hi hd (encode_denotes x hd).slot.length_eq) fun _ _ => alike_rfl

/-- Reading and writing a reachable array. -/
theorem C109_select_store (p : Ptr) (m : Mode) (env : HashEnv) {iw dw : Nat} {a : ArrayValue} {f : BitVec iw → BitVec dw}
    (ha : Reachable m a f) (hd : dw < 2 ^ 32) (h : Fits32 iw dw) (v e : BitVecValue) (i : BitVec iw) (hv : Denotes v i) :
    Target.select p m env a v = a.select m env v ∧ Target.store p m env a v e = a.store m env v e := by
  have h32 := h.1
  obtain ⟨h1, h2⟩ := ha.widths (by omega) hd
  exact ⟨Target.select_eq p m env h1 h2 h hv, Target.store_eq p m env h1 h2 h hv e⟩

/-- Converting a reachable array, in both directions. -/
theorem C109_convert (p : Ptr) (m : Mode) (env : HashEnv) {iw dw : Nat} {a : ArrayValue} {f : BitVec iw → BitVec dw}
    (ha : Reachable m a f) (hd : dw < 2 ^ 32) (h : Fits32 iw dw) :
    Alike (Target.makeDense p m env a) (a.makeDense m env) ∧
      Target.arrayToSparse p m env a = a.toSparse m env := by
  have h32 := h.1
  obtain ⟨h1, h2⟩ := ha.widths (by omega) hd
  constructor
  · rcases ha.inv (by omega) hd with ⟨d, rfl, _⟩ | ⟨s, x, rfl, hs⟩
    · exact alike_rfl
    · exact alike_bind (Target.ofSparse_same p m env hs h) fun _ _ => alike_rfl
  · cases a with
    | sparse s => rfl
    | dense d =>
      change d.indexWidth = iw at h1
      change d.dataWidth = dw at h2
      exact Target.toSparse_eq p m env d (by rw [h1, h2]; exact h)

/-- Comparing two reachable arrays. -/
theorem C109_equal (p : Ptr) (m : Mode) (env : HashEnv) {iw dw : Nat} {a b : ArrayValue} {f g : BitVec iw → BitVec dw}
    (ha : Reachable m a f) (hb : Reachable m b g) (hd : dw < 2 ^ 32) (h : Fits32 iw dw) :
    Alike (Target.isEqual p m env a b) (a.isEqual m env b) := by
  have h32 := h.1
  have mixed : ∀ (d : DenseArrayValue) (s : SparseArrayValue) (k : BitVec iw → BitVec dw), Reachable m (.sparse s) k →
      Alike (Target.isEqual.mixed p m env d s) (isEqualMixed m env d s) := by
    intro d s k hs
    unfold Target.isEqual.mixed isEqualMixed
    split
    · exact alike_rfl
    · rcases hs.inv (by omega) hd with ⟨_, h1, _⟩ | ⟨s', x, h1, h2⟩
      · cases h1
      · cases h1
        exact alike_bind (Target.ofSparse_same p m env h2 h) fun _ _ => alike_rfl
  cases a with
  | sparse s =>
    cases b with
    | sparse t => exact alike_rfl
    | dense t => exact mixed t s f ha
  | dense s =>
    cases b with
    | sparse t => exact mixed s t g hb
    | dense t => exact alike_rfl

theorem step_same (p : Ptr) (m : Mode) (env : HashEnv) {iw dw : Nat} {a : ArrayValue} {f : BitVec iw → BitVec dw}
    (ha : Reachable m a f) (hd : dw < 2 ^ 32) (h : Fits32 iw dw) (s : TargetStep iw dw) :
    Alike (s.run p m env a) (s.base m env a) := by
  have h32 := h.1
  cases s with
  | store i d => exact .inl (C109_select_store p m env ha hd h _ _ i (encode_denotes i (by omega))).2
  | clear => exact alike_rfl
  | makeDense => exact (C109_convert p m env ha hd h).1
  | makeSparse => exact alike_bind (.inl (C109_convert p m env ha hd h).2) fun _ _ => alike_rfl

theorem step_reachable {m : Mode} {env : HashEnv} {iw dw : Nat} {a b : ArrayValue} {f : BitVec iw → BitVec dw}
    (ha : Reachable m a f) (h : Fits32 iw dw) {s : TargetStep iw dw} (hs : s.base m env a = ok b) :
    ∃ g : BitVec iw → BitVec dw, Reachable m b g := by
  cases s with
  | store i d => exact ⟨_, .store f a b i d ha hs⟩
  | clear => cases hs; exact ⟨_, .clear f a ha⟩
  | makeDense => exact ⟨_, .makeDense f a b h.addressable ha hs⟩
  | makeSparse =>
    obtain ⟨s, h1, h2⟩ := of_bind_ok hs
    cases h2
    exact ⟨_, .toSparse f a s ha h1⟩

/-- A whole program that works on an array, however long: the same array at the end, or a panic on both targets. -/
theorem C109_programs (p : Ptr) (m : Mode) (env : HashEnv) {iw dw : Nat} (hd : dw < 2 ^ 32) (h : Fits32 iw dw)
    (ss : List (TargetStep iw dw)) : ∀ {a : ArrayValue} {f : BitVec iw → BitVec dw}, Reachable m a f →
    Alike (runTarget (TargetStep.run p m env) a ss) (runTarget (TargetStep.base m env) a ss) := by
  induction ss with
  | nil =>
    intro a f _
    rw [runTarget, runTarget]
    exact alike_rfl
  | cons s ss ih =>
    intro a f ha
    rw [runTarget, runTarget]
    rcases step_same p m env ha hd h s with h1 | ⟨h1, h2⟩
    · rw [h1]
      refine alike_bind alike_rfl fun b hb => ?_
      obtain ⟨g, hg⟩ := step_reachable ha h hb
      exact ih hg
    · exact .inr ⟨panics_bind h1 _, panics_bind h2 _⟩

/-- The bound on the index width is needed: with a 32-bit index, creating an array of single bits panics in debug mode
on a 32-bit target only, and in release mode makes an array that answers for a single element. -/
theorem C109_index_width_32 :
    Panics (Target.newDenseArray .p32 .debug 32 (encode 0#1)) ∧
      (∃ a, ArrayValue.newDense .debug 32 (encode 0#1) = ok a) ∧
      Target.newDenseArray .p32 .release 32 (encode 0#1) = ok (.dense ⟨32, 1, .bit (encode 0#1)⟩) ∧
      ArrayValue.newDense .release 32 (encode 0#1) = ok (.dense ⟨32, 1, .bit ⟨0, []⟩⟩) := by
  refine ⟨⟨.overflow, ?_⟩, ⟨.dense ⟨32, 1, .bit ⟨0, []⟩⟩, ?_⟩, ?_, ?_⟩ <;> rfl

example : Fits32 3 70 := ⟨by decide, by decide⟩
example : Fits32 31 64 := ⟨by decide, by decide⟩
example : BitVecValueIndex.Valid32 ⟨3, 70⟩ := ⟨by decide, by decide⟩
example : Target.toBitStrSigned .p32 .debug (encode 0xd#4) = ok [ch '-', ch '0', ch '1', ch '1'] := by decide +kernel
example : ∃ a, Target.newDenseArray .p32 .debug 3 (encode 5#70) = ok a ∧
    (Target.select .p32 .debug listEnv a (encode 6#3)) = ok (encode 5#70) := ⟨_, rfl, by decide +kernel⟩
example : Panics (Target.newDenseArray .p32 .debug 29 (encode 5#64)) ∧ Panics (ArrayValue.newDense .debug 29 (encode 5#64)) :=
  ⟨⟨_, rfl⟩, ⟨_, rfl⟩⟩
example : Panics (Target.getRef .p32 .release [1#64, 2#64] ⟨4294967295, 128⟩) := ⟨_, rfl⟩

namespace Target

theorem parseLoop_p64 (m : Mode) (bits perWord : Nat) (dv : Byte → Option Nat) (n : Nat) (cs : List Byte) (ii : Nat)
    (out : List Word) (outIi : Nat) (word : Word) :
    parseLoop .p64 m bits perWord dv n ii out outIi word cs = Strings.parseLoop m bits perWord dv n ii out outIi word cs := by
  induction cs generalizing ii out outIi word with
  | nil => rfl
  | cons c cs ih =>
    rw [parseLoop, Strings.parseLoop]
    simp only [ih]
    rfl

theorem fromStrRadixWords_p64 (m : Mode) (value : List Byte) (radix : Nat) (out : List Word) (w : Nat) :
    fromStrRadixWords .p64 m value radix out w = Strings.fromStrRadix m value radix out w := by
  have h2 : ∀ ds o w, parseBase2 .p64 m ds o w = Strings.parseBase2 m ds o w := by
    intro ds o w
    unfold parseBase2 Strings.parseBase2
    simp only [parseLoop_p64]
    rfl
  have h16 : ∀ ds o, parseBase16 .p64 m ds o = Strings.parseBase16 m ds o := by
    intro ds o
    unfold parseBase16 Strings.parseBase16
    simp only [parseLoop_p64]
    rfl
  have hm : ∀ v r o w, parseMagnitude .p64 m v r o w = Strings.parseMagnitude m v r o w := by
    intro v r o w
    unfold parseMagnitude Strings.parseMagnitude
    simp only [h2, h16]
    rfl
  unfold fromStrRadixWords Strings.fromStrRadix
  simp only [hm]
  rfl

theorem numElements_p64 (m : Mode) (iw : Nat) : numElements .p64 m iw = Baa.numElements m iw := by
  unfold numElements Baa.numElements shiftAmount64
  change (if iw < 64 then _ else _) = _
  by_cases h : iw < 64
  · rw [if_pos h, if_pos h]
    rfl
  · rw [if_neg h, if_neg h]
    cases m <;> rfl

theorem indexWidthFromLen_p64 {len : Nat} (h : len ≤ U64) : indexWidthFromLen .p64 len = DenseArrayValue.indexWidthFromLen len := by
  unfold indexWidthFromLen DenseArrayValue.indexWidthFromLen leadingZeros
  change (if len = 0 then 0 else 64 - if len - 1 = 0 then 64 else 64 - (Nat.log2 (len - 1) + 1)) = _
  by_cases h0 : len = 0
  · rw [if_pos h0, if_pos h0]
  · rw [if_neg h0, if_neg h0]
    by_cases h1 : len - 1 = 0
    · rw [if_pos h1, if_pos h1]
    · rw [if_neg h1, if_neg h1]
      have := log2_lt h1 (show len - 1 < 2 ^ 64 by change len ≤ 18446744073709551616 at h; omega)
      omega

theorem approxStorageSize_p64 (m : Mode) (iw dw : Nat) :
    approxStorageSize .p64 m iw dw = DenseArrayValue.approxStorageSize m iw dw := by
  unfold approxStorageSize DenseArrayValue.approxStorageSize
  rw [numElements_p64]
  rfl

theorem newDense_p64 (m : Mode) (iw : Nat) (d : BitVecValue) : newDense .p64 m iw d = DenseArrayValue.new m iw d := by
  unfold newDense DenseArrayValue.new
  dsimp only
  rw [approxStorageSize_p64, numElements_p64]
  rfl

theorem asUsize_p64 (i : Word) : asUsize .p64 i.toNat = i.toNat := Nat.mod_eq_of_lt i.isLt

theorem selectUsize_p64 (m : Mode) (a : DenseArrayValue) (i : Nat) : selectUsize .p64 m a i = a.selectUsize m i := rfl

theorem selectDense_p64 (m : Mode) (a : DenseArrayValue) (v : BitVecValue) : selectDense .p64 m a v = a.select m v := by
  unfold selectDense DenseArrayValue.select
  simp only [asUsize_p64]
  rfl

theorem storeDense_p64 (m : Mode) (a : DenseArrayValue) (v e : BitVecValue) :
    storeDense .p64 m a v e = a.store m v e := by
  unfold storeDense DenseArrayValue.store
  simp only [asUsize_p64]
  rfl

theorem putU64_p64 (m : Mode) (d : DenseArrayValue) (i v : Word) : putU64 .p64 m d i v = DenseArrayValue.putU64 m d i v := by
  unfold putU64 DenseArrayValue.putU64
  simp only [asUsize_p64]
  rfl

theorem putAllU64_p64 (m : Mode) (es : List (Word × Word)) (d : DenseArrayValue) :
    putAllU64 .p64 m d es = DenseArrayValue.putAllU64 m d es := by
  induction es generalizing d with
  | nil => rfl
  | cons e es ih =>
    rw [putAllU64, DenseArrayValue.putAllU64, putU64_p64]
    exact congrArg _ (funext ih)

theorem putAllBig_p64 (m : Mode) (es : List (Word × BitVecValue)) (d : DenseArrayValue) (i : BitVecValue) :
    putAllBig .p64 m d i es = DenseArrayValue.putAllBig m d i es := by
  induction es generalizing d i with
  | nil => rfl
  | cons e es ih =>
    rw [putAllBig, DenseArrayValue.putAllBig]
    simp only [storeDense_p64, ih]

theorem ofSparse_p64 (m : Mode) (env : HashEnv) (s : SparseArrayValue) :
    ofSparse .p64 m env s = DenseArrayValue.ofSparse m env s := by
  unfold ofSparse DenseArrayValue.ofSparse
  simp only [newDense_p64, putAllU64_p64, putAllBig_p64]
  rfl

theorem selectAll_p64 (m : Mode) (a : DenseArrayValue) (n i : Nat) :
    selectAll .p64 m a i n = DenseArrayValue.selectAll m a i n := by
  induction n generalizing i with
  | zero => rfl
  | succ n ih =>
    rw [selectAll, DenseArrayValue.selectAll]
    simp only [selectUsize_p64, ih]

theorem toSparse_p64 (m : Mode) (env : HashEnv) (a : DenseArrayValue) : toSparse .p64 m env a = a.toSparse m env := by
  unfold toSparse DenseArrayValue.toSparse
  simp only [numElements_p64, selectAll_p64]
  rfl

end Target

/-- **C109**: with 64-bit pointers the functions on arrays that depend on the pointer size are, for all arguments and also for
arrays that no sequence of calls produces, the ones of the other model files. So those describe such a target. -/
theorem C109_p64 (m : Mode) (env : HashEnv) (iw : Nat) (a b : ArrayValue) (v e : BitVecValue) :
    Target.newDenseArray .p64 m iw v = ArrayValue.newDense m iw v ∧
      Target.select .p64 m env a v = a.select m env v ∧ Target.store .p64 m env a v e = a.store m env v e ∧
      Target.makeDense .p64 m env a = a.makeDense m env ∧ Target.arrayToSparse .p64 m env a = a.toSparse m env ∧
      Target.isEqual .p64 m env a b = a.isEqual m env b := by
  have mixed : ∀ d s, Target.isEqual.mixed .p64 m env d s = isEqualMixed m env d s := by
    intro d s
    unfold Target.isEqual.mixed isEqualMixed
    simp only [Target.ofSparse_p64]
  refine ⟨?_, ?_, ?_, ?_, ?_, ?_⟩
  · unfold Target.newDenseArray ArrayValue.newDense
    rw [Target.newDense_p64]
  · cases a with
    | sparse s => rfl
    | dense d => exact Target.selectDense_p64 m d v
  · cases a with
    | sparse s => rfl
    | dense d =>
      unfold Target.store ArrayValue.store
      simp only [Target.storeDense_p64]
  · cases a with
    | dense d => rfl
    | sparse s =>
      unfold Target.makeDense ArrayValue.makeDense
      simp only [Target.ofSparse_p64]
  · cases a with
    | sparse s => rfl
    | dense d => exact Target.toSparse_p64 m env d
  · cases a <;> cases b
    · rfl
    · exact mixed _ _
    · exact mixed _ _
    · rfl

/-- **C109**: the same for text. -/
theorem C109_p64_text (m : Mode) (v : BitVecValue) (text : List Byte) (radix width : Nat) (hv : v.width < 2 ^ 32) :
    Target.toBitStrSigned .p64 m v = v.toBitStrSigned m ∧ Target.toHexStrSigned .p64 m v = v.toHexStrSigned m ∧
      Target.assignFromStrRadix .p64 m v text radix = v.assignFromStrRadix m text radix ∧
      Target.fromStrRadix .p64 m text radix width = BitVecValue.fromStrRadix m text radix width := by
  have e : addC m Ptr.p64.size v.width 1 = ok (v.width + 1) := by
    unfold addC
    rw [if_pos (by change v.width < 4294967296 at hv; change v.width + 1 < 18446744073709551616; omega)]
  have h1 : ∀ v : BitVecValue, Target.assignFromStrRadix .p64 m v text radix = v.assignFromStrRadix m text radix := by
    intro v
    unfold Target.assignFromStrRadix BitVecValue.assignFromStrRadix
    rw [Target.fromStrRadixWords_p64]
  refine ⟨?_, ?_, h1 v, ?_⟩
  · unfold Target.toBitStrSigned BitVecValue.toBitStrSigned Strings.toBitStrSigned
    rw [e]
    rfl
  · unfold Target.toHexStrSigned BitVecValue.toHexStrSigned Strings.toHexStrSigned
    rw [e]
    rfl
  · unfold Target.fromStrRadix BitVecValue.fromStrRadix
    rw [h1]
    rfl

/-- **C109**: arrays made from slices, with 64-bit pointers: no slice is longer than that. -/
theorem C109_p64_slices (m : Mode) (bs : List Bool) (us : List Byte) (ws : List Word) (hb : bs.length < 2 ^ 64)
    (hu : us.length < 2 ^ 64) (hw : ws.length < 2 ^ 64) :
    Target.ofBools .p64 m bs = DenseArrayValue.ofBools m bs ∧ Target.ofU8s .p64 m us = DenseArrayValue.ofU8s m us ∧
      Target.ofU64s .p64 m ws = DenseArrayValue.ofU64s m ws := by
  refine ⟨?_, ?_, ?_⟩
  · unfold Target.ofBools DenseArrayValue.ofBools
    simp only [Target.indexWidthFromLen_p64 (Nat.le_of_lt hb), Target.numElements_p64]
  · unfold Target.ofU8s DenseArrayValue.ofU8s
    simp only [Target.indexWidthFromLen_p64 (Nat.le_of_lt hu), Target.numElements_p64]
  · unfold Target.ofU64s DenseArrayValue.ofU64s
    simp only [Target.indexWidthFromLen_p64 (Nat.le_of_lt hw), Target.numElements_p64]

/-- An index of 40 bits is too wide for 32-bit pointers but not for 64-bit pointers. -/
example : Target.numElements .p64 .debug 40 = ok (2 ^ 40) ∧ Target.numElements .p32 .debug 40 = .panic .overflow := by
  decide +kernel

end Baa

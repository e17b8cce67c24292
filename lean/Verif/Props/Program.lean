import Verif.Props.Indexed
import Verif.Props.Arith
import Verif.Props.Compare
import Verif.Props.Convert
import Verif.Props.Slice
import Verif.Spec.Programs

/-!
# C70: values in one word buffer behave like independent variables

The way the library is meant to be used by a simulator: all variables live in one slice of words, each at the range given
by its `BitVecValueIndex`; a program is a sequence of instructions that read variables through `get_ref`, compute with the
bit-vector operations, and write through `get_mut_ref`. `Instr.run` performs the calls, `Instr.effect` is the meaning in
terms of mathematical variables.
-/

namespace Baa
open Res

section
variable {n : Nat} {L : Fin n → BitVecValueIndex}

/-! ## Proof -/

theorem denotes_setWidth {v : BitVecValue} {w w' : Nat} {x : BitVec w} (h : Denotes v x) (e : w = w') :
    Denotes v (x.setWidth w') := by
  subst e; rw [BitVec.setWidth_eq]; exact h

theorem Env.set_self (ρ : Env L) (d : Fin n) (x : BitVec (L d).width) : ρ.set d x d = x := by
  simp [Env.set]

theorem Env.set_other (ρ : Env L) {d k : Fin n} (x : BitVec (L d).width) (h : k ≠ d) : ρ.set d x k = ρ k := by
  simp [Env.set, h]

/-- Writing a variable. -/
theorem holds_writeBack {data : List Word} (hl : Layout L data) {ρ : Env L} (hh : Holds data ρ) (d : Fin n)
    {r : BitVecValue} {x : BitVec (L d).width} (hr : Denotes r x) :
    Layout L (Indexed.writeBack data (L d).index r.words) ∧
    Frame L data (Indexed.writeBack data (L d).index r.words) ∧
    Holds (Indexed.writeBack data (L d).index r.words) (ρ.set d x) := by
  obtain ⟨h1, h2, h3, h4⟩ := C45_write data (L d) (hl.inBounds d) r.words hr.length_eq
  refine ⟨⟨hl.width_pos, hl.width_lt, fun k => ?_, hl.apart⟩, ⟨h1, fun k hk => h3 k (hk d)⟩, fun k => ?_⟩
  · unfold InBounds; rw [h1]; exact hl.inBounds k
  · by_cases hk : k = d
    · subst hk
      refine ⟨_, h2, ?_⟩
      rw [Env.set_self]
      have : r = ⟨(L k).width, r.words⟩ := by rw [← hr.width_eq]
      rw [← this]; exact hr
    · rw [Env.set_other ρ x hk, h4 _ (hl.inBounds k) (hl.apart d k fun e => hk e.symm)]
      exact hh k

theorem holds_assignAt (m : Mode) {data : List Word} (hl : Layout L data) {ρ : Env L} (hh : Holds data ρ) (d : Fin n)
    {r : BitVecValue} {x : BitVec (L d).width} (hr : Denotes r x) :
    ∃ data', Indexed.assignAt m data (L d) r = ok data' ∧ Layout L data' ∧ Frame L data data' ∧ Holds data' (ρ.set d x) := by
  obtain ⟨u, h1, h2⟩ := (C44_get_mut_ref data (L d)).1 (hl.inBounds d)
  refine ⟨_, ?_, holds_writeBack hl hh d hr⟩
  rw [Indexed.assignAt, h1, ok_bind, C26_assign m ⟨hl.width_lt d, h2.width_eq, h2.length_eq⟩ hr, ok_bind]

theorem holds_inPlace {data : List Word} (hl : Layout L data) {ρ : Env L} (hh : Holds data ρ) (d : Fin n)
    {f : BitVecValue → Res BitVecValue} {x : BitVec (L d).width}
    (hf : ∀ v, Denotes v (ρ d) → ∃ r, f v = ok r ∧ Denotes r x) :
    ∃ data', inPlace data (L d) f = ok data' ∧ Layout L data' ∧ Frame L data data' ∧ Holds data' (ρ.set d x) := by
  obtain ⟨v, h1, h2⟩ := hh d
  obtain ⟨r, h3, h4⟩ := hf v h2
  refine ⟨_, ?_, holds_writeBack hl hh d h4⟩
  have h1' : Indexed.getMutRef data (L d) = ok v := h1
  rw [inPlace, h1', ok_bind, h3, ok_bind]

theorem BinOp.spec (m : Mode) {w : Nat} (hw : 0 < w) {a b : BitVecValue} {x y : BitVec w} (ha : Denotes a x)
    (hb : Denotes b y) (op : BinOp) (h : op.Supports w) : ∃ r, op.run m a b = ok r ∧ Denotes r (op.sem x y) := by
  cases op with
  | add => exact C06_add m hw ha hb
  | sub => exact C07_sub m hw ha hb
  | mul => exact C09_mul_partial m hw h ha hb
  | and =>
    obtain ⟨r, h1, h2, _⟩ := C10_and m ha hb
    exact ⟨r, h1, h2⟩
  | or => exact C10_or m ha hb
  | xor => exact C10_xor m ha hb
  | shl =>
    refine C12_shift_left_partial m hw ha hb ?_
    have h' : w ≤ 64 ∨ w % 64 = 0 := h
    omega
  | shr => exact C13_shift_right m hw ha hb
  | ashr => exact C14_arithmetic_shift_right m hw ha hb

theorem CmpOp.spec (m : Mode) {w : Nat} (hw : 0 < w) {a b : BitVecValue} {x y : BitVec w} (ha : Denotes a x)
    (hb : Denotes b y) (op : CmpOp) : op.run m a b = ok (op.sem x y) := by
  cases op with
  | eq => exact C15_is_equal m ha hb
  | ne => exact C15_is_not_equal m ha hb
  | gt => exact C16_is_greater m ha hb
  | lt => exact C16_is_less m ha hb
  | gts => exact C18_is_greater_signed m hw ha hb
  | ges => exact C18_is_greater_or_equal_signed m hw ha hb
  | lts => exact C18_is_less_signed m hw ha hb
  | les => exact C18_is_less_or_equal_signed m hw ha hb

/-- One instruction. -/
theorem Instr.step (m : Mode) {data : List Word} (hl : Layout L data) {ρ : Env L} (hh : Holds data ρ) (i : Instr n)
    (ht : i.Typed L) : ∃ data', i.run L m data = ok data' ∧ Layout L data' ∧ Frame L data data' ∧ Holds data' (i.effect ρ) := by
  have read2 : ∀ a b, ∃ u v, Indexed.getRef2 data (L a) (L b) = ok (u, v) ∧ Denotes u (ρ a) ∧ Denotes v (ρ b) := by
    intro a b
    obtain ⟨u, h1, h2⟩ := hh a
    obtain ⟨v, h3, h4⟩ := hh b
    obtain ⟨u', v', h5, h6, h7⟩ := (C44_get_ref_pair data (L a) (L b)).1 ⟨hl.inBounds a, hl.inBounds b⟩
    obtain ⟨u'', h8, h9⟩ := (C44_get_ref data (L a)).1 (hl.inBounds a)
    obtain ⟨v'', h10, h11⟩ := (C44_get_ref data (L b)).1 (hl.inBounds b)
    rw [h1] at h8; rw [h3] at h10; cases h8; cases h10
    have e1 := h6.unique h9
    have e2 := h7.unique h11
    subst e1; subst e2
    exact ⟨_, _, h5, h2, h4⟩
  cases i with
  | bin op d a b =>
    obtain ⟨u, v, h1, h2, h3⟩ := read2 a b
    obtain ⟨ha, hb, hs⟩ := ht
    obtain ⟨r, h4, h5⟩ := BinOp.spec m (hl.width_pos d) (denotes_setWidth h2 ha) (denotes_setWidth h3 hb) op hs
    obtain ⟨data', h6, h7⟩ := holds_assignAt m hl hh d h5
    exact ⟨data', by rw [Instr.run, h1, ok_bind]; dsimp only; rw [h4, ok_bind, h6], h7⟩
  | cmp op d a b =>
    obtain ⟨u, v, h1, h2, h3⟩ := read2 a b
    obtain ⟨hd, hab⟩ := ht
    have h4 := CmpOp.spec m (hl.width_pos a) h2 (denotes_setWidth h3 hab.symm) op
    obtain ⟨r, h5, h5'⟩ := C01_from_bool m (op.sem (ρ a) ((ρ b).setWidth _))
    obtain ⟨data', h6, h7⟩ := holds_assignAt m hl hh d (denotes_setWidth h5' hd.symm)
    exact ⟨data', by rw [Instr.run, h1, ok_bind]; dsimp only; rw [h4, ok_bind, h5, ok_bind, h6], h7⟩
  | not d a =>
    obtain ⟨u, h1, h2⟩ := hh a
    obtain ⟨r, h4, h5⟩ := C11_not m (hl.width_pos d) (denotes_setWidth h2 ht)
    obtain ⟨data', h6, h7⟩ := holds_assignAt m hl hh d h5
    exact ⟨data', by rw [Instr.run, h1, ok_bind, h4, ok_bind, h6], h7⟩
  | neg d a =>
    obtain ⟨u, h1, h2⟩ := hh a
    obtain ⟨r, h4, h5⟩ := C08_negate m (hl.width_pos d) (denotes_setWidth h2 ht)
    obtain ⟨data', h6, h7⟩ := holds_assignAt m hl hh d h5
    exact ⟨data', by rw [Instr.run, h1, ok_bind, h4, ok_bind, h6], h7⟩
  | slice d a msb lsb =>
    obtain ⟨u, h1, h2⟩ := hh a
    obtain ⟨ha, hb, hd⟩ := ht
    obtain ⟨r, h4, h5⟩ := C19_slice m h2 ha hb
    obtain ⟨data', h6, h7⟩ := holds_assignAt m hl hh d (denotes_setWidth h5 hd.symm)
    exact ⟨data', by rw [Instr.run, h1, ok_bind, h4, ok_bind, h6], h7⟩
  | concat d a b =>
    obtain ⟨u, v, h1, h2, h3⟩ := read2 a b
    have hd : (L d).width = (L a).width + (L b).width := ht
    obtain ⟨r, h4, h5⟩ := C21_concat_partial m h2 h3 (by rw [← hd]; exact hl.width_lt d)
      (.inl ⟨hl.width_pos a, hl.width_pos b⟩)
    obtain ⟨data', h6, h7⟩ := holds_assignAt m hl hh d (denotes_setWidth h5 hd.symm)
    exact ⟨data', by rw [Instr.run, h1, ok_bind]; dsimp only; rw [h4, ok_bind, h6], h7⟩
  | zext d a by_ =>
    obtain ⟨u, h1, h2⟩ := hh a
    have hd : (L d).width = (L a).width + by_ := ht
    obtain ⟨r, h4, h5, _⟩ := C22_zero_extend_partial m h2 by_ (by rw [← hd]; exact hl.width_lt d)
      (.inl (hl.width_pos a))
    obtain ⟨data', h6, h7⟩ := holds_assignAt m hl hh d (hd ▸ h5)
    exact ⟨data', by rw [Instr.run, h1, ok_bind, h4, ok_bind, h6], h7⟩
  | sext d a by_ =>
    obtain ⟨u, h1, h2⟩ := hh a
    have hd : (L d).width = (L a).width + by_ := ht
    obtain ⟨r, h4, h5, _⟩ := C23_sign_extend m (hl.width_pos a) h2 by_ (by rw [← hd]; exact hl.width_lt d)
    obtain ⟨data', h6, h7⟩ := holds_assignAt m hl hh d (hd ▸ h5)
    exact ⟨data', by rw [Instr.run, h1, ok_bind, h4, ok_bind, h6], h7⟩
  | mux d c a b =>
    obtain ⟨t, h1, h2⟩ := hh c
    obtain ⟨hc, ha, hb⟩ := ht
    have h3 := C25_is_tru h2
    obtain ⟨u, h4, h5⟩ := hh a
    obtain ⟨v, h6, h7⟩ := hh b
    by_cases hx : (ρ c).toNat = 1
    · obtain ⟨data', h8, h9⟩ := holds_assignAt m hl hh d (denotes_setWidth h5 ha)
      refine ⟨data', ?_, ?_⟩
      · rw [Instr.run, h1, ok_bind, h3, ok_bind]
        simp only [hc, hx, and_self, decide_true, if_true]
        rw [h4, ok_bind, h8]
      · rw [Instr.effect, if_pos hx]; exact h9
    · obtain ⟨data', h8, h9⟩ := holds_assignAt m hl hh d (denotes_setWidth h7 hb)
      refine ⟨data', ?_, ?_⟩
      · rw [Instr.run, h1, ok_bind, h3, ok_bind]
        simp only [hc, hx, and_false, decide_false, Bool.false_eq_true, if_false]
        rw [h6, ok_bind, h8]
      · rw [Instr.effect, if_neg hx]; exact h9
  | move d a =>
    obtain ⟨ha, hne⟩ := ht
    obtain ⟨u, v, h1, h2, h3⟩ := (C45_get_mut_ref_pair data (L d) (L a)).1
      ⟨hl.inBounds d, hl.inBounds a, hl.apart d a hne⟩
    obtain ⟨v', h4, h5⟩ := hh a
    obtain ⟨v'', h6, h7⟩ := (C44_get_ref data (L a)).1 (hl.inBounds a)
    have e : v = v' := by
      rw [h4] at h6; cases h6
      exact h3.unique h7
    subst e
    refine ⟨_, ?_, holds_writeBack hl hh d (denotes_setWidth h5 ha)⟩
    rw [Instr.run, Indexed.assignFrom, h1, ok_bind]
    dsimp only
    rw [C26_assign m ⟨hl.width_lt d, h2.width_eq, h2.length_eq⟩ (denotes_setWidth h5 ha), ok_bind]
  | const d v =>
    refine holds_inPlace hl hh d fun u hu => ?_
    obtain ⟨r, h1, h2⟩ := C26_assign_from_u64 m (hl.width_pos d) hu.slot v ht
    refine ⟨r, h1, ?_⟩
    have e : v.setWidth (L d).width = BitVec.ofNat _ v.toNat := by
      apply BitVec.eq_of_toNat_eq; simp
    rw [e]; exact h2
  | setBit d pos =>
    refine holds_inPlace hl hh d fun u hu => ?_
    obtain ⟨r, z, h1, h2, h3⟩ := C24_set_bit hu ht
    refine ⟨r, h1, ?_⟩
    have e : ρ d ||| BitVec.twoPow _ pos = z := by
      apply BitVec.eq_of_getLsbD_eq
      intro i hi
      rw [h3, BitVec.getLsbD_or, BitVec.getLsbD_twoPow]
      have hp : pos < (L d).width := ht
      by_cases hq : i = pos
      · subst hq; simp [hp]
      · simp [hq, show ¬ pos = i from fun e => hq e.symm]
    rw [e]; exact h2
  | clearBit d pos =>
    refine holds_inPlace hl hh d fun u hu => ?_
    obtain ⟨r, z, h1, h2, h3⟩ := C24_clear_bit hu ht
    refine ⟨r, h1, ?_⟩
    have e : ρ d &&& ~~~ BitVec.twoPow _ pos = z := by
      apply BitVec.eq_of_getLsbD_eq
      intro i hi
      rw [h3, BitVec.getLsbD_and, BitVec.getLsbD_not, BitVec.getLsbD_twoPow]
      have hp : pos < (L d).width := ht
      by_cases hq : i = pos
      · subst hq; simp [hp]
      · simp [hq, hi, show ¬ pos = i from fun e => hq e.symm]
    rw [e]; exact h2
  | clear d => exact holds_inPlace hl hh d fun u hu => ⟨_, rfl, C26_clear hu.slot⟩
  | ones d => exact holds_inPlace hl hh d fun u hu => C26_assign_ones m (hl.width_pos d) hu.slot

/-- **C70** A program of any length over variables in one buffer does not panic, in either build mode, and leaves in the
buffer exactly the values that the same assignments give to independent mathematical variables. The words of the buffer that
belong to no variable keep their contents. -/
theorem C70_program (m : Mode) (is : List (Instr n)) (ht : ∀ i ∈ is, i.Typed L) {data : List Word} (hl : Layout L data)
    {ρ : Env L} (hh : Holds data ρ) :
    ∃ data', runProgram L m data is = ok data' ∧ Layout L data' ∧ Frame L data data' ∧ Holds data' (is.foldl Instr.effect ρ) := by
  induction is generalizing data ρ with
  | nil => exact ⟨data, rfl, hl, ⟨rfl, fun _ _ => rfl⟩, hh⟩
  | cons i is ih =>
    obtain ⟨d1, h1, h2, f1, h3⟩ := Instr.step m hl hh i (ht i (by simp))
    obtain ⟨d2, h4, h5, f2, h6⟩ := ih (fun j hj => ht j (by simp [hj])) h2 h3
    exact ⟨d2, by rw [runProgram, h1, ok_bind, h4], h5,
      ⟨f2.1.trans f1.1, fun k hk => (f2.2 k hk).trans (f1.2 k hk)⟩, h6⟩

/-- Three variables of 8, 70 and 1 bits in a buffer of six words: 8-bit `v₀` at word 1, 70-bit `v₁` at words 2 and 3,
1-bit `v₂` at word 5. -/
def exampleLayout : Fin 3 → BitVecValueIndex
  | 0 => ⟨1, 8⟩
  | 1 => ⟨2, 70⟩
  | 2 => ⟨5, 1⟩

/-- Constants, an extension, an addition in place, a bit, a comparison, a slice and a negation. -/
def exampleProgram : List (Instr 3) :=
  [.const 0 200#64, .sext 1 0 62, .bin .add 1 1 1, .setBit 1 3, .cmp .lts 2 1 1, .slice 0 1 69 62, .neg 0 0]

example : (∀ i ∈ exampleProgram, i.Typed exampleLayout) ∧
    Layout exampleLayout [7#64, 0#64, 0#64, 0#64, 9#64, 0#64] ∧
    Holds (L := exampleLayout) [7#64, 0#64, 0#64, 0#64, 9#64, 0#64] (fun _ => 0#_) ∧
    runProgram exampleLayout .debug [7#64, 0#64, 0#64, 0#64, 9#64, 0#64] exampleProgram =
      ok [7#64, 1#64, 0xffffffffffffff98#64, 0x3f#64, 9#64, 0#64] := by
  refine ⟨?_, ⟨by decide, by decide, ?_, ?_⟩, ?_, by decide +kernel⟩
  · intro i hi
    simp only [exampleProgram, List.mem_cons, List.not_mem_nil, or_false] at hi
    rcases hi with h | h | h | h | h | h | h <;> subst h <;> simp only [Instr.Typed, BinOp.Supports] <;> decide
  · intro k; revert k; simp only [InBounds]; decide
  · intro j k; revert j k; simp only [Apart]; decide
  · intro k
    refine ⟨encode (0#_), ?_, encode_denotes _ ?_⟩
    · revert k; decide +kernel
    · revert k; decide

end

end Baa

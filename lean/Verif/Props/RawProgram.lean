import Verif.Props.Program
import Verif.Props.RawObs
import Verif.Props.ParseInPlace
import Verif.Spec.Programs

/-!
# C90: every program over one word buffer

C70 is about programs that stay within what the library promises. This file predicts the outcome of every program over variables in
one word buffer: the buffer may hold anything, the ranges of the variables may overlap each other or leave the buffer, bits above the
width are not excluded, operations may be applied to widths, positions and constants that they do not support. The whole buffer is
one number; `Step.number` says what that number is after a step, or that the step panics.
-/

namespace Baa
open Res

section
variable {n : Nat} (L : Fin n → BitVecValueIndex)

/-! ## Proof -/

/-- The run and the prediction panic together or return related results. -/
def Agree {α β : Type} (R : α → β → Prop) (x : Res α) : Option β → Prop
  | some b => ∃ a, x = ok a ∧ R a b
  | none => Panics x

theorem agree_bind {α β γ δ : Type} {R : α → β → Prop} {S : γ → δ → Prop} {x : Res α} {o : Option β} {f : α → Res γ}
    {g : β → Option δ} (h : Agree R x o) (hf : ∀ a b, R a b → Agree S (f a) (g b)) : Agree S (x >>= f) (o >>= g) := by
  cases o with
  | none => exact panics_bind h f
  | some b =>
    obtain ⟨a, rfl, hab⟩ := h
    exact hf a b hab

/-- A panic that is predicted before or after the step that panics. -/
theorem agree_panics {α β γ : Type} {S : α → β → Prop} {x : Res γ} (h : Panics x) (f : γ → Res α) :
    Agree S (x >>= f) (none : Option β) := panics_bind h f

theorem wordsVal_drop (ws : List Word) (k : Nat) : wordsVal (ws.drop k) = wordsVal ws >>> (64 * k) := by
  by_cases h : k ≤ ws.length
  · have e := wordsVal_append (ws.take k) (ws.drop k)
    rw [List.take_append_drop, List.length_take, Nat.min_eq_left h] at e
    have hlt := wordsVal_lt (ws.take k)
    rw [List.length_take, Nat.min_eq_left h] at hlt
    rw [Nat.shiftRight_eq_div_pow, e, Nat.add_mul_div_left _ _ (Nat.two_pow_pos _), Nat.div_eq_of_lt hlt, Nat.zero_add]
  · rw [List.drop_eq_nil_of_le (by omega), wordsVal_nil, Nat.shiftRight_eq_div_pow, Nat.div_eq_of_lt]
    exact Nat.lt_of_lt_of_le (wordsVal_lt ws) (Nat.pow_le_pow_right (by decide) (by omega))

theorem BufferOutcome.agree {r : Res (List Word)} {len : Nat} {o : Option Nat}
    (h : Agree (fun (data : List Word) B => data.length = len ∧ wordsVal data = B) r o) : BufferOutcome r len o := by
  cases o <;> exact h

/-- The conclusion of each case below. -/
abbrev Becomes (len : Nat) (r : Res (List Word)) (o : Option Nat) : Prop :=
  Agree (fun (data : List Word) B => data.length = len ∧ wordsVal data = B) r o

variable {L}

theorem agree_read {data : List Word} (hlt : ∀ k, (L k).width < 2 ^ 32) (k : Fin n) :
    Agree (fun v N => Raw v (L k).width N) (Indexed.getRef data (L k)) (readNumber L data.length (wordsVal data) k) := by
  unfold readNumber
  by_cases h : pastEnd (L k) ≤ data.length
  · rw [if_pos h]
    unfold pastEnd at h
    refine ⟨⟨(L k).width, (data.drop (L k).index).take (pastEnd (L k) - (L k).index)⟩, ?_, hlt k, rfl, ?_, ?_⟩
    · rw [Indexed.getRef, toRange_eq]
      dsimp only
      rw [sliceR_ok (by unfold pastEnd; omega) (by unfold pastEnd; omega), ok_bind]
    · simp only [List.length_take, List.length_drop, pastEnd]; omega
    · simp only [Big.wordsVal_take, wordsVal_drop, pastEnd, peek, capacity, Nat.add_sub_cancel_left]
  · rw [if_neg h]
    exact (C44_get_ref data (L k)).2 h

theorem wordsVal_writeBack {data : List Word} {i : BitVecValueIndex} {r : BitVecValue} {N : Nat} (h : pastEnd i ≤ data.length)
    (hr : Raw r i.width N) :
    (Indexed.writeBack data i.index r.words).length = data.length ∧
    wordsVal (Indexed.writeBack data i.index r.words) = poke (wordsVal data) i N := by
  have hl := hr.length_eq
  unfold Indexed.writeBack poke
  unfold pastEnd at *
  constructor
  · simp only [List.length_append, List.length_take, List.length_drop]; omega
  · rw [wordsVal_append, wordsVal_append, Big.wordsVal_take, wordsVal_drop, List.length_append, List.length_take,
      Nat.min_eq_left (by omega), hr.val_eq, hl]

theorem agree_assignAt (m : Mode) {data : List Word} (d : Fin n) {r : BitVecValue} {w N : Nat} (hr : Raw r w N)
    (hw : w = (L d).width) :
    Becomes data.length (Indexed.assignAt m data (L d) r) (writeNumber L data.length (wordsVal data) d N) := by
  subst hw
  unfold writeNumber
  by_cases h : pastEnd (L d) ≤ data.length
  · rw [if_pos h]
    obtain ⟨u, h1, h2⟩ := (C44_get_mut_ref data (L d)).1 h
    refine ⟨_, ?_, wordsVal_writeBack h hr⟩
    have hlen : u.words.length = r.words.length := by rw [h2.length_eq, hr.length_eq]
    rw [Indexed.assignAt, h1, ok_bind]
    unfold BitVecValue.assign
    rw [debugAssert_of (by rw [h2.width_eq, hr.width_eq]; simp), ok_bind, debugAssert_of (by rw [hlen]; simp), ok_bind,
      if_pos hlen, ok_bind]
  · rw [if_neg h]
    exact panics_bind ((C44_get_mut_ref data (L d)).2 h) _

/-- An operation through a mutable reference, in terms of what it does to the number in the words. -/
theorem agree_inPlace {data : List Word} (hlt : ∀ k, (L k).width < 2 ^ 32) (d : Fin n) {f : BitVecValue → Res BitVecValue}
    {g : Nat → Option Nat} (h : ∀ v N, Raw v (L d).width N → Agree (fun r M => Raw r (L d).width M) (f v) (g N)) :
    Becomes data.length (inPlace data (L d) f) (do
      let N ← readNumber L data.length (wordsVal data) d
      let M ← g N
      writeNumber L data.length (wordsVal data) d M) := by
  by_cases hb : pastEnd (L d) ≤ data.length
  · refine agree_bind (agree_read hlt d) fun v N hv => agree_bind (h v N hv) fun r M hr => ?_
    rw [writeNumber, if_pos hb]
    exact ⟨_, rfl, wordsVal_writeBack hb hr⟩
  · rw [readNumber, if_neg hb]
    exact panics_bind ((C44_get_mut_ref data (L d)).2 hb) _

theorem getRef2_eq (data : List Word) (a b : BitVecValueIndex) :
    Indexed.getRef2 data a b = (do let u ← Indexed.getRef data a; let v ← Indexed.getRef data b; ok (u, v)) := by
  unfold Indexed.getRef2 Indexed.getRef
  cases sliceR data a.toRange.1 a.toRange.2 with
  | panic p => rfl
  | ok x =>
    cases sliceR data b.toRange.1 b.toRange.2 with
    | panic p => rfl
    | ok y => rfl

theorem bind_bind {α β γ : Type} (x : Res α) (f : α → Res β) (g : β → Res γ) :
    ((x >>= f) >>= g) = (x >>= fun a => f a >>= g) := by
  cases x <;> rfl

theorem agree_read2 {data : List Word} (hlt : ∀ k, (L k).width < 2 ^ 32) (a b : Fin n) {γ δ : Type} {S : γ → δ → Prop}
    {f : BitVecValue × BitVecValue → Res γ} {g : Nat → Nat → Option δ}
    (h : ∀ u v N M, Raw u (L a).width N → Raw v (L b).width M → Agree S (f (u, v)) (g N M)) :
    Agree S (Indexed.getRef2 data (L a) (L b) >>= f) (do
      let N ← readNumber L data.length (wordsVal data) a
      let M ← readNumber L data.length (wordsVal data) b
      g N M) := by
  rw [getRef2_eq, bind_bind]
  refine agree_bind (agree_read hlt a) fun u N hu => ?_
  rw [bind_bind]
  exact agree_bind (agree_read hlt b) fun v M hv => h u v N M hu hv

/-- A write that does not depend on the previous contents. -/
theorem write_eq_read_write (len B : Nat) (d : Fin n) (N : Nat) :
    writeNumber L len B d N = (do let _ ← readNumber L len B d; writeNumber L len B d N) := by
  unfold writeNumber readNumber
  split <;> rfl

theorem BinOp.agree (m : Mode) {w N M : Nat} (hw : 0 < w) {a b : BitVecValue} (ha : Raw a w N) (hb : Raw b w M) (op : BinOp) :
    Agree (fun r K => Raw r w K) (op.run m a b) (op.number w N M) := by
  cases op with
  | add =>
    obtain ⟨r, h1, h2⟩ := C77_add_partial m hw ha.shows hb.shows
    exact ⟨r, h1, h2.raw⟩
  | sub =>
    obtain ⟨r, h1, h2⟩ := C77_sub_partial m hw ha.shows hb.shows
    exact ⟨r, h1, h2.raw⟩
  | mul =>
    unfold BinOp.number
    by_cases h : w ≤ 64
    · rw [if_pos h]
      obtain ⟨r, h1, h2⟩ := C77_mul_partial m hw h ha.shows hb.shows
      exact ⟨r, h1, h2.raw⟩
    · rw [if_neg h]
      exact raw_mul_wide m (by omega) ha hb
  | and => exact raw_and m ha hb
  | or => exact raw_or m ha hb
  | xor => exact raw_xor m ha hb
  | shl => exact raw_shift_left m hw ha hb
  | shr => exact raw_shift_right m hw ha hb
  | ashr => exact raw_arithmetic_shift_right m hw ha hb

theorem CmpOp.run_number (m : Mode) {w N M : Nat} (hw : 0 < w) {a b : BitVecValue} (ha : Raw a w N) (hb : Raw b w M) (op : CmpOp) :
    op.run m a b = ok (op.number w N M) := by
  obtain ⟨h1, h2, h3, h4, -⟩ := C87_compare m ha hb
  cases op with
  | eq => exact h1
  | ne => exact h2
  | gt => exact h3
  | lt => exact h4
  | gts => exact raw_sgt m hw ha hb
  | ges => exact raw_sge m hw ha hb
  | lts => exact raw_sgt m hw hb ha
  | les => exact raw_sge m hw hb ha

theorem Raw.slot {v : BitVecValue} {w N : Nat} (h : Raw v w N) : Slot v w := ⟨h.width_lt, h.width_eq, h.length_eq⟩

theorem agree_bool (m : Mode) {data : List Word} (d : Fin n) (hd : (L d).width = 1) {x : Res Bool} {t : Bool} (h : x = ok t) :
    Becomes data.length (do let t ← x; let r ← BitVecValue.fromBool m t; Indexed.assignAt m data (L d) r)
      (writeNumber L data.length (wordsVal data) d t.toNat) := by
  obtain ⟨r, h1, h2⟩ := raw_from_bool m t
  rw [h, ok_bind, h1, ok_bind]
  exact agree_assignAt m d h2 hd.symm

/-- One step. -/
theorem Step.agree (m : Mode) (data : List Word) (hpos : ∀ k, 0 < (L k).width) (hlt : ∀ k, (L k).width < 2 ^ 32) (s : Step n)
    (hs : s.Shaped L) : Becomes data.length (s.run L m data) (s.number L m data.length (wordsVal data)) := by
  cases s with
  | base i =>
    cases i with
    | bin op d a b =>
      obtain ⟨ha, hb⟩ := hs
      refine agree_read2 hlt a b fun u v N M hu hv => ?_
      rw [ha] at hu; rw [hb] at hv
      exact agree_bind (op.agree m (hpos d) hu hv) fun r K hr => agree_assignAt m d hr rfl
    | cmp op d a b =>
      obtain ⟨hd, hab⟩ := hs
      refine agree_read2 hlt a b fun u v N M hu hv => ?_
      rw [← hab] at hv
      exact agree_bool m d hd (op.run_number m (hpos a) hu hv)
    | not d a =>
      have ha : (L a).width = (L d).width := hs
      refine agree_bind (agree_read hlt a) fun u N hu => ?_
      rw [ha] at hu
      obtain ⟨r, h1, h2⟩ := C77_not_partial m (hpos d) hu.shows
      rw [h1, ok_bind]
      exact agree_assignAt m d h2.raw rfl
    | neg d a =>
      have ha : (L a).width = (L d).width := hs
      refine agree_bind (agree_read hlt a) fun u N hu => ?_
      rw [ha] at hu
      obtain ⟨r, h1, h2⟩ := C77_negate_partial m (hpos d) hu.shows
      rw [h1, ok_bind]
      exact agree_assignAt m d h2.raw rfl
    | slice d a msb lsb =>
      obtain ⟨h1, h2, hd⟩ := hs
      refine agree_bind (agree_read hlt a) fun u N hu => ?_
      obtain ⟨r, h3, h4⟩ := raw_slice m hu h1 h2
      rw [h3, ok_bind]
      exact agree_assignAt m d h4 hd.symm
    | concat d a b =>
      have hd : (L d).width = (L a).width + (L b).width := hs
      refine agree_read2 hlt a b fun u v N M hu hv => ?_
      obtain ⟨r, h3, h4⟩ := raw_concat m (hpos a) (hpos b) hu hv (by rw [← hd]; exact hlt d)
      dsimp only
      rw [h3, ok_bind, hd]
      exact agree_assignAt m d h4 hd.symm
    | zext d a by_ =>
      have hd : (L d).width = (L a).width + by_ := hs
      refine agree_bind (agree_read hlt a) fun u N hu => ?_
      obtain ⟨r, h3, h4⟩ := raw_zero_extend m (hpos a) hu by_ (by rw [← hd]; exact hlt d)
      rw [h3, ok_bind]
      exact agree_assignAt m d h4 hd.symm
    | sext d a by_ =>
      have hd : (L d).width = (L a).width + by_ := hs
      refine agree_bind (agree_read hlt a) fun u N hu => ?_
      obtain ⟨r, h3, h4⟩ := raw_sign_extend m (hpos a) hu by_ (by rw [← hd]; exact hlt d)
      rw [h3, ok_bind, hd]
      exact agree_assignAt m d h4 hd.symm
    | mux d c a b =>
      obtain ⟨hc, ha, hb⟩ := hs
      refine agree_bind (agree_read hlt c) fun u N hu => ?_
      rw [hc] at hu
      rw [raw_is_tru hu, ok_bind]
      by_cases h : N = 1
      · rw [decide_eq_true h, if_pos rfl, if_pos h]
        exact agree_bind (agree_read hlt a) fun v M hv => agree_assignAt m d hv ha
      · rw [decide_eq_false h, if_neg Bool.false_ne_true, if_neg h]
        exact agree_bind (agree_read hlt b) fun v M hv => agree_assignAt m d hv hb
    | move d a =>
      have ha : (L a).width = (L d).width := hs
      show Becomes data.length (Indexed.assignFrom m data (L d) (L a)) _
      have hn : (Step.base (.move d a)).number L m data.length (wordsVal data) =
          if pastEnd (L d) ≤ data.length ∧ pastEnd (L a) ≤ data.length ∧ (pastEnd (L d) ≤ (L a).index ∨ pastEnd (L a) ≤ (L d).index)
          then some (poke (wordsVal data) (L d) (peek (wordsVal data) (L a))) else none := by
        rw [Step.number, Instr.number, readNumber]
        by_cases h1 : pastEnd (L a) ≤ data.length
        · rw [if_pos h1]
          show (if _ then _ else _) = _
          rw [writeNumber]
          by_cases h2 : pastEnd (L d) ≤ (L a).index ∨ pastEnd (L a) ≤ (L d).index
          · by_cases h3 : pastEnd (L d) ≤ data.length
            · rw [if_pos h2, if_pos h3, if_pos ⟨h3, h1, h2⟩]
            · rw [if_pos h2, if_neg h3, if_neg fun h => h3 h.1]
          · rw [if_neg h2, if_neg fun h => h2 h.2.2]
        · rw [if_neg h1, if_neg fun h => h1 h.2.1]; rfl
      rw [hn]
      have hpair := C45_get_mut_ref_pair data (L d) (L a)
      by_cases h : pastEnd (L d) ≤ data.length ∧ pastEnd (L a) ≤ data.length ∧
          (pastEnd (L d) ≤ (L a).index ∨ pastEnd (L a) ≤ (L d).index)
      · rw [if_pos h]
        obtain ⟨u, v, h1, h2, h3⟩ := hpair.1 h
        have hr := agree_read (data := data) hlt a
        rw [readNumber, if_pos (show pastEnd (L a) ≤ data.length from h.2.1)] at hr
        obtain ⟨v', h4, h5⟩ := hr
        obtain ⟨v'', h6, h7⟩ := (C44_get_ref data (L a)).1 h.2.1
        rw [h4] at h6; cases h6
        have e := h3.unique h7
        subst e
        rw [ha] at h5
        refine ⟨_, ?_, wordsVal_writeBack h.1 h5⟩
        have hlen : u.words.length = v.words.length := by rw [h2.length_eq, h5.length_eq]
        rw [Indexed.assignFrom, h1, ok_bind]
        dsimp only
        unfold BitVecValue.assign
        rw [debugAssert_of (by rw [h2.width_eq, h5.width_eq]; simp), ok_bind, debugAssert_of (by rw [hlen]; simp), ok_bind,
          if_pos hlen, ok_bind]
      · rw [if_neg h]
        exact panics_bind (hpair.2 h) _
    | const d v =>
      show Becomes data.length (inPlace data (L d) fun x => BitVecValue.assignFromU64 m x v) _
      have key := agree_inPlace (data := data) hlt d (f := fun x => BitVecValue.assignFromU64 m x v)
        (g := fun _ => if m = .debug ∧ 2 ^ (L d).width ≤ v.toNat then none else some (v.toNat % 2 ^ (L d).width)) ?_
      · rw [Step.number, Instr.number]
        split
        · rename_i h
          simp only [if_pos h] at key
          unfold readNumber at key
          split at key <;> exact key
        · rename_i h
          simp only [if_neg h] at key
          rw [write_eq_read_write]
          exact key
      · intro x N hx
        obtain ⟨r, h1, h2⟩ := assignFromU64_eq m (hpos d) hx.slot v
        show Agree _ (BitVecValue.assignFromU64 m x v) _
        rw [h1]
        have h3 := h2.raw
        rw [BitVec.toNat_ofNat] at h3
        split
        · rename_i h
          rw [h.1]
          exact ⟨.debugAssert, by rw [decide_eq_false (show ¬ v.toNat < 2 ^ (L d).width by omega)]; rfl⟩
        · rename_i h
          refine ⟨r, ?_, h3⟩
          cases m with
          | debug => rw [debugAssert_decide_of (by simpa using h), ok_bind]
          | release => rfl
    | setBit d pos =>
      have key := agree_inPlace (data := data) hlt d (f := fun x => BitVecValue.setBit x pos)
        (g := fun N => if pos < capacity (L d).width then some (N ||| 2 ^ pos) else none) ?_
      · rw [Step.number, Instr.number]
        split
        · rename_i h
          simp only [if_pos h] at key
          exact key
        · rename_i h
          simp only [if_neg h] at key
          exact key
      · intro x N hx
        have h := C87_set_clear_bit hx pos
        split
        · rename_i hp
          rw [if_pos hp] at h
          obtain ⟨⟨r, M, h1, h2, h3⟩, -⟩ := h
          refine ⟨r, h1, ?_⟩
          have e : M = N ||| 2 ^ pos := by
            apply Nat.eq_of_testBit_eq
            intro i
            rw [h3, Nat.testBit_or, Nat.testBit_two_pow]
            by_cases hi : i = pos
            · subst hi; simp
            · rw [if_neg hi, decide_eq_false fun e => hi e.symm]; simp
          rw [← e]; exact h2
        · rename_i hp
          rw [if_neg hp] at h
          exact ⟨_, h.1⟩
    | clearBit d pos =>
      have key := agree_inPlace (data := data) hlt d (f := fun x => BitVecValue.clearBit x pos)
        (g := fun N => if pos < capacity (L d).width then some (N ^^^ (N &&& 2 ^ pos)) else none) ?_
      · rw [Step.number, Instr.number]
        split
        · rename_i h
          simp only [if_pos h] at key
          exact key
        · rename_i h
          simp only [if_neg h] at key
          exact key
      · intro x N hx
        have h := C87_set_clear_bit hx pos
        split
        · rename_i hp
          rw [if_pos hp] at h
          obtain ⟨-, r, M, h1, h2, h3⟩ := h
          refine ⟨r, h1, ?_⟩
          have e : M = N ^^^ (N &&& 2 ^ pos) := by
            apply Nat.eq_of_testBit_eq
            intro i
            rw [h3, Nat.testBit_xor, Nat.testBit_and, Nat.testBit_two_pow]
            by_cases hi : i = pos
            · subst hi; simp
            · rw [if_neg hi, decide_eq_false fun e => hi e.symm]; simp
          rw [← e]; exact h2
        · rename_i hp
          rw [if_neg hp] at h
          exact ⟨_, h.2⟩
    | clear d =>
      rw [Step.number, Instr.number, write_eq_read_write]
      exact agree_inPlace hlt d (g := fun _ => some 0) fun x N hx => ⟨_, rfl, (C26_clear hx.slot).raw⟩
    | ones d =>
      rw [Step.number, Instr.number, write_eq_read_write]
      refine agree_inPlace hlt d (g := fun _ => some (2 ^ (L d).width - 1)) fun x N hx => ?_
      obtain ⟨r, h1, h2⟩ := C26_assign_ones m (hpos d) hx.slot
      have h3 := h2.raw
      rw [BitVec.toNat_allOnes] at h3
      exact ⟨r, h1, h3⟩
  | ge d a b =>
    obtain ⟨hd, hab⟩ := hs
    refine agree_read2 hlt a b fun u v N M hu hv => ?_
    rw [← hab] at hv
    exact agree_bool m d hd ((C87_compare m hu hv).2.2.2.2.2.2.1 (hpos a))
  | le d a b =>
    obtain ⟨hd, hab⟩ := hs
    refine agree_read2 hlt a b fun u v N M hu hv => ?_
    rw [← hab] at hv
    exact agree_bool m d hd ((C87_compare m hu hv).2.2.2.2.2.2.2 (hpos a))
  | constSigned d v =>
    show Becomes data.length (inPlace data (L d) fun x => BitVecValue.assignFromI64 m x v) _
    have key := agree_inPlace (data := data) hlt d (f := fun x => BitVecValue.assignFromI64 m x v)
      (g := fun _ => if m = .debug ∧ ¬ FitsSigned v.toInt (L d).width then none else some (v.toInt % 2 ^ (L d).width).toNat) ?_
    · rw [Step.number]
      show Becomes _ _ (if m = .debug ∧ ¬ FitsSigned v.toInt (L d).width then _ else _)
      split
      · rename_i h
        simp only [if_pos h] at key
        unfold readNumber at key
        split at key <;> exact key
      · rename_i h
        simp only [if_neg h] at key
        rw [write_eq_read_write]
        exact key
    · intro x N hx
      obtain ⟨r, h1, h2⟩ := assignFromI64_eq m (hpos d) hx.slot v
      show Agree _ (BitVecValue.assignFromI64 m x v) _
      rw [h1]
      have h3 := h2.raw
      rw [BitVec.toNat_ofInt] at h3
      split
      · rename_i h
        rw [h.1]
        exact ⟨.debugAssert, by rw [decide_eq_false h.2]; rfl⟩
      · rename_i h
        refine ⟨r, ?_, by simpa using h3⟩
        cases m with
        | debug => rw [debugAssert_decide_of (Classical.not_not.mp fun hh => h ⟨rfl, hh⟩), ok_bind]
        | release => rfl
  | parse d t radix =>
    refine agree_inPlace hlt d (g := fun N => (assignOutcome radix (L d).width N t).left) fun x N hx => ?_
    have hlen : (numeralDigits t).length ≤ t.length := by
      unfold numeralDigits stripPlus stripMinus
      split <;> split <;> (try simp only [List.length_tail]) <;> omega
    have ht : t.length < 2 ^ 30 := hs
    have h := C88_assign_total m radix (L d).width N x t hx (fun _ _ => by omega) (fun _ _ => by omega)
    generalize assignOutcome radix (L d).width N t = o at h ⊢
    cases o with
    | stores k =>
      obtain ⟨r, h1, h2⟩ := h
      exact ⟨r, by rw [h1]; rfl, h2⟩
    | invalid k =>
      obtain ⟨r, h1, h2⟩ := h
      exact ⟨r, by rw [h1]; rfl, h2⟩
    | exceeds k =>
      obtain ⟨r, h1, h2⟩ := h
      exact ⟨r, by rw [h1]; rfl, h2⟩
    | panics => exact panics_bind h _
  | mask d =>
    refine agree_inPlace hlt d (g := fun N => some (N % 2 ^ (L d).width)) fun x N hx => ?_
    obtain ⟨r, h1, h2⟩ := C87_mask_msb m (hpos d) hx
    have h3 := h2.raw
    rw [BitVec.toNat_ofNat] at h3
    exact ⟨r, h1, h3⟩

/-- **C90** The outcome of every program on every buffer, in both build modes. -/
theorem C90_program (m : Mode) (hpos : ∀ k, 0 < (L k).width) (hlt : ∀ k, (L k).width < 2 ^ 32) (ss : List (Step n))
    (hs : ∀ s ∈ ss, s.Shaped L) (data : List Word) :
    BufferOutcome (runSteps L m data ss) data.length (programNumber L m data.length (wordsVal data) ss) := by
  induction ss generalizing data with
  | nil => exact ⟨data, rfl, rfl, rfl⟩
  | cons s ss ih =>
    have h := Step.agree m data hpos hlt s (hs s (by simp))
    rw [runSteps, programNumber]
    generalize s.number L m data.length (wordsVal data) = o at h ⊢
    cases o with
    | none => exact panics_bind h _
    | some B =>
      obtain ⟨data', h1, h2, h3⟩ := h
      have h4 := ih (fun s hs' => hs s (by simp [hs'])) data'
      rw [h1, ok_bind]
      rw [h2, h3] at h4
      exact h4

/-- **C90** Reading what has been written gives the number back, and reading a range that is apart from it is not affected. -/
theorem C90_peek_poke (B : Nat) (i : BitVecValueIndex) (N : Nat) (hN : N < 2 ^ capacity i.width) :
    peek (poke B i N) i = N ∧ ∀ j, Apart i j → peek (poke B i N) j = peek B j := by
  have hbit : ∀ k, (poke B i N).testBit k =
      if k < 64 * i.index then B.testBit k else if k < 64 * pastEnd i then N.testBit (k - 64 * i.index) else B.testBit k := by
    intro k
    have hp : 64 * pastEnd i = 64 * i.index + capacity i.width := by unfold pastEnd capacity; omega
    have h1 : B % 2 ^ (64 * i.index) < 2 ^ (64 * i.index) := Nat.mod_lt _ (Nat.two_pow_pos _)
    have e : poke B i N = 2 ^ (64 * i.index) * (2 ^ capacity i.width * (B >>> (64 * pastEnd i)) + N) + B % 2 ^ (64 * i.index) := by
      rw [poke, hp, Nat.pow_add, Nat.mul_add, Nat.mul_assoc]; omega
    rw [e, Nat.testBit_two_pow_mul_add _ h1, Nat.testBit_two_pow_mul_add _ hN, Nat.testBit_mod_two_pow, Nat.testBit_shiftRight, hp]
    by_cases h2 : k < 64 * i.index
    · rw [if_pos h2, if_pos h2, decide_eq_true h2]; rfl
    · rw [if_neg h2, if_neg h2]
      by_cases h3 : k < 64 * i.index + capacity i.width
      · rw [if_pos h3, if_pos (by omega)]
      · rw [if_neg h3, if_neg (by omega)]
        congr 1; omega
  constructor
  · apply Nat.eq_of_testBit_eq
    intro k
    rw [peek, Nat.testBit_mod_two_pow, Nat.testBit_shiftRight, hbit]
    by_cases h : k < capacity i.width
    · rw [decide_eq_true h, if_neg (by omega), if_pos (by unfold pastEnd; unfold capacity at h; omega), Nat.add_sub_cancel_left]; rfl
    · have hz : N.testBit k = false :=
        Nat.testBit_lt_two_pow (Nat.lt_of_lt_of_le hN (Nat.pow_le_pow_right (by decide) (by omega)))
      rw [decide_eq_false h, hz]; rfl
  · intro j hj
    apply Nat.eq_of_testBit_eq
    intro k
    rw [peek, peek, Nat.testBit_mod_two_pow, Nat.testBit_mod_two_pow, Nat.testBit_shiftRight, Nat.testBit_shiftRight, hbit]
    by_cases h : k < capacity j.width
    · unfold Apart pastEnd at *
      unfold capacity at h
      rcases hj with hj | hj
      · rw [if_neg (by omega), if_neg (by omega)]
      · rw [if_pos (by omega)]
    · rw [decide_eq_false h]; rfl

/-- **C90** A program that runs to its end in a debug build leaves the same buffer in a release build. -/
theorem C90_build_modes (hpos : ∀ k, 0 < (L k).width) (hlt : ∀ k, (L k).width < 2 ^ 32) (ss : List (Step n))
    (hs : ∀ s ∈ ss, s.Shaped L) {data data' : List Word} (h : runSteps L .debug data ss = ok data') :
    runSteps L .release data ss = ok data' := by
  have hstep : ∀ (s : Step n) (len B B' : Nat), s.number L .debug len B = some B' → s.number L .release len B = some B' := by
    intro s len B B' h
    cases s with
    | base i =>
      cases i with
      | const d v =>
        simp only [Step.number, Instr.number] at h ⊢
        split at h
        · cases h
        · simpa using h
      | _ => exact h
    | constSigned d v =>
      simp only [Step.number] at h ⊢
      split at h
      · cases h
      · simpa using h
    | _ => exact h
  have hprog : ∀ (ss : List (Step n)) (len B B' : Nat),
      programNumber L .debug len B ss = some B' → programNumber L .release len B ss = some B' := by
    intro ss
    induction ss with
    | nil => intro len B B' h; exact h
    | cons s ss ih =>
      intro len B B' h
      rw [programNumber] at h ⊢
      cases hc : s.number L .debug len B with
      | none => rw [hc] at h; cases h
      | some C =>
        rw [hc] at h
        rw [hstep s len B C hc]
        exact ih len C B' h
  have h1 := C90_program .debug hpos hlt ss hs data
  have h2 := C90_program .release hpos hlt ss hs data
  cases hc : programNumber L .debug data.length (wordsVal data) ss with
  | none =>
    rw [hc] at h1
    obtain ⟨p, hp⟩ := h1
    rw [h] at hp; cases hp
  | some B =>
    rw [hc] at h1
    rw [hprog ss _ _ _ hc] at h2
    obtain ⟨d1, e1, l1, v1⟩ := h1
    obtain ⟨d2, e2, l2, v2⟩ := h2
    rw [h] at e1; cases e1
    have e := wordsVal_inj (a := d2) (b := data') (by rw [l1, l2]) (by rw [v1, v2])
    rw [e2, e]

/-- Variables that overlap: 8 bits at word 0, 70 bits at words 0 and 1, 100 bits at words 1 and 2, one bit at word 7. -/
def overlapping : Fin 4 → BitVecValueIndex
  | 0 => ⟨0, 8⟩
  | 1 => ⟨0, 70⟩
  | 2 => ⟨1, 100⟩
  | 3 => ⟨7, 1⟩

/-- Stray bits in all words; the addition in place through overlapping ranges, a bit above the width, a text parsed in place. -/
def overlappingProgram : List (Step 4) :=
  [.base (.bin .and 1 1 1), .base (.setBit 1 127), .base (.bin .add 0 0 0), .base (.zext 2 1 30), .mask 1,
    .parse 2 [ch '-', ch '1'] 10]

example : (∀ s ∈ overlappingProgram, s.Shaped overlapping) ∧
    runSteps overlapping .debug [0xff81#64, 0xf0f0#64, 7#64, 9#64] overlappingProgram =
      ok [2#64, BitVec.allOnes 64, 0xfffffffff#64, 9#64] ∧
    programNumber overlapping .debug 4 (wordsVal [0xff81#64, 0xf0f0#64, 7#64, 9#64]) overlappingProgram =
      some (wordsVal [2#64, BitVec.allOnes 64, 0xfffffffff#64, 9#64]) ∧
    -- the range of the last variable leaves the buffer; a multiplication of 70 bits; a move between overlapping ranges
    programNumber overlapping .release 4 0 [.base (.clear 3)] = none ∧
    programNumber overlapping .release 4 0 [.base (.bin .mul 1 1 1)] = none ∧
    programNumber overlapping .release 4 0 [.base (.move 1 1)] = none ∧
    programNumber overlapping .release 4 0 [.base (.const 0 300#64)] = some 44 ∧
    programNumber overlapping .debug 4 0 [.base (.const 0 300#64)] = none := by
  refine ⟨?_, by decide +kernel, by decide +kernel, by decide +kernel, by decide +kernel, by decide +kernel, by decide +kernel,
    by decide +kernel⟩
  intro s hs
  simp only [overlappingProgram, List.mem_cons, List.not_mem_nil, or_false] at hs
  rcases hs with h | h | h | h | h | h <;> subst h <;> simp [Step.Shaped, overlapping]

end
end Baa

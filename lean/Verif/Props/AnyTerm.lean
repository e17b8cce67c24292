import Verif.Props.Extreme
import Verif.Props.MixedWidth
import Verif.Props.ZeroWidth
import Verif.Props.Modes
import Verif.Spec.Operands

/-!
# C104: every computation is predictable, legal or not

C86 predicts computations that are well-formed: equal widths where equal widths are needed, slices within the operand, no width of zero
and no width of `2^32` or more. Here nothing is assumed about how the operations are put together: for every expression that can be
written down, in both build modes, the prediction is a width and a number, or a panic.
-/

namespace Baa
open Res BitVecValue

/-! ## Binary operations -/

variable {w v N M : Nat} {a b : BitVecValue}

theorem Raw.nil (h : Raw a 0 N) : a = ⟨0, []⟩ ∧ N = 0 := by
  have h1 : a.words = [] := List.eq_nil_of_length_eq_zero (by rw [h.length_eq])
  have h2 := h.val_eq
  rw [h1] at h2
  obtain ⟨w', ws⟩ := a
  exact ⟨by rw [show w' = 0 from h.width_eq, show ws = [] from h1], h2.symm⟩

theorem raw_nothing : Raw ⟨0, []⟩ 0 0 := ⟨by decide, rfl, rfl, rfl⟩

theorem ofNothing_outcome (m : Mode) (op : MixedOp) (hb : Raw b v M) (hm : m = .debug → v = 0) :
    Outcome (op.runIn m ⟨0, []⟩ b) 0 (op.ofNothing v) := by
  by_cases hv : v = 0
  · subst hv
    obtain ⟨rfl, rfl⟩ := hb.nil
    cases op <;> cases m <;> first
      | exact ⟨_, rfl⟩
      | exact ⟨_, rfl, raw_nothing⟩
  · have hm : m = .release := by cases m with
      | debug => exact absurd (hm rfl) hv
      | release => rfl
    subst hm
    obtain ⟨b0, bs, hbw⟩ : ∃ b0 bs, b.words = b0 :: bs := List.exists_cons_of_ne_nil (hb.ne_nil (by omega))
    obtain ⟨bw, bws⟩ := b
    subst hbw
    cases op with
    | add => exact ⟨_, rfl⟩
    | sub => exact ⟨_, rfl⟩
    | mul => exact ⟨_, rfl⟩
    | and => exact ⟨_, rfl, raw_nothing⟩
    | or => exact ⟨_, rfl, raw_nothing⟩
    | xor => exact ⟨_, rfl, raw_nothing⟩
    | shiftLeft =>
      rw [show MixedOp.ofNothing v .shiftLeft = some 0 from if_neg hv]
      refine ⟨⟨0, []⟩, ?_, raw_nothing⟩
      simp [MixedOp.runIn, BitVecValue.shiftLeft, arithBin, Arith.shiftLeft, Arith.getShiftAmount, debugAssert, idx, valueVecZeros,
        divCeil, BITS, Arith.clear]
    | shiftRight =>
      rw [show MixedOp.ofNothing v .shiftRight = some 0 from if_neg hv]
      refine ⟨⟨0, []⟩, ?_, raw_nothing⟩
      simp [MixedOp.runIn, BitVecValue.shiftRight, arithBin, Arith.shiftRight, Arith.getShiftAmount, debugAssert, idx, valueVecZeros,
        divCeil, BITS, Arith.clear]
    | arithmeticShiftRight =>
      refine ⟨.unwrap, ?_⟩
      simp [MixedOp.runIn, BitVecValue.arithmeticShiftRight, arithBin, Arith.arithmeticShiftRight, Arith.shiftRight,
        Arith.getShiftAmount, debugAssert, idx, valueVecZeros, divCeil, BITS, Arith.clear, Arith.isNeg, subC, lastU]
    | assign =>
      rw [show MixedOp.ofNothing v .assign = none from if_neg hv]
      exact ⟨_, rfl⟩

theorem arithBin_byNothing {f : List Word → List Word → List Word → Nat → Res (List Word)} (hw : 0 < w) (ha : Raw a w N) :
    (w ≤ 64 → Panics (arithBin .release f a ⟨0, []⟩)) ∧
    (64 < w → arithBin .release f a ⟨0, []⟩ = do let out ← f (valueVecZeros w) a.words [] w; ok ⟨w, out⟩) := by
  constructor
  · intro h
    have hl : a.words.length = 1 := by rw [ha.length_eq]; omega
    unfold arithBin
    rw [show ∀ c, debugAssert .release c = ok () from fun _ => rfl, ok_bind, show ∀ c, debugAssert .release c = ok () from fun _ => rfl,
      ok_bind]
    dsimp only
    rw [if_pos hl, sliceR_full hl]
    exact panics_bind (panics_modifyRange fun o => ⟨.bounds, rfl⟩) _
  · intro h
    unfold arithBin
    rw [show ∀ c, debugAssert .release c = ok () from fun _ => rfl, ok_bind, show ∀ c, debugAssert .release c = ok () from fun _ => rfl,
      ok_bind]
    dsimp only
    rw [if_neg (by rw [ha.length_eq]; omega), ha.width_eq]

theorem bitArithBin_byNothing {f : Word → Word → Word} (hw : 0 < w) (ha : Raw a w N) :
    Outcome (bitArithBin .release (Arith.bitwiseBinOp f) a ⟨0, []⟩) w (if w ≤ 64 then none else some 0) := by
  unfold bitArithBin
  rw [show ∀ c, debugAssert .release c = ok () from fun _ => rfl, ok_bind, show ∀ c, debugAssert .release c = ok () from fun _ => rfl,
    ok_bind]
  dsimp only
  by_cases h : w ≤ 64
  · have hl : a.words.length = 1 := by rw [ha.length_eq]; omega
    rw [if_pos h, if_pos hl, sliceR_full hl]
    exact panics_bind (panics_modifyRange fun o => ⟨.bounds, rfl⟩) _
  · rw [if_neg h, if_neg (by rw [ha.length_eq]; omega), ha.width_eq, ok_bind]
    refine ⟨_, rfl, ha.width_lt, rfl, ?_, ?_⟩
    · show (Arith.bitwiseBinOp f (valueVecZeros w) a.words []).length = _
      rw [show Arith.bitwiseBinOp f (valueVecZeros w) a.words [] = valueVecZeros w by
        cases valueVecZeros w <;> cases a.words <;> rfl, length_valueVecZeros]
    · show wordsVal (Arith.bitwiseBinOp f (valueVecZeros w) a.words []) = _
      rw [show Arith.bitwiseBinOp f (valueVecZeros w) a.words [] = valueVecZeros w by
        cases valueVecZeros w <;> cases a.words <;> rfl]
      exact wordsVal_replicate_zero _

theorem mask_zeros (hw : 0 < w) (hlt : w < 2 ^ 32) :
    ∃ r, (do let out ← Arith.maskMsb .release (valueVecZeros w) w; ok (⟨w, out⟩ : BitVecValue)) = ok r ∧ Raw r w 0 := by
  obtain ⟨r, h1, h2, h3⟩ := Arith.maskMsb_spec (m := .release) (dst := valueVecZeros w) (length_valueVecZeros w) hw
  refine ⟨⟨w, r⟩, by rw [h1, ok_bind], hlt, rfl, by rw [h2, length_valueVecZeros], ?_⟩
  rw [h3, show wordsVal (valueVecZeros w) = 0 from wordsVal_replicate_zero _, Nat.zero_mod]

theorem byNothing_outcome (op : MixedOp) (hw : 0 < w) (ha : Raw a w N) :
    Outcome (op.runIn .release a ⟨0, []⟩) w (op.byNothing w) := by
  have hp : ∀ {f : List Word → List Word → List Word → Nat → Res (List Word)}, (∀ d x, Panics (f d x [] w)) →
      Panics (arithBin .release f a ⟨0, []⟩) := fun {f} hf => by
    by_cases h : w ≤ 64
    · exact (arithBin_byNothing hw ha).1 h
    · rw [(arithBin_byNothing hw ha).2 (by omega)]
      exact panics_bind (hf _ _) _
  cases op with
  | add =>
    by_cases h : w ≤ 64
    · rw [show MixedOp.byNothing w .add = none from if_pos h]
      exact (arithBin_byNothing hw ha).1 h
    · rw [show MixedOp.byNothing w .add = some 0 from if_neg h]
      have := (arithBin_byNothing (f := Arith.add .release) hw ha).2 (by omega)
      unfold Arith.add at this
      rw [show Arith.addLoop 0 (valueVecZeros w) a.words [] = valueVecZeros w by
        cases valueVecZeros w <;> cases a.words <;> rfl] at this
      obtain ⟨r, h1, h2⟩ := mask_zeros hw ha.width_lt
      exact ⟨r, this.trans h1, h2⟩
  | sub =>
    by_cases h : w ≤ 64
    · rw [show MixedOp.byNothing w .sub = none from if_pos h]
      exact (arithBin_byNothing hw ha).1 h
    · rw [show MixedOp.byNothing w .sub = some 0 from if_neg h]
      have := (arithBin_byNothing (f := Arith.sub .release) hw ha).2 (by omega)
      unfold Arith.sub at this
      rw [show Arith.subLoop 1 (valueVecZeros w) a.words [] = valueVecZeros w by
        cases valueVecZeros w <;> cases a.words <;> rfl] at this
      obtain ⟨r, h1, h2⟩ := mask_zeros hw ha.width_lt
      exact ⟨r, this.trans h1, h2⟩
  | mul =>
    refine hp fun d x => ?_
    unfold Arith.mul
    by_cases h : w ≤ BITS
    · rw [if_pos h]
      exact panics_bind_all _ fun _ => ⟨.bounds, rfl⟩
    · rw [if_neg h]
      exact ⟨_, rfl⟩
  | and => exact bitArithBin_byNothing hw ha
  | or => exact bitArithBin_byNothing hw ha
  | xor => exact bitArithBin_byNothing hw ha
  | shiftLeft => exact hp fun d x => ⟨.bounds, rfl⟩
  | shiftRight =>
    exact hp (f := fun d x y w => do let r ← Arith.shiftRight .release d x y w; ok r.1) fun d x => ⟨.bounds, rfl⟩
  | arithmeticShiftRight => exact hp fun d x => ⟨.bounds, rfl⟩
  | assign =>
    refine ⟨.lenMismatch, ?_⟩
    show (if a.words.length = 0 then _ else _) = _
    rw [if_neg (by rw [ha.length_eq]; omega)]

/-- For equal positive widths the build mode does not matter. -/
theorem runIn_modes (op : MixedOp) (hw : 0 < w) (ha : Raw a w N) (hb : Raw b w M) :
    (∃ r, op.runIn .debug a b = ok r ∧ op.run a b = ok r) ∨ (Panics (op.runIn .debug a b) ∧ Panics (op.run a b)) := by
  obtain ⟨w1, as⟩ := a
  obtain ⟨w2, bs⟩ := b
  obtain rfl : w1 = w := ha.width_eq
  obtain rfl : w2 = w1 := hb.width_eq
  have h1 : (Expr.leaf ⟨w2, as⟩).Shaped := ⟨hw, ha.width_lt, ha.length_eq⟩
  have h2 : (Expr.leaf ⟨w2, bs⟩).Shaped := ⟨hw, hb.width_lt, hb.length_eq⟩
  cases op with
  | add => exact C86_modes (.add (.leaf ⟨w2, as⟩) (.leaf ⟨w2, bs⟩)) ⟨h1, h2⟩
  | sub => exact C86_modes (.sub (.leaf ⟨w2, as⟩) (.leaf ⟨w2, bs⟩)) ⟨h1, h2⟩
  | mul => exact C86_modes (.mul (.leaf ⟨w2, as⟩) (.leaf ⟨w2, bs⟩)) ⟨h1, h2⟩
  | and => exact C86_modes (.and (.leaf ⟨w2, as⟩) (.leaf ⟨w2, bs⟩)) ⟨h1, h2⟩
  | or => exact C86_modes (.or (.leaf ⟨w2, as⟩) (.leaf ⟨w2, bs⟩)) ⟨h1, h2⟩
  | xor => exact C86_modes (.xor (.leaf ⟨w2, as⟩) (.leaf ⟨w2, bs⟩)) ⟨h1, h2⟩
  | shiftLeft => exact C86_modes (.shl (.leaf ⟨w2, as⟩) (.leaf ⟨w2, bs⟩)) ⟨h1, h2⟩
  | shiftRight => exact C86_modes (.shr (.leaf ⟨w2, as⟩) (.leaf ⟨w2, bs⟩)) ⟨h1, h2⟩
  | arithmeticShiftRight => exact C86_modes (.ashr (.leaf ⟨w2, as⟩) (.leaf ⟨w2, bs⟩)) ⟨h1, h2⟩
  | assign =>
    have hl : as.length = bs.length := by rw [show as.length = _ from ha.length_eq, show bs.length = _ from hb.length_eq]
    exact .inl ⟨⟨w2, bs⟩, by simp [MixedOp.runIn, BitVecValue.assign, debugAssert, hl], by
      simp [MixedOp.run, BitVecValue.assign, debugAssert, hl]⟩

/-- **C104** (binary operations): the outcome for every pair of values. -/
theorem C104_operation (m : Mode) (op : MixedOp) (ha : Raw a w N) (hb : Raw b v M) :
    Outcome (op.runIn m a b) w (op.outcome m w v N M) := by
  unfold MixedOp.outcome
  by_cases hd : m = .debug ∧ w ≠ v
  · rw [if_pos hd, hd.1]
    have h1 : (a.width == b.width) = false := by rw [ha.width_eq, hb.width_eq]; simpa using hd.2
    have h2 : Panics (debugAssert .debug (a.width == b.width)) := debugAssert_panics h1
    cases op <;> exact panics_bind h2 _
  · rw [if_neg hd]
    have hm : m = .debug → w = v := fun h => Classical.byContradiction fun h' => hd ⟨h, h'⟩
    by_cases hw : w = 0
    · subst hw
      rw [if_pos rfl, ha.nil.1]
      exact ofNothing_outcome m op hb fun h => (hm h).symm
    · rw [if_neg hw]
      by_cases hv : v = 0
      · subst hv
        have hm : m = .release := by cases m with
          | debug => exact absurd (hm rfl) hw
          | release => rfl
        rw [if_pos rfl, hm, hb.nil.1]
        exact byNothing_outcome op (by omega) ha
      · rw [if_neg hv]
        have h := C92_operation op (by omega) (by omega) ha hb
        cases m with
        | release => cases op <;> exact h
        | debug =>
          obtain rfl := hm rfl
          cases ho : op.number w w N M with
          | none =>
            rw [ho] at h
            rcases runIn_modes op (by omega) ha hb with ⟨r, _, h2⟩ | ⟨h1, _⟩
            · obtain ⟨p, hp⟩ := h
              rw [h2] at hp
              cases hp
            · exact h1
          | some K =>
            rw [ho] at h
            obtain ⟨r, h1, h2⟩ := h
            rcases runIn_modes op (by omega) ha hb with ⟨r', h3, h4⟩ | ⟨_, ⟨p, hp⟩⟩
            · rw [h1] at h4
              cases h4
              exact ⟨r, h3, h2⟩
            · rw [h1] at hp
              cases hp

/-! ## Comparisons -/

/-- `is_greater` and `is_greater_or_equal` if one operand has zero bits. -/
theorem greater_withNothing (h : w = 0 ∨ v = 0) (ha : Raw a w N) (hb : Raw b v M) :
    (0 < w ∧ w ≤ 64 → Panics (BitVecValue.isGreater .release a b) ∧ Panics (BitVecValue.isGreaterOrEqual .release a b)) ∧
    (¬ (0 < w ∧ w ≤ 64) → BitVecValue.isGreater .release a b = ok false ∧ BitVecValue.isGreaterOrEqual .release a b = ok false) := by
  have hs : assertSame .release a b = ok () := rfl
  constructor
  · intro h1
    obtain rfl : v = 0 := by omega
    have hl : a.words.length = 1 := by rw [ha.length_eq]; omega
    unfold BitVecValue.isGreater BitVecValue.isGreaterOrEqual
    rw [hs, ok_bind, ok_bind, if_pos hl, if_pos hl, sliceR_full hl, hb.nil.1]
    exact ⟨⟨.bounds, rfl⟩, ⟨.bounds, rfl⟩⟩
  · intro h1
    have hg : Arith.cmpGreater a.words b.words = false := by
      unfold Arith.cmpGreater Arith.isGreaterAndNotLess
      rcases h with rfl | rfl
      · rw [ha.nil.1]
        rfl
      · rw [hb.nil.1]
        cases a.words.reverse <;> rfl
    unfold BitVecValue.isGreater BitVecValue.isGreaterOrEqual
    rw [hs, ok_bind, ok_bind, if_neg (by rw [ha.length_eq]; omega), if_neg (by rw [ha.length_eq]; omega), hg]
    exact ⟨rfl, rfl⟩

theorem isNeg_nothing (m : Mode) (w : Nat) : Panics (Arith.isNeg m [] w) := by
  unfold Arith.isNeg
  exact panics_bind_all _ fun _ => ⟨.unwrap, rfl⟩

/-- The signed comparisons panic if one operand has zero bits. -/
theorem signed_withNothing (m : Mode) (h : w = 0 ∨ v = 0) (ha : Raw a w N) (hb : Raw b v M) :
    Panics (BitVecValue.isGreaterSigned m a b) ∧ Panics (BitVecValue.isGreaterOrEqualSigned m a b) := by
  have hc : Panics (Arith.cmpGreaterSigned m a.words b.words a.width) ∧ Panics (Arith.cmpGreaterEqualSigned m a.words b.words a.width) := by
    unfold Arith.cmpGreaterSigned Arith.cmpGreaterEqualSigned
    rcases h with rfl | rfl
    · rw [ha.nil.1]
      exact ⟨panics_bind (isNeg_nothing _ _) _, panics_bind (isNeg_nothing _ _) _⟩
    · rw [hb.nil.1]
      exact ⟨panics_bind_all _ fun _ => panics_bind (isNeg_nothing _ _) _, panics_bind_all _ fun _ => panics_bind (isNeg_nothing _ _) _⟩
  unfold BitVecValue.isGreaterSigned BitVecValue.isGreaterOrEqualSigned
  by_cases hl : a.words.length = 1
  · rw [if_pos hl, if_pos hl, sliceR_full hl, ok_bind, ok_bind]
    obtain rfl : v = 0 := by have := ha.length_eq; omega
    rw [hb.nil.1]
    exact ⟨panics_bind_all _ fun _ => ⟨.bounds, rfl⟩, panics_bind_all _ fun _ => ⟨.bounds, rfl⟩⟩
  · rw [if_neg hl, if_neg hl]
    exact ⟨panics_bind_all _ fun _ => hc.1, panics_bind_all _ fun _ => hc.2⟩

/-- For equal widths the build mode does not matter. -/
theorem cmp_modes (op : MixedCmp) (ha : Raw a w N) (hb : Raw b w M) (hw : 0 < w) : op.runIn .debug a b = op.run a b := by
  obtain ⟨e1, e2, e3, e4, e5, e6, e7, e8⟩ := C87_compare .debug ha hb
  obtain ⟨r1, r2, r3, r4, r5, r6, r7, r8⟩ := C87_compare .release ha hb
  cases op with
  | equal => exact e1.trans r1.symm
  | notEqual => exact e2.trans r2.symm
  | greater => exact e3.trans r3.symm
  | less => exact e4.trans r4.symm
  | eqOwned => exact e5.trans r5.symm
  | eqRef => exact e6.trans r6.symm
  | greaterOrEqual => exact (e7 hw).trans (r7 hw).symm
  | lessOrEqual => exact (e8 hw).trans (r8 hw).symm
  | greaterSigned => exact (raw_sgt .debug hw ha hb).trans (raw_sgt .release hw ha hb).symm
  | greaterOrEqualSigned => exact (raw_sge .debug hw ha hb).trans (raw_sge .release hw ha hb).symm
  | lessSigned => exact (raw_sgt .debug hw hb ha).trans (raw_sgt .release hw hb ha).symm
  | lessOrEqualSigned => exact (raw_sge .debug hw hb ha).trans (raw_sge .release hw hb ha).symm

/-- `==` of owned values and of references, for values of any widths in both build modes. -/
theorem eq_answers (m : Mode) (ha : Raw a w N) (hb : Raw b v M) :
    BitVecValue.eqOwned m a b = ok (decide (w = v ∧ N = M)) ∧ BitVecValue.eqRef m a b = ok (decide (w = v ∧ N = M)) := by
  by_cases hwv : w = v
  · subst hwv
    obtain ⟨_, _, _, _, h5, h6, _, _⟩ := C87_compare m ha hb
    rw [h5, h6]
    simp
  · have h1 : ¬ b.width = a.width := by rw [ha.width_eq, hb.width_eq]; exact fun h => hwv h.symm
    have h2 : (b.width == a.width) = false := by simpa using h1
    rw [decide_eq_false fun h => hwv h.1]
    constructor
    · unfold BitVecValue.eqOwned
      rw [h2, show (b.width != a.width) = true by simpa using h1]
      cases m <;> rfl
    · unfold BitVecValue.eqRef
      rw [if_neg h1]

theorem withNothing_answers (op : MixedCmp) (h : w = 0 ∨ v = 0) (ha : Raw a w N) (hb : Raw b v M) :
    Answers (op.runIn .release a b) (op.withNothing w v) := by
  have heq : Arith.cmpEqual a.words b.words = true := by
    unfold Arith.cmpEqual
    rcases h with rfl | rfl
    · rw [ha.nil.1]; rfl
    · rw [hb.nil.1, List.zip_nil_right]; rfl
  have g := greater_withNothing h ha hb
  have g' := greater_withNothing h.symm hb ha
  have s := signed_withNothing .release h ha hb
  have s' := signed_withNothing .release h.symm hb ha
  have hwv : decide (w = v ∧ N = M) = decide (w = v) := by
    by_cases hwv : w = v
    · subst hwv
      obtain rfl : w = 0 := by omega
      rw [ha.nil.2, hb.nil.2]
      rfl
    · rw [decide_eq_false hwv, decide_eq_false fun h => hwv h.1]
  cases op with
  | equal => show (do assertSame .release a b; ok (Arith.cmpEqual a.words b.words)) = _; rw [heq]; rfl
  | notEqual =>
    show (do let e ← (do assertSame .release a b; ok (Arith.cmpEqual a.words b.words)); ok (!e)) = _
    rw [heq]; rfl
  | greater =>
    by_cases hc : 0 < w ∧ w ≤ 64
    · rw [show MixedCmp.withNothing w v .greater = none from if_pos hc]; exact (g.1 hc).1
    · rw [show MixedCmp.withNothing w v .greater = some false from if_neg hc]; exact (g.2 hc).1
  | greaterOrEqual =>
    by_cases hc : 0 < w ∧ w ≤ 64
    · rw [show MixedCmp.withNothing w v .greaterOrEqual = none from if_pos hc]; exact (g.1 hc).2
    · rw [show MixedCmp.withNothing w v .greaterOrEqual = some false from if_neg hc]; exact (g.2 hc).2
  | less =>
    by_cases hc : 0 < v ∧ v ≤ 64
    · rw [show MixedCmp.withNothing w v .less = none from if_pos hc]; exact (g'.1 hc).1
    · rw [show MixedCmp.withNothing w v .less = some false from if_neg hc]; exact (g'.2 hc).1
  | lessOrEqual =>
    by_cases hc : 0 < v ∧ v ≤ 64
    · rw [show MixedCmp.withNothing w v .lessOrEqual = none from if_pos hc]; exact (g'.1 hc).2
    · rw [show MixedCmp.withNothing w v .lessOrEqual = some false from if_neg hc]; exact (g'.2 hc).2
  | greaterSigned => exact s.1
  | greaterOrEqualSigned => exact s.2
  | lessSigned => exact s'.1
  | lessOrEqualSigned => exact s'.2
  | eqOwned => exact (eq_answers .release ha hb).1.trans (congrArg ok hwv)
  | eqRef => exact (eq_answers .release ha hb).2.trans (congrArg ok hwv)

/-- **C104** (comparisons): the answer for every pair of values. -/
theorem C104_comparison (m : Mode) (op : MixedCmp) (ha : Raw a w N) (hb : Raw b v M) :
    Answers (op.runIn m a b) (op.outcome m w v N M) := by
  by_cases ho : op = .eqOwned ∨ op = .eqRef
  · rcases ho with rfl | rfl
    · exact (eq_answers m ha hb).1
    · exact (eq_answers m ha hb).2
  · have h1 : op.outcome m w v N M = if m = .debug ∧ w ≠ v then none
        else if w = 0 ∨ v = 0 then op.withNothing w v else some (op.answer w v N M) := by
      cases op <;> first
        | rfl
        | exact absurd (.inl rfl) ho
        | exact absurd (.inr rfl) ho
    rw [h1]
    by_cases hd : m = .debug ∧ w ≠ v
    · rw [if_pos hd, hd.1]
      have h2 : a.width ≠ b.width := by rw [ha.width_eq, hb.width_eq]; exact hd.2
      cases op <;> first
        | exact panics_bind (assertSame_panics h2) _
        | exact panics_bind (panics_bind (assertSame_panics h2) _) _
        | exact panics_bind (assertSame_panics h2.symm) _
        | exact absurd (.inl rfl) ho
        | exact absurd (.inr rfl) ho
    · rw [if_neg hd]
      have hm : m = .debug → w = v := fun h => Classical.byContradiction fun h' => hd ⟨h, h'⟩
      by_cases h0 : w = 0 ∨ v = 0
      · rw [if_pos h0]
        cases m with
        | release => exact withNothing_answers op h0 ha hb
        | debug =>
          obtain rfl := hm rfl
          obtain rfl : w = 0 := by omega
          have := withNothing_answers op h0 ha hb
          obtain ⟨rfl, rfl⟩ := ha.nil
          obtain ⟨rfl, rfl⟩ := hb.nil
          cases op <;> first
            | exact this
            | exact ⟨_, rfl⟩
      · rw [if_neg h0]
        have := C92_comparison op (by omega) (by omega) ha hb
        cases m with
        | release => cases op <;> exact this
        | debug =>
          obtain rfl := hm rfl
          exact (cmp_modes op ha hb (by omega)).trans this

/-! ## Operations on one value -/

/-- **C104** (questions). -/
theorem C104_test (m : Mode) (op : Test) (ha : Raw a w N) : Answers (op.run m a) (op.outcome w N) := by
  cases op with
  | negative =>
    by_cases hw : w = 0
    · subst hw
      rw [show Test.outcome 0 N .negative = none from rfl, ha.nil.1]
      exact isNeg_nothing m 0
    · rw [show Test.outcome w N .negative = some (N.testBit (w - 1)) from if_neg hw]
      exact (C87_bits m ha).1 (by omega)
  | zero => exact congrArg ok (C87_is_zero ha)
  | tru => exact (C87_bools ha).1
  | fals => exact (C87_bools ha).2.1
  | bit pos =>
    have := (C87_bits m ha).2 pos
    by_cases hp : pos < capacity w
    · rw [show Test.outcome w N (.bit pos) = some (N.testBit pos) from if_pos hp]
      rw [if_pos hp] at this
      exact this
    · rw [show Test.outcome w N (.bit pos) = none from if_neg hp]
      rw [if_neg hp] at this
      exact ⟨_, this⟩

/-- **C104** (operations on one value). -/
theorem C104_unary (m : Mode) (op : UnOp) (hargs : op.Args) (ha : Raw a w N) : Gives (op.run m a) (op.outcome m w N) := by
  have hnil : w = 0 → (∀ f ∈ [BitVecValue.not m, BitVecValue.negate m, BitVecValue.maskMsb m, BitVecValue.assignOnes m], Panics (f a)) := by
    intro h
    subst h
    rw [ha.nil.1]
    have hd : Denotes ⟨0, []⟩ 0#0 := ⟨by decide, rfl, rfl, rfl⟩
    exact (C82_panics m hd hd).2.1
  cases op with
  | not =>
    by_cases hw : w = 0
    · rw [show UnOp.outcome m w N .not = none from if_pos hw]
      exact hnil hw (BitVecValue.not m) (by simp)
    · rw [show UnOp.outcome m w N .not = some (w, (~~~low w N).toNat) from if_neg hw]
      obtain ⟨r, h1, h2⟩ := C77_not_partial m (by omega) ha.shows
      exact ⟨r, h1, h2.raw⟩
  | negate =>
    by_cases hw : w = 0
    · rw [show UnOp.outcome m w N .negate = none from if_pos hw]
      exact hnil hw (BitVecValue.negate m) (by simp)
    · rw [show UnOp.outcome m w N .negate = some (w, (-low w N).toNat) from if_neg hw]
      obtain ⟨r, h1, h2⟩ := C77_negate_partial m (by omega) ha.shows
      exact ⟨r, h1, h2.raw⟩
  | maskMsb =>
    by_cases hw : w = 0
    · rw [show UnOp.outcome m w N .maskMsb = none from if_pos hw]
      exact hnil hw (BitVecValue.maskMsb m) (by simp)
    · rw [show UnOp.outcome m w N .maskMsb = some (w, N % 2 ^ w) from if_neg hw]
      obtain ⟨r, h1, h2⟩ := C87_mask_msb m (by omega) ha
      exact ⟨r, h1, by simpa using h2.raw⟩
  | clear =>
    refine ⟨_, rfl, ha.width_lt, ha.width_eq, ?_, ?_⟩
    · rw [← ha.length_eq]; simp [BitVecValue.clear]
    · show wordsVal (a.words.map fun _ => 0#64) = 0
      rw [List.map_const', wordsVal_replicate_zero]
  | assignOnes =>
    by_cases hw : w = 0
    · rw [show UnOp.outcome m w N .assignOnes = none from if_pos hw]
      exact hnil hw (BitVecValue.assignOnes m) (by simp)
    · rw [show UnOp.outcome m w N .assignOnes = some (w, 2 ^ w - 1) from if_neg hw]
      obtain ⟨r, h1, h2⟩ := C26_assign_ones m (by omega) (s := a) ⟨ha.width_lt, ha.width_eq, ha.length_eq⟩
      exact ⟨r, h1, by simpa using h2.raw⟩
  | setBit pos =>
    have := C87_set_clear_bit ha pos
    by_cases hp : pos < capacity w
    · rw [if_pos hp] at this
      obtain ⟨⟨r, K, h1, h2, h3⟩, _⟩ := this
      rw [show UnOp.outcome m w N (.setBit pos) = some (w, N ||| 2 ^ pos) from if_pos hp]
      obtain rfl : K = N ||| 2 ^ pos := Nat.eq_of_testBit_eq fun i => by
        rw [h3, Nat.testBit_or, Nat.testBit_two_pow]
        by_cases hi : i = pos
        · subst hi; simp
        · rw [if_neg hi, decide_eq_false (fun h => hi h.symm), Bool.or_false]
      exact ⟨r, h1, h2⟩
    · rw [if_neg hp] at this
      rw [show UnOp.outcome m w N (.setBit pos) = none from if_neg hp]
      exact ⟨_, this.1⟩
  | clearBit pos =>
    have := C87_set_clear_bit ha pos
    by_cases hp : pos < capacity w
    · rw [if_pos hp] at this
      obtain ⟨_, ⟨r, K, h1, h2, h3⟩⟩ := this
      rw [show UnOp.outcome m w N (.clearBit pos) = some (w, if N.testBit pos then N ^^^ 2 ^ pos else N) from if_pos hp]
      obtain rfl : K = if N.testBit pos then N ^^^ 2 ^ pos else N := Nat.eq_of_testBit_eq fun i => by
        rw [h3]
        by_cases hb : N.testBit pos = true
        · rw [if_pos hb, Nat.testBit_xor, Nat.testBit_two_pow]
          by_cases hi : i = pos
          · subst hi; rw [if_pos rfl, hb]; simp
          · rw [if_neg hi, decide_eq_false (fun h => hi h.symm), Bool.xor_false]
        · rw [if_neg hb]
          by_cases hi : i = pos
          · subst hi; simpa using hb
          · rw [if_neg hi]
      exact ⟨r, h1, h2⟩
    · rw [if_neg hp] at this
      rw [show UnOp.outcome m w N (.clearBit pos) = none from if_neg hp]
      exact ⟨_, this.2⟩
  | zeroExtend n => exact C103_zero_extend m ha hargs
  | signExtend n => exact C103_sign_extend m ha hargs
  | slice msb lsb => exact C103_slice m ha hargs.1 hargs.2

/-! ## Expressions -/

theorem gives_bind {x : Res BitVecValue} {o : Option (Nat × Nat)} {f : BitVecValue → Res BitVecValue} {g : Nat × Nat → Option (Nat × Nat)}
    (hx : Gives x o) (h : ∀ {a w N}, Raw a w N → Gives (f a) (g (w, N))) : Gives (do let a ← x; f a) (do let p ← o; g p) := by
  cases o with
  | none => exact panics_bind hx _
  | some p =>
    obtain ⟨a, rfl, ha⟩ := hx
    exact h ha

theorem gives_of_outcome {x : Res BitVecValue} {o : Option Nat} (h : Outcome x w o) : Gives x (do let N ← o; some (w, N)) := by
  cases o with
  | none => exact h
  | some N => exact h

theorem gives_of_answers (m : Mode) {x : Res Bool} {o : Option Bool} (h : Answers x o) :
    Gives (do let r ← x; BitVecValue.fromBool m r) (do let r ← o; some (1, r.toNat)) := by
  cases o with
  | none => exact panics_bind h _
  | some c =>
    rw [show x = ok c from h]
    exact raw_from_bool m c

/-- **C104**: the outcome of every expression. -/
theorem C104_term (m : Mode) : (t : Term) → t.Sane → Gives (t.run m) (t.predict m)
  | .value v, h => ⟨v, rfl, h.1, rfl, h.2, rfl⟩
  | .un op a, h => gives_bind (C104_term m a h.2) fun ha => C104_unary m op h.1 ha
  | .bin op a b, h => gives_bind (C104_term m a h.1) fun ha => gives_bind (C104_term m b h.2) fun hb =>
    gives_of_outcome (C104_operation m op ha hb)
  | .concat a b, h => gives_bind (C104_term m a h.1) fun ha => gives_bind (C104_term m b h.2) fun hb => C103_concat m ha hb
  | .cmp op a b, h => gives_bind (C104_term m a h.1) fun ha => gives_bind (C104_term m b h.2) fun hb =>
    gives_of_answers m (C104_comparison m op ha hb)
  | .test op a, h => gives_bind (C104_term m a h) fun ha => gives_of_answers m (C104_test m op ha)
  | .ite c a b, h => gives_bind (C104_term m c h.1) fun {x w N} hx => by
    have ha := C104_term m a h.2.1
    have hb := C104_term m b h.2.2
    rw [(C87_bools hx).1, ok_bind]
    by_cases hc : w = 1 ∧ N = 1
    · rw [decide_eq_true hc, if_pos rfl, if_pos (by rw [hc.1, hc.2])]
      exact ha
    · rw [decide_eq_false hc, if_neg (by decide), if_neg (by simpa using hc)]
      exact hb

/-- The prediction is complete: the result of an evaluation is the predicted one. -/
theorem C104_result (m : Mode) (t : Term) (h : t.Sane) (r : BitVecValue) :
    t.run m = ok r ↔ Raw r r.width (wordsVal r.words) ∧ t.predict m = some (r.width, wordsVal r.words) := by
  have := C104_term m t h
  cases hp : t.predict m with
  | none =>
    rw [hp] at this
    obtain ⟨p, hp⟩ := this
    rw [hp]
    exact ⟨fun h => (by cases h), fun h => (by cases h.2)⟩
  | some x =>
    obtain ⟨W, V⟩ := x
    rw [hp] at this
    obtain ⟨r', h1, h2⟩ := this
    rw [h1]
    constructor
    · intro h
      cases h
      rw [h2.width_eq, h2.val_eq]
      exact ⟨h2, rfl⟩
    · rintro ⟨h3, h4⟩
      have h5 := Option.some.inj h4
      rw [Prod.mk.injEq] at h5
      congr 1
      obtain ⟨rw, rws⟩ := r
      obtain ⟨rw', rws'⟩ := r'
      have e1 : rw' = rw := h2.width_eq.trans h5.1
      subst e1
      congr 1
      refine wordsVal_inj ?_ (h2.val_eq.trans h5.2)
      rw [show rws'.length = _ from h2.length_eq, show rws.length = _ from h3.length_eq, ← h5.1]

/-- Two expressions with the same prediction give the same value. -/
theorem C104_equal (m m' : Mode) (s t : Term) (hs : s.Sane) (ht : t.Sane) (h : s.predict m = t.predict m') :
    (∃ r, s.run m = ok r ∧ t.run m' = ok r) ∨ (Panics (s.run m) ∧ Panics (t.run m')) := by
  have h1 := C104_term m s hs
  have h2 := C104_term m' t ht
  cases hp : t.predict m' with
  | none =>
    rw [h, hp] at h1
    rw [hp] at h2
    exact .inr ⟨h1, h2⟩
  | some x =>
    rw [hp] at h2
    obtain ⟨r, h3, h4⟩ := h2
    refine .inl ⟨r, (C104_result m s hs r).mpr ?_, h3⟩
    have := (C104_result m' t ht r).mp h3
    exact ⟨this.1, h.trans this.2⟩

/-! ## Examples -/

/-- The sum of a 70-bit value and a value of zero bits, sliced one bit beyond the width, compared with an 8-bit value: a debug build panics
at the sum; a release build forgets the 70-bit value. -/
def strangeTerm : Term :=
  .cmp .greaterOrEqual (.un (.slice 70 3) (.bin .add (.value ⟨70, [5#64, 1#64]⟩) (.value ⟨0, []⟩))) (.value ⟨8, [0#64]⟩)

example : strangeTerm.Sane ∧ strangeTerm.predict .debug = none ∧ strangeTerm.predict .release = some (1, 0) ∧
    strangeTerm.run .release = ok ⟨1, [0#64]⟩ := by
  refine ⟨⟨⟨⟨by decide, by decide⟩, ⟨by decide, rfl⟩, ⟨by decide, rfl⟩⟩, ⟨by decide, rfl⟩⟩, ?_, ?_, ?_⟩ <;> decide +kernel

/-- The bits that a wrapped extension leaves behind become visible in a concatenation. -/
example :
    let t : Term := .concat (.value ⟨3, [0#64]⟩) (.un (.zeroExtend 4294967292) (.value ⟨8, [0xff#64]⟩))
    t.Sane ∧ t.predict .debug = none ∧ t.predict .release = some (7, 0xff) := by
  refine ⟨⟨⟨by decide, rfl⟩, ⟨show 4294967292 < 2 ^ 32 by decide, ⟨by decide, rfl⟩⟩⟩, ?_, ?_⟩ <;> decide +kernel

end Baa

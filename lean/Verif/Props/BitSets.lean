import Verif.Props.BitScan
import Verif.Props.Slice
import Verif.Spec.BitSets

/-!
# C160: bit-vectors as sets of small numbers
-/

namespace Baa
open Res

variable {w : Nat}

/-- The bit-vector has the members of the set below its width. -/
def ShowsSet (w : Nat) (v : BitVecValue) (s : Nat → Bool) : Prop := ∃ x : BitVec w, Denotes v x ∧ ∀ i, i < w → x.getLsbD i = s i

theorem ShowsSet.assign {s : Nat → BitVecValue} {t : Nat → Nat → Bool} (h : ∀ i, ShowsSet w (s i) (t i)) {r : Nat} {v : BitVecValue}
    {p : Nat → Bool} (hv : ShowsSet w v p) : ∀ i, ShowsSet w (assignVar s r v i) (assignVar t r p i) := by
  intro i
  unfold assignVar
  by_cases c : i = r
  · rw [if_pos c, if_pos c]; exact hv
  · rw [if_neg c, if_neg c]; exact h i

theorem allBelow_iff {p : Nat → Bool} : (List.range w).all p = true ↔ ∀ i, i < w → p i = true := by
  simp [List.all_eq_true]

theorem SetCommand.run_spec (m : Mode) (h0 : 0 < w) (hw : w < 2 ^ 32) {s : Nat → BitVecValue} {t : Nat → Nat → Bool}
    (h : ∀ i, ShowsSet w (s i) (t i)) (c : SetCommand) (hc : c.Within w) :
    ∃ s', c.run m w s = ok (s', (c.meaning w t).2) ∧ ∀ i, ShowsSet w (s' i) ((c.meaning w t).1 i) := by
  cases c with
  | insert r k =>
    obtain ⟨x, x1, x2⟩ := h r
    obtain ⟨v, z, v1, v2, v3⟩ := C24_set_bit x1 (pos := k) hc
    refine ⟨_, by rw [run, v1, ok_bind]; rfl, ShowsSet.assign h ⟨z, v2, fun i hi => ?_⟩⟩
    rw [v3, x2 i hi, Bool.or_comm]
    rfl
  | remove r k =>
    obtain ⟨x, x1, x2⟩ := h r
    obtain ⟨v, z, v1, v2, v3⟩ := C24_clear_bit x1 (pos := k) hc
    refine ⟨_, by rw [run, v1, ok_bind]; rfl, ShowsSet.assign h ⟨z, v2, fun i hi => ?_⟩⟩
    rw [v3, x2 i hi, Bool.and_comm]
    congr 1
    by_cases e : i = k <;> simp [e]
  | empty r => exact ⟨_, rfl, ShowsSet.assign h ⟨0#w, C01_zero hw, fun i _ => BitVec.getLsbD_zero⟩⟩
  | all r =>
    obtain ⟨v, v1, v2⟩ := C01_ones m h0 hw
    exact ⟨_, by rw [run, v1, ok_bind]; rfl, ShowsSet.assign h ⟨_, v2, fun i hi => by simp [hi]⟩⟩
  | union r a b =>
    obtain ⟨x, x1, x2⟩ := h a
    obtain ⟨y, y1, y2⟩ := h b
    obtain ⟨v, v1, v2⟩ := C10_or m x1 y1
    exact ⟨_, by rw [run, v1, ok_bind]; rfl, ShowsSet.assign h ⟨_, v2, fun i hi => by rw [BitVec.getLsbD_or, x2 i hi, y2 i hi]⟩⟩
  | intersection r a b =>
    obtain ⟨x, x1, x2⟩ := h a
    obtain ⟨y, y1, y2⟩ := h b
    obtain ⟨v, v1, v2, -⟩ := C10_and m x1 y1
    exact ⟨_, by rw [run, v1, ok_bind]; rfl, ShowsSet.assign h ⟨_, v2, fun i hi => by rw [BitVec.getLsbD_and, x2 i hi, y2 i hi]⟩⟩
  | difference r a b =>
    obtain ⟨x, x1, x2⟩ := h a
    obtain ⟨y, y1, y2⟩ := h b
    obtain ⟨n, n1, n2⟩ := C11_not m h0 y1
    obtain ⟨v, v1, v2, -⟩ := C10_and m x1 n2
    refine ⟨_, by rw [run, n1, ok_bind, v1, ok_bind]; rfl, ShowsSet.assign h ⟨_, v2, fun i hi => ?_⟩⟩
    rw [BitVec.getLsbD_and, BitVec.getLsbD_not, x2 i hi, y2 i hi, decide_eq_true hi, Bool.true_and]
  | complement r a =>
    obtain ⟨x, x1, x2⟩ := h a
    obtain ⟨v, v1, v2⟩ := C11_not m h0 x1
    refine ⟨_, by rw [run, v1, ok_bind]; rfl, ShowsSet.assign h ⟨_, v2, fun i hi => ?_⟩⟩
    rw [BitVec.getLsbD_not, x2 i hi, decide_eq_true hi, Bool.true_and]
  | has a k =>
    obtain ⟨x, x1, x2⟩ := h a
    refine ⟨s, ?_, h⟩
    rw [run, C24_is_bit_set x1 hc, ok_bind, x2 k hc]
    rfl
  | isEmpty a =>
    obtain ⟨x, x1, x2⟩ := h a
    refine ⟨s, ?_, h⟩
    rw [run, C25_is_zero x1]
    congr 4
    rw [Bool.eq_iff_iff, decide_eq_true_eq, allBelow_iff]
    constructor
    · rintro rfl i hi
      rw [← x2 i hi]
      simp
    · intro q
      refine BitVec.eq_of_getLsbD_eq fun i hi => ?_
      have := q i hi
      rw [x2 i hi, BitVec.getLsbD_zero]
      simpa using this
  | same a b =>
    obtain ⟨x, x1, x2⟩ := h a
    obtain ⟨y, y1, y2⟩ := h b
    refine ⟨s, ?_, h⟩
    rw [run, C15_is_equal m x1 y1, ok_bind]
    congr 4
    rw [Bool.eq_iff_iff, decide_eq_true_eq, allBelow_iff]
    constructor
    · rintro rfl i hi
      rw [← x2 i hi, ← y2 i hi]
      simp
    · intro q
      refine BitVec.eq_of_getLsbD_eq fun i hi => ?_
      have := q i hi
      rw [x2 i hi, y2 i hi]
      simpa using this
  | subset a b =>
    obtain ⟨x, x1, x2⟩ := h a
    obtain ⟨y, y1, y2⟩ := h b
    obtain ⟨v, v1, v2, -⟩ := C10_and m x1 y1
    refine ⟨s, ?_, h⟩
    rw [run, v1, ok_bind, C15_is_equal m v2 x1, ok_bind]
    congr 4
    rw [Bool.eq_iff_iff, decide_eq_true_eq, allBelow_iff]
    constructor
    · intro e i hi
      have := congrArg (fun z => z.getLsbD i) e
      simp only [BitVec.getLsbD_and, x2 i hi, y2 i hi] at this
      cases p : t a i <;> simp_all
    · intro q
      refine BitVec.eq_of_getLsbD_eq fun i hi => ?_
      have := q i hi
      rw [BitVec.getLsbD_and, x2 i hi, y2 i hi]
      cases p : t a i <;> simp_all
  | disjoint a b =>
    obtain ⟨x, x1, x2⟩ := h a
    obtain ⟨y, y1, y2⟩ := h b
    obtain ⟨v, v1, v2, -⟩ := C10_and m x1 y1
    refine ⟨s, ?_, h⟩
    rw [run, v1, ok_bind, C25_is_zero v2]
    congr 4
    rw [Bool.eq_iff_iff, decide_eq_true_eq, allBelow_iff]
    constructor
    · intro e i hi
      have := congrArg (fun z => z.getLsbD i) e
      simp only [BitVec.getLsbD_and, x2 i hi, y2 i hi, BitVec.getLsbD_zero] at this
      rw [this]
      rfl
    · intro q
      refine BitVec.eq_of_getLsbD_eq fun i hi => ?_
      have := q i hi
      rw [BitVec.getLsbD_and, x2 i hi, y2 i hi, BitVec.getLsbD_zero]
      rwa [Bool.not_eq_true'] at this
  | size a =>
    obtain ⟨x, x1, x2⟩ := h a
    refine ⟨s, ?_, h⟩
    rw [run, C146_pop_count x1, ok_bind]
    congr 3
    unfold onesOf
    rw [List.countP_eq_length_filter]
    exact congrArg List.length (List.filter_congr fun i hi => x2 i (List.mem_range.1 hi))

/-- **C160** Every sequence of commands and questions is answered as for sets. -/
theorem C160_sets (m : Mode) (h0 : 0 < w) (hw : w < 2 ^ 32) (cs : List SetCommand) :
    ∀ {s : Nat → BitVecValue} {t : Nat → Nat → Bool},
      (∀ r, ∃ x : BitVec w, Denotes (s r) x ∧ ∀ i, i < w → x.getLsbD i = t r i) → (∀ c ∈ cs, c.Within w) →
      setAnswers m w s cs = ok (setMeanings w t cs) := by
  induction cs with
  | nil => exact fun _ _ => rfl
  | cons c cs ih =>
    intro s t h hc
    obtain ⟨s', r1, r2⟩ := SetCommand.run_spec m h0 hw h c (hc c (by simp))
    rw [setAnswers, r1, ok_bind, ih r2 fun d hd => hc d (by simp [hd]), ok_bind]
    rfl

/-- Sets of numbers below a hundred, all empty at first. -/
example : setAnswers .debug 100 (fun _ => encode 0#100)
      [.insert 0 3, .insert 0 70, .insert 1 70, .subset 1 0, .subset 0 1, .difference 2 0 1, .disjoint 1 2, .complement 3 2, .size 3, .has 3 99,
        .remove 0 70, .same 0 2, .intersection 0 0 1, .isEmpty 0] =
    ok [none, none, none, some 1, some 0, none, some 1, none, some 99, some 1, none, some 1, none, some 1] := by decide +kernel

/-- The hypotheses are met by any starting sets. -/
example (cs : List SetCommand) (hc : ∀ c ∈ cs, c.Within 70) :
    setAnswers .release 70 (fun r => encode (BitVec.ofNat 70 (r * 5))) cs = ok (setMeanings 70 (fun r i => (BitVec.ofNat 70 (r * 5)).getLsbD i) cs) :=
  C160_sets .release (by decide) (by decide) cs (fun r => ⟨BitVec.ofNat 70 (r * 5), encode_denotes _ (by decide), fun _ _ => rfl⟩) hc

/-- A number that is not below the width is not refused: the set is no longer empty although it has no member. -/
theorem C160_within_matters : setAnswers .debug 100 (fun _ => encode 0#100) [.insert 0 101, .isEmpty 0, .size 0] = ok [none, some 0, some 0] := by
  decide +kernel

end Baa

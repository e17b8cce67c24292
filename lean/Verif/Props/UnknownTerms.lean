import Verif.Props.UnknownBits
import Verif.Props.Cache
import Verif.Spec.UnknownTerms

/-!
# C169: terms over values with unknown bits
-/

namespace Baa
open Res

variable {w : Nat}

theorem Matches.apart {v u x : BitVec w} (h : Matches v u x) : v &&& u = 0#w := apart_iff.2 fun i hi => by
  rw [← matches_iff.1 h i hi]
  cases x.getLsbD i <;> cases u.getLsbD i <;> rfl

theorem matches_const (c : BitVec w) : Matches c 0#w c := matches_iff.2 fun i _ => by simp

theorem matches_concat {v : Nat} {a s x : BitVec w} {b t y : BitVec v} (h : Matches a s x) (k : Matches b t y) :
    Matches (a ++ b) (s ++ t) (x ++ y) := matches_iff.2 fun i hi => by
  simp only [BitVec.getLsbD_append]
  by_cases q : i < v
  · simp only [if_pos q]
    exact matches_iff.1 k i q
  · simp only [if_neg q]
    exact matches_iff.1 h (i - v) (by omega)

theorem matches_slice {a s x : BitVec w} (h : Matches a s x) {hi lo : Nat} (h1 : hi < w) (h2 : lo ≤ hi) :
    Matches (a.extractLsb' lo (hi - lo + 1)) (s.extractLsb' lo (hi - lo + 1)) (x.extractLsb' lo (hi - lo + 1)) := matches_iff.2 fun i q => by
  simp only [BitVec.getLsbD_extractLsb', decide_eq_true q, Bool.true_and]
  exact matches_iff.1 h (lo + i) (by omega)

theorem matches_zext {a s x : BitVec w} (h : Matches a s x) (n : Nat) :
    Matches (a.setWidth (w + n)) (s.setWidth (w + n)) (x.setWidth (w + n)) := matches_iff.2 fun i q => by
  simp only [BitVec.getLsbD_setWidth, decide_eq_true q, Bool.true_and]
  by_cases k : i < w
  · exact matches_iff.1 h i k
  · rw [BitVec.getLsbD_of_ge x i (by omega), BitVec.getLsbD_of_ge a i (by omega)]
    rfl

theorem matches_sext (hw : 0 < w) {a s x : BitVec w} (h : Matches a s x) (n : Nat) :
    Matches (a.signExtend (w + n)) (s.signExtend (w + n)) (x.signExtend (w + n)) := matches_iff.2 fun i q => by
  simp only [BitVec.getLsbD_signExtend, decide_eq_true q, Bool.true_and]
  by_cases k : i < w
  · simp only [if_pos k]
    exact matches_iff.1 h i k
  · simp only [if_neg k, BitVec.msb_eq_getLsbD_last]
    exact matches_iff.1 h (w - 1) (by omega)

theorem matches_choice {a s b t x : BitVec w} (h : Matches a s x ∨ Matches b t x) :
    Matches (a &&& ~~~((a ^^^ b) ||| s ||| t)) ((a ^^^ b) ||| s ||| t) x := matches_iff.2 fun i hi => by
  simp only [BitVec.getLsbD_and, BitVec.getLsbD_or, BitVec.getLsbD_xor, BitVec.getLsbD_not, decide_eq_true hi, Bool.true_and]
  rcases h with h | h
  · rw [← matches_iff.1 h i hi]
    cases x.getLsbD i <;> cases s.getLsbD i <;> cases t.getLsbD i <;> cases b.getLsbD i <;> rfl
  · rw [← matches_iff.1 h i hi]
    cases x.getLsbD i <;> cases s.getLsbD i <;> cases t.getLsbD i <;> cases a.getLsbD i <;> rfl

theorem unknownChoice_spec (m : Mode) (hw : 0 < w) {a s b t : BitVecValue} {A S B T : BitVec w} (ha : Denotes a A) (hs : Denotes s S)
    (hb : Denotes b B) (ht : Denotes t T) : ∃ v u, unknownChoice m a s b t = ok (v, u) ∧ Denotes v (A &&& ~~~((A ^^^ B) ||| S ||| T)) ∧
      Denotes u ((A ^^^ B) ||| S ||| T) := by
  obtain ⟨d, d1, d2⟩ := C10_xor m ha hb
  obtain ⟨p, p1, p2⟩ := C10_or m d2 hs
  obtain ⟨u, u1, u2⟩ := C10_or m p2 ht
  obtain ⟨n, n1, n2⟩ := C11_not m hw u2
  obtain ⟨v, v1, v2, -⟩ := C10_and m ha n2
  exact ⟨v, u, by rw [unknownChoice, d1, ok_bind, p1, ok_bind, u1, ok_bind, n1, ok_bind, v1, ok_bind], v2, u2⟩

theorem UTerm.Legal.pos : ∀ {w : Nat} {t : UTerm w}, t.Legal → 0 < w
  | _, .var _ _, h => h.1
  | _, .const _, h => h.1
  | _, .not a, h => Legal.pos (t := a) h
  | _, .bin _ a _, h => Legal.pos (t := a) h.1
  | _, .concat a _, h => Nat.lt_of_lt_of_le (Legal.pos (t := a) h.1) (Nat.le_add_right ..)
  | _, .slice _ _ _, _ => Nat.succ_pos _
  | _, .zext a _, h => Nat.lt_of_lt_of_le (Legal.pos (t := a) h.1) (Nat.le_add_right ..)
  | _, .sext a _, h => Nat.lt_of_lt_of_le (Legal.pos (t := a) h.1) (Nat.le_add_right ..)
  | _, .ite _ a _, h => Legal.pos (t := a) h.2.1

/-- **C169** A term computed on values gives its value. -/
theorem C169_run (m : Mode) {e : Nat → Nat → BitVecValue} {ρ : (w : Nat) → Nat → BitVec w}
    (he : ∀ w k, 0 < w → w < 2 ^ 32 → Denotes (e w k) (ρ w k)) : ∀ {w : Nat} (t : UTerm w), t.Legal →
    ∃ r, t.run m e = ok r ∧ Denotes r (t.value ρ)
  | _, .var w k, h => ⟨_, rfl, he w k h.1 h.2⟩
  | _, .const c, h => ⟨_, rfl, encode_denotes c h.2⟩
  | _, .not a, h => by
    obtain ⟨x, x1, x2⟩ := C169_run m he a h
    obtain ⟨r, r1, r2⟩ := C11_not m (UTerm.Legal.pos (t := a) h) x2
    exact ⟨r, by rw [UTerm.run, x1, ok_bind, r1], r2⟩
  | _, .bin op a b, h => by
    obtain ⟨x, x1, x2⟩ := C169_run m he a h.1
    obtain ⟨y, y1, y2⟩ := C169_run m he b h.2
    have hw := UTerm.Legal.pos h.1
    rw [UTerm.run, x1, ok_bind, y1, ok_bind]
    cases op with
    | and => obtain ⟨r, r1, r2, -⟩ := C10_and m x2 y2; exact ⟨r, r1, r2⟩
    | or => exact C10_or m x2 y2
    | xor => exact C10_xor m x2 y2
    | add => exact C06_add m hw x2 y2
    | sub => exact C07_sub m hw x2 y2
  | _, .concat a b, h => by
    obtain ⟨x, x1, x2⟩ := C169_run m he a h.1
    obtain ⟨y, y1, y2⟩ := C169_run m he b h.2.1
    rw [UTerm.run, x1, ok_bind, y1, ok_bind]
    exact C21_concat_partial m x2 y2 h.2.2 (.inl ⟨UTerm.Legal.pos h.1, UTerm.Legal.pos h.2.1⟩)
  | _, .slice a hi lo, h => by
    obtain ⟨x, x1, x2⟩ := C169_run m he a h.1
    rw [UTerm.run, x1, ok_bind]
    exact C19_slice m x2 h.2.1 h.2.2
  | _, .zext a n, h => by
    obtain ⟨x, x1, x2⟩ := C169_run m he a h.1
    obtain ⟨r, r1, r2, -⟩ := C22_zero_extend_partial m x2 n h.2 (.inl (UTerm.Legal.pos h.1))
    exact ⟨r, by rw [UTerm.run, x1, ok_bind, r1], r2⟩
  | _, .sext a n, h => by
    obtain ⟨x, x1, x2⟩ := C169_run m he a h.1
    obtain ⟨r, r1, r2, -⟩ := C23_sign_extend m (UTerm.Legal.pos h.1) x2 n h.2
    exact ⟨r, by rw [UTerm.run, x1, ok_bind, r1], r2⟩
  | _, .ite c a b, h => by
    obtain ⟨z, z1, z2⟩ := C169_run m he c h.1
    rw [UTerm.run, z1, ok_bind, tru_encode, ok_bind, C15_is_equal m z2 (encode_denotes 1#1 (by decide)), ok_bind, UTerm.value]
    by_cases q : c.value ρ = 1#1
    · rw [decide_eq_true q, if_pos rfl, if_pos q]
      exact C169_run m he a h.2.1
    · rw [decide_eq_false q, if_neg Bool.false_ne_true, if_neg q]
      exact C169_run m he b h.2.2

/-- **C169** A term computed on pairs gives a pair for its value, whatever the values of the variables are. -/
theorem C169_sound (m : Mode) {e : Nat → Nat → BitVecValue × BitVecValue} {V U : (w : Nat) → Nat → BitVec w}
    (he : ∀ w k, 0 < w → w < 2 ^ 32 → Denotes (e w k).1 (V w k) ∧ Denotes (e w k).2 (U w k) ∧ V w k &&& U w k = 0#w) :
    ∀ {w : Nat} (t : UTerm w), t.Legal → ∃ (p q : BitVecValue) (P Q : BitVec w), t.runUnknown m e = ok (p, q) ∧ Denotes p P ∧ Denotes q Q ∧
      P &&& Q = 0#w ∧ ∀ ρ : (w : Nat) → Nat → BitVec w, (∀ w k, 0 < w → w < 2 ^ 32 → Matches (V w k) (U w k) (ρ w k)) →
        Matches P Q (t.value ρ)
  | _, .var w k, h => by
    obtain ⟨h1, h2, h3⟩ := he w k h.1 h.2
    exact ⟨_, _, _, _, rfl, h1, h2, h3, fun ρ hρ => hρ w k h.1 h.2⟩
  | _, .const c, h => ⟨_, _, _, _, rfl, encode_denotes c h.2, C01_zero h.2, (matches_const c).apart, fun _ _ => matches_const c⟩
  | _, .not a, h => by
    obtain ⟨p, q, P, Q, r1, r2, r3, r4, r5⟩ := C169_sound m he a h
    obtain ⟨n, n1, n2⟩ := unknownNot_spec m (UTerm.Legal.pos (t := a) h) r2 r3
    refine ⟨n, q, _, Q, ?_, n2, r3, apart_not P Q, fun ρ hρ => matches_not (r5 ρ hρ)⟩
    rw [UTerm.runUnknown, r1, ok_bind]
    exact n1
  | _, .bin op a b, h => by
    obtain ⟨p, q, P, Q, r1, r2, r3, r4, r5⟩ := C169_sound m he a h.1
    obtain ⟨p', q', P', Q', s1, s2, s3, s4, s5⟩ := C169_sound m he b h.2
    have hw := UTerm.Legal.pos h.1
    rw [UTerm.runUnknown, r1, ok_bind]
    dsimp only
    rw [s1, ok_bind]
    dsimp only
    have fin : ∀ {f : Res (BitVecValue × BitVecValue)} {g : BitVec _ → BitVec _ → BitVec _}, (∃ (v u : BitVecValue) (V U : BitVec _),
        f = ok (v, u) ∧ Denotes v V ∧ Denotes u U ∧ BestPair g P Q P' Q' V U) →
        ∃ (v u : BitVecValue) (V' U' : BitVec _), f = ok (v, u) ∧ Denotes v V' ∧ Denotes u U' ∧ V' &&& U' = 0#_ ∧
          ∀ ρ : (w : Nat) → Nat → BitVec w, (∀ w k, 0 < w → w < 2 ^ 32 → Matches (V w k) (U w k) (ρ w k)) →
            Matches V' U' (g (a.value ρ) (b.value ρ)) := by
      rintro f g ⟨v, u, V', U', k1, k2, k3, k4⟩
      exact ⟨v, u, V', U', k1, k2, k3, (k4.1 P P' (matches_low r4) (matches_low s4)).apart,
        fun ρ hρ => k4.1 _ _ (r5 ρ hρ) (s5 ρ hρ)⟩
    cases op with
    | and => exact fin (C168_and m r2 r3 s2 s3 r4 s4)
    | or => exact fin (C168_or m r2 r3 s2 s3 r4 s4)
    | xor => exact fin (C168_xor m hw r2 r3 s2 s3 r4 s4)
    | add => exact fin (C168_add m hw r2 r3 s2 s3 r4 s4)
    | sub => exact fin (C168_sub m hw r2 r3 s2 s3 r4 s4)
  | _, .concat a b, h => by
    obtain ⟨p, q, P, Q, r1, r2, r3, r4, r5⟩ := C169_sound m he a h.1
    obtain ⟨p', q', P', Q', s1, s2, s3, s4, s5⟩ := C169_sound m he b h.2.1
    obtain ⟨v, v1, v2⟩ := C21_concat_partial m r2 s2 h.2.2 (.inl ⟨UTerm.Legal.pos h.1, UTerm.Legal.pos h.2.1⟩)
    obtain ⟨u, u1, u2⟩ := C21_concat_partial m r3 s3 h.2.2 (.inl ⟨UTerm.Legal.pos h.1, UTerm.Legal.pos h.2.1⟩)
    refine ⟨v, u, _, _, ?_, v2, u2, (matches_concat (matches_low r4) (matches_low s4)).apart,
      fun ρ hρ => matches_concat (r5 ρ hρ) (s5 ρ hρ)⟩
    rw [UTerm.runUnknown, r1, ok_bind]
    dsimp only
    rw [s1, ok_bind]
    dsimp only
    rw [v1, ok_bind, u1, ok_bind]
  | _, .slice a hi lo, h => by
    obtain ⟨p, q, P, Q, r1, r2, r3, r4, r5⟩ := C169_sound m he a h.1
    obtain ⟨v, v1, v2⟩ := C19_slice m r2 h.2.1 h.2.2
    obtain ⟨u, u1, u2⟩ := C19_slice m r3 h.2.1 h.2.2
    refine ⟨v, u, _, _, ?_, v2, u2, (matches_slice (matches_low r4) h.2.1 h.2.2).apart,
      fun ρ hρ => matches_slice (r5 ρ hρ) h.2.1 h.2.2⟩
    rw [UTerm.runUnknown, r1, ok_bind]
    dsimp only
    rw [v1, ok_bind, u1, ok_bind]
  | _, .zext a n, h => by
    obtain ⟨p, q, P, Q, r1, r2, r3, r4, r5⟩ := C169_sound m he a h.1
    obtain ⟨v, v1, v2, -⟩ := C22_zero_extend_partial m r2 n h.2 (.inl (UTerm.Legal.pos h.1))
    obtain ⟨u, u1, u2, -⟩ := C22_zero_extend_partial m r3 n h.2 (.inl (UTerm.Legal.pos h.1))
    refine ⟨v, u, _, _, ?_, v2, u2, (matches_zext (matches_low r4) n).apart, fun ρ hρ => matches_zext (r5 ρ hρ) n⟩
    rw [UTerm.runUnknown, r1, ok_bind]
    dsimp only
    rw [v1, ok_bind, u1, ok_bind]
  | _, .sext a n, h => by
    have hw := UTerm.Legal.pos h.1
    obtain ⟨p, q, P, Q, r1, r2, r3, r4, r5⟩ := C169_sound m he a h.1
    obtain ⟨v, v1, v2, -⟩ := C23_sign_extend m hw r2 n h.2
    obtain ⟨u, u1, u2, -⟩ := C23_sign_extend m hw r3 n h.2
    refine ⟨v, u, _, _, ?_, v2, u2, (matches_sext hw (matches_low r4) n).apart, fun ρ hρ => matches_sext hw (r5 ρ hρ) n⟩
    rw [UTerm.runUnknown, r1, ok_bind]
    dsimp only
    rw [v1, ok_bind, u1, ok_bind]
  | _, .ite c a b, h => by
    have hw := UTerm.Legal.pos h.2.1
    obtain ⟨z, r, Z, R, c1, c2, c3, c4, c5⟩ := C169_sound m he c h.1
    obtain ⟨p, q, P, Q, r1, r2, r3, r4, r5⟩ := C169_sound m he a h.2.1
    obtain ⟨p', q', P', Q', s1, s2, s3, s4, s5⟩ := C169_sound m he b h.2.2
    rw [UTerm.runUnknown, c1, ok_bind]
    dsimp only
    rw [tru_encode, ok_bind, C15_is_equal m c3 (encode_denotes 1#1 (by decide)), ok_bind, C15_is_equal m c2 (encode_denotes 1#1 (by decide)),
      ok_bind]
    by_cases k : R = 1#1
    · obtain ⟨v, u, v1, v2, v3⟩ := unknownChoice_spec m hw r2 r3 s2 s3
      refine ⟨v, u, _, _, ?_, v2, v3, (matches_choice (.inl (matches_low r4))).apart, fun ρ hρ => matches_choice ?_⟩
      · rw [decide_eq_true k, if_pos rfl, r1, ok_bind]
        dsimp only
        rw [s1, ok_bind]
        exact v1
      · rw [UTerm.value]
        by_cases y : c.value ρ = 1#1
        · rw [if_pos y]; exact .inl (r5 ρ hρ)
        · rw [if_neg y]; exact .inr (s5 ρ hρ)
    · have k0 : R = 0#1 := (BitVec.eq_zero_or_eq_one R).resolve_right k
      have known : ∀ ρ : (w : Nat) → Nat → BitVec w, (∀ w k, 0 < w → w < 2 ^ 32 → Matches (V w k) (U w k) (ρ w k)) → c.value ρ = Z :=
        fun ρ hρ => by
          have := c5 ρ hρ
          rw [k0] at this
          unfold Matches at this
          rw [← this]
          exact (BitVec.and_allOnes (x := c.value ρ)).symm
      rw [decide_eq_false k, if_neg Bool.false_ne_true]
      by_cases y : Z = 1#1
      · refine ⟨p, q, P, Q, by rw [decide_eq_true y, if_pos rfl, r1], r2, r3, r4, fun ρ hρ => ?_⟩
        rw [UTerm.value, known ρ hρ, if_pos y]
        exact r5 ρ hρ
      · refine ⟨p', q', P', Q', by rw [decide_eq_false y, if_neg Bool.false_ne_true, s1], s2, s3, s4, fun ρ hρ => ?_⟩
        rw [UTerm.value, known ρ hρ, if_neg y]
        exact s5 ρ hρ

/-- **C169** If no bit of the pair is unknown, the term has that value whatever the values of the variables are. -/
theorem C169_constant (m : Mode) {e : Nat → Nat → BitVecValue × BitVecValue} {V U : (w : Nat) → Nat → BitVec w}
    (he : ∀ w k, 0 < w → w < 2 ^ 32 → Denotes (e w k).1 (V w k) ∧ Denotes (e w k).2 (U w k) ∧ V w k &&& U w k = 0#w)
    {t : UTerm w} (ht : t.Legal) {p : BitVecValue} (h : t.runUnknown m e = ok (p, BitVecValue.zero w))
    {d : Nat → Nat → BitVecValue} {ρ : (w : Nat) → Nat → BitVec w} (hd : ∀ w k, 0 < w → w < 2 ^ 32 → Denotes (d w k) (ρ w k))
    (hρ : ∀ w k, 0 < w → w < 2 ^ 32 → Matches (V w k) (U w k) (ρ w k)) : t.run m d = ok p := by
  obtain ⟨p', q, P, Q, r1, r2, r3, r4, r5⟩ := C169_sound m he t ht
  obtain ⟨r, s1, s2⟩ := C169_run m hd t ht
  rw [h] at r1
  injection r1 with r1
  injection r1 with e1 e2
  subst e1
  subst e2
  have z : Q = 0#w := r3.value_unique (C01_zero r2.width_lt)
  have k := r5 ρ hρ
  rw [z] at k
  unfold Matches at k
  rw [BitVec.not_zero, BitVec.and_allOnes] at k
  rw [s1, s2.repr_unique (k ▸ r2)]

/-- Nothing is known of `x`, but the top bit of `(x & 0b0011) + 0b0100` is zero. -/
example : (UTerm.slice (.bin .add (.bin .and (.var 4 0) (.const 3#4)) (.const 4#4)) 3 3).runUnknown .debug
      (fun w _ => (encode 0#w, encode (BitVec.allOnes w))) = ok (encode 0#1, encode 0#1) := by
  decide +kernel

/-- Variables of which nothing is known meet the hypotheses. -/
example : ∀ w (_k : Nat), 0 < w → w < 2 ^ 32 → Denotes (encode 0#w) 0#w ∧ Denotes (encode (BitVec.allOnes w)) (BitVec.allOnes w) ∧
    0#w &&& BitVec.allOnes w = 0#w :=
  fun _ _ _ h => ⟨encode_denotes _ h, encode_denotes _ h, by simp⟩

end Baa

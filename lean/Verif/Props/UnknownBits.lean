import Verif.Props.Arith
import Verif.Spec.UnknownBits

/-!
# C168: values with unknown bits
-/

namespace Baa
open Res

variable {w : Nat}

/-! ## On bit-vectors -/

theorem matches_iff {v u x : BitVec w} : Matches v u x ↔ ∀ i, i < w → (x.getLsbD i && !u.getLsbD i) = v.getLsbD i := by
  unfold Matches
  constructor
  · intro h i hi
    rw [← h, BitVec.getLsbD_and, BitVec.getLsbD_not, decide_eq_true hi, Bool.true_and]
  · intro h
    apply BitVec.eq_of_getLsbD_eq
    intro i hi
    rw [BitVec.getLsbD_and, BitVec.getLsbD_not, decide_eq_true hi, Bool.true_and, h i hi]

theorem apart_iff {v u : BitVec w} : v &&& u = 0#w ↔ ∀ i, i < w → (v.getLsbD i && u.getLsbD i) = false := by
  constructor
  · intro h i _
    rw [← BitVec.getLsbD_and, h, BitVec.getLsbD_zero]
  · intro h
    apply BitVec.eq_of_getLsbD_eq
    intro i hi
    rw [BitVec.getLsbD_and, BitVec.getLsbD_zero, h i hi]

/-- The smallest value of a pair. -/
theorem matches_low {v u : BitVec w} (h : v &&& u = 0#w) : Matches v u v := matches_iff.2 fun i hi => by
  have := apart_iff.1 h i hi
  cases e : v.getLsbD i <;> cases e' : u.getLsbD i <;> simp_all

/-- The largest value of a pair. -/
theorem matches_high {v u : BitVec w} (h : v &&& u = 0#w) : Matches v u (v ||| u) := matches_iff.2 fun i hi => by
  have := apart_iff.1 h i hi
  rw [BitVec.getLsbD_or]
  cases e : v.getLsbD i <;> cases e' : u.getLsbD i <;> simp_all

/-- One unknown bit is set. -/
theorem matches_one {v u : BitVec w} (h : v &&& u = 0#w) {k : Nat} (hk : u.getLsbD k = true) : Matches v u (v ||| BitVec.twoPow w k) :=
  matches_iff.2 fun i hi => by
    have := apart_iff.1 h i hi
    rw [BitVec.getLsbD_or, BitVec.getLsbD_twoPow]
    by_cases q : k = i
    · subst q
      rw [hk] at this
      rw [hk]
      cases e : v.getLsbD k <;> simp_all
    · rw [decide_eq_false q, Bool.and_false, Bool.or_false]
      cases e : v.getLsbD i <;> cases e' : u.getLsbD i <;> simp_all

theorem lt_of_getLsbD {u : BitVec w} {i : Nat} (h : u.getLsbD i = true) : i < w := BitVec.lt_of_getLsbD h

theorem Matches.bit {v u x : BitVec w} (h : Matches v u x) {i : Nat} (hi : i < w) (hu : u.getLsbD i = false) : x.getLsbD i = v.getLsbD i := by
  have := matches_iff.1 h i hi
  rwa [hu, Bool.not_false, Bool.and_true] at this

theorem Matches.low_sub {v u x : BitVec w} (h : Matches v u x) : v &&& x = v := by
  apply BitVec.eq_of_getLsbD_eq
  intro i hi
  have := matches_iff.1 h i hi
  rw [BitVec.getLsbD_and]
  cases e : v.getLsbD i <;> cases e' : u.getLsbD i <;> simp_all

theorem Matches.sub_high {v u x : BitVec w} (h : Matches v u x) : x &&& (v ||| u) = x := by
  apply BitVec.eq_of_getLsbD_eq
  intro i hi
  have := matches_iff.1 h i hi
  rw [BitVec.getLsbD_and, BitVec.getLsbD_or, ← this]
  cases e : x.getLsbD i <;> cases e' : u.getLsbD i <;> simp_all

theorem bestPair_and {a s b t : BitVec w} (ha : a &&& s = 0#w) (hb : b &&& t = 0#w) :
    BestPair (· &&& ·) a s b t (a &&& b) (((a ||| s) &&& (b ||| t)) ^^^ (a &&& b)) := by
  refine ⟨fun x y hx hy => matches_iff.2 fun i hi => ?_, fun i hi => ?_⟩
  · have h1 := matches_iff.1 hx i hi
    have h2 := matches_iff.1 hy i hi
    have h3 := apart_iff.1 ha i hi
    have h4 := apart_iff.1 hb i hi
    simp only [BitVec.getLsbD_and, BitVec.getLsbD_or, BitVec.getLsbD_xor]
    revert h1 h2 h3 h4
    cases x.getLsbD i <;> cases y.getLsbD i <;> cases a.getLsbD i <;> cases b.getLsbD i <;> cases s.getLsbD i <;> cases t.getLsbD i <;> simp
  · refine ⟨a, b, a ||| s, b ||| t, matches_low ha, matches_low hb, matches_high ha, matches_high hb, ?_⟩
    simp only [BitVec.getLsbD_and, BitVec.getLsbD_or, BitVec.getLsbD_xor] at hi ⊢
    intro e
    rw [← e, Bool.xor_self] at hi
    cases hi

theorem bestPair_or {a s b t : BitVec w} (ha : a &&& s = 0#w) (hb : b &&& t = 0#w) :
    BestPair (· ||| ·) a s b t (a ||| b) (((a ||| s) ||| (b ||| t)) ^^^ (a ||| b)) := by
  refine ⟨fun x y hx hy => matches_iff.2 fun i hi => ?_, fun i hi => ?_⟩
  · have h1 := matches_iff.1 hx i hi
    have h2 := matches_iff.1 hy i hi
    have h3 := apart_iff.1 ha i hi
    have h4 := apart_iff.1 hb i hi
    simp only [BitVec.getLsbD_or, BitVec.getLsbD_xor]
    revert h1 h2 h3 h4
    cases x.getLsbD i <;> cases y.getLsbD i <;> cases a.getLsbD i <;> cases b.getLsbD i <;> cases s.getLsbD i <;> cases t.getLsbD i <;> simp
  · refine ⟨a, b, a ||| s, b ||| t, matches_low ha, matches_low hb, matches_high ha, matches_high hb, ?_⟩
    simp only [BitVec.getLsbD_or, BitVec.getLsbD_xor] at hi ⊢
    intro e
    rw [← e, Bool.xor_self] at hi
    cases hi

theorem bestPair_xor {a s b t : BitVec w} (ha : a &&& s = 0#w) (hb : b &&& t = 0#w) :
    BestPair (· ^^^ ·) a s b t ((a ^^^ b) &&& ~~~(s ||| t)) (s ||| t) := by
  refine ⟨fun x y hx hy => matches_iff.2 fun i hi => ?_, fun i hi => ?_⟩
  · have h1 := matches_iff.1 hx i hi
    have h2 := matches_iff.1 hy i hi
    simp only [BitVec.getLsbD_and, BitVec.getLsbD_or, BitVec.getLsbD_xor, BitVec.getLsbD_not, decide_eq_true hi]
    rw [← h1, ← h2]
    cases x.getLsbD i <;> cases y.getLsbD i <;> cases s.getLsbD i <;> cases t.getLsbD i <;> rfl
  · have hw := lt_of_getLsbD hi
    have h3 := apart_iff.1 ha i hw
    have h4 := apart_iff.1 hb i hw
    rw [BitVec.getLsbD_or] at hi
    by_cases q : s.getLsbD i = true
    · refine ⟨a, b, a ||| s, b, matches_low ha, matches_low hb, matches_high ha, matches_low hb, ?_⟩
      simp only [BitVec.getLsbD_or, BitVec.getLsbD_xor]
      rw [q, Bool.and_true] at h3
      rw [q, h3]
      cases b.getLsbD i <;> decide
    · have q' : t.getLsbD i = true := by simpa [q] using hi
      refine ⟨a, b, a, b ||| t, matches_low ha, matches_low hb, matches_low ha, matches_high hb, ?_⟩
      simp only [BitVec.getLsbD_or, BitVec.getLsbD_xor]
      rw [q', Bool.and_true] at h4
      rw [q', h4]
      cases a.getLsbD i <;> decide

theorem mod_le_of_sub {x p : BitVec w} (h : x &&& p = x) (i : Nat) : x.toNat % 2 ^ i ≤ p.toNat % 2 ^ i := by
  rw [← h, BitVec.toNat_and, Nat.and_mod_two_pow]
  exact Nat.and_le_right

theorem carry_mono {x y p q : BitVec w} (hx : x &&& p = x) (hy : y &&& q = y) {i : Nat} (h : BitVec.carry i x y false = true) :
    BitVec.carry i p q false = true := by
  have h1 := mod_le_of_sub hx i
  have h2 := mod_le_of_sub hy i
  simp only [BitVec.carry, decide_eq_true_eq] at h ⊢
  omega

theorem carry_one (x y : BitVec w) (i : Nat) : BitVec.carry i (x ||| BitVec.twoPow w i) y false = BitVec.carry i x y false := by
  have e : (x ||| BitVec.twoPow w i).toNat % 2 ^ i = x.toNat % 2 ^ i := by
    rw [BitVec.toNat_or, BitVec.toNat_twoPow, Nat.or_mod_two_pow]
    have z : 2 ^ i % 2 ^ w % 2 ^ i = 0 := by
      by_cases h : i < w
      · rw [Nat.mod_eq_of_lt (Nat.pow_lt_pow_right (by decide) h), Nat.mod_self]
      · rw [Nat.mod_eq_zero_of_dvd (Nat.pow_dvd_pow 2 (by omega)), Nat.zero_mod]
    rw [z, Nat.or_zero]
  rw [BitVec.carry, BitVec.carry, e]

theorem add_flip {x : BitVec w} (y : BitVec w) {i : Nat} (hi : i < w) (h : x.getLsbD i = false) :
    (x + y).getLsbD i ≠ ((x ||| BitVec.twoPow w i) + y).getLsbD i := by
  rw [BitVec.getLsbD_add hi, BitVec.getLsbD_add hi, carry_one, BitVec.getLsbD_or, BitVec.getLsbD_twoPow, h, decide_eq_true hi]
  cases y.getLsbD i <;> cases BitVec.carry i x y false <;> simp

theorem bestPair_add {a s b t : BitVec w} (ha : a &&& s = 0#w) (hb : b &&& t = 0#w) :
    BestPair (· + ·) a s b t ((a + b) &&& ~~~(((a + b + (s + t)) ^^^ (a + b)) ||| s ||| t)) (((a + b + (s + t)) ^^^ (a + b)) ||| s ||| t) := by
  have e : a + b + (s + t) = (a ||| s) + (b ||| t) := by
    rw [← BitVec.add_eq_or_of_and_eq_zero a s ha, ← BitVec.add_eq_or_of_and_eq_zero b t hb]
    simp only [BitVec.add_assoc]
    rw [← BitVec.add_assoc b s, BitVec.add_comm b s, BitVec.add_assoc]
  rw [e]
  refine ⟨fun x y hx hy => ?_, fun i hi => ?_⟩
  · apply BitVec.eq_of_getLsbD_eq
    intro i hi
    rw [BitVec.getLsbD_and, BitVec.getLsbD_and, BitVec.getLsbD_not, decide_eq_true hi, Bool.true_and]
    cases hu : (((a ||| s) + (b ||| t) ^^^ (a + b)) ||| s ||| t).getLsbD i with
    | true => rw [Bool.not_true, Bool.and_false, Bool.and_false]
    | false =>
      rw [Bool.not_false, Bool.and_true, Bool.and_true]
      rw [BitVec.getLsbD_or, BitVec.getLsbD_or, Bool.or_eq_false_iff, Bool.or_eq_false_iff, BitVec.getLsbD_xor] at hu
      obtain ⟨⟨h1, h2⟩, h3⟩ := hu
      have x1 := hx.bit hi h2
      have y1 := hy.bit hi h3
      rw [BitVec.getLsbD_add hi, BitVec.getLsbD_add hi, BitVec.getLsbD_or, BitVec.getLsbD_or, h2, h3, Bool.or_false, Bool.or_false] at h1
      have m1 := carry_mono (i := i) hx.low_sub hy.low_sub
      have m2 := carry_mono (i := i) hx.sub_high hy.sub_high
      rw [BitVec.getLsbD_add hi, BitVec.getLsbD_add hi, x1, y1]
      revert h1 m1 m2
      cases a.getLsbD i <;> cases b.getLsbD i <;> cases BitVec.carry i a b false <;> cases BitVec.carry i x y false <;>
        cases BitVec.carry i (a ||| s) (b ||| t) false <;> simp
  · have hw := lt_of_getLsbD hi
    have h3 := apart_iff.1 ha i hw
    have h4 := apart_iff.1 hb i hw
    rw [BitVec.getLsbD_or, BitVec.getLsbD_or, Bool.or_eq_true, Bool.or_eq_true] at hi
    rcases hi with (hi | hi) | hi
    · refine ⟨a, b, a ||| s, b ||| t, matches_low ha, matches_low hb, matches_high ha, matches_high hb, fun q => ?_⟩
      dsimp only at q
      rw [BitVec.getLsbD_xor, q, Bool.xor_self] at hi
      cases hi
    · rw [hi, Bool.and_true] at h3
      exact ⟨a, b, a ||| BitVec.twoPow w i, b, matches_low ha, matches_low hb, matches_one ha hi, matches_low hb, add_flip b hw h3⟩
    · rw [hi, Bool.and_true] at h4
      refine ⟨a, b, a, b ||| BitVec.twoPow w i, matches_low ha, matches_low hb, matches_low ha, matches_one hb hi, ?_⟩
      dsimp only
      rw [BitVec.add_comm a, BitVec.add_comm a]
      exact add_flip a hw h4

theorem matches_not {a s x : BitVec w} (h : Matches a s x) : Matches (~~~(a ||| s)) s (~~~x) := matches_iff.2 fun i hi => by
  have := matches_iff.1 h i hi
  rw [BitVec.getLsbD_not, BitVec.getLsbD_not, BitVec.getLsbD_or, decide_eq_true hi, ← this]
  cases x.getLsbD i <;> cases s.getLsbD i <;> rfl

theorem apart_not (a s : BitVec w) : ~~~(a ||| s) &&& s = 0#w := apart_iff.2 fun i hi => by
  rw [BitVec.getLsbD_not, BitVec.getLsbD_or, decide_eq_true hi]
  cases a.getLsbD i <;> cases s.getLsbD i <;> rfl

theorem not_not_pair {a s : BitVec w} (h : a &&& s = 0#w) : ~~~(~~~(a ||| s) ||| s) = a := by
  apply BitVec.eq_of_getLsbD_eq
  intro i hi
  have := apart_iff.1 h i hi
  simp only [BitVec.getLsbD_not, BitVec.getLsbD_or, decide_eq_true hi, Bool.true_and]
  revert this
  cases a.getLsbD i <;> cases s.getLsbD i <;> simp

theorem matches_of_not {a s x : BitVec w} (h : a &&& s = 0#w) (k : Matches (~~~(a ||| s)) s x) : Matches a s (~~~x) := by
  have := matches_not k
  rwa [not_not_pair h] at this

theorem sub_eq_not (x y : BitVec w) : x - y = ~~~(~~~x + y) := by
  apply BitVec.eq_of_toNat_eq
  rw [BitVec.toNat_sub, BitVec.toNat_not, BitVec.toNat_add, BitVec.toNat_not]
  have hx := x.isLt
  have hy := y.isLt
  by_cases h : y.toNat ≤ x.toNat
  · rw [Nat.mod_eq_of_lt (a := 2 ^ w - 1 - x.toNat + y.toNat) (by omega), show 2 ^ w - y.toNat + x.toNat = (x.toNat - y.toNat) + 2 ^ w by omega,
      Nat.add_mod_right, Nat.mod_eq_of_lt (by omega)]
    omega
  · rw [show 2 ^ w - 1 - x.toNat + y.toNat = (y.toNat - 1 - x.toNat) + 2 ^ w by omega, Nat.add_mod_right,
      Nat.mod_eq_of_lt (a := y.toNat - 1 - x.toNat) (by omega), Nat.mod_eq_of_lt (by omega)]
    omega

theorem bestPair_sub {a s b t v u : BitVec w} (ha : a &&& s = 0#w) (h : BestPair (· + ·) (~~~(a ||| s)) s b t v u) :
    BestPair (· - ·) a s b t (~~~(v ||| u)) u := by
  refine ⟨fun x y hx hy => ?_, fun i hi => ?_⟩
  · dsimp only
    rw [sub_eq_not]
    exact matches_not (h.1 _ _ (matches_not hx) hy)
  · obtain ⟨x, y, x', y', h1, h2, h3, h4, h5⟩ := h.2 i hi
    refine ⟨~~~x, y, ~~~x', y', matches_of_not ha h1, h2, matches_of_not ha h3, h4, fun e => h5 ?_⟩
    dsimp only at e ⊢
    rw [sub_eq_not, sub_eq_not, BitVec.not_not, BitVec.not_not, BitVec.getLsbD_not, BitVec.getLsbD_not, decide_eq_true (lt_of_getLsbD hi),
      Bool.true_and, Bool.true_and] at e
    exact Bool.not_inj e

/-! ## Programs -/

section
variable (m : Mode) {a s b t : BitVecValue} {A S B T : BitVec w}

theorem unknownNot_spec (hw : 0 < w) (ha : Denotes a A) (hs : Denotes s S) :
    ∃ v, unknownNot m a s = ok (v, s) ∧ Denotes v (~~~(A ||| S)) := by
  obtain ⟨p, p1, p2⟩ := C10_or m ha hs
  obtain ⟨v, v1, v2⟩ := C11_not m hw p2
  exact ⟨v, by rw [unknownNot, p1, ok_bind, v1, ok_bind], v2⟩

theorem unknownAdd_spec (hw : 0 < w) (ha : Denotes a A) (hs : Denotes s S) (hb : Denotes b B) (ht : Denotes t T) :
    ∃ v u, unknownAdd m a s b t = ok (v, u) ∧ Denotes v ((A + B) &&& ~~~(((A + B + (S + T)) ^^^ (A + B)) ||| S ||| T)) ∧
      Denotes u (((A + B + (S + T)) ^^^ (A + B)) ||| S ||| T) := by
  obtain ⟨l, l1, l2⟩ := C06_add m hw ha hb
  obtain ⟨o, o1, o2⟩ := C06_add m hw hs ht
  obtain ⟨h, h1, h2⟩ := C06_add m hw l2 o2
  obtain ⟨d, d1, d2⟩ := C10_xor m h2 l2
  obtain ⟨p, p1, p2⟩ := C10_or m d2 hs
  obtain ⟨u, u1, u2⟩ := C10_or m p2 ht
  obtain ⟨n, n1, n2⟩ := C11_not m hw u2
  obtain ⟨v, v1, v2, -⟩ := C10_and m l2 n2
  exact ⟨v, u, by rw [unknownAdd, l1, ok_bind, o1, ok_bind, h1, ok_bind, d1, ok_bind, p1, ok_bind, u1, ok_bind, n1, ok_bind, v1, ok_bind],
    v2, u2⟩

/-- **C168** `not`: the values of the result are the complements of the values. -/
theorem C168_not (hw : 0 < w) (ha : Denotes a A) (hs : Denotes s S) (h : A &&& S = 0#w) :
    ∃ (v : BitVecValue) (V : BitVec w), unknownNot m a s = ok (v, s) ∧ Denotes v V ∧ ∀ x, Matches V S x ↔ Matches A S (~~~x) := by
  obtain ⟨v, v1, v2⟩ := unknownNot_spec m hw ha hs
  refine ⟨v, _, v1, v2, fun x => ⟨matches_of_not h, fun k => ?_⟩⟩
  have := matches_not k
  rwa [BitVec.not_not] at this

/-- **C168** `and`. -/
theorem C168_and (ha : Denotes a A) (hs : Denotes s S) (hb : Denotes b B) (ht : Denotes t T) (h : A &&& S = 0#w)
    (k : B &&& T = 0#w) : ∃ (v u : BitVecValue) (V U : BitVec w), unknownAnd m a s b t = ok (v, u) ∧ Denotes v V ∧ Denotes u U ∧
      BestPair (· &&& ·) A S B T V U := by
  obtain ⟨v, v1, v2, -⟩ := C10_and m ha hb
  obtain ⟨p, p1, p2⟩ := C10_or m ha hs
  obtain ⟨q, q1, q2⟩ := C10_or m hb ht
  obtain ⟨r, r1, r2, -⟩ := C10_and m p2 q2
  obtain ⟨u, u1, u2⟩ := C10_xor m r2 v2
  exact ⟨v, u, _, _, by rw [unknownAnd, v1, ok_bind, p1, ok_bind, q1, ok_bind, r1, ok_bind, u1, ok_bind], v2, u2, bestPair_and h k⟩

/-- **C168** `or`. -/
theorem C168_or (ha : Denotes a A) (hs : Denotes s S) (hb : Denotes b B) (ht : Denotes t T) (h : A &&& S = 0#w)
    (k : B &&& T = 0#w) : ∃ (v u : BitVecValue) (V U : BitVec w), unknownOr m a s b t = ok (v, u) ∧ Denotes v V ∧ Denotes u U ∧
      BestPair (· ||| ·) A S B T V U := by
  obtain ⟨v, v1, v2⟩ := C10_or m ha hb
  obtain ⟨p, p1, p2⟩ := C10_or m ha hs
  obtain ⟨q, q1, q2⟩ := C10_or m hb ht
  obtain ⟨r, r1, r2⟩ := C10_or m p2 q2
  obtain ⟨u, u1, u2⟩ := C10_xor m r2 v2
  exact ⟨v, u, _, _, by rw [unknownOr, v1, ok_bind, p1, ok_bind, q1, ok_bind, r1, ok_bind, u1, ok_bind], v2, u2, bestPair_or h k⟩

/-- **C168** `xor`. -/
theorem C168_xor (hw : 0 < w) (ha : Denotes a A) (hs : Denotes s S) (hb : Denotes b B) (ht : Denotes t T) (h : A &&& S = 0#w)
    (k : B &&& T = 0#w) : ∃ (v u : BitVecValue) (V U : BitVec w), unknownXor m a s b t = ok (v, u) ∧ Denotes v V ∧ Denotes u U ∧
      BestPair (· ^^^ ·) A S B T V U := by
  obtain ⟨u, u1, u2⟩ := C10_or m hs ht
  obtain ⟨x, x1, x2⟩ := C10_xor m ha hb
  obtain ⟨n, n1, n2⟩ := C11_not m hw u2
  obtain ⟨v, v1, v2, -⟩ := C10_and m x2 n2
  exact ⟨v, u, _, _, by rw [unknownXor, u1, ok_bind, x1, ok_bind, n1, ok_bind, v1, ok_bind], v2, u2, bestPair_xor h k⟩

/-- **C168** `add`. -/
theorem C168_add (hw : 0 < w) (ha : Denotes a A) (hs : Denotes s S) (hb : Denotes b B) (ht : Denotes t T) (h : A &&& S = 0#w)
    (k : B &&& T = 0#w) : ∃ (v u : BitVecValue) (V U : BitVec w), unknownAdd m a s b t = ok (v, u) ∧ Denotes v V ∧ Denotes u U ∧
      BestPair (· + ·) A S B T V U := by
  obtain ⟨v, u, r1, r2, r3⟩ := unknownAdd_spec m hw ha hs hb ht
  exact ⟨v, u, _, _, r1, r2, r3, bestPair_add h k⟩

/-- **C168** `sub`. -/
theorem C168_sub (hw : 0 < w) (ha : Denotes a A) (hs : Denotes s S) (hb : Denotes b B) (ht : Denotes t T) (h : A &&& S = 0#w)
    (k : B &&& T = 0#w) : ∃ (v u : BitVecValue) (V U : BitVec w), unknownSub m a s b t = ok (v, u) ∧ Denotes v V ∧ Denotes u U ∧
      BestPair (· - ·) A S B T V U := by
  obtain ⟨n, n1, n2⟩ := unknownNot_spec m hw ha hs
  obtain ⟨v, u, r1, r2, r3⟩ := unknownAdd_spec m hw n2 hs hb ht
  obtain ⟨q, q1, q2⟩ := unknownNot_spec m hw r2 r3
  refine ⟨q, u, _, _, ?_, q2, r3, bestPair_sub h (bestPair_add (apart_not A S) k)⟩
  rw [unknownSub, n1, ok_bind]
  dsimp only
  rw [r1, ok_bind]
  exact q1

end

/-- `0b010x + 0b0001` is `0b01xx`: 5 or 6. -/
example : unknownAdd .debug (encode 0b0100#4) (encode 0b0001#4) (encode 0b0001#4) (encode 0#4)
    = ok (encode 0b0100#4, encode 0b0011#4) := by
  decide +kernel

/-- `0b010x` stands for 4 and 5. -/
example : Matches 0b0100#4 0b0001#4 5#4 ∧ ¬ Matches 0b0100#4 0b0001#4 6#4 ∧ (0b0100#4 &&& 0b0001#4) = 0#4 := by
  unfold Matches; decide

end Baa

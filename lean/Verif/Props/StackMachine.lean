import Verif.Props.Limbs
import Verif.Spec.StackMachine

/-!
# C159: expressions translated for a stack machine
-/

namespace Baa
open Res

variable {iw vw dw : Nat}

theorem UnaryOp.call_spec (m : Mode) (h0 : 0 < dw) (o : UnaryOp) {a : BitVecValue} {x : BitVec dw} (ha : Denotes a x) :
    ∃ r, o.call m a = ok r ∧ Denotes r (o.apply x) := by
  cases o
  · exact C11_not m h0 ha
  · exact C08_negate m h0 ha

theorem BinaryOp.call_spec (m : Mode) (h0 : 0 < dw) (o : BinaryOp) {a b : BitVecValue} {x y : BitVec dw} (ha : Denotes a x) (hb : Denotes b y) :
    ∃ r, o.call m a b = ok r ∧ Denotes r (o.apply x y) := by
  cases o
  · exact C06_add m h0 ha hb
  · exact C07_sub m h0 ha hb
  · obtain ⟨r, h1, h2, -⟩ := C10_and m ha hb
    exact ⟨r, h1, h2⟩
  · exact C10_or m ha hb
  · exact C10_xor m ha hb
  · exact C13_shift_right m h0 ha hb
  · exact C14_arithmetic_shift_right m h0 ha hb

theorem one_spec (m : Mode) (h0 : 0 < iw) (hi : iw ≤ 64) : ∃ r, BitVecValue.fromU64 m 1#64 iw = ok r ∧ Denotes r (1#iw) :=
  C01_from_u64 m h0 (by omega) 1#64 (by
    have : 2 ^ 1 ≤ 2 ^ iw := Nat.pow_le_pow_right (by decide) h0
    simp; omega)

theorem StackMachine.push_spec (m : Mode) (env : HashEnv) (h0 : 0 < iw) {a : ArrayValue} {f : BitVec iw → BitVec dw}
    (ha : Means m (.arr iw dw) a f) (s : BitVec iw) (x : BitVec dw) :
    ∃ b, StackMachine.push m env ⟨a, encode s⟩ (encode x) = ok ⟨b, encode (s + 1#iw)⟩ ∧ Means m (.arr iw dw) b (update f s x) := by
  have hi := ha.2.index_le
  obtain ⟨o, o1, o2⟩ := one_spec m h0 hi
  obtain ⟨b, b1, b2⟩ := ha.store_ex m env s x
  obtain ⟨t, t1, t2⟩ := C06_add m h0 (encode_denotes s (by omega)) o2
  refine ⟨b, ?_, b2⟩
  rw [StackMachine.push, show (encode s).width = iw from rfl, o1, ok_bind, b1, ok_bind, t1, ok_bind, t2.eq_encode]

theorem StackMachine.pop_spec (m : Mode) (env : HashEnv) (h0 : 0 < iw) {a : ArrayValue} {f : BitVec iw → BitVec dw}
    (ha : Means m (.arr iw dw) a f) (s : BitVec iw) :
    StackMachine.pop m env ⟨a, encode (s + 1#iw)⟩ = ok (encode (f s), ⟨a, encode s⟩) := by
  have hi := ha.2.index_le
  obtain ⟨o, o1, o2⟩ := one_spec m h0 hi
  obtain ⟨t, t1, t2⟩ := C07_sub m h0 (encode_denotes (s + 1#iw) (by omega)) o2
  rw [BitVec.add_sub_cancel] at t2
  rw [StackMachine.pop, show (encode (s + 1#iw)).width = iw from rfl, o1, ok_bind, t1, ok_bind, t2.eq_encode, ha.select_eq, ok_bind]

theorem StackMachine.exec_append (m : Mode) (env : HashEnv) (vars : ArrayValue) (cs ds : List StackCode) :
    ∀ s, StackMachine.exec m env vars s (cs ++ ds) = StackMachine.exec m env vars s cs >>= fun s => StackMachine.exec m env vars s ds := by
  induction cs with
  | nil => exact fun _ => rfl
  | cons c cs ih =>
    intro s
    rw [List.cons_append, exec, exec]
    cases s.step m env vars c with
    | panic p => rfl
    | ok s => rw [ok_bind, ok_bind, ih]

theorem Expression.height_pos : ∀ e : Expression vw dw, 0 < e.height
  | .literal _ => Nat.one_pos
  | .cell _ => Nat.one_pos
  | .unary _ e => e.height_pos
  | .binary _ e₁ e₂ => by rw [height]; omega

theorem outside_self {s j : BitVec iw} {n : Nat} (hn : 0 < n) (h : ¬ (j - s).toNat < n) : j ≠ s := by
  rintro rfl
  exact h (by simpa using hn)

/-- **C159** The code of an expression leaves its value on the stack, and the cells below it as they were. -/
theorem C159_compile (m : Mode) (env : HashEnv) (h0 : 0 < iw) {vars : ArrayValue} {h : BitVec vw → BitVec dw}
    (hv : Means m (.arr vw dw) vars h) (e : Expression vw dw) :
    ∀ {a : ArrayValue} {f : BitVec iw → BitVec dw}, Means m (.arr iw dw) a f → e.height ≤ 2 ^ iw → ∀ s : BitVec iw,
      ∃ b g, StackMachine.exec m env vars ⟨a, encode s⟩ e.compile = ok ⟨b, encode (s + 1#iw)⟩ ∧ Means m (.arr iw dw) b g ∧
        g s = e.value h ∧ ∀ j, ¬ (j - s).toNat < e.height → g j = f j := by
  induction e with
  | literal x =>
    intro a f ha _ s
    obtain ⟨b, b1, b2⟩ := StackMachine.push_spec m env h0 ha s x
    refine ⟨b, _, ?_, b2, update_at _ _ _, fun j q => update_away (outside_self Nat.one_pos q)⟩
    rw [Expression.compile, StackMachine.exec, StackMachine.step, b1, ok_bind]
    rfl
  | cell i =>
    intro a f ha _ s
    obtain ⟨b, b1, b2⟩ := StackMachine.push_spec m env h0 ha s (h i)
    refine ⟨b, _, ?_, b2, update_at _ _ _, fun j q => update_away (outside_self Nat.one_pos q)⟩
    rw [Expression.compile, StackMachine.exec, StackMachine.step, hv.select_eq, ok_bind, b1, ok_bind]
    rfl
  | unary o e ih =>
    intro a f ha hh s
    obtain ⟨b, g, g1, g2, g3, g4⟩ := ih ha hh s
    obtain ⟨r, r1, r2⟩ := o.call_spec m ha.2.data_pos (encode_denotes (g s) ha.2.data_lt)
    obtain ⟨c, c1, c2⟩ := StackMachine.push_spec m env h0 g2 s (o.apply (g s))
    refine ⟨c, _, ?_, c2, ?_, fun j q => ?_⟩
    · rw [Expression.compile, StackMachine.exec_append, g1, ok_bind, StackMachine.exec, StackMachine.step,
        StackMachine.pop_spec m env h0 g2, ok_bind]
      simp only []
      rw [r1, ok_bind, r2.eq_encode, c1, ok_bind]
      rfl
    · rw [update_at, g3]
      rfl
    · rw [update_away (outside_self (Expression.height_pos (.unary o e)) q), g4 j q]
  | binary o e₁ e₂ ih₁ ih₂ =>
    intro a f ha hh s
    rw [Expression.height] at hh
    obtain ⟨b, g, g1, g2, g3, g4⟩ := ih₁ ha (by omega) s
    obtain ⟨c, k, k1, k2, k3, k4⟩ := ih₂ g2 (by omega) (s + 1#iw)
    have hs : k s = e₁.value h := by rw [k4 s (next_outside (by omega)), g3]
    obtain ⟨r, r1, r2⟩ := o.call_spec m ha.2.data_pos (encode_denotes (k s) ha.2.data_lt) (encode_denotes (k (s + 1#iw)) ha.2.data_lt)
    obtain ⟨t, t1, t2⟩ := StackMachine.push_spec m env h0 k2 s (o.apply (k s) (k (s + 1#iw)))
    refine ⟨t, _, ?_, t2, ?_, fun j q => ?_⟩
    · rw [Expression.compile, StackMachine.exec_append, StackMachine.exec_append, g1, ok_bind, k1, ok_bind, StackMachine.exec,
        StackMachine.step, StackMachine.pop_spec m env h0 k2, ok_bind]
      simp only []
      rw [StackMachine.pop_spec m env h0 k2, ok_bind]
      simp only []
      rw [r1, ok_bind, r2.eq_encode, t1, ok_bind]
      rfl
    · rw [update_at, hs, k3]
      rfl
    · rw [Expression.height] at q
      obtain ⟨q1, q2⟩ := outside_succ (d := s) (j := j) (n := e₂.height) (by omega)
      rw [update_away q1, k4 j q2, g4 j (by omega)]

/-- `x₁ - (5 ^ ~x₀)` on a stack of four cells that starts near its end. -/
example : (ArrayValue.newDense .debug 2 (encode 0#70) >>= fun a => ArrayValue.newSparse 1 (encode 12#70) >>= fun vars =>
      vars.store .debug listEnv (encode 1#1) (encode 0x100000000000000000#70) >>= fun vars =>
      StackMachine.exec .debug listEnv vars ⟨a, encode 3#2⟩
        (Expression.binary .sub (.cell 1#1) (.binary .xor (.literal 5#70) (.unary .not (.cell 0#1)))).compile >>= fun s =>
      s.pop .debug listEnv >>= fun r => ok r.1) =
    ok (encode ((Expression.binary .sub (.cell 1#1) (.binary .xor (.literal 5#70) (.unary .not (.cell 0#1)))).value
      fun i : BitVec 1 => if i = 1#1 then 0x100000000000000000#70 else 12#70)) := by decide +kernel

/-- A stack that is too small: `1 + (2 + 3)` on two cells gives 8. -/
theorem C159_height_matters : (Expression.binary (vw := 1) .add (.literal 1#8) (.binary .add (.literal 2#8) (.literal 3#8))).height = 3 ∧
    (ArrayValue.newDense .debug 1 (encode 0#8) >>= fun a =>
      StackMachine.exec .debug listEnv a ⟨a, encode 0#1⟩
        (Expression.binary (vw := 1) .add (.literal 1#8) (.binary .add (.literal 2#8) (.literal 3#8))).compile >>= fun s =>
      s.pop .debug listEnv >>= fun r => ok r.1) = ok (encode 8#8) := by decide +kernel

end Baa

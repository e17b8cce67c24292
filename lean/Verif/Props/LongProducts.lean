import Verif.Props.Limbs
import Verif.Props.Algorithms
import Verif.Spec.LongProducts

/-!
# C163: products of long numbers in memory
-/

namespace Baa
open Res

variable {iw dw : Nat}

theorem digitProduct_bound {M x y z c : Nat} (hx : x < M) (hy : y < M) (hz : z < M) (hc : c < M) : y * z + x + c < M * M := by
  obtain ⟨k, rfl⟩ : ∃ k, M = k + 1 := ⟨M - 1, by omega⟩
  have h : y * z ≤ k * k := Nat.mul_le_mul (by omega) (by omega)
  have e : (k + 1) * (k + 1) = k * k + k + k + 1 := by rw [Nat.add_mul, Nat.mul_add]; omega
  omega

theorem digitProduct_spec (m : Mode) (h0 : 0 < dw) (h2 : dw + dw < 2 ^ 32) (x y z c : BitVec dw) :
    ∃ l h : BitVec dw, digitProduct m (encode x) (encode y) (encode z) (encode c) = ok (encode l, encode h) ∧
      l.toNat + 2 ^ dw * h.toNat = x.toNat + y.toNat * z.toNat + c.toNat := by
  have hd : dw < 2 ^ 32 := by omega
  obtain ⟨x', x1, x2, -⟩ := C22_zero_extend_partial m (encode_denotes x hd) dw h2 (.inl h0)
  obtain ⟨y', y1, y2, -⟩ := C22_zero_extend_partial m (encode_denotes y hd) dw h2 (.inl h0)
  obtain ⟨z', z1, z2, -⟩ := C22_zero_extend_partial m (encode_denotes z hd) dw h2 (.inl h0)
  obtain ⟨c', c1, c2, -⟩ := C22_zero_extend_partial m (encode_denotes c hd) dw h2 (.inl h0)
  obtain ⟨p, p1, p2⟩ := C135_multiply m (by omega) y2 z2
  obtain ⟨s, s1, s2⟩ := C06_add m (by omega) p2 x2
  obtain ⟨t, t1, t2⟩ := C06_add m (by omega) s2 c2
  obtain ⟨k, rfl⟩ : ∃ k, dw = k + 1 := ⟨dw - 1, by omega⟩
  obtain ⟨l, l1, l2⟩ := C19_slice m t2 (msb := k) (lsb := 0) (by omega) (by omega)
  obtain ⟨u, u1, u2⟩ := C19_slice m t2 (msb := k + 1 + (k + 1) - 1) (lsb := k + 1) (by omega) (by omega)
  rw [show k - 0 + 1 = k + 1 by omega] at l2
  rw [show k + 1 + (k + 1) - 1 - (k + 1) + 1 = k + 1 by omega] at u2
  refine ⟨BitVec.extractLsb' 0 (k + 1) (y.setWidth (k + 1 + (k + 1)) * z.setWidth (k + 1 + (k + 1)) +
    x.setWidth (k + 1 + (k + 1)) + c.setWidth (k + 1 + (k + 1))), BitVec.extractLsb' (k + 1) (k + 1) (y.setWidth (k + 1 + (k + 1)) * z.setWidth (k + 1 + (k + 1)) +
    x.setWidth (k + 1 + (k + 1)) + c.setWidth (k + 1 + (k + 1))), ?_, ?_⟩
  · rw [digitProduct]
    rw [show (encode x).width = k + 1 from rfl, x1, ok_bind, y1, ok_bind, z1, ok_bind, c1, ok_bind, p1, ok_bind, s1, ok_bind, t1, ok_bind,
      show k + 1 - 1 = k by omega, l1, ok_bind, u1, ok_bind, l2.eq_encode, u2.eq_encode]
  · have hM : (2 : Nat) ^ (k + 1 + (k + 1)) = 2 ^ (k + 1) * 2 ^ (k + 1) := Nat.pow_add ..
    have b := digitProduct_bound x.isLt y.isLt z.isLt c.isLt
    have hx := x.isLt
    have hy := y.isLt
    have hz := z.isLt
    have hc := c.isLt
    have ge : 2 ^ (k + 1) ≤ 2 ^ (k + 1 + (k + 1)) := Nat.pow_le_pow_right (by decide) (by omega)
    have e : (y.setWidth (k + 1 + (k + 1)) * z.setWidth (k + 1 + (k + 1)) + x.setWidth (k + 1 + (k + 1)) +
        c.setWidth (k + 1 + (k + 1))).toNat = y.toNat * z.toNat + x.toNat + c.toNat := by
      rw [BitVec.toNat_add, BitVec.toNat_add, BitVec.toNat_mul]
      simp only [BitVec.toNat_setWidth]
      rw [Nat.mod_eq_of_lt (Nat.lt_of_lt_of_le hx ge), Nat.mod_eq_of_lt (Nat.lt_of_lt_of_le hy ge),
        Nat.mod_eq_of_lt (Nat.lt_of_lt_of_le hz ge), Nat.mod_eq_of_lt (Nat.lt_of_lt_of_le hc ge)]
      rw [Nat.mod_eq_of_lt (a := y.toNat * z.toNat) (by omega), Nat.mod_eq_of_lt (a := y.toNat * z.toNat + x.toNat) (by omega),
        Nat.mod_eq_of_lt (by omega)]
    rw [BitVec.extractLsb'_toNat, BitVec.extractLsb'_toNat, e, Nat.shiftRight_zero, Nat.shiftRight_eq_div_pow]
    rw [Nat.mod_eq_of_lt (a := (y.toNat * z.toNat + x.toNat + c.toNat) / 2 ^ (k + 1)) (Nat.div_lt_of_lt_mul b)]
    rw [Nat.mod_add_div]
    omega

theorem addMultiple_spec (m : Mode) (env : HashEnv) (h0 : 0 < iw) (h2 : dw + dw < 2 ^ 32) {b : ArrayValue} {h : BitVec iw → BitVec dw}
    (hb : Means m (.arr iw dw) b h) (z : BitVec dw) (n : Nat) : ∀ {a : ArrayValue} {f : BitVec iw → BitVec dw}
    (_ : Means m (.arr iw dw) a f) (d e : BitVec iw) (c : BitVec dw), n ≤ 2 ^ iw →
    ∃ (r : ArrayValue) (g : BitVec iw → BitVec dw) (u : BitVec dw),
      addMultiple m env b (encode z) n (encode d) (encode e) a (encode c) = ok (r, encode u) ∧
      Means m (.arr iw dw) r g ∧ SameOutside f g d n ∧
      limbsNumber (cellsFrom g d n) + 2 ^ (dw * n) * u.toNat =
        limbsNumber (cellsFrom f d n) + limbsNumber (cellsFrom h e n) * z.toNat + c.toNat := by
  induction n with
  | zero =>
    intro a f ha d e c _
    exact ⟨a, f, c, rfl, ha, fun _ _ => rfl, by simp [cellsFrom, limbsNumber]⟩
  | succ n ih =>
    intro a f ha d e c hn
    have hi := ha.2.index_le
    obtain ⟨l, u, p1, p2⟩ := digitProduct_spec m ha.2.data_pos h2 (f d) (h e) z c
    obtain ⟨a', a1, a2⟩ := ha.store_ex m env d l
    obtain ⟨r, g, v, r1, r2, r3, r4⟩ := ih a2 (d + 1#iw) (e + 1#iw) u (by omega)
    refine ⟨r, g, v, ?_, r2, ?_, ?_⟩
    · rw [addMultiple, ha.select_eq, ok_bind, hb.select_eq, ok_bind, p1, ok_bind]
      dsimp only
      rw [a1, ok_bind, offset_one m h0 hi, ok_bind, offset_one m h0 hi, ok_bind, r1]
    · intro j q
      obtain ⟨q1, q2⟩ := outside_succ q
      rw [r3 j q2, update_away q1]
    · have o := next_outside (d := d) hn
      rw [cellsFrom_update (by omega) o] at r4
      have hg : g d = l := by rw [r3 d o, update_at]
      rw [cellsFrom_succ, cellsFrom_succ, cellsFrom_succ, limbsNumber, limbsNumber, limbsNumber, hg, Nat.mul_succ, Nat.pow_add]
      have r5 := congrArg (2 ^ dw * ·) r4
      simp only [Nat.mul_add] at r5
      rw [Nat.mul_comm (2 ^ (dw * n)), Nat.mul_assoc, Nat.add_mul, Nat.mul_assoc]
      omega

theorem limbsNumber_last (f : BitVec iw → BitVec dw) (n : Nat) : ∀ (d : BitVec iw),
    limbsNumber (cellsFrom f d (n + 1)) = limbsNumber (cellsFrom f d n) + 2 ^ (dw * n) * (f (d + BitVec.ofNat iw n)).toNat := by
  induction n with
  | zero => intro d; simp [cellsFrom, limbsNumber]
  | succ n ih =>
    intro d
    rw [cellsFrom_succ, limbsNumber, ih, cellsFrom_succ f d n, limbsNumber, Nat.mul_succ, Nat.pow_add, Nat.mul_add]
    have e : d + 1#iw + BitVec.ofNat iw n = d + BitVec.ofNat iw (n + 1) := by
      rw [BitVec.add_assoc, BitVec.add_comm 1#iw, ← BitVec.ofNat_add]
    rw [e, ← Nat.mul_assoc, Nat.mul_comm (2 ^ (dw * n)), Nat.add_assoc]

theorem mulCells_spec (m : Mode) (env : HashEnv) (h0 : 0 < iw) (h2 : dw + dw < 2 ^ 32) {b c : ArrayValue} {h l : BitVec iw → BitVec dw}
    (hb : Means m (.arr iw dw) b h) (hc : Means m (.arr iw dw) c l) (n : Nat) (e : BitVec iw) (k : Nat) :
    ∀ {a : ArrayValue} {f : BitVec iw → BitVec dw} (_ : Means m (.arr iw dw) a f) (d s : BitVec iw), n + k ≤ 2 ^ iw →
    ∃ (r : ArrayValue) (g : BitVec iw → BitVec dw), mulCells m env b c n (encode e) k (encode d) (encode s) a = ok r ∧
      Means m (.arr iw dw) r g ∧ SameOutside f g d (n + k) ∧
      limbsNumber (cellsFrom g d (n + k)) =
        limbsNumber (cellsFrom f d n) + limbsNumber (cellsFrom h e n) * limbsNumber (cellsFrom l s k) := by
  induction k with
  | zero =>
    intro a f ha d s _
    exact ⟨a, f, rfl, ha, fun _ _ => rfl, by simp [cellsFrom, limbsNumber]⟩
  | succ k ih =>
    intro a f ha d s hn
    have hi := ha.2.index_le
    have hd : dw < 2 ^ 32 := ha.2.data_lt
    obtain ⟨a₁, f₁, u, p1, p2, p3, p4⟩ := addMultiple_spec m env h0 h2 hb (l s) n ha d e 0#dw (by omega)
    obtain ⟨a₂, q1, q2⟩ := p2.store_ex m env (d + BitVec.ofNat iw n) u
    obtain ⟨r, g, r1, r2, r3, r4⟩ := ih q2 (d + 1#iw) (s + 1#iw) (by omega)
    have top : (d + BitVec.ofNat iw n - d).toNat = n := (sub_toNat_eq_iff (by omega)).2 rfl
    refine ⟨r, g, ?_, r2, ?_, ?_⟩
    · rw [mulCells, hc.select_eq, ok_bind, show (encode (l s)).width = dw from rfl, (C01_zero (w := dw) hd).eq_encode, p1, ok_bind]
      dsimp only
      rw [offsetBy_spec m h0 hi (encode_denotes d (by omega)) (by omega), ok_bind, q1, ok_bind, offset_one m h0 hi, ok_bind,
        offset_one m h0 hi, ok_bind, r1]
    · intro j q
      obtain ⟨-, j2⟩ := outside_succ (n := n + k) (by omega)
      have j3 : j ≠ d + BitVec.ofNat iw n := fun w => by rw [w, top] at q; omega
      rw [r3 j j2, update_away j3, p3 j (by omega)]
    · have o := next_outside (d := d) (n := n + k) (by omega)
      have one : limbsNumber (cellsFrom (update f₁ (d + BitVec.ofNat iw n) u) d (n + 1)) =
          limbsNumber (cellsFrom f₁ d n) + 2 ^ (dw * n) * u.toNat := by
        rw [limbsNumber_last, update_at, cellsFrom_update (by omega) (by rw [top]; omega)]
      rw [cellsFrom_succ, limbsNumber] at one
      rw [show n + (k + 1) = n + k + 1 by omega, cellsFrom_succ, limbsNumber, r3 d o, r4, cellsFrom_succ l s k, limbsNumber, Nat.mul_add,
        Nat.mul_add]
      have z : (0#dw).toNat = 0 := by simp
      rw [z] at p4
      have e1 : 2 ^ dw * (limbsNumber (cellsFrom h e n) * limbsNumber (cellsFrom l (s + 1#iw) k)) =
          limbsNumber (cellsFrom h e n) * (2 ^ dw * limbsNumber (cellsFrom l (s + 1#iw) k)) := by
        rw [← Nat.mul_assoc, Nat.mul_comm (2 ^ dw), Nat.mul_assoc]
      omega

/-- **C163** The product of two long numbers: what is left in memory is what was there plus the product. -/
theorem C163_multiply (m : Mode) (env : HashEnv) (h0 : 0 < iw) (h2 : dw + dw < 2 ^ 32) {a b c : ArrayValue} {f h l : BitVec iw → BitVec dw}
    (ha : Means m (.arr iw dw) a f) (hb : Means m (.arr iw dw) b h) (hc : Means m (.arr iw dw) c l) {p q t : BitVecValue} {d e s : BitVec iw}
    (hp : Denotes p d) (hq : Denotes q e) (ht : Denotes t s) {n k : Nat} (hn : n + k ≤ 2 ^ iw) :
    ∃ (r : ArrayValue) (g : BitVec iw → BitVec dw), mulCells m env b c n q k p t a = ok r ∧ Means m (.arr iw dw) r g ∧
      (∀ j, ¬ (j - d).toNat < n + k → g j = f j) ∧
      limbsNumber (cellsFrom g d (n + k)) =
        limbsNumber (cellsFrom f d n) + limbsNumber (cellsFrom h e n) * limbsNumber (cellsFrom l s k) := by
  rw [hp.eq_encode, hq.eq_encode, ht.eq_encode]
  exact mulCells_spec m env h0 h2 hb hc n e k ha d s hn

/-- Digits of eight bits: `0xffff * 0xfffe = 0xfffd0002`. -/
example : (ArrayValue.newDense .debug 3 (encode 0#8) >>= fun a => ArrayValue.newSparse 3 (encode 0xff#8) >>= fun b =>
      b.store .debug listEnv (encode 0#3) (encode 0xfe#8) >>= fun c =>
      mulCells .debug listEnv b c 2 (encode 4#3) 2 (encode 6#3) (encode 0#3) a >>= fun r =>
      loadCells .debug listEnv r (encode 6#3) 5)
    = ok ([0x02#8, 0x00#8, 0xfd#8, 0xff#8, 0x00#8].map encode) := by
  decide +kernel

end Baa

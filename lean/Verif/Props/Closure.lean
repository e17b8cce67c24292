import Verif.Props.Arith
import Verif.Props.Compare
import Verif.Props.Slice
import Verif.Props.Convert
import Verif.Spec.Expressions

/-!
# C27: closure of the operations under arbitrary composition

`Expr w` is the syntax of computations that produce a value of width `w`; `Expr.eval` runs the code, `Expr.denote` is the
meaning in terms of Lean's `BitVec`.
-/

namespace Baa
open Res

/-- **C27, full statement** (false of the code, see `C27_refuted`): every legal computation returns, in both build modes,
the canonical representation of its mathematical result. -/
def C27_statement : Prop :=
  ∀ (m : Mode) {w : Nat} (e : Expr w), e.Legal → ∃ r, e.eval m = ok r ∧ Denotes r e.denote

theorem Expr.Legal.pos : {w : Nat} → {e : Expr w} → e.Legal → 0 < w
  | _, .leaf _, h => h.2
  | _, .add _ _, h => Expr.Legal.pos h.1
  | _, .sub _ _, h => Expr.Legal.pos h.1
  | _, .mul _ _, h => Expr.Legal.pos h.1
  | _, .and _ _, h => Expr.Legal.pos h.1
  | _, .or _ _, h => Expr.Legal.pos h.1
  | _, .xor _ _, h => Expr.Legal.pos h.1
  | _, .shl _ _, h => Expr.Legal.pos h.1
  | _, .shr _ _, h => Expr.Legal.pos h.1
  | _, .ashr _ _, h => Expr.Legal.pos h.1
  | _, .neg a, h => Expr.Legal.pos (e := a) h
  | _, .not a, h => Expr.Legal.pos (e := a) h
  | _, .slice _ _ _, _ => Nat.succ_pos _
  | _, .concat _ _, h => Nat.lt_of_lt_of_le (Expr.Legal.pos h.1) (Nat.le_add_right _ _)
  | _, .zext _ _, h => Nat.lt_of_lt_of_le (Expr.Legal.pos h.1) (Nat.le_add_right _ _)
  | _, .sext _ _, h => Nat.lt_of_lt_of_le (Expr.Legal.pos h.1) (Nat.le_add_right _ _)
  | _, .eq _ _, _ => Nat.one_pos
  | _, .ugt _ _, _ => Nat.one_pos
  | _, .sgt _ _, _ => Nat.one_pos
  | _, .sge _ _, _ => Nat.one_pos
  | _, .ite _ _ _, h => Expr.Legal.pos h.2.1

/-- **C27** (partial): every legal computation of any size without products wider than 64 bits and without the mishandled
left shifts returns the canonical representation of its mathematical result, in both build modes. Missing: those two
operations (`Supported`), where the code is wrong (`C27_refuted`). -/
theorem C27_closure_partial (m : Mode) : {w : Nat} → (e : Expr w) → e.Legal → e.Supported →
    ∃ r, e.eval m = ok r ∧ Denotes r e.denote
  | _, .leaf v, h, _ => ⟨v, rfl, h.1.denotes⟩
  | _, .add a b, h, s => by
    have hw := h.1.pos
    obtain ⟨x, hx, dx⟩ := C27_closure_partial m a h.1 s.1
    obtain ⟨y, hy, dy⟩ := C27_closure_partial m b h.2 s.2
    obtain ⟨r, hr, dr⟩ := C06_add m hw dx dy
    exact ⟨r, by rw [Expr.eval, hx, ok_bind, hy, ok_bind, hr], dr⟩
  | _, .sub a b, h, s => by
    have hw := h.1.pos
    obtain ⟨x, hx, dx⟩ := C27_closure_partial m a h.1 s.1
    obtain ⟨y, hy, dy⟩ := C27_closure_partial m b h.2 s.2
    obtain ⟨r, hr, dr⟩ := C07_sub m hw dx dy
    exact ⟨r, by rw [Expr.eval, hx, ok_bind, hy, ok_bind, hr], dr⟩
  | _, .mul a b, h, s => by
    have hw := h.1.pos
    obtain ⟨x, hx, dx⟩ := C27_closure_partial m a h.1 s.1
    obtain ⟨y, hy, dy⟩ := C27_closure_partial m b h.2 s.2.1
    obtain ⟨r, hr, dr⟩ := C09_mul_partial m hw s.2.2 dx dy
    exact ⟨r, by rw [Expr.eval, hx, ok_bind, hy, ok_bind, hr], dr⟩
  | _, .and a b, h, s => by
    have hw := h.1.pos
    obtain ⟨x, hx, dx⟩ := C27_closure_partial m a h.1 s.1
    obtain ⟨y, hy, dy⟩ := C27_closure_partial m b h.2 s.2
    obtain ⟨r, hr, dr, _⟩ := C10_and m dx dy
    exact ⟨r, by rw [Expr.eval, hx, ok_bind, hy, ok_bind, hr], dr⟩
  | _, .or a b, h, s => by
    have hw := h.1.pos
    obtain ⟨x, hx, dx⟩ := C27_closure_partial m a h.1 s.1
    obtain ⟨y, hy, dy⟩ := C27_closure_partial m b h.2 s.2
    obtain ⟨r, hr, dr⟩ := C10_or m dx dy
    exact ⟨r, by rw [Expr.eval, hx, ok_bind, hy, ok_bind, hr], dr⟩
  | _, .xor a b, h, s => by
    have hw := h.1.pos
    obtain ⟨x, hx, dx⟩ := C27_closure_partial m a h.1 s.1
    obtain ⟨y, hy, dy⟩ := C27_closure_partial m b h.2 s.2
    obtain ⟨r, hr, dr⟩ := C10_xor m dx dy
    exact ⟨r, by rw [Expr.eval, hx, ok_bind, hy, ok_bind, hr], dr⟩
  | _, .shl a b, h, s => by
    have hw := h.1.pos
    obtain ⟨x, hx, dx⟩ := C27_closure_partial m a h.1 s.1
    obtain ⟨y, hy, dy⟩ := C27_closure_partial m b h.2 s.2.1
    obtain ⟨r, hr, dr⟩ := C12_shift_left_partial m hw dx dy s.2.2
    exact ⟨r, by rw [Expr.eval, hx, ok_bind, hy, ok_bind, hr], dr⟩
  | _, .shr a b, h, s => by
    have hw := h.1.pos
    obtain ⟨x, hx, dx⟩ := C27_closure_partial m a h.1 s.1
    obtain ⟨y, hy, dy⟩ := C27_closure_partial m b h.2 s.2
    obtain ⟨r, hr, dr⟩ := C13_shift_right m hw dx dy
    exact ⟨r, by rw [Expr.eval, hx, ok_bind, hy, ok_bind, hr], dr⟩
  | _, .ashr a b, h, s => by
    have hw := h.1.pos
    obtain ⟨x, hx, dx⟩ := C27_closure_partial m a h.1 s.1
    obtain ⟨y, hy, dy⟩ := C27_closure_partial m b h.2 s.2
    obtain ⟨r, hr, dr⟩ := C14_arithmetic_shift_right m hw dx dy
    exact ⟨r, by rw [Expr.eval, hx, ok_bind, hy, ok_bind, hr], dr⟩
  | _, .neg a, h, s => by
    have hw := Expr.Legal.pos (e := a) h
    obtain ⟨x, hx, dx⟩ := C27_closure_partial m a h s
    obtain ⟨r, hr, dr⟩ := C08_negate m hw dx
    exact ⟨r, by rw [Expr.eval, hx, ok_bind, hr], dr⟩
  | _, .not a, h, s => by
    have hw := Expr.Legal.pos (e := a) h
    obtain ⟨x, hx, dx⟩ := C27_closure_partial m a h s
    obtain ⟨r, hr, dr⟩ := C11_not m hw dx
    exact ⟨r, by rw [Expr.eval, hx, ok_bind, hr], dr⟩
  | _, .slice a msb lsb, h, s => by
    obtain ⟨x, hx, dx⟩ := C27_closure_partial m a h.1 s
    obtain ⟨r, hr, dr⟩ := C19_slice m dx h.2.1 h.2.2
    exact ⟨r, by rw [Expr.eval, hx, ok_bind, hr], dr⟩
  | _, .concat a b, h, s => by
    obtain ⟨x, hx, dx⟩ := C27_closure_partial m a h.1 s.1
    obtain ⟨y, hy, dy⟩ := C27_closure_partial m b h.2.1 s.2
    obtain ⟨r, hr, dr⟩ := C21_concat_partial m dx dy h.2.2 (.inl ⟨h.1.pos, h.2.1.pos⟩)
    exact ⟨r, by rw [Expr.eval, hx, ok_bind, hy, ok_bind, hr], dr⟩
  | _, .zext a n, h, s => by
    obtain ⟨x, hx, dx⟩ := C27_closure_partial m a h.1 s
    obtain ⟨r, hr, dr, _⟩ := C22_zero_extend_partial m dx n h.2 (.inl h.1.pos)
    exact ⟨r, by rw [Expr.eval, hx, ok_bind, hr], dr⟩
  | _, .sext a n, h, s => by
    obtain ⟨x, hx, dx⟩ := C27_closure_partial m a h.1 s
    obtain ⟨r, hr, dr, _⟩ := C23_sign_extend m h.1.pos dx n h.2
    exact ⟨r, by rw [Expr.eval, hx, ok_bind, hr], dr⟩
  | _, .eq a b, h, s => by
    have hw := h.1.pos
    obtain ⟨x, hx, dx⟩ := C27_closure_partial m a h.1 s.1
    obtain ⟨y, hy, dy⟩ := C27_closure_partial m b h.2 s.2
    obtain ⟨r, hr, dr⟩ := C01_from_bool m _
    exact ⟨r, by rw [Expr.eval, hx, ok_bind, hy, ok_bind, C15_is_equal m dx dy, ok_bind, hr], dr⟩
  | _, .ugt a b, h, s => by
    have hw := h.1.pos
    obtain ⟨x, hx, dx⟩ := C27_closure_partial m a h.1 s.1
    obtain ⟨y, hy, dy⟩ := C27_closure_partial m b h.2 s.2
    obtain ⟨r, hr, dr⟩ := C01_from_bool m _
    exact ⟨r, by rw [Expr.eval, hx, ok_bind, hy, ok_bind, C16_is_greater m dx dy, ok_bind, hr], dr⟩
  | _, .sgt a b, h, s => by
    have hw := h.1.pos
    obtain ⟨x, hx, dx⟩ := C27_closure_partial m a h.1 s.1
    obtain ⟨y, hy, dy⟩ := C27_closure_partial m b h.2 s.2
    obtain ⟨r, hr, dr⟩ := C01_from_bool m _
    exact ⟨r, by rw [Expr.eval, hx, ok_bind, hy, ok_bind, C18_is_greater_signed m hw dx dy, ok_bind, hr], dr⟩
  | _, .sge a b, h, s => by
    have hw := h.1.pos
    obtain ⟨x, hx, dx⟩ := C27_closure_partial m a h.1 s.1
    obtain ⟨y, hy, dy⟩ := C27_closure_partial m b h.2 s.2
    obtain ⟨r, hr, dr⟩ := C01_from_bool m _
    exact ⟨r, by rw [Expr.eval, hx, ok_bind, hy, ok_bind, C18_is_greater_or_equal_signed m hw dx dy, ok_bind, hr], dr⟩
  | _, .ite c a b, h, s => by
    obtain ⟨z, hz, dz⟩ := C27_closure_partial m c h.1 s.1
    obtain ⟨x, hx, dx⟩ := C27_closure_partial m a h.2.1 s.2.1
    obtain ⟨y, hy, dy⟩ := C27_closure_partial m b h.2.2 s.2.2
    have hc : (1 = 1 ∧ c.denote.toNat = 1) ↔ c.denote = 1#1 := by
      rw [← BitVec.toNat_inj]
      simp
    by_cases h1 : c.denote = 1#1
    · refine ⟨x, ?_, by rw [Expr.denote, if_pos h1]; exact dx⟩
      rw [Expr.eval, hz, ok_bind, C25_is_tru dz, ok_bind, decide_eq_true (hc.mpr h1), if_pos rfl, hx]
    · refine ⟨y, ?_, by rw [Expr.denote, if_neg h1]; exact dy⟩
      rw [Expr.eval, hz, ok_bind, C25_is_tru dz, ok_bind, decide_eq_false (fun e => h1 (hc.mp e)),
        if_neg (by decide), hy]

/-- Any two supported computations with the same mathematical result return the identical value. -/
theorem C27_same_meaning_same_value_partial (m : Mode) {w : Nat} (e f : Expr w) (he : e.Legal ∧ e.Supported)
    (hf : f.Legal ∧ f.Supported) (h : e.denote = f.denote) : e.eval m = f.eval m := by
  obtain ⟨x, hx, dx⟩ := C27_closure_partial m e he.1 he.2
  obtain ⟨y, hy, dy⟩ := C27_closure_partial m f hf.1 hf.2
  rw [hx, hy, dx.repr_unique (h ▸ dy)]

/-- A supported computation: the low 70 bits of `(a ++ b) - (sext c)`. -/
def C27_example : Expr 70 :=
  .slice (.sub (.concat (.leaf (encode 5#66)) (.leaf (encode 3#64))) (.sext (.leaf (encode 7#3)) 127)) 69 0

example : C27_example.Legal ∧ C27_example.Supported ∧ C27_example.eval .debug = ok (encode 0x50000000000000004#70) := by
  refine ⟨?_, ?_, by decide +kernel⟩
  · refine ⟨⟨⟨⟨(encode_denotes _ (by decide)).canonical, by decide⟩, ⟨(encode_denotes _ (by decide)).canonical, by decide⟩,
      by decide⟩, ⟨⟨(encode_denotes _ (by decide)).canonical, by decide⟩, by decide⟩⟩, by decide, by decide⟩
  · exact ⟨⟨trivial, trivial⟩, trivial⟩

/-- **C27 is false of the code**: left-shifting a 100-bit value by 64 and comparing the result with its mathematical
value gives the wrong answer. -/
theorem C27_refuted : ¬ C27_statement := fun h => by
  have hl : ∀ x : BitVec 100, (Expr.leaf (encode x)).Legal := fun x =>
    ⟨(encode_denotes x (by decide)).canonical, Nat.succ_pos 99⟩
  have hleg : (Expr.eq (.shl (.leaf (encode (BitVec.ofNat 100 (2 ^ 36)))) (.leaf (encode 64#100)))
    (.leaf (encode 0#100))).Legal := ⟨⟨hl _, hl _⟩, hl _⟩
  obtain ⟨r, hr, hd⟩ := h .debug _ hleg
  have e : (Expr.eq (.shl (.leaf (encode (BitVec.ofNat 100 (2 ^ 36)))) (.leaf (encode 64#100)))
    (.leaf (encode 0#100))).eval .debug = ok ⟨1, [0#64]⟩ := by decide +kernel
  rw [e] at hr
  cases hr
  have := hd.val_eq
  revert this
  decide +kernel

/-- **C27 is false of the code**, second reason: a legal 65-bit product panics. -/
theorem C27_mul_refuted : ¬ C27_statement := fun h => by
  obtain ⟨r, hr, _⟩ := h .release (.mul (.leaf (encode 2#65)) (.leaf (encode 3#65)))
    ⟨⟨(encode_denotes _ (by decide)).canonical, by decide⟩, ⟨(encode_denotes _ (by decide)).canonical, by decide⟩⟩
  have e : (Expr.mul (.leaf (encode 2#65)) (.leaf (encode 3#65))).eval .release = panic .todo := by decide +kernel
  rw [e] at hr
  cases hr

end Baa

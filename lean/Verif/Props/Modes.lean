import Verif.Proofs.Modes
import Verif.Proofs.Ops
import Verif.Spec.Calls

/-!
# C28: debug and release builds agree

`Call` lists the calls of the public API with their arguments, `Call.run` executes one in the given build mode. Calls that
take a mutable reference return the new contents of what it refers to.
-/

namespace Baa
open Res

/-- C28: whatever call is made, with whatever arguments (canonical or not): if the debug build returns, the release build
returns the same result. -/
theorem C28_debug_release_agree (env : HashEnv) {α : Type} (c : Call α) (r : α) (h : c.run env .debug = ok r) :
    c.run env .release = ok r := by
  have hl : Le (c.run env .debug) (c.run env .release) := by
    cases c <;> dsimp only [Call.run] <;> le_step
  exact hl.of_ok r h

/-- a call for which both builds return: 3 + 4 on 70 bits -/
example (env : HashEnv) :
    (Call.add (encode 3#70) (encode 4#70)).run env .debug = ok (encode 7#70) ∧
      (Call.add (encode 3#70) (encode 4#70)).run env .release = ok (encode 7#70) := by
  have h : (Call.add (encode 3#70) (encode 4#70)).run env .debug = ok (encode 7#70) :=
    show BitVecValue.add .debug (encode 3#70) (encode 4#70) = _ by decide +kernel
  exact ⟨h, C28_debug_release_agree env _ _ h⟩

/-- The converse fails by design: there are calls that return in release builds only (here: 300 as an 8-bit value). -/
theorem C28_converse_false (env : HashEnv) :
    (Call.fromU64 300#64 8).run env .release = ok (encode 44#8) ∧ Panics ((Call.fromU64 300#64 8).run env .debug) :=
  ⟨show BitVecValue.fromU64 .release 300#64 8 = _ by decide +kernel,
    ⟨.debugAssert, show BitVecValue.fromU64 .debug 300#64 8 = _ by decide +kernel⟩⟩

/-! ## C29 -/

theorem Panics.bind {α β : Type} {x : Res α} (f : α → Res β) (h : Panics x) : Panics (x >>= f) := by
  obtain ⟨p, rfl⟩ := h
  exact ⟨p, rfl⟩

theorem debugAssert_panics {b : Bool} (h : b = false) : Panics (debugAssert .debug b) := by
  subst h
  exact ⟨.debugAssert, rfl⟩

theorem assertSame_panics {a b : BitVecValue} (h : a.width ≠ b.width) : Panics (BitVecValue.assertSame .debug a b) :=
  Panics.bind _ (debugAssert_panics (by simpa using h))

/-- C29: in a debug build every binary operation or comparison on operands of different widths panics, whatever the
operands hold. -/
theorem C29_mixed_widths_panic (op : SameWidthOp) (a b : BitVecValue) (h : a.width ≠ b.width) : Panics (op.run a b) := by
  have h1 : (a.width == b.width) = false := by simpa using h
  have h2 : a.width ≠ b.width := h
  have h3 : b.width ≠ a.width := fun e => h e.symm
  cases op <;> exact Panics.bind _ (by
    first
    | exact Panics.bind _ (debugAssert_panics h1)
    | exact Panics.bind _ (assertSame_panics h2)
    | exact Panics.bind _ (assertSame_panics h3)
    | exact Panics.bind _ (Panics.bind _ (assertSame_panics h2)))

/-- an 8-bit and a 9-bit operand -/
example : (encode 3#8).width ≠ (encode 3#9).width ∧ Panics (SameWidthOp.add.run (encode 3#8) (encode 3#9)) :=
  ⟨by decide, C29_mixed_widths_panic .add _ _ (by decide)⟩

/-- with equal widths the same operations return -/
example : SameWidthOp.add.run (encode 3#8) (encode 3#8) = ok (.inl (encode 6#8)) := by decide +kernel

/-- C29, arrays: in a debug build `select` with an index of the wrong width and `store` with an index or data of the wrong
width panic. -/
theorem C29_array_widths_panic (env : HashEnv) (t : ArrayValue) (i d : BitVecValue) :
    (i.width ≠ t.indexWidth → Panics (t.select .debug env i) ∧ Panics (t.store .debug env i d)) ∧
    (d.width ≠ t.dataWidth → Panics (t.store .debug env i d)) := by
  constructor
  · intro h
    cases t with
    | sparse s =>
      have h1 : (i.width == s.indexWidth) = false := by simpa [ArrayValue.indexWidth] using h
      exact ⟨Panics.bind _ (debugAssert_panics h1), Panics.bind _ (Panics.bind _ (debugAssert_panics h1))⟩
    | dense s =>
      have h1 : (i.width == s.indexWidth) = false := by simpa [ArrayValue.indexWidth] using h
      exact ⟨Panics.bind _ (debugAssert_panics h1), Panics.bind _ (Panics.bind _ (debugAssert_panics h1))⟩
  · intro h
    cases t with
    | sparse s =>
      have h1 : (d.width == s.dataWidth) = false := by simpa [ArrayValue.dataWidth] using h
      refine Panics.bind _ ?_
      unfold SparseArrayValue.store
      cases hd : debugAssert .debug (i.width == s.indexWidth) with
      | panic p => exact ⟨p, rfl⟩
      | ok u =>
        rw [ok_bind]
        exact Panics.bind _ (debugAssert_panics h1)
    | dense s =>
      have h1 : (d.width == s.dataWidth) = false := by simpa [ArrayValue.dataWidth] using h
      refine Panics.bind _ ?_
      unfold DenseArrayValue.store
      cases hd : debugAssert .debug (i.width == s.indexWidth) with
      | panic p => exact ⟨p, rfl⟩
      | ok u =>
        simp only [ok_bind]
        cases hu : unwrap i.toU64 with
        | panic p => exact ⟨p, rfl⟩
        | ok n =>
          simp only [ok_bind]
          exact Panics.bind _ (debugAssert_panics h1)

/-- an array of 256 bytes, read at a 9-bit index -/
example (env : HashEnv) : Panics ((ArrayValue.sparse ⟨8, 8, .u64u64 0#64 HMap.empty⟩).select .debug env (encode 3#9)) :=
  ((C29_array_widths_panic env _ _ (encode 3#8)).1 (by decide)).1

end Baa

import Verif.Proofs.Profiles
import Verif.Proofs.ProfileOrder
import Verif.Props.Modes
import Verif.Spec.Profiles
import Verif.Spec.LongTables

/-!
# C124: build profiles

C28 compares the two default builds, debug and release. Cargo lets a project set the two switches behind them one by one: release builds with
overflow checks and debug builds without are common. `Call.runAt` executes a call with any setting of the two switches.
-/

namespace Baa
open Res

/-- C124: with both switches on, and with both off, a call does exactly what it does in the debug and in the release build. -/
theorem C124_default_profiles (env : HashEnv) (m : Mode) {α : Type} (c : Call α) : c.runAt env (.of m) = c.run env m := by
  cases c <;> simp only [Call.run, Call.runAt,
    Profiled.BitVecValue_add_of, Profiled.BitVecValue_sub_of, Profiled.BitVecValue_mul_of, Profiled.BitVecValue_shiftLeft_of,
    Profiled.BitVecValue_shiftRight_of, Profiled.BitVecValue_arithmeticShiftRight_of, Profiled.BitVecValue_and_of,
    Profiled.BitVecValue_or_of, Profiled.BitVecValue_xor_of, Profiled.BitVecValue_concat_of, Profiled.BitVecValue_isEqual_of,
    Profiled.BitVecValue_isNotEqual_of, Profiled.BitVecValue_isGreater_of, Profiled.BitVecValue_isGreaterOrEqual_of,
    Profiled.BitVecValue_isLess_of, Profiled.BitVecValue_isLessOrEqual_of, Profiled.BitVecValue_isGreaterSigned_of,
    Profiled.BitVecValue_isGreaterOrEqualSigned_of, Profiled.BitVecValue_isLessSigned_of, Profiled.BitVecValue_isLessOrEqualSigned_of,
    Profiled.BitVecValue_eqOwned_of, Profiled.BitVecValue_eqRef_of, Profiled.BitVecValue_slice_of, Profiled.BitVecValue_signExtend_of,
    Profiled.BitVecValue_zeroExtend_of, Profiled.BitVecValue_not_of, Profiled.BitVecValue_negate_of, Profiled.BitVecValue_toI64_of,
    Profiled.BitVecValue_isNegative_of, Profiled.BitVecValue_toUnsignedFixedPoint_of, Profiled.BitVecValue_toSignedFixedPoint_of,
    Profiled.BitVecValue_toBitStrSigned_of, Profiled.BitVecValue_toHexStr_of, Profiled.BitVecValue_toDecStr_of,
    Profiled.BitVecValue_toHexStrSigned_of, Profiled.BitVecValue_toBigInt_of, Profiled.BitVecValue_assign_of,
    Profiled.BitVecValue_assignOnes_of, Profiled.BitVecValue_assignFromU64_of, Profiled.BitVecValue_assignFromI64_of,
    Profiled.BitVecValue_assignFromStrRadix_of, Profiled.BitVecValue_ones_of, Profiled.BitVecValue_fromStrRadix_of,
    Profiled.BitVecValue_fromBitStr_of, Profiled.BitVecValue_fromHexStr_of, Profiled.BitVecValue_fromU64_of,
    Profiled.BitVecValue_fromI64_of, Profiled.BitVecValue_fromBool_of, Profiled.BitVecValue_fromBytesLe_of,
    Profiled.BitVecValue_fromBigInt_of, Profiled.BitVecValue_fromBigUint_of, Profiled.BitVecValue_ofBigInt_of,
    Profiled.BitVecValue_ofBigUint_of, Profiled.Indexed_assignAt_of, Profiled.Indexed_assignFrom_of,
    Profiled.ValueInterner_getIndex_of, Profiled.ArrayValue_newDense_of, Profiled.ArrayValue_makeDense_of,
    Profiled.ArrayValue_isEqual_of, Profiled.ArrayValue_eq_of, Profiled.ArrayValue_toSparse_of, Profiled.ArrayValue_ofBools_of,
    Profiled.ArrayValue_ofU8s_of, Profiled.ArrayValue_ofU64s_of, Profiled.ArrayValue_select_of, Profiled.ArrayValue_store_of,
    Profiled.SparseArrayValue_default_of, Profiled.SparseArrayValue_nonDefaultEntries_of,
    Profiled.Serde_loadArray_of]

/-- a call that returns in both default builds, and one that returns in one of them -/
example (env : HashEnv) (m : Mode) :
    (Call.add (encode 3#70) (encode 4#70)).runAt env (.of m) = ok (encode 7#70) ∧
      (Call.fromU64 300#64 8).runAt env (.of .release) = ok (encode 44#8) ∧
      Panics ((Call.fromU64 300#64 8).runAt env (.of .debug)) := by
  refine ⟨?_, ?_, ?_⟩
  · rw [C124_default_profiles]
    exact show BitVecValue.add m (encode 3#70) (encode 4#70) = _ by cases m <;> decide +kernel
  · rw [C124_default_profiles]
    exact (C28_converse_false env).1
  · rw [C124_default_profiles]
    exact (C28_converse_false env).2

/-- C124: turning off a switch never changes a result. Whatever call is made, with whatever arguments: if it returns in a build, it returns the
same result in every build that checks less. -/
theorem C124_fewer_checks (env : HashEnv) (p q : Profile) (ha : q.asserts = true → p.asserts = true)
    (hc : q.checks = true → p.checks = true) {α : Type} (c : Call α) (r : α) (h : c.runAt env p = ok r) : c.runAt env q = ok r := by
  haveI : p.Stronger q := ⟨ha, hc⟩
  have hl : Le (c.runAt env p) (c.runAt env q) := by
    cases c <;> dsimp only [Call.runAt] <;> pf_step
  exact hl.of_ok r h

/-- The bits 3 of a 64-bit number as a fraction with 64 fractional bits: the denominator is `1 << 64`. Debug assertions alone do not reject it, so
the build without any checks does the same. -/
example (env : HashEnv) :
    (Call.toUnsignedFixedPoint (encode 3#64) 64).runAt env ⟨true, false⟩ = ok (some ⟨false, 3, 1⟩) ∧
      (Call.toUnsignedFixedPoint (encode 3#64) 64).runAt env ⟨false, false⟩ = ok (some ⟨false, 3, 1⟩) := by
  have h : (Call.toUnsignedFixedPoint (encode 3#64) 64).runAt env ⟨true, false⟩ = ok (some ⟨false, 3, 1⟩) :=
    show Profiled.BitVecValue.toUnsignedFixedPoint ⟨true, false⟩ (encode 3#64) 64 = _ by decide +kernel
  exact ⟨h, C124_fewer_checks env ⟨true, false⟩ ⟨false, false⟩ (fun h => nomatch h) (fun h => nomatch h) _ _ h⟩

/-- C124: of the two switches neither subsumes the other: there is a call that panics with overflow checks only, and one that panics with debug
assertions only. -/
theorem C124_two_switches (env : HashEnv) :
    (Panics ((Call.toUnsignedFixedPoint (encode 3#64) 64).runAt env ⟨false, true⟩) ∧
      (Call.toUnsignedFixedPoint (encode 3#64) 64).runAt env ⟨true, false⟩ = ok (some ⟨false, 3, 1⟩)) ∧
    (Panics ((Call.fromU64 300#64 8).runAt env ⟨true, false⟩) ∧ (Call.fromU64 300#64 8).runAt env ⟨false, true⟩ = ok (encode 44#8)) :=
  ⟨⟨⟨.overflow, show Profiled.BitVecValue.toUnsignedFixedPoint ⟨false, true⟩ (encode 3#64) 64 = _ by decide +kernel⟩,
    show Profiled.BitVecValue.toUnsignedFixedPoint ⟨true, false⟩ (encode 3#64) 64 = _ by decide +kernel⟩,
   ⟨.debugAssert, show Profiled.BitVecValue.fromU64 ⟨true, false⟩ 300#64 8 = _ by decide +kernel⟩,
   show Profiled.BitVecValue.fromU64 ⟨false, true⟩ 300#64 8 = _ by decide +kernel⟩

/-- C124: what the debug build returns, a build with any profile returns: what is proved of legal calls in debug builds holds in all builds. -/
theorem C124_debug_result (env : HashEnv) (p : Profile) {α : Type} (c : Call α) (r : α) (h : c.run env .debug = ok r) :
    c.runAt env p = ok r :=
  C124_fewer_checks env (.of .debug) p (fun _ => rfl) (fun _ => rfl) c r ((C124_default_profiles env .debug c).trans h)

/-- a release build with overflow checks -/
example (env : HashEnv) : (Call.add (encode 3#70) (encode 4#70)).runAt env ⟨false, true⟩ = ok (encode 7#70) :=
  C124_debug_result env _ _ _ (show BitVecValue.add .debug (encode 3#70) (encode 4#70) = _ by decide +kernel)

/-- C124: what a build with any profile returns, the release build returns: a result that is not proved of release builds does not occur. -/
theorem C124_release_result (env : HashEnv) (p : Profile) {α : Type} (c : Call α) (r : α) (h : c.runAt env p = ok r) :
    c.run env .release = ok r :=
  (C124_default_profiles env .release c).symm.trans
    (C124_fewer_checks env p (.of .release) (fun h => nomatch h) (fun h => nomatch h) c r h)

example (env : HashEnv) : (Call.fromU64 300#64 8).run env .release = ok (encode 44#8) :=
  C124_release_result env _ _ _ (C124_two_switches env).2.2

theorem Script.runAt_of (env : HashEnv) (m : Mode) {β : Type} (s : Script β) : s.runAt env (.of m) = s.run env m := by
  induction s with
  | done b => rfl
  | call c next ih =>
    show (c.runAt env (.of m) >>= fun r => (next r).runAt env (.of m)) = (c.run env m >>= fun r => (next r).run env m)
    rw [C124_default_profiles]
    simp only [ih]

/-- C124: the same for whole programs that make any number of calls, each depending in any way on the results so far: a program that runs to its
end in some build does so in every build that checks less, with the same result. -/
theorem C124_programs (env : HashEnv) (p q : Profile) (ha : q.asserts = true → p.asserts = true)
    (hc : q.checks = true → p.checks = true) {β : Type} (s : Script β) (r : β) (h : s.runAt env p = ok r) : s.runAt env q = ok r := by
  induction s with
  | done b => exact h
  | call c next ih =>
    have h : (c.runAt env p >>= fun r => (next r).runAt env p) = ok r := h
    show (c.runAt env q >>= fun r => (next r).runAt env q) = ok r
    cases hr : c.runAt env p with
    | panic e => rw [hr] at h; cases h
    | ok x =>
      rw [hr] at h
      rw [C124_fewer_checks env p q ha hc c x hr]
      exact ih x h

/-- C124: a program that runs to its end in the debug build does so in every build; a program that runs to its end in any build does so in the
release build. -/
theorem C124_program_results (env : HashEnv) (p : Profile) {β : Type} (s : Script β) (r : β) :
    (s.run env .debug = ok r → s.runAt env p = ok r) ∧ (s.runAt env p = ok r → s.run env .release = ok r) :=
  ⟨fun h => C124_programs env (.of .debug) p (fun _ => rfl) (fun _ => rfl) s r ((s.runAt_of env .debug).trans h),
   fun h => (s.runAt_of env .release).symm.trans (C124_programs env p (.of .release) (fun h => nomatch h) (fun h => nomatch h) s r h)⟩

/-- a program that negates 5 if it is negative, else adds 1 to it, in a release build with overflow checks -/
example (env : HashEnv) :
    (Script.call (.isNegative (encode 5#8)) fun neg =>
      if neg then .call (.negate (encode 5#8)) .done else .call (.add (encode 5#8) (encode 1#8)) .done).runAt env ⟨false, true⟩ =
        ok (encode 6#8) := by
  refine (C124_program_results env _ _ _).1 ?_
  have h1 : (Call.isNegative (encode 5#8)).run env .debug = ok false := show BitVecValue.isNegative .debug (encode 5#8) = _ by decide +kernel
  have h2 : (Call.add (encode 5#8) (encode 1#8)).run env .debug = ok (encode 6#8) :=
    show BitVecValue.add .debug (encode 5#8) (encode 1#8) = _ by decide +kernel
  unfold Script.run
  rw [h1]
  show Script.run env .debug (.call (.add (encode 5#8) (encode 1#8)) .done) = _
  unfold Script.run
  rw [h2]
  rfl

theorem Profiled.debugAssert_panics {p : Profile} (hp : p.asserts = true) {b : Bool} (h : b = false) : Panics (Profiled.debugAssert p b) := by
  subst h
  exact ⟨.debugAssert, by unfold Profiled.debugAssert; rw [hp]; rfl⟩

theorem Profiled.assertSame_panics {p : Profile} (hp : p.asserts = true) {a b : BitVecValue} (h : a.width ≠ b.width) :
    Panics (Profiled.BitVecValue.assertSame p a b) :=
  Panics.bind _ (Profiled.debugAssert_panics hp (by simpa using h))

/-- C124: the debug assertions alone reject operands of different widths, whether or not overflow is checked (C29 is the case of the debug build). -/
theorem C124_mixed_widths_panic (p : Profile) (hp : p.asserts = true) (op : SameWidthOp) (a b : BitVecValue) (h : a.width ≠ b.width) :
    Panics (op.runAt p a b) := by
  have h1 : (a.width == b.width) = false := by simpa using h
  have h2 : a.width ≠ b.width := h
  have h3 : b.width ≠ a.width := fun e => h e.symm
  cases op <;> exact Panics.bind _ (by
    first
    | exact Panics.bind _ (Profiled.debugAssert_panics hp h1)
    | exact Panics.bind _ (Profiled.assertSame_panics hp h2)
    | exact Panics.bind _ (Profiled.assertSame_panics hp h3)
    | exact Panics.bind _ (Panics.bind _ (Profiled.assertSame_panics hp h2)))

/-- an 8-bit and a 9-bit operand, in a debug build without overflow checks and in a release build with overflow checks -/
example : Panics (SameWidthOp.add.runAt ⟨true, false⟩ (encode 3#8) (encode 3#9)) ∧ ¬ Panics (SameWidthOp.add.runAt ⟨false, true⟩ (encode 3#8) (encode 3#9)) := by
  refine ⟨C124_mixed_widths_panic _ rfl .add _ _ (by decide), ?_⟩
  have h : SameWidthOp.add.runAt ⟨false, true⟩ (encode 3#8) (encode 3#9) = ok (.inl (encode 6#8)) := by decide +kernel
  rintro ⟨e, he⟩
  rw [h] at he
  cases he

/-- C124, arrays: the same for an index or data that does not have the width of the array. -/
theorem C124_array_widths_panic (p : Profile) (hp : p.asserts = true) (env : HashEnv) (t : ArrayValue) (i d : BitVecValue) :
    (i.width ≠ t.indexWidth → Panics ((Call.select t i).runAt env p) ∧ Panics ((Call.store t i d).runAt env p)) ∧
    (d.width ≠ t.dataWidth → Panics ((Call.store t i d).runAt env p)) := by
  constructor
  · intro h
    cases t with
    | sparse s =>
      have h1 : (i.width == s.indexWidth) = false := by simpa [ArrayValue.indexWidth] using h
      exact ⟨Panics.bind _ (Profiled.debugAssert_panics hp h1), Panics.bind _ (Panics.bind _ (Profiled.debugAssert_panics hp h1))⟩
    | dense s =>
      have h1 : (i.width == s.indexWidth) = false := by simpa [ArrayValue.indexWidth] using h
      exact ⟨Panics.bind _ (Profiled.debugAssert_panics hp h1), Panics.bind _ (Panics.bind _ (Profiled.debugAssert_panics hp h1))⟩
  · intro h
    cases t with
    | sparse s =>
      have h1 : (d.width == s.dataWidth) = false := by simpa [ArrayValue.dataWidth] using h
      refine Panics.bind _ ?_
      unfold Profiled.SparseArrayValue.store
      cases hd : Profiled.debugAssert p (i.width == s.indexWidth) with
      | panic e => exact ⟨e, rfl⟩
      | ok u =>
        rw [ok_bind]
        exact Panics.bind _ (Profiled.debugAssert_panics hp h1)
    | dense s =>
      have h1 : (d.width == s.dataWidth) = false := by simpa [ArrayValue.dataWidth] using h
      refine Panics.bind _ ?_
      unfold Profiled.DenseArrayValue.store
      cases hd : Profiled.debugAssert p (i.width == s.indexWidth) with
      | panic e => exact ⟨e, rfl⟩
      | ok u =>
        simp only [ok_bind]
        cases hu : unwrap i.toU64 with
        | panic e => exact ⟨e, rfl⟩
        | ok n =>
          simp only [ok_bind]
          exact Panics.bind _ (Profiled.debugAssert_panics hp h1)

/-- an array of 256 bytes, read at a 9-bit index in a debug build without overflow checks -/
example (env : HashEnv) : Panics ((Call.select (.sparse ⟨8, 8, .u64u64 0#64 HMap.empty⟩) (encode 3#9)).runAt env ⟨true, false⟩) :=
  ((C124_array_widths_panic _ rfl env _ _ (encode 0#8)).1 (by decide)).1

/-! ## Reading documents -/

namespace Profiled

theorem lookupOwned_asserts {p q : Profile} (h : p.asserts = q.asserts) {V : Type} : lookupOwned (V := V) p = lookupOwned q := by
  funext env map key
  unfold lookupOwned
  generalize env.compared (map.entries.map Prod.fst) key = ks
  induction ks with
  | nil => rfl
  | cons k ks ih =>
    unfold compareKeys BitVecValue.eqOwned debugAssert
    rw [h, ih]

theorem loadSparseImpl_asserts {p q : Profile} (h : p.asserts = q.asserts) : Serde.loadSparseImpl p = Serde.loadSparseImpl q := by
  have he : Serde.loadEntries p = Serde.loadEntries q := by
    funext env acc es
    induction es generalizing acc with
    | nil => rfl
    | cons e es ih =>
      unfold Serde.loadEntries
      simp only [lookupOwned_asserts h, ih]
  have hh : Serde.loadHMap p = Serde.loadHMap q := by
    funext env d
    unfold Serde.loadHMap
    rw [he]
  funext env d
  unfold Serde.loadSparseImpl
  rw [hh]

theorem loadArray_asserts {p q : Profile} (h : p.asserts = q.asserts) : Serde.loadArray p = Serde.loadArray q := by
  have hi : Serde.loadArrayImpl p = Serde.loadArrayImpl q := by
    funext env d
    unfold Serde.loadArrayImpl Serde.loadSparse
    rw [loadSparseImpl_asserts h]
  have ho : Serde.loadOuter p = Serde.loadOuter q := by
    funext env data fs
    induction fs generalizing data with
    | nil => rfl
    | cons f fs ih =>
      unfold Serde.loadOuter
      simp only [hi, ih]
  funext env d
  unfold Serde.loadArray
  rw [hi, ho]

end Profiled

/-- C124: overflow checks play no role while an array is read from a document: with debug assertions it is read like in a debug build, without
them like in a release build. -/
theorem C124_reading (env : HashEnv) (p : Profile) (doc : Serde) :
    (Call.load doc).runAt env p = (Call.load doc).run env (if p.asserts then .debug else .release) := by
  rw [← C124_default_profiles]
  show Profiled.Serde.loadArray p env doc = Profiled.Serde.loadArray _ env doc
  rw [Profiled.loadArray_asserts (p := p) (q := .of (if p.asserts then .debug else .release))]
  cases p.asserts <;> rfl

/-- a document with two 70-bit indices of different lengths, read by a build with debug assertions and no overflow checks, and the other way round;
the hash table compares the two indices -/
example :
    let value (w : Nat) (ws : List Nat) : Serde := .fields [("width", .num w), ("words", .seq (ws.map .num))]
    let doc : Serde := .fields [("data", .variant "Sparse" (.fields [("index_width", .num 70), ("data_width", .num 4),
      ("data", .variant "BigBig" (.seq [value 4 [1], .map [(value 70 [1, 0], value 4 [2]), (value 70 [1], value 4 [3])]]))]))]
    Panics ((Call.load doc).runAt (crowdedEnv 0) ⟨true, false⟩) ∧
      ∃ a, (Call.load doc).runAt (crowdedEnv 0) ⟨false, true⟩ = ok (some a) ∧ a.indexWidth = 70 := by
  refine ⟨?_, ?_⟩
  · rw [C124_reading]
    exact ⟨.debugAssert, rfl⟩
  · rw [C124_reading]
    exact ⟨_, rfl, rfl⟩

end Baa

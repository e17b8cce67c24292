import Verif.Proofs.ArrayInv

/-!
# Arrays as functions: C49, C50, C51, C58, C59
-/

namespace Baa
open Res

/-! ## Lemmas -/

theorem DenseInv.reads {iw dw : Nat} {m : Mode} {env : HashEnv} {d : DenseArrayValue} {f : BitVec iw → BitVec dw}
    (h : DenseInv d f) : Reads m env (.dense d) f := by
  intro i v hv
  rw [hv.eq_encode]
  exact ⟨_, h.select_of m i, encode_denotes _ h.data_lt⟩

theorem SparseInv.reads {iw dw : Nat} {m : Mode} {env : HashEnv} {s : SparseArrayValue} {f : BitVec iw → BitVec dw}
    {x : BitVec dw} (h : SparseInv s f x) (hpos : 0 < dw) (hiw : iw ≤ 64) : Reads m env (.sparse s) f := by
  intro i v hv
  rw [hv.eq_encode]
  exact ⟨_, h.select_of m env hpos hiw i, encode_denotes _ h.data_lt⟩

theorem DenseInv.runOps_of {iw dw : Nat} (m : Mode) (env : HashEnv) (ops : List (ArrayOp iw dw)) :
    ∀ {d : DenseArrayValue} {f : BitVec iw → BitVec dw}, DenseInv d f →
    ∃ d', runOps m env (.dense d) ops = ok (.dense d') ∧ DenseInv d' (ops.foldl ArrayOp.effect f) := by
  induction ops with
  | nil => intro d f h; exact ⟨d, rfl, h⟩
  | cons op ops ih =>
    intro d f h
    cases op with
    | store i e =>
      obtain ⟨d1, h1, h2⟩ := h.store_of m i e
      obtain ⟨d2, h3, h4⟩ := ih h2
      refine ⟨d2, ?_, h4⟩
      unfold runOps ArrayOp.run ArrayValue.store
      dsimp only
      rw [h1, ok_bind, ok_bind, h3]
    | clear =>
      obtain ⟨d2, h3, h4⟩ := ih h.clear_of
      exact ⟨d2, h3, h4⟩

theorem SparseInv.runOps_of {iw dw : Nat} (m : Mode) (env : HashEnv) (hiw : iw ≤ 64) (ops : List (ArrayOp iw dw)) :
    ∀ {s : SparseArrayValue} {f : BitVec iw → BitVec dw} {x : BitVec dw}, SparseInv s f x →
    ∃ s' y, runOps m env (.sparse s) ops = ok (.sparse s') ∧ SparseInv s' (ops.foldl ArrayOp.effect f) y := by
  induction ops with
  | nil => intro s f x h; exact ⟨s, x, rfl, h⟩
  | cons op ops ih =>
    intro s f x h
    cases op with
    | store i e =>
      obtain ⟨s1, h1, h2⟩ := h.store_of m env hiw i e
      obtain ⟨s2, y, h3, h4⟩ := ih h2
      refine ⟨s2, y, ?_, h4⟩
      unfold runOps ArrayOp.run ArrayValue.store
      dsimp only
      rw [h1, ok_bind, ok_bind, h3]
    | clear =>
      obtain ⟨s2, y, h3, h4⟩ := ih h.clear_of
      exact ⟨s2, y, h3, h4⟩

theorem SparseInv.runOps_sound {iw dw : Nat} (m : Mode) (env : HashEnv) (ops : List (ArrayOp iw dw)) :
    ∀ {s : SparseArrayValue} {b : ArrayValue} {f : BitVec iw → BitVec dw} {x : BitVec dw}, SparseInv s f x →
    runOps m env (.sparse s) ops = ok b → ∃ s' y, b = .sparse s' ∧ SparseInv s' (ops.foldl ArrayOp.effect f) y := by
  induction ops with
  | nil => intro s b f x h hr; cases hr; exact ⟨s, x, rfl, h⟩
  | cons op ops ih =>
    intro s b f x h hr
    cases op with
    | store i e =>
      obtain ⟨a, h1, h2⟩ := of_bind_ok hr
      obtain ⟨s1, h3, h4⟩ := of_bind_ok h1
      cases h4
      exact ih (h.store_sound m env i e h3) h2
    | clear => exact ih h.clear_of hr

/-- The default of a sparse array only changes when it is cleared. -/
theorem SparseInv.runOps_default {iw dw : Nat} (m : Mode) (env : HashEnv) (ops : List (ArrayOp iw dw))
    (hc : ∀ op ∈ ops, op ≠ .clear) :
    ∀ {s : SparseArrayValue} {b : ArrayValue} {f : BitVec iw → BitVec dw} {x : BitVec dw}, SparseInv s f x →
    runOps m env (.sparse s) ops = ok b → ∃ s', b = .sparse s' ∧ SparseInv s' (ops.foldl ArrayOp.effect f) x := by
  induction ops with
  | nil => intro s b f x h hr; cases hr; exact ⟨s, rfl, h⟩
  | cons op ops ih =>
    intro s b f x h hr
    cases op with
    | store i e =>
      obtain ⟨a, h1, h2⟩ := of_bind_ok hr
      obtain ⟨s1, h3, h4⟩ := of_bind_ok h1
      cases h4
      exact ih (fun op ho => hc op (by simp [ho])) (h.store_sound m env i e h3) h2
    | clear => exact absurd rfl (hc .clear (by simp))

/-! ## C49: dense arrays behave like functions -/

/-- The full claim: after any history of stores and clears a dense array reads as the function that the history describes,
for every shape for which creation succeeds and which fits in memory. -/
def C49_statement : Prop :=
  ∀ (m : Mode) (env : HashEnv) (iw dw : Nat), iw < 2 ^ 32 → dw < 2 ^ 32 → Addressable iw dw →
    ∀ (x : BitVec dw) (ops : List (ArrayOp iw dw)) (a : ArrayValue), ArrayValue.newDense m iw (encode x) = ok a →
      ∃ b, runOps m env a ops = ok b ∧ b.isDense = true ∧ Reads m env b (contents x ops)

/-- C49 with two exclusions: data of width zero, and 1-bit data with an index of 32 bits or more. -/
theorem C49_dense_partial (m : Mode) (env : HashEnv) {iw dw : Nat} (hpos : 0 < dw) (hdw : dw < 2 ^ 32)
    (ha : Addressable iw dw) (hb : dw ≠ 1 ∨ iw < 32) (x : BitVec dw) (ops : List (ArrayOp iw dw)) {a : ArrayValue}
    (hn : ArrayValue.newDense m iw (encode x) = ok a) :
    ∃ b, runOps m env a ops = ok b ∧ b.isDense = true ∧ Reads m env b (contents x ops) := by
  obtain ⟨d, h1, h2⟩ := of_bind_ok hn
  cases h2
  have hinv : DenseInv d (fun _ : BitVec iw => x) := by
    obtain ⟨d', h3, h4⟩ := dense_new m x hpos hdw ha hb
    rw [h3] at h1
    obtain ⟨_, -, h1⟩ := of_bind_ok h1
    cases h1
    exact h4
  obtain ⟨d', h3, h4⟩ := hinv.runOps_of m env ops
  exact ⟨.dense d', h3, rfl, h4.reads⟩

/-- Creation succeeds whenever the elements take at most 1 GiB. -/
theorem C49_dense_created (m : Mode) {iw dw : Nat} (hpos : 0 < dw) (hdw : dw < 2 ^ 32) (hi : iw < 64)
    (hs : storageBytes iw dw ≤ 2 ^ 30) (hb : dw ≠ 1 ∨ iw < 32) (x : BitVec dw) :
    ∃ a, ArrayValue.newDense m iw (encode x) = ok a := by
  obtain ⟨d, h1, -⟩ := dense_new m x hpos hdw (iw := iw) ⟨hi, by omega⟩ hb
  have hg : guardSize iw dw ≤ 2 ^ 30 := by
    refine Nat.le_trans ?_ hs
    unfold guardSize storageBytes
    split
    · exact Nat.le_refl _
    · split
      · exact Nat.le_refl _
      · refine Nat.mul_le_mul_left _ ?_
        split <;> omega
  rw [debugAssert_decide_of hg, ok_bind] at h1
  unfold ArrayValue.newDense
  rw [h1]
  exact ⟨_, rfl⟩

/-- What happens for the second exclusion: the number of elements is truncated to zero, and if the array can be created at
all, then it cannot be read anywhere. -/
theorem C49_long_bit_arrays (m : Mode) (env : HashEnv) {iw : Nat} (h32 : 32 ≤ iw) (h64 : iw < 64) (x : BitVec 1)
    {a : ArrayValue} (hn : ArrayValue.newDense m iw (encode x) = ok a) (i : BitVec iw) :
    Panics (a.select m env (encode i)) := by
  have ha : Addressable iw 1 := by
    refine ⟨h64, ?_⟩
    have : 2 ^ iw < 2 ^ 64 := Nat.pow_lt_pow_right (by decide) h64
    unfold storageBytes
    rw [if_pos rfl]
    omega
  obtain ⟨d, h1, h2⟩ := of_bind_ok hn
  cases h2
  rcases (dense_new_sound m x (by decide) ha h1).1 with h | h
  · have hrep := h.rep
    cases hdata : d.data with
    | bit v => rw [hdata] at hrep; have := hrep.2.1; omega
    | u8 l => rw [hdata] at hrep; exact absurd rfl hrep.1
    | u64 l => rw [hdata] at hrep; have := hrep.1; omega
    | big l => rw [hdata] at hrep; have := hrep.1; omega
  · exact ⟨_, h.select_of m i⟩

/-- The full claim is false: a bit array with a 32-bit index, which takes 512 MiB, passes the size check even in a debug
build, but `select` panics. -/
theorem C49_refuted : ¬ C49_statement := by
  intro h
  have hn : ArrayValue.newDense .debug 32 (encode 0#1) = ok (.dense ⟨32, 1, .bit ⟨0, []⟩⟩) := rfl
  obtain ⟨b, h1, -, h2⟩ := h .debug listEnv 32 1 (by decide) (by decide) ⟨by decide, by decide +kernel⟩ 0#1 [] _ hn
  cases h1
  obtain ⟨r, hr, -⟩ := h2 0#32 _ (encode_denotes _ (by decide))
  exact not_panics (C49_long_bit_arrays .debug listEnv (by decide) (by decide) 0#1 hn 0#32) hr

/-- A history on an array of 70-bit data meets the hypotheses. -/
example (m : Mode) (env : HashEnv) : ∃ a b, ArrayValue.newDense m 3 (encode 5#70) = ok a ∧
    runOps m env a [.store 2#3 7#70, .store 2#3 (2#70 ^ 69), .store 1#3 1#70] = ok b ∧
    b.select m env (encode 2#3) = ok (encode (2#70 ^ 69)) ∧ b.select m env (encode 0#3) = ok (encode 5#70) := by
  obtain ⟨a, ha⟩ := C49_dense_created m (iw := 3) (dw := 70) (by decide) (by decide) (by decide) (by decide) (.inl (by decide))
    5#70
  obtain ⟨b, h1, -, h2⟩ := C49_dense_partial m env (by decide) (by decide) ⟨by decide, by decide⟩ (.inl (by decide)) 5#70
    [.store 2#3 7#70, .store 2#3 (2#70 ^ 69), .store 1#3 1#70] ha
  refine ⟨a, b, ha, h1, ?_, ?_⟩
  · obtain ⟨r, h3, h4⟩ := h2 2#3 _ (encode_denotes _ (by decide))
    rw [h3, h4.eq_encode]
    rfl
  · obtain ⟨r, h3, h4⟩ := h2 0#3 _ (encode_denotes _ (by decide))
    rw [h3, h4.eq_encode]
    rfl

/-! ## C50: sparse arrays behave like functions -/

/-- The full claim, for all index and data widths. -/
def C50_statement : Prop :=
  ∀ (m : Mode) (env : HashEnv) (iw dw : Nat), iw < 2 ^ 32 → dw < 2 ^ 32 →
    ∀ (x : BitVec dw) (ops : List (ArrayOp iw dw)),
      ∃ a b, ArrayValue.newSparse iw (encode x) = ok a ∧ runOps m env a ops = ok b ∧ b.isSparse = true ∧
        Reads m env b (contents x ops)

/-- C50 for index widths of up to 64 bits and data that is not empty. -/
theorem C50_sparse_partial (m : Mode) (env : HashEnv) {iw dw : Nat} (hiw : iw ≤ 64) (hpos : 0 < dw) (hdw : dw < 2 ^ 32)
    (x : BitVec dw) (ops : List (ArrayOp iw dw)) :
    ∃ a b, ArrayValue.newSparse iw (encode x) = ok a ∧ runOps m env a ops = ok b ∧ b.isSparse = true ∧
      Reads m env b (contents x ops) := by
  obtain ⟨s, h1, h2⟩ := sparse_new (iw := iw) (by omega) hdw x
  obtain ⟨s', y, h3, h4⟩ := h2.runOps_of m env hiw ops
  refine ⟨.sparse s, .sparse s', ?_, h3, rfl, h4.reads hpos hiw⟩
  unfold ArrayValue.newSparse
  rw [h1]
  rfl

/-- For all widths: whatever a sparse array returns is right. -/
theorem C50_sparse_sound (m : Mode) (env : HashEnv) {iw dw : Nat} (hiw : iw < 2 ^ 32) (hdw : dw < 2 ^ 32) (x : BitVec dw)
    (ops : List (ArrayOp iw dw)) {a b : ArrayValue} (hn : ArrayValue.newSparse iw (encode x) = ok a)
    (hr : runOps m env a ops = ok b) (i : BitVec iw) {r : BitVecValue} (hs : b.select m env (encode i) = ok r) :
    Denotes r (contents x ops i) := by
  obtain ⟨s, h1, h2⟩ := sparse_new hiw hdw x
  unfold ArrayValue.newSparse at hn
  rw [h1] at hn
  cases hn
  obtain ⟨s', y, rfl, h4⟩ := h2.runOps_sound m env ops hr
  change s'.select m env (encode i) = ok r at hs
  have hd : ∀ {r : BitVecValue}, s'.select m env (encode i) = ok (encode (contents x ops i)) →
      s'.select m env (encode i) = ok r → Denotes r (contents x ops i) := by
    intro r ha hb
    rw [ha] at hb
    cases hb
    exact encode_denotes _ hdw
  by_cases hiw64 : iw ≤ 64
  · by_cases hpos : 0 < dw
    · exact hd (h4.select_of m env hpos hiw64 i) hs
    · have h0 : dw = 0 := by omega
      subst h0
      exact (not_panics (h4.select_narrow_zero m env hiw64 i) hs).elim
  · obtain ⟨hne, heq⟩ := h4.select_wide m env (by omega) i
    by_cases hx : ops.foldl ArrayOp.effect (fun _ => x) i = y
    · rcases heq hx with h | h
      · exact hd h hs
      · exact (not_panics h hs).elim
    · exact (not_panics (hne hx) hs).elim

/-- What happens for wide indices: as long as nothing was cleared, reading an element that differs from the default
panics. -/
theorem C50_wide_index_panics (m : Mode) (env : HashEnv) {iw dw : Nat} (h64 : 64 < iw) (hiw : iw < 2 ^ 32) (hdw : dw < 2 ^ 32)
    (x : BitVec dw) (ops : List (ArrayOp iw dw)) (hc : ∀ op ∈ ops, op ≠ .clear) {a b : ArrayValue}
    (hn : ArrayValue.newSparse iw (encode x) = ok a) (hr : runOps m env a ops = ok b) {i : BitVec iw}
    (hi : contents x ops i ≠ x) : Panics (b.select m env (encode i)) := by
  obtain ⟨s, h1, h2⟩ := sparse_new hiw hdw x
  unfold ArrayValue.newSparse at hn
  rw [h1] at hn
  cases hn
  obtain ⟨s', rfl, h4⟩ := h2.runOps_default m env ops hc hr
  exact (h4.select_wide m env h64 i).1 hi

/-- What happens for data of width zero. -/
theorem C50_zero_width_panics (m : Mode) (env : HashEnv) {iw : Nat} (hiw : iw ≤ 64) (ops : List (ArrayOp iw 0)) :
    ∃ a b, ArrayValue.newSparse iw (encode 0#0) = ok a ∧ runOps m env a ops = ok b ∧
      ∀ i : BitVec iw, Panics (b.select m env (encode i)) := by
  obtain ⟨s, h1, h2⟩ := sparse_new (iw := iw) (by omega) (by decide) 0#0
  obtain ⟨s', y, h3, h4⟩ := h2.runOps_of m env hiw ops
  refine ⟨.sparse s, .sparse s', ?_, h3, fun i => h4.select_narrow_zero m env hiw i⟩
  unfold ArrayValue.newSparse
  rw [h1]
  rfl

/-- The full claim is false: with a 65-bit index the element that was just stored cannot be read. -/
theorem C50_refuted : ¬ C50_statement := by
  intro h
  obtain ⟨a, b, hn, hr, -, hs⟩ := h .release listEnv 65 8 (by decide) (by decide) 0#8 [.store 3#65 1#8]
  obtain ⟨r, h1, -⟩ := hs 3#65 _ (encode_denotes _ (by decide))
  exact not_panics (C50_wide_index_panics .release listEnv (by decide) (by decide) (by decide) 0#8 [.store 3#65 1#8]
    (by simp) hn hr (i := 3#65) (by decide)) h1

/-- A history on an array with a 64-bit index meets the hypotheses. -/
example (m : Mode) (env : HashEnv) : ∃ a b, ArrayValue.newSparse 64 (encode 5#70) = ok a ∧
    runOps m env a [.store (2#64 ^ 63) 7#70, .clear, .store 1#64 1#70, .store 1#64 3#70] = ok b ∧
    b.select m env (encode (2#64 ^ 63)) = ok (encode 0#70) ∧ b.select m env (encode 1#64) = ok (encode 3#70) := by
  obtain ⟨a, b, ha, h1, -, h2⟩ := C50_sparse_partial m env (by decide) (by decide) (by decide) 5#70
    [.store (2#64 ^ 63) 7#70, .clear, .store 1#64 1#70, .store 1#64 3#70]
  refine ⟨a, b, ha, h1, ?_, ?_⟩
  · obtain ⟨r, h3, h4⟩ := h2 (2#64 ^ 63) _ (encode_denotes _ (by decide))
    rw [h3, h4.eq_encode]
    decide +kernel
  · obtain ⟨r, h3, h4⟩ := h2 1#64 _ (encode_denotes _ (by decide))
    rw [h3, h4.eq_encode]
    decide +kernel

/-! ## C51: dense and sparse arrays are observationally equivalent -/

/-- The full claim: the same history on a dense and a sparse array leads to the same reads. -/
def C51_statement : Prop :=
  ∀ (m : Mode) (env : HashEnv) (iw dw : Nat), iw < 2 ^ 32 → dw < 2 ^ 32 → Addressable iw dw →
    ∀ (x : BitVec dw) (ops : List (ArrayOp iw dw)) (a b : ArrayValue), ArrayValue.newDense m iw (encode x) = ok a →
      ArrayValue.newSparse iw (encode x) = ok b →
      ∃ a' b', runOps m env a ops = ok a' ∧ runOps m env b ops = ok b' ∧
        ∀ (i : BitVec iw) (v : BitVecValue), Denotes v i → ∃ r, a'.select m env v = ok r ∧ b'.select m env v = ok r

/-- C51 with the exclusions of C49. -/
theorem C51_equivalent_partial (m : Mode) (env : HashEnv) {iw dw : Nat} (hpos : 0 < dw) (hdw : dw < 2 ^ 32)
    (ha : Addressable iw dw) (hb : dw ≠ 1 ∨ iw < 32) (x : BitVec dw) (ops : List (ArrayOp iw dw)) {a b : ArrayValue}
    (hn : ArrayValue.newDense m iw (encode x) = ok a) (hn' : ArrayValue.newSparse iw (encode x) = ok b) :
    ∃ a' b', runOps m env a ops = ok a' ∧ runOps m env b ops = ok b' ∧
      ∀ (i : BitVec iw) (v : BitVecValue), Denotes v i → ∃ r, a'.select m env v = ok r ∧ b'.select m env v = ok r := by
  obtain ⟨a', h1, -, h2⟩ := C49_dense_partial m env hpos hdw ha hb x ops hn
  obtain ⟨b0, b', h3, h4, -, h5⟩ := C50_sparse_partial m env (Nat.le_of_lt ha.1) hpos hdw x ops
  rw [hn'] at h3
  cases h3
  refine ⟨a', b', h1, h4, fun i v hv => ?_⟩
  obtain ⟨r, h6, h7⟩ := h2 i v hv
  obtain ⟨r', h8, h9⟩ := h5 i v hv
  rw [h7.eq_encode] at h6
  rw [h9.eq_encode] at h8
  exact ⟨_, h6, h8⟩

/-- The full claim is false, for the same reason as C49. -/
theorem C51_refuted : ¬ C51_statement := by
  intro h
  have hn : ArrayValue.newDense .debug 32 (encode 0#1) = ok (.dense ⟨32, 1, .bit ⟨0, []⟩⟩) := rfl
  obtain ⟨a, b, h1, -, h2⟩ := h .debug listEnv 32 1 (by decide) (by decide) ⟨by decide, by decide +kernel⟩ 0#1 [] _ _ hn rfl
  cases h1
  obtain ⟨r, hr, -⟩ := h2 0#32 _ (encode_denotes _ (by decide))
  exact not_panics (C49_long_bit_arrays .debug listEnv (by decide) (by decide) 0#1 hn 0#32) hr

/-- The hypotheses can be met. -/
example (m : Mode) (env : HashEnv) : ∃ a b a' b' r, ArrayValue.newDense m 5 (encode 1#1) = ok a ∧
    ArrayValue.newSparse 5 (encode 1#1) = ok b ∧ runOps m env a [.store 4#5 0#1, .store 7#5 0#1] = ok a' ∧
    runOps m env b [.store 4#5 0#1, .store 7#5 0#1] = ok b' ∧
    a'.select m env (encode 7#5) = ok r ∧ b'.select m env (encode 7#5) = ok r := by
  obtain ⟨a, ha⟩ := C49_dense_created m (iw := 5) (dw := 1) (by decide) (by decide) (by decide) (by decide) (.inr (by decide))
    1#1
  obtain ⟨a', b', h1, h2, h3⟩ := C51_equivalent_partial m env (by decide) (by decide) ⟨by decide, by decide⟩
    (.inr (by decide)) 1#1 [.store 4#5 0#1, .store 7#5 0#1] ha rfl
  obtain ⟨r, h4, h5⟩ := h3 7#5 _ (encode_denotes _ (by decide))
  exact ⟨a, _, a', b', r, ha, rfl, h1, h2, h4, h5⟩

/-! ## C58: arrays from slices -/

/-- Converting a slice of bytes. -/
theorem C58_u8_slice (m : Mode) (env : HashEnv) (vs : List Byte) (hl : vs.length < 2 ^ 63) {iw : Nat}
    (hw : LeastWidth iw vs.length) :
    ∃ a, ArrayValue.ofU8s m vs = ok a ∧ a.indexWidth = iw ∧ a.dataWidth = 8 ∧
      Reads m env a (fun i : BitVec iw => if h : i.toNat < vs.length then vs[i.toNat] else 0#8) := by
  obtain ⟨d, h1, h2⟩ := ofU8s_spec m vs hl hw
  refine ⟨.dense d, ?_, h2.indexWidth, h2.dataWidth, ?_⟩
  · unfold ArrayValue.ofU8s
    rw [h1]
    rfl
  · have : (fun i : BitVec iw => if h : i.toNat < vs.length then vs[i.toNat] else 0#8) =
        fun i : BitVec iw => vs.getD i.toNat 0#8 := by
      funext i
      by_cases h : i.toNat < vs.length
      · simp [h]
      · simp [h]
    rw [this]
    exact h2.reads

/-- Converting a slice of 64-bit words. -/
theorem C58_u64_slice (m : Mode) (env : HashEnv) (vs : List Word) (hl : vs.length < 2 ^ 63) {iw : Nat}
    (hw : LeastWidth iw vs.length) :
    ∃ a, ArrayValue.ofU64s m vs = ok a ∧ a.indexWidth = iw ∧ a.dataWidth = 64 ∧
      Reads m env a (fun i : BitVec iw => if h : i.toNat < vs.length then vs[i.toNat] else 0#64) := by
  obtain ⟨d, h1, h2⟩ := ofU64s_spec m vs hl hw
  refine ⟨.dense d, ?_, h2.indexWidth, h2.dataWidth, ?_⟩
  · unfold ArrayValue.ofU64s
    rw [h1]
    rfl
  · have : (fun i : BitVec iw => if h : i.toNat < vs.length then vs[i.toNat] else 0#64) =
        fun i : BitVec iw => vs.getD i.toNat 0#64 := by
      funext i
      by_cases h : i.toNat < vs.length
      · simp [h]
      · simp [h]
    rw [this]
    exact h2.reads

/-- The full claim for slices of booleans. -/
def C58_bool_statement : Prop :=
  ∀ (m : Mode) (env : HashEnv) (vs : List Bool), vs.length < 2 ^ 63 → ∀ iw : Nat, LeastWidth iw vs.length →
    ∃ a, ArrayValue.ofBools m vs = ok a ∧ a.indexWidth = iw ∧ a.dataWidth = 1 ∧
      Reads m env a (fun i : BitVec iw => if h : i.toNat < vs.length then BitVec.ofBool vs[i.toNat] else 0#1)

/-- Converting a slice of booleans works for up to 2³¹ elements. -/
theorem C58_bool_slice_partial (m : Mode) (env : HashEnv) (vs : List Bool) (hl : vs.length ≤ 2 ^ 31) {iw : Nat}
    (hw : LeastWidth iw vs.length) :
    ∃ a, ArrayValue.ofBools m vs = ok a ∧ a.indexWidth = iw ∧ a.dataWidth = 1 ∧
      Reads m env a (fun i : BitVec iw => if h : i.toNat < vs.length then BitVec.ofBool vs[i.toNat] else 0#1) := by
  obtain ⟨d, h1, h2⟩ := ofBools_spec m vs hw (by have := hw.le hl; omega)
  refine ⟨.dense d, ?_, h2.indexWidth, h2.dataWidth, ?_⟩
  · unfold ArrayValue.ofBools
    rw [h1]
    rfl
  · have : (fun i : BitVec iw => if h : i.toNat < vs.length then BitVec.ofBool vs[i.toNat] else 0#1) =
        fun i : BitVec iw => BitVec.ofBool (vs.getD i.toNat false) := by
      funext i
      by_cases h : i.toNat < vs.length
      · simp [h]
      · simp [h]
    rw [this]
    exact h2.reads

/-- What happens for longer slices of booleans: the conversion panics, or else no element of the result can be read. -/
theorem C58_long_bool_slice (m : Mode) (env : HashEnv) (vs : List Bool) (hl : vs.length < 2 ^ 63) (hlong : 2 ^ 31 < vs.length)
    {iw : Nat} (hw : LeastWidth iw vs.length) {a : ArrayValue} (ha : ArrayValue.ofBools m vs = ok a) (i : BitVec iw) :
    Panics (a.select m env (encode i)) := by
  have h32 : 32 ≤ iw := by
    apply Classical.byContradiction
    intro h
    have := Nat.pow_le_pow_right (n := 2) (by decide) (show iw ≤ 31 by omega)
    have := hw.1
    omega
  obtain ⟨d, h1, h2⟩ := of_bind_ok ha
  cases h2
  rcases ofBools_sound m vs hl hw h1 with h | h
  · have hrep := h.rep
    cases hdata : d.data with
    | bit v => rw [hdata] at hrep; have := hrep.2.1; omega
    | u8 l => rw [hdata] at hrep; exact absurd rfl hrep.1
    | u64 l => rw [hdata] at hrep; have := hrep.1; omega
    | big l => rw [hdata] at hrep; have := hrep.1; omega
  · exact ⟨_, h.select_of m i⟩

/-- The full claim is false for booleans: take 2³¹ + 1 of them. -/
theorem C58_refuted : ¬ C58_bool_statement := by
  intro h
  have hlen : (List.replicate (2 ^ 31 + 1) false).length = 2 ^ 31 + 1 := List.length_replicate
  have hw := indexWidthFromLen_least (2 ^ 31 + 1)
  rw [← hlen] at hw
  obtain ⟨a, h1, -, -, h2⟩ := h .release listEnv (List.replicate (2 ^ 31 + 1) false) (by rw [hlen]; decide) _ hw
  have h32 : DenseArrayValue.indexWidthFromLen (List.replicate (2 ^ 31 + 1) false).length < 2 ^ 32 := by
    rw [hlen]
    decide +kernel
  obtain ⟨r, h3, -⟩ := h2 0 _ (encode_denotes _ h32)
  exact not_panics (C58_long_bool_slice .release listEnv _ (by rw [hlen]; decide) (by rw [hlen]; decide) hw h1 0) h3

/-- Five bytes give an array with a 3-bit index. -/
example (m : Mode) (env : HashEnv) : ∃ a, ArrayValue.ofU8s m [10#8, 20#8, 30#8, 40#8, 50#8] = ok a ∧ a.indexWidth = 3 ∧
    a.select m env (encode 4#3) = ok (encode 50#8) ∧ a.select m env (encode 5#3) = ok (encode 0#8) := by
  obtain ⟨a, h1, h2, -, h3⟩ := C58_u8_slice m env [10#8, 20#8, 30#8, 40#8, 50#8] (by decide) (iw := 3)
    (indexWidthFromLen_least 5)
  refine ⟨a, h1, h2, ?_, ?_⟩
  · obtain ⟨r, h4, h5⟩ := h3 4#3 _ (encode_denotes _ (by decide))
    rw [h4, h5.eq_encode]
    rfl
  · obtain ⟨r, h4, h5⟩ := h3 5#3 _ (encode_denotes _ (by decide))
    rw [h4, h5.eq_encode]
    rfl

/-- Three booleans give an array with a 2-bit index. -/
example (m : Mode) (env : HashEnv) : ∃ a, ArrayValue.ofBools m [true, false, true] = ok a ∧ a.indexWidth = 2 ∧
    a.select m env (encode 2#2) = ok (encode 1#1) ∧ a.select m env (encode 3#2) = ok (encode 0#1) := by
  obtain ⟨a, h1, h2, -, h3⟩ := C58_bool_slice_partial m env [true, false, true] (by decide) (iw := 2)
    (indexWidthFromLen_least 3)
  refine ⟨a, h1, h2, ?_, ?_⟩
  · obtain ⟨r, h4, h5⟩ := h3 2#2 _ (encode_denotes _ (by decide))
    rw [h4, h5.eq_encode]
    rfl
  · obtain ⟨r, h4, h5⟩ := h3 3#2 _ (encode_denotes _ (by decide))
    rw [h4, h5.eq_encode]
    rfl

/-! ## C59: the size guard -/

/-- The full claim: in a debug build only arrays of at most 1 GiB can be made. -/
def C59_statement : Prop :=
  ∀ (iw dw : Nat) (x : BitVec dw) (a : ArrayValue), iw < 2 ^ 32 → dw < 2 ^ 32 →
    ArrayValue.newDense .debug iw (encode x) = ok a → storageBytes iw dw ≤ 2 ^ 30

/-- The guard, for any width. -/
theorem newDense_guard {iw dw : Nat} {x : BitVec dw} {a : ArrayValue}
    (h : ArrayValue.newDense .debug iw (encode x) = ok a) : guardSize iw dw ≤ 2 ^ 30 := by
  obtain ⟨d, h1, -⟩ := of_bind_ok h
  unfold DenseArrayValue.new at h1
  dsimp only at h1
  rw [encode_width] at h1
  obtain ⟨n, h2, h1⟩ := of_bind_ok h1
  obtain ⟨_, h3, -⟩ := of_bind_ok h1
  have hn : n ≤ 2 ^ 30 := by
    rcases debugAssert_cases h3 with h | h
    · cases h
    · exact h
  unfold DenseArrayValue.approxStorageSize at h2
  obtain ⟨e, h4, h2⟩ := of_bind_ok h2
  have he : e = 2 ^ iw := by
    unfold numElements shiftAmount64 at h4
    split at h4
    · cases h4; rfl
    · cases h4
  subst he
  have hmul : ∀ {p q r : Nat}, mulC .debug U64 p q = ok r → r = p * q := by
    intro p q r h
    unfold mulC at h
    split at h
    · cases h; rfl
    · cases h
  unfold guardSize
  split at h2
  · rename_i h; cases h2; rw [if_pos h]; exact hn
  · rename_i h
    rw [if_neg h]
    split at h2
    · rename_i h; cases h2; rw [if_pos h]; exact hn
    · rename_i h
      rw [if_neg h]
      split at h2
      · rename_i h; rw [if_pos h, ← hmul h2]; exact hn
      · rename_i h
        rw [if_neg h]
        have := hmul h2
        exact this ▸ hn

/-- C59 holds for data of up to 64 bits. For wider data only 8 GiB are guaranteed, because the guard counts 64-bit words
as bytes. -/
theorem C59_guard_partial {iw dw : Nat} {x : BitVec dw} {a : ArrayValue}
    (h : ArrayValue.newDense .debug iw (encode x) = ok a) :
    storageBytes iw dw ≤ if dw ≤ 64 then 2 ^ 30 else 2 ^ 33 := by
  have hg := newDense_guard h
  unfold guardSize at hg
  unfold storageBytes
  by_cases h1 : dw = 1
  · rw [if_pos h1] at hg ⊢
    rw [if_pos (by omega)]
    exact hg
  · rw [if_neg h1] at hg ⊢
    by_cases h2 : dw ≤ 8
    · rw [if_pos h2] at hg ⊢
      rw [if_pos (by omega)]
      exact hg
    · rw [if_neg h2] at hg ⊢
      by_cases h3 : dw ≤ 64
      · rw [if_pos h3] at hg ⊢
        have : (dw + 63) / 64 = 1 := by omega
        rw [this]
        exact hg
      · rw [if_neg h3] at hg ⊢
        rw [Nat.mul_left_comm]
        omega

/-- The full claim is false: 2²⁶ elements of 1024 bits take 8 GiB and pass the guard. -/
theorem C59_refuted : ¬ C59_statement := by
  intro h
  obtain ⟨d, h1, -⟩ := dense_new .debug (iw := 26) 0#1024 (by decide) (by decide)
    ⟨by decide, by decide +kernel⟩ (.inl (by decide))
  rw [debugAssert_decide_of (by decide +kernel), ok_bind] at h1
  have := h 26 1024 0#1024 (.dense d) (by decide) (by decide) (by unfold ArrayValue.newDense; rw [h1]; rfl)
  revert this
  decide +kernel

/-- The guard is not always false: 2³⁰ bytes are accepted. -/
example : ∃ a, ArrayValue.newDense .debug 30 (encode 0#8) = ok a :=
  C49_dense_created .debug (by decide) (by decide) (by decide) (by decide +kernel) (.inl (by decide)) 0#8

end Baa

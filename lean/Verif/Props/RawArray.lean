import Verif.Props.RawObs
import Verif.Props.Arrays
import Verif.Spec.Histories

/-!
# C89: arrays of arbitrary words

C49, C50, C54 and C55 are about indices and data in normal form. This file predicts what arrays do with indices and data that have bits
above their width, as left behind by `shift_left`, the parsers and deserialization. An array then is a memory of numbered cells. The
specification says which cell an index reaches, which number a cell keeps, and what reading a cell gives.
-/

namespace Baa
open Res BitVecValue

theorem setCell_apply (mem : Nat → Nat) (n c j : Nat) : setCell mem n c j = if j = n then c else mem j := rfl

/-! ## The dense representation -/

variable {iw dw : Nat}

/-- The storage holds the cells. -/
def CellsRep (iw dw : Nat) (data : DenseArrayImpl) (mem : Nat → Nat) : Prop :=
  match data with
  | .bit v => dw = 1 ∧ iw < 32 ∧ ∃ N, Raw v (2 ^ iw) N ∧ ∀ n, n < capacity (2 ^ iw) → mem n = (N.testBit n).toNat
  | .u8 l => dw ≠ 1 ∧ dw ≤ 8 ∧ l.length = 2 ^ iw ∧ ∀ n, n < 2 ^ iw → ∃ b : Byte, l[n]? = some b ∧ b.toNat = mem n
  | .u64 l => 8 < dw ∧ dw ≤ 64 ∧ l.length = 2 ^ iw ∧ ∀ n, n < 2 ^ iw → ∃ b : Word, l[n]? = some b ∧ b.toNat = mem n
  | .big l => 64 < dw ∧ l.length = (dw + 63) / 64 * 2 ^ iw ∧ l.length < 2 ^ 60 ∧
      ∀ n, n < 2 ^ iw → wordsVal ((l.drop ((dw + 63) / 64 * n)).take ((dw + 63) / 64)) = mem n

/-- A dense array holds the cells. -/
structure DenseCells (iw dw : Nat) (d : DenseArrayValue) (mem : Nat → Nat) : Prop where
  indexWidth : d.indexWidth = iw
  dataWidth : d.dataWidth = dw
  index_lt : iw < 64
  data_pos : 0 < dw
  data_lt : dw < 2 ^ 32
  rep : CellsRep iw dw d.data mem

theorem Slot.raw {v : BitVecValue} {w : Nat} (h : Slot v w) : Raw v w (wordsVal v.words) :=
  ⟨h.width_lt, h.width_eq, h.length_eq, rfl⟩

theorem fromU64_shown (m : Mode) {w : Nat} (h0 : 0 < w) (hw : w ≤ 64) (v : Word) :
    Outcome (BitVecValue.fromU64 m v w) w (shown m w v.toNat) := by
  obtain ⟨r, h1, h2⟩ := assignFromU64_eq m h0 (zero_slot (show w < 2 ^ 32 by omega)) v
  unfold shown BitVecValue.fromU64
  rw [h1]
  by_cases hv : v.toNat < 2 ^ w
  · rw [decide_eq_true hv, if_neg (by omega)]
    refine ⟨r, by cases m <;> rfl, ?_⟩
    have := h2.raw
    rwa [BitVec.toNat_ofNat, Nat.mod_eq_of_lt hv] at this
  · rw [decide_eq_false hv, if_pos (by omega)]
    cases m with
    | debug => exact ⟨_, rfl⟩
    | release =>
      refine ⟨r, rfl, ?_⟩
      have := h2.raw
      rwa [BitVec.toNat_ofNat] at this

/-- An index of up to 64 bits always has a 64-bit number. -/
theorem Raw.toU64_of_le {v : BitVecValue} {w N : Nat} (h : Raw v w N) (hw : w ≤ 64) :
    v.toU64 = some (BitVec.ofNat 64 N) ∧ N < 2 ^ 64 := by
  have hN : N < 2 ^ 64 := Nat.lt_of_lt_of_le h.lt (Nat.pow_le_pow_right (by decide) (by unfold capacity; omega))
  rw [C87_to_u64 h, if_pos hN]
  exact ⟨rfl, hN⟩

theorem ofNat64_toNat {N : Nat} (h : N < 2 ^ 64) : (BitVec.ofNat 64 N).toNat = N := by
  rw [BitVec.toNat_ofNat, Nat.mod_eq_of_lt h]

theorem idx_none {α : Type} {l : List α} {i : Nat} (h : l.length ≤ i) : idx l i = panic .bounds := by
  rw [idx, List.getElem?_eq_none h]

theorem sliceR_past {α : Type} {l : List α} {lo hi : Nat} (h : l.length < hi) : Panics (sliceR l lo hi) :=
  ⟨.bounds, by rw [sliceR, if_neg (by omega)]⟩

theorem setIdx_none {α : Type} {l : List α} {i : Nat} (h : l.length ≤ i) (x : α) : setIdx l i x = panic .bounds := by
  rw [setIdx, if_neg (by omega)]

/-- The bounds of an element that is out of range: some check fails. -/
theorem big_out_of_range (m : Mode) {dw I n : Nat} {α : Type} (l : List Word) (hl : l.length = (dw + 63) / 64 * n)
    (hdw : 64 < dw) (hI : n ≤ I) (hnw : NoWrap m .dense dw I) (f : Nat → Nat → Res α)
    (hf : ∀ s e, l.length < e → Panics (f s e)) :
    Panics (do
      let start ← mulC m U64 ((dw + 63) / 64) I
      let end_ ← addC m U64 start ((dw + 63) / 64)
      f start end_) := by
  have hU64 : (U64 : Nat) = 2 ^ 64 := rfl
  have hb : (dw + 63) / 64 * n ≤ (dw + 63) / 64 * I := Nat.mul_le_mul_left _ hI
  by_cases h1 : (dw + 63) / 64 * I + (dw + 63) / 64 < 2 ^ 64
  · rw [mulC_ok (by omega), ok_bind, addC_ok (by omega), ok_bind]
    exact hf _ _ (by omega)
  · have hm : m = .debug := by
      rcases hnw with h | h | h | h
      · exact h
      · cases h
      · omega
      · exact absurd h h1
    subst hm
    by_cases h2 : (dw + 63) / 64 * I < U64
    · rw [mulC_ok h2, ok_bind]
      exact ⟨.overflow, by rw [addC, if_neg (by omega)]; rfl⟩
    · exact ⟨.overflow, by rw [mulC, if_neg h2]; rfl⟩

theorem DenseCells.select_of (m : Mode) {d : DenseArrayValue} {mem : Nat → Nat} (h : DenseCells iw dw d mem) {i : BitVecValue} {I : Nat}
    (hi : Raw i iw I) (hnw : NoWrap m .dense dw I) :
    Outcome (d.select m i) dw ((reached .dense iw dw I).bind fun n => shown m dw (mem n)) := by
  obtain ⟨hiw, hdw, hlt, hpos, hdl, hrep⟩ := h
  obtain ⟨_, _, data⟩ := d
  dsimp only at hiw hdw hrep
  replace hiw := hiw.symm
  replace hdw := hdw.symm
  subst hiw hdw
  obtain ⟨hi64, hI⟩ := hi.toU64_of_le (by omega)
  unfold DenseArrayValue.select
  rw [debugAssert_of (by rw [hi.width_eq]; simp), ok_bind, hi64]
  show Outcome (DenseArrayValue.selectUsize m _ (BitVec.ofNat 64 I).toNat) _ _
  rw [ofNat64_toNat hI]
  unfold DenseArrayValue.selectUsize reached cellCount
  dsimp only
  cases data with
  | bit v =>
    obtain ⟨h1, h2, N, hN, hf⟩ := hrep
    subst h1
    dsimp only
    rw [if_pos rfl, if_pos rfl, (C87_bits m hN).2]
    show Outcome ((if I % 2 ^ 32 < capacity (2 ^ iw) then _ else _) >>= _) 1 _
    by_cases hc : I % 2 ^ 32 < capacity (2 ^ iw)
    · rw [if_pos hc, if_pos hc, ok_bind]
      show Outcome (BitVecValue.fromBool m (N.testBit (I % 2 ^ 32))) 1 (shown m 1 (mem (I % 2 ^ 32)))
      rw [hf _ hc, shown, if_neg (by have := Bool.toNat_lt (N.testBit (I % 2 ^ 32)); omega)]
      exact raw_from_bool m _
    · rw [if_neg hc, if_neg hc]
      exact ⟨_, rfl⟩
  | u8 l =>
    obtain ⟨h1, h2, h3, hf⟩ := hrep
    dsimp only
    rw [if_neg h1, if_neg h1]
    by_cases hc : I < 2 ^ iw
    · obtain ⟨b, hb1, hb2⟩ := hf I hc
      rw [if_pos hc, idx_some hb1, ok_bind]
      show Outcome _ dw (shown m dw (mem I))
      have := fromU64_shown m hpos (show dw ≤ 64 by omega) (b.setWidth 64)
      rwa [setWidth64_toNat (by decide), hb2] at this
    · rw [if_neg hc, idx_none (by omega)]
      exact ⟨_, rfl⟩
  | u64 l =>
    obtain ⟨h1, h2, h3, hf⟩ := hrep
    dsimp only
    rw [if_neg (show ¬ dw = 1 by omega), if_neg (show ¬ dw = 1 by omega)]
    by_cases hc : I < 2 ^ iw
    · obtain ⟨b, hb1, hb2⟩ := hf I hc
      rw [if_pos hc, idx_some hb1, ok_bind]
      show Outcome _ dw (shown m dw (mem I))
      have := fromU64_shown m hpos h2 b
      rwa [hb2] at this
    · rw [if_neg hc, idx_none (by omega)]
      exact ⟨_, rfl⟩
  | big l =>
    obtain ⟨h1, h2, h3, hf⟩ := hrep
    rw [if_neg (show ¬ dw = 1 by omega), if_neg (show ¬ dw = 1 by omega)]
    show Outcome (do
      let start ← mulC m U64 ((dw + 63) / 64) I
      let end_ ← addC m U64 start ((dw + 63) / 64)
      let ws ← sliceR l start end_
      ok (⟨dw, ws⟩ : BitVecValue)) dw _
    by_cases hc : I < 2 ^ iw
    · have hb := block_bound (n := (dw + 63) / 64) hc
      rw [if_pos hc, mulC_ok (by show _ < 18446744073709551616; omega), ok_bind,
        addC_ok (by show _ < 18446744073709551616; omega), ok_bind, sliceR_ok (by omega) (by omega), ok_bind,
        Nat.add_sub_cancel_left]
      show Outcome _ dw (shown m dw (mem I))
      rw [shown, if_neg (by omega)]
      refine ⟨_, rfl, hdl, rfl, ?_, hf I hc⟩
      simp
      omega
    · rw [if_neg hc]
      exact big_out_of_range m l h2 h1 (by omega) hnw (fun s e => sliceR l s e >>= fun ws => ok (⟨dw, ws⟩ : BitVecValue))
        fun s e he => panics_bind (sliceR_past he) _

/-- `assign` copies the words. -/
theorem raw_assign (m : Mode) {w N : Nat} {s a : BitVecValue} (hs : Slot s w) (ha : Raw a w N) : BitVecValue.assign m s a = ok a := by
  unfold BitVecValue.assign
  have hw : s.width = a.width := by rw [hs.width_eq, ha.width_eq]
  have hl : s.words.length = a.words.length := by rw [hs.length_eq, ha.length_eq]
  rw [debugAssert_of (by simp [hw]), ok_bind, debugAssert_of (by simp [hl]), ok_bind, if_pos hl, hw]

/-- An array outcome: the cells it holds, or a panic. -/
def CellsOutcome (iw dw : Nat) (r : Res DenseArrayValue) : Option (Nat → Nat) → Prop
  | some mem => ∃ d, r = ok d ∧ DenseCells iw dw d mem
  | none => Panics r

theorem DenseCells.store_of (m : Mode) {d : DenseArrayValue} {mem : Nat → Nat} (h : DenseCells iw dw d mem) {i v : BitVecValue}
    {I D : Nat} (hi : Raw i iw I) (hv : Raw v dw D) (hnw : NoWrap m .dense dw I) :
    CellsOutcome iw dw (d.store m i v) ((reached .dense iw dw I).map fun n => setCell mem n (kept .dense dw D)) := by
  obtain ⟨hiw, hdw, hlt, hpos, hdl, hrep⟩ := h
  obtain ⟨_, _, data⟩ := d
  dsimp only at hiw hdw hrep
  replace hiw := hiw.symm
  replace hdw := hdw.symm
  subst hiw hdw
  obtain ⟨hi64, hI⟩ := hi.toU64_of_le (by omega)
  unfold DenseArrayValue.store
  rw [debugAssert_of (by rw [hi.width_eq]; simp), ok_bind, hi64]
  show CellsOutcome iw dw (debugAssert m (v.width == dw) >>= fun _ => _) _
  rw [debugAssert_of (by rw [hv.width_eq]; simp), ok_bind, ofNat64_toNat hI]
  unfold reached cellCount kept
  dsimp only
  cases data with
  | bit b =>
    obtain ⟨h1, h2, N, hN, hf⟩ := hrep
    subst h1
    dsimp only
    rw [if_pos rfl, if_pos rfl, if_pos rfl, raw_is_tru hv, ok_bind]
    have hsc := C87_set_clear_bit hN (I % 2 ^ 32)
    by_cases hc : I % 2 ^ 32 < capacity (2 ^ iw)
    · rw [if_pos hc] at hsc ⊢
      obtain ⟨⟨r, M, hr1, hr2, hr3⟩, ⟨s, L, hs1, hs2, hs3⟩⟩ := hsc
      by_cases hD : D = 1
      · rw [decide_eq_true hD, if_pos hD, if_pos rfl]
        refine ⟨⟨iw, 1, .bit r⟩, ?_, rfl, rfl, hlt, hpos, hdl, rfl, h2, M, hr2, fun n hn => ?_⟩
        · show (BitVecValue.setBit b (I % 2 ^ 32) >>= _) = _
          rw [hr1, ok_bind]
        · dsimp only
          rw [hr3, setCell_apply]
          by_cases hne : n = I % 2 ^ 32
          · rw [if_pos hne, if_pos hne]; rfl
          · rw [if_neg hne, if_neg hne, hf n hn]
      · rw [decide_eq_false hD, if_neg hD, if_neg (by simp)]
        refine ⟨⟨iw, 1, .bit s⟩, ?_, rfl, rfl, hlt, hpos, hdl, rfl, h2, L, hs2, fun n hn => ?_⟩
        · show (BitVecValue.clearBit b (I % 2 ^ 32) >>= _) = _
          rw [hs1, ok_bind]
        · dsimp only
          rw [hs3, setCell_apply]
          by_cases hne : n = I % 2 ^ 32
          · rw [if_pos hne, if_pos hne]; rfl
          · rw [if_neg hne, if_neg hne, hf n hn]
    · rw [if_neg hc] at hsc ⊢
      by_cases hD : D = 1
      · rw [decide_eq_true hD, if_pos rfl]
        show Panics (BitVecValue.setBit b (I % 2 ^ 32) >>= _)
        rw [hsc.1]
        exact ⟨_, rfl⟩
      · rw [decide_eq_false hD, if_neg (by simp)]
        show Panics (BitVecValue.clearBit b (I % 2 ^ 32) >>= _)
        rw [hsc.2]
        exact ⟨_, rfl⟩
  | u8 l =>
    obtain ⟨h1, h2, h3, hf⟩ := hrep
    obtain ⟨hv64, hD⟩ := hv.toU64_of_le (by omega)
    dsimp only
    rw [if_neg h1, if_neg h1, if_neg h1, if_pos h2, hv64]
    show CellsOutcome iw dw (setIdx l I ((BitVec.ofNat 64 D).setWidth 8) >>= fun _ => _) _
    by_cases hc : I < 2 ^ iw
    · obtain ⟨l', hl1, hl2, hl3⟩ := setIdx_spec (l := l) (i := I) (by omega) ((BitVec.ofNat 64 D).setWidth 8)
      rw [if_pos hc, hl1, ok_bind]
      refine ⟨_, rfl, rfl, rfl, hlt, hpos, hdl, h1, h2, by rw [hl2, h3], fun n hn => ?_⟩
      by_cases hne : n = I
      · exact ⟨_, by rw [hl3, if_pos hne], by
          dsimp only
          rw [setCell_apply, if_pos hne, BitVec.toNat_setWidth, ofNat64_toNat hD]⟩
      · obtain ⟨b, hb1, hb2⟩ := hf n hn
        exact ⟨b, by rw [hl3, if_neg hne, hb1], by dsimp only; rw [setCell_apply, if_neg hne, hb2]⟩
    · rw [if_neg hc, setIdx_none (by omega)]
      exact ⟨_, rfl⟩
  | u64 l =>
    obtain ⟨h1, h2, h3, hf⟩ := hrep
    obtain ⟨hv64, hD⟩ := hv.toU64_of_le (by omega)
    dsimp only
    rw [if_neg (show ¬ dw = 1 by omega), if_neg (show ¬ dw = 1 by omega), if_neg (show ¬ dw = 1 by omega),
      if_neg (show ¬ dw ≤ 8 by omega), hv64]
    show CellsOutcome iw dw (setIdx l I (BitVec.ofNat 64 D) >>= fun _ => _) _
    by_cases hc : I < 2 ^ iw
    · obtain ⟨l', hl1, hl2, hl3⟩ := setIdx_spec (l := l) (i := I) (by omega) (BitVec.ofNat 64 D)
      rw [if_pos hc, hl1, ok_bind]
      refine ⟨_, rfl, rfl, rfl, hlt, hpos, hdl, h1, h2, by rw [hl2, h3], fun n hn => ?_⟩
      by_cases hne : n = I
      · exact ⟨_, by rw [hl3, if_pos hne], by dsimp only; rw [setCell_apply, if_pos hne, ofNat64_toNat hD]⟩
      · obtain ⟨b, hb1, hb2⟩ := hf n hn
        exact ⟨b, by rw [hl3, if_neg hne, hb1], by dsimp only; rw [setCell_apply, if_neg hne, hb2]⟩
    · rw [if_neg hc, setIdx_none (by omega)]
      exact ⟨_, rfl⟩
  | big l =>
    obtain ⟨h1, h2, h3, hf⟩ := hrep
    rw [if_neg (show ¬ dw = 1 by omega), if_neg (show ¬ dw = 1 by omega), if_neg (show ¬ dw = 1 by omega),
      if_neg (show ¬ dw ≤ 8 by omega)]
    show CellsOutcome iw dw (do
      let start ← mulC m U64 ((dw + 63) / 64) I
      let end_ ← addC m U64 start ((dw + 63) / 64)
      let values ← modifyRange l start end_ fun ws => do
        let r ← BitVecValue.assign m ⟨dw, ws⟩ v
        ok r.words
      ok (⟨iw, dw, .big values⟩ : DenseArrayValue)) _
    by_cases hc : I < 2 ^ iw
    · have hb := block_bound (n := (dw + 63) / 64) hc
      have hlen : ((l.drop ((dw + 63) / 64 * I)).take ((dw + 63) / 64)).length = (dw + 63) / 64 := by
        simp
        omega
      have hmr : modifyRange l ((dw + 63) / 64 * I) ((dw + 63) / 64 * I + (dw + 63) / 64) (fun ws => do
          let r ← BitVecValue.assign m ⟨dw, ws⟩ v
          ok r.words) = ok (l.take ((dw + 63) / 64 * I) ++ v.words ++
            l.drop ((dw + 63) / 64 * I + (dw + 63) / 64)) := by
        refine Arith.modifyRange_ok (by omega) (by omega) ?_
        rw [Nat.add_sub_cancel_left, raw_assign m (w := dw) ⟨hdl, rfl, hlen⟩ hv]
        rfl
      rw [if_pos hc, mulC_ok (by show _ < 18446744073709551616; omega), ok_bind,
        addC_ok (by show _ < 18446744073709551616; omega), ok_bind, hmr, ok_bind]
      have hel := hv.length_eq
      refine ⟨_, rfl, rfl, rfl, hlt, hpos, hdl, h1, ?_, ?_, fun n hn => ?_⟩
      · simp [hel]; omega
      · simp [hel]; omega
      · dsimp only
        rw [block_write h2 hc hel n hn, setCell_apply]
        by_cases hne : n = I
        · rw [if_pos hne, if_pos hne, hv.val_eq]
        · rw [if_neg hne, if_neg hne, hf n hn]
    · rw [if_neg hc]
      exact big_out_of_range m l h2 h1 (by omega) hnw
        (fun s e => (modifyRange l s e fun ws => do
          let r ← BitVecValue.assign m ⟨dw, ws⟩ v
          ok r.words) >>= fun values => ok (⟨iw, dw, .big values⟩ : DenseArrayValue))
        fun s e he => panics_bind (by
          unfold modifyRange
          exact panics_bind (sliceR_past he) _) _

theorem DenseCells.clear_of {d : DenseArrayValue} {mem : Nat → Nat} (h : DenseCells iw dw d mem) :
    DenseCells iw dw d.clear (fun _ => 0) := by
  obtain ⟨hiw, hdw, hlt, hpos, hdl, hrep⟩ := h
  obtain ⟨_, _, data⟩ := d
  dsimp only at hiw hdw hrep
  replace hiw := hiw.symm
  replace hdw := hdw.symm
  subst hiw hdw
  unfold DenseArrayValue.clear
  cases data with
  | bit v =>
    obtain ⟨h1, h2, N, hN, hf⟩ := hrep
    have := (C26_clear ⟨hN.width_lt, hN.width_eq, hN.length_eq⟩ : Denotes (BitVecValue.clear v) _).raw
    exact ⟨rfl, rfl, hlt, hpos, hdl, h1, h2, _, this, fun n _ => by simp⟩
  | u8 l =>
    obtain ⟨h1, h2, h3, hf⟩ := hrep
    refine ⟨rfl, rfl, hlt, hpos, hdl, h1, h2, by simp [h3], fun n hn => ⟨0#8, ?_, rfl⟩⟩
    obtain ⟨b, hb, -⟩ := hf n hn
    rw [List.getElem?_map, hb]
    rfl
  | u64 l =>
    obtain ⟨h1, h2, h3, hf⟩ := hrep
    refine ⟨rfl, rfl, hlt, hpos, hdl, h1, h2, by simp [h3], fun n hn => ⟨0#64, ?_, rfl⟩⟩
    obtain ⟨b, hb, -⟩ := hf n hn
    rw [List.getElem?_map, hb]
    rfl
  | big l =>
    obtain ⟨h1, h2, h3, hf⟩ := hrep
    refine ⟨rfl, rfl, hlt, hpos, hdl, h1, by simp [h2], by simpa using h3, fun n hn => ?_⟩
    rw [List.map_const', List.drop_replicate, List.take_replicate, wordsVal_replicate_zero]

/-- `new` fails in a debug build if the array is too large, or if the default is a one-bit value with stray bits. -/
theorem dense_new_cells (m : Mode) {v : BitVecValue} {D : Nat} (hv : Raw v dw D) (hpos : 0 < dw) (ha : Addressable iw dw)
    (hb : dw ≠ 1 ∨ iw < 32) :
    ∃ d, DenseArrayValue.new m iw v = (do
        debugAssert m (decide (guardSize iw dw ≤ 2 ^ 30))
        debugAssert m (decide (dw = 1 → D ≤ 1))
        ok d) ∧ DenseCells iw dw d (startCells .dense iw dw D) := by
  have hlt := index_lt_of ha
  have hdl := hv.width_lt
  unfold DenseArrayValue.new
  dsimp only
  rw [hv.width_eq, approxStorageSize_ok m ha, ok_bind, numElements_ok m hlt]
  replace ha := ha.2
  unfold storageBytes at ha
  suffices h : ∃ data, ((if dw = 1 then do
      let t ← v.isTru
      if t = true then do
        let v ← BitVecValue.ones m (2 ^ iw % U32)
        ok (DenseArrayImpl.bit v)
      else do
        match m with
        | .debug => do
          let f ← v.isFals
          debugAssert .debug f
        | .release => ok ()
        ok (.bit (BitVecValue.zero (2 ^ iw % U32)))
    else if dw ≤ 8 then do
      let d ← unwrap v.toU64
      ok (.u8 (List.replicate (2 ^ iw) (d.setWidth 8)))
    else if dw ≤ 64 then do
      let d ← unwrap v.toU64
      ok (.u64 (List.replicate (2 ^ iw) d))
    else do
      let _ ← mulC m U64 (2 ^ iw) v.words.length
      ok (.big (List.replicate (2 ^ iw) v.words).flatten)) : Res DenseArrayImpl) =
        (debugAssert m (decide (dw = 1 → D ≤ 1)) >>= fun _ => ok data) ∧
      CellsRep iw dw data (startCells .dense iw dw D) by
    obtain ⟨data, h1, h2⟩ := h
    refine ⟨⟨iw, dw, data⟩, ?_, rfl, rfl, hlt, hpos, hdl, h2⟩
    congr 1
    funext _
    rw [ok_bind]
    have := congrArg (fun r : Res DenseArrayImpl => r >>= fun data => ok (⟨iw, dw, data⟩ : DenseArrayValue)) h1
    refine this.trans ?_
    cases debugAssert m (decide (dw = 1 → D ≤ 1)) <;> rfl
  by_cases h1 : dw = 1
  · subst h1
    have h32 : iw < 32 := by omega
    have hp : 2 ^ iw < 2 ^ 32 := Nat.pow_lt_pow_right (by decide) h32
    have hq : 0 < 2 ^ iw := Nat.two_pow_pos iw
    have hmod : 2 ^ iw % U32 = 2 ^ iw := Nat.mod_eq_of_lt (by show _ < 4294967296; omega)
    rw [if_pos rfl, hmod, (C87_bools hv).1, ok_bind, (C87_bools hv).2.1]
    by_cases hD : D = 1
    · rw [decide_eq_true (show 1 = 1 ∧ D = 1 from ⟨rfl, hD⟩), decide_eq_true (show 1 = 1 → D ≤ 1 from fun _ => by omega)]
      obtain ⟨r, hr, hd⟩ := C01_ones m hq hp
      refine ⟨.bit r, ?_, rfl, h32, _, hd.raw, fun n hn => ?_⟩
      · simp only [if_true]
        rw [hr]
        cases m <;> rfl
      · unfold startCells kept
        rw [BitVec.testBit_toNat, BitVec.getLsbD_allOnes]
        by_cases hn : 2 ^ iw ≤ n
        · rw [if_pos ⟨rfl, rfl, hn⟩, decide_eq_false (by omega)]; rfl
        · rw [if_neg (fun h => hn h.2.2), decide_eq_true (by omega)]
          simp [hD]
    · rw [decide_eq_false (show ¬ (1 = 1 ∧ D = 1) from fun h => hD h.2)]
      refine ⟨.bit (BitVecValue.zero (2 ^ iw)), ?_, rfl, h32, _, (C01_zero hp).raw, fun n hn => ?_⟩
      · rw [if_neg (by simp)]
        cases m with
        | release => rfl
        | debug =>
          by_cases h0 : D = 0
          · rw [decide_eq_true (show 1 = 1 ∧ D = 0 from ⟨rfl, h0⟩), decide_eq_true (show 1 = 1 → D ≤ 1 from fun _ => by omega)]
            rfl
          · rw [decide_eq_false (show ¬ (1 = 1 ∧ D = 0) from fun h => h0 h.2), decide_eq_false (fun h => by have := h rfl; omega)]
            rfl
      · unfold startCells kept
        simp [hD]
  · rw [if_neg h1, decide_eq_true (show dw = 1 → D ≤ 1 from fun h => absurd h h1)]
    rw [if_neg h1] at ha
    have hok : ∀ data : DenseArrayImpl, (debugAssert m true >>= fun _ => ok data) = ok data := fun _ => by cases m <;> rfl
    have hst : startCells .dense iw dw D = fun _ => kept .dense dw D := by
      funext n
      unfold startCells
      rw [if_neg (fun h => h1 h.2.1)]
    rw [hst]
    by_cases h2 : dw ≤ 8
    · obtain ⟨hv64, hD⟩ := hv.toU64_of_le (by omega)
      rw [if_pos h2, hv64]
      refine ⟨_, (hok _).symm, h1, h2, by simp, fun n hn => ⟨(BitVec.ofNat 64 D).setWidth 8, ?_, ?_⟩⟩
      · rw [List.getElem?_replicate, if_pos hn]
      · unfold kept
        dsimp only
        rw [if_neg h1, if_pos h2, BitVec.toNat_setWidth, ofNat64_toNat hD]
    · rw [if_neg h2]
      rw [if_neg h2] at ha
      by_cases h3 : dw ≤ 64
      · obtain ⟨hv64, hD⟩ := hv.toU64_of_le (by omega)
        rw [if_pos h3, hv64]
        refine ⟨_, (hok _).symm, by omega, h3, by simp, fun n hn => ⟨BitVec.ofNat 64 D, ?_, ?_⟩⟩
        · rw [List.getElem?_replicate, if_pos hn]
        · unfold kept
          dsimp only
          rw [if_neg h1, if_neg h2, ofNat64_toNat hD]
      · rw [if_neg h3]
        have hel := hv.length_eq
        have hbig : 2 ^ iw * ((dw + 63) / 64) < 2 ^ 60 := by
          have : 2 ^ iw * (8 * ((dw + 63) / 64)) = 8 * (2 ^ iw * ((dw + 63) / 64)) := by
            rw [Nat.mul_left_comm]
          omega
        rw [hel, mulC_ok (by show _ < 18446744073709551616; omega), ok_bind]
        refine ⟨_, (hok _).symm, by omega, ?_, ?_, fun n hn => ?_⟩
        · simp [hel, Nat.mul_comm]
        · simpa [hel] using hbig
        · have := flatten_replicate_block v.words (2 ^ iw) n hn
          rw [hel] at this
          rw [this, hv.val_eq]
          unfold kept
          dsimp only
          rw [if_neg h1, if_neg h2]

/-- Equality of dense arrays compares all cells. -/
theorem DenseCells.isEqual_of (m : Mode) {a b : DenseArrayValue} {f g : Nat → Nat} (ha : DenseCells iw dw a f)
    (hb : DenseCells iw dw b g) : ∃ r, a.isEqual m b = ok (some r) ∧ (r = true ↔ ∀ n, n < cellCount iw dw → f n = g n) := by
  obtain ⟨hiw, hdw, hlt, hpos, hdl, hrep⟩ := ha
  obtain ⟨hiw', hdw', -, -, -, hrep'⟩ := hb
  obtain ⟨_, _, data⟩ := a
  obtain ⟨_, _, data'⟩ := b
  dsimp only at hiw hdw hrep hiw' hdw' hrep'
  replace hiw := hiw.symm
  replace hdw := hdw.symm
  subst hiw hdw
  replace hiw' := hiw'.symm
  replace hdw' := hdw'.symm
  subst hiw' hdw'
  unfold DenseArrayValue.isEqual
  rw [if_neg (by simp)]
  dsimp only
  have hex : ∀ {k : Nat} (p q : List (BitVec k)), p.length = 2 ^ iw → q.length = 2 ^ iw →
      (∀ n, n < 2 ^ iw → ∃ b : BitVec k, p[n]? = some b ∧ b.toNat = f n) →
      (∀ n, n < 2 ^ iw → ∃ b : BitVec k, q[n]? = some b ∧ b.toNat = g n) → (p = q ↔ ∀ n, n < 2 ^ iw → f n = g n) := by
    intro k p q hp hq hP hQ
    constructor
    · intro h n hn
      obtain ⟨x, hx, hx'⟩ := hP n hn
      obtain ⟨y, hy, hy'⟩ := hQ n hn
      rw [h, hy] at hx
      rw [← hx', ← hy', Option.some.inj hx]
    · intro h
      apply List.ext_getElem?
      intro n
      by_cases hn : n < 2 ^ iw
      · obtain ⟨x, hx, hx'⟩ := hP n hn
        obtain ⟨y, hy, hy'⟩ := hQ n hn
        rw [hx, hy, BitVec.eq_of_toNat_eq (hx'.trans ((h n hn).trans hy'.symm))]
      · rw [List.getElem?_eq_none (by omega), List.getElem?_eq_none (by omega)]
  cases data with
  | bit v =>
    obtain ⟨h1, h2, N, hN, hf⟩ := hrep
    cases data' with
    | bit v' =>
      obtain ⟨_, _, M, hM, hg⟩ := hrep'
      subst h1
      dsimp only
      rw [raw_eq m hN hM, ok_bind]
      refine ⟨_, rfl, ?_⟩
      rw [decide_eq_true_iff]
      unfold cellCount
      rw [if_pos rfl]
      constructor
      · intro h n hn
        rw [hf n hn, hg n hn, h]
      · intro h
        apply Nat.eq_of_testBit_eq
        intro n
        by_cases hn : n < capacity (2 ^ iw)
        · have := h n hn
          rw [hf n hn, hg n hn] at this
          revert this
          cases N.testBit n <;> cases M.testBit n <;> simp
        · rw [Nat.testBit_lt_two_pow (Nat.lt_of_lt_of_le hN.lt (Nat.pow_le_pow_right (by decide) (by omega))),
            Nat.testBit_lt_two_pow (Nat.lt_of_lt_of_le hM.lt (Nat.pow_le_pow_right (by decide) (by omega)))]
    | u8 l => exact absurd h1 hrep'.1
    | u64 l => have := hrep'.1; omega
    | big l => have := hrep'.1; omega
  | u8 l =>
    obtain ⟨h1, h2, h3, hf⟩ := hrep
    cases data' with
    | bit v' => exact absurd hrep'.1 h1
    | u8 l' =>
      obtain ⟨_, _, h3', hf'⟩ := hrep'
      refine ⟨_, rfl, ?_⟩
      rw [beq_iff_eq, hex l l' h3 h3' hf hf', cellCount, if_neg h1]
    | u64 l => have := hrep'.1; omega
    | big l => have := hrep'.1; omega
  | u64 l =>
    obtain ⟨h1, h2, h3, hf⟩ := hrep
    cases data' with
    | bit v' => have := hrep'.1; omega
    | u8 l => have := hrep'.2.1; omega
    | u64 l' =>
      obtain ⟨_, _, h3', hf'⟩ := hrep'
      refine ⟨_, rfl, ?_⟩
      rw [beq_iff_eq, hex l l' h3 h3' hf hf', cellCount, if_neg (by omega)]
    | big l => have := hrep'.1; omega
  | big l =>
    obtain ⟨h1, h2, h3, hf⟩ := hrep
    cases data' with
    | bit v' => have := hrep'.1; omega
    | u8 l => have := hrep'.2.1; omega
    | u64 l' => have := hrep'.2.1; omega
    | big l' =>
      obtain ⟨_, h2', h3', hf'⟩ := hrep'
      refine ⟨_, rfl, ?_⟩
      rw [beq_iff_eq, cellCount, if_neg (by omega)]
      constructor
      · intro h n hn
        rw [← hf n hn, ← hf' n hn, h]
      · intro h
        apply List.ext_getElem?
        intro k
        by_cases hk : k < (dw + 63) / 64 * 2 ^ iw
        · have hn : 0 < (dw + 63) / 64 := by omega
          have hq : k / ((dw + 63) / 64) < 2 ^ iw := Nat.div_lt_of_lt_mul hk
          have hr : k % ((dw + 63) / 64) < (dw + 63) / 64 := Nat.mod_lt _ hn
          have hbb := block_bound (n := (dw + 63) / 64) hq
          have h4 := (hf _ hq).trans ((h _ hq).trans (hf' _ hq).symm)
          have h5 := wordsVal_inj (by simp; omega) h4
          have h6 := congrArg (fun z => z[k % ((dw + 63) / 64)]?) h5
          rw [List.getElem?_take_of_lt hr, List.getElem?_take_of_lt hr, List.getElem?_drop, List.getElem?_drop,
            Nat.div_add_mod] at h6
          exact h6
        · rw [List.getElem?_eq_none (by omega), List.getElem?_eq_none (by omega)]

/-! ## The sparse representation -/

/-- A hash map holds the cells that differ from the default `D`; `R v c` says that the stored value `v` is the number `c`. -/
structure MapCells {V : Type} (R : V → Nat → Prop) (map : HMap Word V) (mem : Nat → Nat) (D : Nat) : Prop where
  nodup : map.Nodup
  get : ∀ k : Word, (map.get k = none ∧ mem k.toNat = D) ∨ ∃ v, map.get k = some v ∧ R v (mem k.toNat) ∧ mem k.toNat ≠ D

namespace MapCells
variable {V : Type} {R : V → Nat → Prop} {map map' : HMap Word V} {mem mem' : Nat → Nat} {D c : Nat}

theorem empty (D : Nat) : MapCells R HMap.empty (fun _ => D) D :=
  ⟨HMap.nodup_empty, fun k => .inl ⟨HMap.get_empty k, rfl⟩⟩

theorem insert (h : MapCells R map mem D) {I : Nat} (hI : I < 2 ^ 64) {v : V} (hv : R v c) (hc : c ≠ D) :
    MapCells R (map.insert (BitVec.ofNat 64 I) v) (setCell mem I c) D := by
  refine ⟨HMap.nodup_insert h.nodup _ _, fun k => ?_⟩
  rw [HMap.get_insert, setCell_apply]
  by_cases hk : k = BitVec.ofNat 64 I
  · rw [if_pos hk, if_pos (by rw [hk, ofNat64_toNat hI])]
    exact .inr ⟨v, rfl, hv, hc⟩
  · rw [if_neg hk, if_neg (fun e => hk (BitVec.eq_of_toNat_eq (by rw [e, ofNat64_toNat hI])))]
    exact h.get k

theorem remove (h : MapCells R map mem D) {I : Nat} (hI : I < 2 ^ 64) :
    MapCells R (map.remove (BitVec.ofNat 64 I)) (setCell mem I D) D := by
  refine ⟨HMap.nodup_remove h.nodup _, fun k => ?_⟩
  rw [HMap.get_remove, setCell_apply]
  by_cases hk : k = BitVec.ofNat 64 I
  · rw [if_pos hk, if_pos (by rw [hk, ofNat64_toNat hI])]
    exact .inl ⟨rfl, rfl⟩
  · rw [if_neg hk, if_neg (fun e => hk (BitVec.eq_of_toNat_eq (by rw [e, ofNat64_toNat hI])))]
    exact h.get k

/-- Reading a cell, with the default for missing entries. -/
theorem getD (h : MapCells R map mem D) {d : V} (hd : R d D) {I : Nat} (hI : I < 2 ^ 64) :
    R ((map.get (BitVec.ofNat 64 I)).getD d) (mem I) := by
  have := h.get (BitVec.ofNat 64 I)
  rw [ofNat64_toNat hI] at this
  rcases this with ⟨h1, h2⟩ | ⟨v, h1, h2, -⟩
  · rw [h1, h2]; exact hd
  · rw [h1]; exact h2

theorem eq_iff [DecidableEq V] (h : MapCells R map mem D) (h' : MapCells R map' mem' D)
    (hinj : ∀ {u v : V} {c : Nat}, R u c → R v c → u = v) (hfun : ∀ {u : V} {c e : Nat}, R u c → R u e → c = e) :
    ∃ r, (if map.len = map'.len then (ok (some (map.beq map')) : Res (Option Bool)) else ok (some false)) = ok (some r) ∧
      (r = true ↔ ∀ n, n < 2 ^ 64 → mem n = mem' n) := by
  have hiff : (∀ k, map.get k = map'.get k) ↔ ∀ n, n < 2 ^ 64 → mem n = mem' n := by
    constructor
    · intro hk n hn
      have h1 := h.get (BitVec.ofNat 64 n)
      have h2 := h'.get (BitVec.ofNat 64 n)
      rw [ofNat64_toNat hn] at h1 h2
      rw [hk] at h1
      rcases h1 with ⟨a1, a2⟩ | ⟨v, a1, a2, -⟩
      · rcases h2 with ⟨b1, b2⟩ | ⟨u, b1, -, -⟩
        · rw [a2, b2]
        · rw [a1] at b1; cases b1
      · rcases h2 with ⟨b1, -⟩ | ⟨u, b1, b2, -⟩
        · rw [a1] at b1; cases b1
        · rw [a1] at b1
          cases b1
          exact hfun a2 b2
    · intro hn k
      have hm := hn k.toNat k.isLt
      rcases h.get k with ⟨a1, a2⟩ | ⟨v, a1, a2, a3⟩
      · rcases h'.get k with ⟨b1, -⟩ | ⟨u, -, -, b3⟩
        · rw [a1, b1]
        · exact absurd (hm.symm.trans a2) b3
      · rcases h'.get k with ⟨-, b2⟩ | ⟨u, b1, b2, -⟩
        · exact absurd (hm.trans b2) a3
        · rw [a1, b1, hinj a2 (hm ▸ b2)]
  by_cases hl : map.len = map'.len
  · rw [if_pos hl]
    exact ⟨_, rfl, (HMap.beq_iff h.nodup h'.nodup).trans hiff⟩
  · rw [if_neg hl]
    refine ⟨_, rfl, ?_⟩
    constructor
    · intro hh; cases hh
    · intro hn
      exact absurd (MapRep.len_le (hiff.mpr hn) h.nodup h'.nodup) hl

end MapCells

/-- The hash map of a sparse array holds the cells. -/
def SparseCellsRep (dw : Nat) (data : SparseArrayImpl) (mem : Nat → Nat) (D : Nat) : Prop :=
  match data with
  | .u64u64 d map => dw ≤ 64 ∧ d.toNat = D ∧ MapCells (fun (v : Word) c => v.toNat = c) map mem D
  | .u64big d map => 64 < dw ∧ Raw d dw D ∧ MapCells (fun v c => Raw v dw c) map mem D
  | .bigbig _ _ => False

/-- A sparse array with an index of up to 64 bits holds the cells. -/
structure SparseCells (iw dw : Nat) (s : SparseArrayValue) (mem : Nat → Nat) (D : Nat) : Prop where
  indexWidth : s.indexWidth = iw
  dataWidth : s.dataWidth = dw
  index_le : iw ≤ 64
  data_pos : 0 < dw
  data_lt : dw < 2 ^ 32
  rep : SparseCellsRep dw s.data mem D

theorem sparse_new_cells {v : BitVecValue} {D : Nat} (hv : Raw v dw D) (hi : iw ≤ 64) (hpos : 0 < dw) :
    ∃ s, SparseArrayValue.new iw v = ok s ∧ SparseCells iw dw s (startCells .sparse iw dw D) D := by
  have hst : startCells .sparse iw dw D = fun _ => D := by
    funext n
    unfold startCells
    rw [if_neg (fun h => by cases h.1)]
    rfl
  rw [hst]
  unfold SparseArrayValue.new
  rw [hv.width_eq]
  have h0 : ¬ iw > BITS := by show ¬ iw > 64; omega
  dsimp only
  rw [if_neg h0]
  by_cases h : dw ≤ 64
  · have h1 : ¬ dw > BITS := by show ¬ dw > 64; omega
    obtain ⟨hv64, hD⟩ := hv.toU64_of_le h
    rw [if_neg h1, hv64]
    exact ⟨_, rfl, rfl, rfl, hi, hpos, hv.width_lt, h, ofNat64_toNat hD, MapCells.empty D⟩
  · have h1 : dw > BITS := by show dw > 64; omega
    rw [if_pos h1]
    exact ⟨_, rfl, rfl, rfl, hi, hpos, hv.width_lt, by omega, hv, MapCells.empty D⟩

theorem SparseCells.clear_of {s : SparseArrayValue} {mem : Nat → Nat} {D : Nat} (h : SparseCells iw dw s mem D) :
    SparseCells iw dw s.clear (fun _ => 0) 0 := by
  obtain ⟨hiw, hdw, hi, hpos, hdl, hrep⟩ := h
  obtain ⟨_, _, data⟩ := s
  dsimp only at hiw hdw hrep
  replace hiw := hiw.symm
  replace hdw := hdw.symm
  subst hiw hdw
  unfold SparseArrayValue.clear
  cases data with
  | u64u64 d map => exact ⟨rfl, rfl, hi, hpos, hdl, hrep.1, rfl, MapCells.empty 0⟩
  | u64big d map =>
    have := (C01_zero hdl).raw
    simp only [BitVec.toNat_ofNat, Nat.zero_mod] at this
    exact ⟨rfl, rfl, hi, hpos, hdl, hrep.1, this, MapCells.empty 0⟩
  | bigbig d map => exact hrep.elim

theorem SparseCells.select_of (m : Mode) (env : HashEnv) {s : SparseArrayValue} {mem : Nat → Nat} {D : Nat}
    (h : SparseCells iw dw s mem D) {i : BitVecValue} {I : Nat} (hi : Raw i iw I) :
    Outcome (s.select m env i) dw (shown m dw (mem I)) := by
  obtain ⟨hiw, hdw, hi', hpos, hdl, hrep⟩ := h
  obtain ⟨_, _, data⟩ := s
  dsimp only at hiw hdw hrep
  replace hiw := hiw.symm
  replace hdw := hdw.symm
  subst hiw hdw
  obtain ⟨hi64, hI⟩ := hi.toU64_of_le hi'
  unfold SparseArrayValue.select
  rw [debugAssert_of (by rw [hi.width_eq]; simp), ok_bind]
  dsimp only
  cases data with
  | u64u64 d map =>
    obtain ⟨h1, h2, h3⟩ := hrep
    rw [hi64]
    show Outcome (BitVecValue.fromU64 m _ _) _ _
    have := fromU64_shown m hpos h1 ((map.get (BitVec.ofNat 64 I)).getD d)
    rwa [h3.getD h2 hI] at this
  | u64big d map =>
    obtain ⟨h1, h2, h3⟩ := hrep
    rw [hi64, shown, if_neg (by omega)]
    exact ⟨_, rfl, h3.getD h2 hI⟩
  | bigbig d map => exact hrep.elim

theorem SparseCells.store_of (m : Mode) (env : HashEnv) {s : SparseArrayValue} {mem : Nat → Nat} {D : Nat}
    (h : SparseCells iw dw s mem D) {i v : BitVecValue} {I E : Nat} (hi : Raw i iw I) (hv : Raw v dw E) :
    ∃ s', s.store m env i v = ok s' ∧ SparseCells iw dw s' (setCell mem I E) D := by
  obtain ⟨hiw, hdw, hi', hpos, hdl, hrep⟩ := h
  obtain ⟨_, _, data⟩ := s
  dsimp only at hiw hdw hrep
  replace hiw := hiw.symm
  replace hdw := hdw.symm
  subst hiw hdw
  obtain ⟨hi64, hI⟩ := hi.toU64_of_le hi'
  unfold SparseArrayValue.store
  rw [debugAssert_of (by rw [hi.width_eq]; simp), ok_bind, debugAssert_of (by rw [hv.width_eq]; simp), ok_bind]
  dsimp only
  cases data with
  | u64u64 d map =>
    obtain ⟨h1, h2, h3⟩ := hrep
    obtain ⟨hv64, hE⟩ := hv.toU64_of_le h1
    rw [hi64, hv64]
    show ∃ s', (if BitVec.ofNat 64 E = d then _ else _) = ok s' ∧ _
    by_cases he : BitVec.ofNat 64 E = d
    · have hED : E = D := by rw [← h2, ← he, ofNat64_toNat hE]
      rw [if_pos he]
      exact ⟨_, rfl, rfl, rfl, hi', hpos, hdl, h1, h2, hED ▸ h3.remove hI⟩
    · rw [if_neg he]
      exact ⟨_, rfl, rfl, rfl, hi', hpos, hdl, h1, h2, h3.insert hI (ofNat64_toNat hE)
        (fun e => he (BitVec.eq_of_toNat_eq (by rw [ofNat64_toNat hE, e, h2])))⟩
  | u64big d map =>
    obtain ⟨h1, h2, h3⟩ := hrep
    rw [hi64]
    show ∃ s', (BitVecValue.isEqual m v d >>= fun _ => _) = ok s' ∧ _
    rw [raw_eq m hv h2, ok_bind]
    by_cases he : E = D
    · rw [decide_eq_true he, if_pos rfl]
      exact ⟨_, rfl, rfl, rfl, hi', hpos, hdl, h1, h2, he ▸ h3.remove hI⟩
    · rw [decide_eq_false he, if_neg (by simp)]
      exact ⟨_, rfl, rfl, rfl, hi', hpos, hdl, h1, h2, h3.insert hI hv he⟩
  | bigbig d map => exact hrep.elim

theorem Raw.fits {u v : BitVecValue} {w N M : Nat} (m : Mode) (hu : Raw u w N) (hv : Raw v w M) : Fits m u v :=
  fun _ _ => hu.length_eq.trans hv.length_eq.symm

theorem MapCells.fits {map map' : HMap Word BitVecValue} {mem mem' : Nat → Nat} {D E : Nat} (m : Mode)
    (h : MapCells (fun v c => Raw v dw c) map mem D) (h' : MapCells (fun v c => Raw v dw c) map' mem' E) :
    ∀ e ∈ map.entries, ∀ v, map'.get e.1 = some v → Fits m e.2 v := by
  intro e he v hv
  have hg := (HMap.get_eq_some_iff h.nodup e.1 e.2).mpr he
  rcases h.get e.1 with ⟨h1, -⟩ | ⟨u, h1, h2, -⟩
  · rw [hg] at h1; cases h1
  · rw [hg] at h1
    cases h1
    rcases h'.get e.1 with ⟨h3, -⟩ | ⟨u', h3, h4, -⟩
    · rw [hv] at h3; cases h3
    · rw [hv] at h3
      cases h3
      exact h2.fits m h4

/-- Equality of sparse arrays compares the defaults and all cells. -/
theorem SparseCells.isEqual_of (m : Mode) (env : HashEnv) {a b : SparseArrayValue} {f g : Nat → Nat} {D E : Nat} (ha : SparseCells iw dw a f D)
    (hb : SparseCells iw dw b g E) :
    ∃ r, a.isEqual m env b = ok (some r) ∧ (r = true ↔ D = E ∧ ∀ n, n < 2 ^ 64 → f n = g n) := by
  obtain ⟨hiw, hdw, hi, hpos, hd, hrep⟩ := ha
  obtain ⟨hiw', hdw', -, -, -, hrep'⟩ := hb
  obtain ⟨_, _, data⟩ := a
  obtain ⟨_, _, data'⟩ := b
  dsimp only at hiw hdw hrep hiw' hdw' hrep'
  replace hiw := hiw.symm
  replace hdw := hdw.symm
  subst hiw hdw
  replace hiw' := hiw'.symm
  replace hdw' := hdw'.symm
  subst hiw' hdw'
  unfold SparseArrayValue.isEqual
  rw [if_neg (by simp)]
  dsimp only
  cases data with
  | u64u64 d map =>
    obtain ⟨h1, h2, hm⟩ := hrep
    cases data' with
    | u64u64 d' map' =>
      obtain ⟨h1', h2', hm'⟩ := hrep'
      dsimp only
      by_cases hxy : D = E
      · subst hxy
        rw [if_pos (BitVec.eq_of_toNat_eq (h2.trans h2'.symm))]
        obtain ⟨r, hr1, hr2⟩ := hm.eq_iff hm' (fun hu hv => BitVec.eq_of_toNat_eq (hu.trans hv.symm)) (fun hu hv => hu.symm.trans hv)
        exact ⟨r, hr1, hr2.trans (by simp)⟩
      · rw [if_neg (fun hh => hxy (by rw [← h2, ← h2', hh]))]
        exact ⟨_, rfl, by simp [hxy]⟩
    | u64big d' map' => have := hrep'.1; omega
    | bigbig d' map' => exact hrep'.elim
  | u64big d map =>
    obtain ⟨h1, h2, hm⟩ := hrep
    cases data' with
    | u64u64 d' map' => have := hrep'.1; omega
    | u64big d' map' =>
      obtain ⟨h1', h2', hm'⟩ := hrep'
      dsimp only
      rw [(C87_compare m h2 h2').2.2.2.2.1, ok_bind]
      by_cases hxy : D = E
      · subst hxy
        rw [decide_eq_true rfl, if_pos rfl, eqMaps_branch (lookup := fun _ => ok ()) env (fun _ _ => rfl) (hm.fits m hm')]
        obtain ⟨r, hr1, hr2⟩ := hm.eq_iff hm' (fun hu hv => hu.unique hv) (fun hu hv => hu.val_eq.symm.trans hv.val_eq)
        exact ⟨r, hr1, hr2.trans (by simp)⟩
      · rw [decide_eq_false hxy, if_neg (by simp)]
        exact ⟨_, rfl, by simp [hxy]⟩
    | bigbig d' map' => exact hrep'.elim
  | bigbig d map => exact hrep.elim

/-! ## The claims -/

/-- The array holds the cells and, if sparse, the default. -/
def HoldsCells (k : Kind) (iw dw : Nat) (a : ArrayValue) (mem : Nat → Nat) (D : Nat) : Prop :=
  match k, a with
  | .dense, .dense d => DenseCells iw dw d mem
  | .sparse, .sparse s => SparseCells iw dw s mem D
  | _, _ => False

theorem HoldsCells.dense {k : Kind} {a : ArrayValue} {mem : Nat → Nat} {D : Nat} (h : HoldsCells k iw dw a mem D) (hk : k = .dense) :
    ∃ d, a = .dense d ∧ DenseCells iw dw d mem := by
  subst hk
  cases a with
  | dense d => exact ⟨d, rfl, h⟩
  | sparse s => exact h.elim

theorem HoldsCells.sparse {k : Kind} {a : ArrayValue} {mem : Nat → Nat} {D : Nat} (h : HoldsCells k iw dw a mem D) (hk : k = .sparse) :
    ∃ s, a = .sparse s ∧ SparseCells iw dw s mem D := by
  subst hk
  cases a with
  | dense d => exact h.elim
  | sparse s => exact ⟨s, rfl, h⟩

/-- Creating an array. -/
theorem new_holdsCells (k : Kind) (m : Mode) (hadm : Admissible k iw dw) {v : BitVecValue} (hv : Slot v dw) :
    if k = .dense ∧ m = .debug ∧ (2 ^ 30 < guardSize iw dw ∨ (dw = 1 ∧ 1 < wordsVal v.words)) then Panics (newOf k m iw v)
    else ∃ a, newOf k m iw v = ok a ∧ HoldsCells k iw dw a (startCells k iw dw (wordsVal v.words)) (wordsVal v.words) := by
  cases k with
  | sparse =>
    rw [if_neg (fun h => by cases h.1)]
    obtain ⟨s, h1, h2⟩ := sparse_new_cells hv.raw hadm.2 hadm.1
    exact ⟨.sparse s, by show (SparseArrayValue.new iw v >>= _) = _; rw [h1, ok_bind], h2⟩
  | dense =>
    obtain ⟨d, h1, h2⟩ := dense_new_cells m hv.raw hadm.1 hadm.2.1 hadm.2.2
    have hn : newOf .dense m iw v = (DenseArrayValue.new m iw v >>= fun d => ok (.dense d)) := rfl
    rw [hn, h1]
    by_cases hg : guardSize iw dw ≤ 2 ^ 30
    · by_cases hD : dw = 1 → wordsVal v.words ≤ 1
      · rw [decide_eq_true hg, decide_eq_true hD, if_neg (by
          rintro ⟨-, -, h | ⟨ha, hb⟩⟩
          · omega
          · have := hD ha; omega)]
        exact ⟨.dense d, by cases m <;> rfl, h2⟩
      · rw [decide_eq_true hg, decide_eq_false hD]
        cases m with
        | debug =>
          rw [if_pos ⟨rfl, rfl, .inr (by
            by_cases h : dw = 1
            · exact ⟨h, by
                have : ¬ wordsVal v.words ≤ 1 := fun hh => hD fun _ => hh
                omega⟩
            · exact absurd (fun hh => absurd hh h) hD)⟩]
          exact ⟨_, rfl⟩
        | release =>
          rw [if_neg (fun h => by cases h.2.1)]
          exact ⟨.dense d, rfl, h2⟩
    · cases m with
      | debug =>
        rw [if_pos ⟨rfl, rfl, .inl (by omega)⟩, decide_eq_false hg]
        exact ⟨_, rfl⟩
      | release =>
        rw [if_neg (fun h => by cases h.2.1)]
        exact ⟨.dense d, rfl, h2⟩

/-- **C89** (creation): creating an array panics only in a debug build, for a dense array that is too large or a one-bit default that is
neither 0 nor 1. -/
theorem C89_new (k : Kind) (m : Mode) (hadm : Admissible k iw dw) {v : BitVecValue} (hv : Slot v dw) :
    if k = .dense ∧ m = .debug ∧ (2 ^ 30 < guardSize iw dw ∨ (dw = 1 ∧ 1 < wordsVal v.words)) then Panics (newOf k m iw v)
    else ∃ a, newOf k m iw v = ok a := by
  have h := new_holdsCells k m hadm hv
  split
  · rename_i hc
    rwa [if_pos hc] at h
  · rename_i hc
    rw [if_neg hc] at h
    obtain ⟨a, h1, -⟩ := h
    exact ⟨a, h1⟩

/-- The outcome of a run: an array that holds the cells, or a panic. -/
def RunOutcome (k : Kind) (iw dw D : Nat) (r : Res ArrayValue) : Option (Nat → Nat) → Prop
  | none => Panics r
  | some mem => ∃ b, r = ok b ∧ HoldsCells k iw dw b mem D

theorem HoldsCells.run_op (m : Mode) (env : HashEnv) {k : Kind} {a : ArrayValue} {mem : Nat → Nat} {D : Nat}
    (h : HoldsCells k iw dw a mem D) (op : RawOp) (hf : op.Fits iw dw) (hnw : op.NoWrap m k dw) :
    RunOutcome k iw dw (defaultAfter D [op]) (op.run m env a) (op.effect k iw dw mem) := by
  cases k with
  | dense =>
    obtain ⟨d, rfl, hd⟩ := h.dense rfl
    cases op with
    | clear => exact ⟨.dense d.clear, rfl, hd.clear_of⟩
    | store i v =>
      have := hd.store_of m hf.1.raw hf.2.raw hnw
      have hrun : (RawOp.store i v).run m env (.dense d) = (d.store m i v >>= fun d => ok (.dense d)) := rfl
      rw [hrun]
      unfold RawOp.effect
      dsimp only
      cases hr : reached .dense iw dw (wordsVal i.words) with
      | none =>
        rw [hr] at this
        exact panics_bind this _
      | some n =>
        rw [hr] at this
        obtain ⟨d', h1, h2⟩ := this
        exact ⟨.dense d', by rw [h1, ok_bind], h2⟩
  | sparse =>
    obtain ⟨s, rfl, hs⟩ := h.sparse rfl
    cases op with
    | clear => exact ⟨.sparse s.clear, rfl, hs.clear_of⟩
    | store i v =>
      obtain ⟨s', h1, h2⟩ := hs.store_of m env hf.1.raw hf.2.raw
      have hrun : (RawOp.store i v).run m env (.sparse s) = (s.store m env i v >>= fun s => ok (.sparse s)) := rfl
      rw [hrun]
      exact ⟨.sparse s', by rw [h1, ok_bind], h2⟩

theorem HoldsCells.run (m : Mode) (env : HashEnv) {k : Kind} (ops : List RawOp) {a : ArrayValue} {mem : Nat → Nat} {D : Nat}
    (h : HoldsCells k iw dw a mem D) (hf : ∀ op ∈ ops, op.Fits iw dw) (hnw : ∀ op ∈ ops, op.NoWrap m k dw) :
    RunOutcome k iw dw (defaultAfter D ops) (runRaw m env a ops) (cellsAfter k iw dw mem ops) := by
  induction ops generalizing a mem D with
  | nil => exact ⟨a, rfl, h⟩
  | cons op ops ih =>
    have h1 := h.run_op m env op (hf op List.mem_cons_self) (hnw op List.mem_cons_self)
    unfold cellsAfter runRaw
    cases he : op.effect k iw dw mem with
    | none =>
      rw [he] at h1
      exact panics_bind h1 _
    | some mem' =>
      rw [he] at h1
      obtain ⟨b, h2, h3⟩ := h1
      have h4 := ih h3 (fun o ho => hf o (List.mem_cons_of_mem _ ho)) (fun o ho => hnw o (List.mem_cons_of_mem _ ho))
      rw [h2, ok_bind]
      cases op <;> exact h4

theorem history (m : Mode) (env : HashEnv) (k : Kind) (hadm : Admissible k iw dw) {v : BitVecValue} (hv : Slot v dw) {a : ArrayValue}
    (hn : newOf k m iw v = ok a) (ops : List RawOp) (hf : ∀ op ∈ ops, op.Fits iw dw) (hnw : ∀ op ∈ ops, op.NoWrap m k dw) :
    RunOutcome k iw dw (defaultAfter (wordsVal v.words) ops) (runRaw m env a ops) (finalCells k iw dw v ops) := by
  have h := new_holdsCells k m hadm hv
  split at h
  · obtain ⟨p, hp⟩ := h
    rw [hn] at hp
    cases hp
  · obtain ⟨b, h1, h2⟩ := h
    rw [hn] at h1
    cases h1
    exact h2.run m env ops hf hnw

theorem HoldsCells.select_of (m : Mode) (env : HashEnv) {k : Kind} {a : ArrayValue} {mem : Nat → Nat} {D : Nat}
    (h : HoldsCells k iw dw a mem D) {i : BitVecValue} (hi : Slot i iw) (hnw : NoWrap m k dw (wordsVal i.words)) :
    Outcome (a.select m env i) dw ((reached k iw dw (wordsVal i.words)).bind fun n => shown m dw (mem n)) := by
  cases k with
  | dense =>
    obtain ⟨d, rfl, hd⟩ := h.dense rfl
    exact hd.select_of m hi.raw hnw
  | sparse =>
    obtain ⟨s, rfl, hs⟩ := h.sparse rfl
    exact hs.select_of m env hi.raw

/-- **C89** (histories): for a new array of either kind, any history of stores and clears with arbitrary words, and any index with
arbitrary words, the specification of cells predicts whether the history panics, whether the final `select` panics, and the number in
the words of its result. -/
theorem C89_select (m : Mode) (env : HashEnv) (k : Kind) (hadm : Admissible k iw dw) {v : BitVecValue} (hv : Slot v dw) {a : ArrayValue}
    (hn : newOf k m iw v = ok a) (ops : List RawOp) (hf : ∀ op ∈ ops, op.Fits iw dw) (hnw : ∀ op ∈ ops, op.NoWrap m k dw) :
    match finalCells k iw dw v ops with
    | none => Panics (runRaw m env a ops)
    | some mem => ∃ b, runRaw m env a ops = ok b ∧ ∀ i, Slot i iw → NoWrap m k dw (wordsVal i.words) →
        Outcome (b.select m env i) dw ((reached k iw dw (wordsVal i.words)).bind fun n => shown m dw (mem n)) := by
  have h := history m env k hadm hv hn ops hf hnw
  cases hc : finalCells k iw dw v ops with
  | none => rw [hc] at h; exact h
  | some mem =>
    rw [hc] at h
    obtain ⟨b, h1, h2⟩ := h
    exact ⟨b, h1, fun i hi hw => h2.select_of m env hi hw⟩

/-- **C89** (equality): two dense arrays are equal exactly if all their cells are, including the cells that no index in normal form
reaches. Two sparse arrays are equal exactly if their defaults and all their cells are. -/
theorem C89_equal (m : Mode) (env : HashEnv) (k : Kind) (hadm : Admissible k iw dw) {u v : BitVecValue} (hu : Slot u dw) (hv : Slot v dw)
    {a a' b b' : ArrayValue} (ha : newOf k m iw u = ok a) (hb : newOf k m iw v = ok b) (ops ops' : List RawOp)
    (hf : ∀ op ∈ ops ++ ops', op.Fits iw dw) (hnw : ∀ op ∈ ops ++ ops', op.NoWrap m k dw) (ha' : runRaw m env a ops = ok a')
    (hb' : runRaw m env b ops' = ok b') :
    ∃ f g r, finalCells k iw dw u ops = some f ∧ finalCells k iw dw v ops' = some g ∧ a'.eq m env b' = ok r ∧
      (r = true ↔ match k with
        | .dense => ∀ n, n < cellCount iw dw → f n = g n
        | .sparse => defaultAfter (wordsVal u.words) ops = defaultAfter (wordsVal v.words) ops' ∧ ∀ n, n < 2 ^ 64 → f n = g n) := by
  have h1 := history m env k hadm hu ha ops (fun o ho => hf o (List.mem_append_left _ ho)) (fun o ho => hnw o (List.mem_append_left _ ho))
  have h2 := history m env k hadm hv hb ops' (fun o ho => hf o (List.mem_append_right _ ho))
    (fun o ho => hnw o (List.mem_append_right _ ho))
  cases hc : finalCells k iw dw u ops with
  | none =>
    rw [hc] at h1
    obtain ⟨p, hp⟩ := h1
    rw [ha'] at hp
    cases hp
  | some f =>
    cases hd : finalCells k iw dw v ops' with
    | none =>
      rw [hd] at h2
      obtain ⟨p, hp⟩ := h2
      rw [hb'] at hp
      cases hp
    | some g =>
      rw [hc] at h1
      rw [hd] at h2
      obtain ⟨x, hx1, hx2⟩ := h1
      obtain ⟨y, hy1, hy2⟩ := h2
      rw [ha'] at hx1
      rw [hb'] at hy1
      cases hx1
      cases hy1
      cases k with
      | dense =>
        obtain ⟨d, rfl, hd⟩ := hx2.dense rfl
        obtain ⟨e, rfl, he⟩ := hy2.dense rfl
        obtain ⟨r, hr1, hr2⟩ := hd.isEqual_of m he
        refine ⟨f, g, r, rfl, rfl, ?_, hr2⟩
        show (DenseArrayValue.isEqual m d e >>= _) = _
        rw [hr1]
        rfl
      | sparse =>
        obtain ⟨d, rfl, hd⟩ := hx2.sparse rfl
        obtain ⟨e, rfl, he⟩ := hy2.sparse rfl
        obtain ⟨r, hr1, hr2⟩ := hd.isEqual_of m env he
        refine ⟨f, g, r, rfl, rfl, ?_, hr2⟩
        show (SparseArrayValue.isEqual m env d e >>= _) = _
        rw [hr1]
        rfl

/-- **C89** (read back): reading right after a store, with the same index. -/
theorem C89_read_back (m : Mode) (env : HashEnv) (k : Kind) (hadm : Admissible k iw dw) {v : BitVecValue} (hv : Slot v dw) {a b : ArrayValue}
    (hn : newOf k m iw v = ok a) (ops : List RawOp) (hf : ∀ op ∈ ops, op.Fits iw dw) (hnw : ∀ op ∈ ops, op.NoWrap m k dw)
    (hb : runRaw m env a ops = ok b) {i d : BitVecValue} (hi : Slot i iw) (hd : Slot d dw) (hw : NoWrap m k dw (wordsVal i.words)) :
    match reached k iw dw (wordsVal i.words) with
    | none => Panics (b.store m env i d)
    | some _ => ∃ c, b.store m env i d = ok c ∧ Outcome (c.select m env i) dw (shown m dw (kept k dw (wordsVal d.words))) := by
  have h := history m env k hadm hv hn ops hf hnw
  cases hc : finalCells k iw dw v ops with
  | none =>
    rw [hc] at h
    obtain ⟨p, hp⟩ := h
    rw [hb] at hp
    cases hp
  | some mem =>
    rw [hc] at h
    obtain ⟨x, hx1, hx2⟩ := h
    rw [hb] at hx1
    cases hx1
    have h1 := hx2.run_op m env (.store i d) ⟨hi, hd⟩ hw
    replace h1 : RunOutcome k iw dw (defaultAfter (wordsVal v.words) ops) (b.store m env i d)
      ((reached k iw dw (wordsVal i.words)).map fun n => setCell mem n (kept k dw (wordsVal d.words))) := h1
    cases hr : reached k iw dw (wordsVal i.words) with
    | none => rw [hr] at h1; exact h1
    | some n =>
      rw [hr] at h1
      obtain ⟨c, h2, h3⟩ := h1
      have h4 := h3.select_of m env hi hw
      rw [hr] at h4
      refine ⟨c, h2, ?_⟩
      have h5 : setCell mem n (kept k dw (wordsVal d.words)) n = kept k dw (wordsVal d.words) := by
        rw [setCell_apply, if_pos rfl]
      rw [← h5]
      exact h4

/-! ## Concrete cases -/

/-- The hypotheses are met by values with stray bits: a four-bit value holding 999 and a two-bit index holding 9. -/
example : Admissible .dense 2 4 ∧ Admissible .sparse 2 4 ∧ Slot ⟨4, [999#64]⟩ 4 ∧ Slot ⟨2, [9#64]⟩ 2 ∧
    ¬ Canonical ⟨4, [999#64]⟩ ∧ ¬ Canonical ⟨2, [9#64]⟩ :=
  ⟨by unfold Admissible Addressable storageBytes; decide, by unfold Admissible; decide, ⟨by decide, rfl, rfl⟩, ⟨by decide, rfl, rfl⟩,
    fun h => absurd h.val_lt (by decide), fun h => absurd h.val_lt (by decide)⟩

/-- The parser makes such a value, a dense array keeps its low byte, and reading it back gives 7 in a release build and a panic in a
debug build. -/
example : BitVecValue.fromStrRadix .debug ("999".toList.map ch) 10 4 = ok (.ok ⟨4, [999#64]⟩) ∧
    (do let a ← newOf .dense .release 2 (encode 0#4)
        let a ← a.store .release listEnv (encode 1#2) ⟨4, [999#64]⟩
        a.select .release listEnv (encode 1#2)) = ok (encode 7#4) ∧
    Panics (do let a ← newOf .dense .debug 2 (encode 0#4)
               let a ← a.store .debug listEnv (encode 1#2) ⟨4, [999#64]⟩
               a.select .debug listEnv (encode 1#2)) ∧
    shown .release 4 (kept .dense 4 999) = some 7 ∧ shown .debug 4 (kept .dense 4 999) = none :=
  ⟨by decide, by decide, ⟨.debugAssert, by decide⟩, by decide, by decide⟩

/-- The two kinds of array disagree about a one-bit value that holds 3: release builds read 0 from a dense and 1 from a sparse array. -/
example : (do let a ← newOf .dense .release 2 (encode 0#1)
              let a ← a.store .release listEnv (encode 1#2) ⟨1, [3#64]⟩
              a.select .release listEnv (encode 1#2)) = ok (encode 0#1) ∧
    (do let a ← newOf .sparse .release 2 (encode 0#1)
        let a ← a.store .release listEnv (encode 1#2) ⟨1, [3#64]⟩
        a.select .release listEnv (encode 1#2)) = ok (encode 1#1) ∧
    shown .release 1 (kept .dense 1 3) = some 0 ∧ shown .release 1 (kept .sparse 1 3) = some 1 := by decide

/-- A stray index bit makes two arrays with the same elements unequal, in both representations: the store went to a cell that no index in
normal form reaches. -/
example :
    (do let a ← newOf .dense .debug 2 (encode 0#1)
        let b ← a.store .debug listEnv ⟨2, [9#64]⟩ (encode 1#1)
        a.eq .debug listEnv b) = ok false ∧
    (do let a ← newOf .sparse .debug 2 (encode 0#8)
        let b ← a.store .debug listEnv ⟨2, [9#64]⟩ (encode 1#8)
        a.eq .debug listEnv b) = ok false ∧
    reached .dense 2 1 9 = some 9 ∧ reached .dense 2 8 9 = none ∧ reached .sparse 2 8 9 = some 9 := by decide

/-- Why `NoWrap` is needed: in a release build the position of a two-word element wraps around, and index 2^63 reaches element 0. -/
example : ¬ NoWrap .release .dense 65 (2 ^ 63) ∧
    (do let a ← newOf .dense .release 1 (encode 0#65)
        let a ← a.store .release listEnv ⟨1, [0x8000000000000000#64]⟩ (encode 7#65)
        a.select .release listEnv (encode 0#1)) = ok (encode 7#65) := by
  refine ⟨?_, by decide⟩
  unfold NoWrap
  decide

end Baa

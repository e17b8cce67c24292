import Verif.SpecArray
import Verif.Props.Convert
import Verif.Props.Slice
import Verif.Props.Compare

/-!
# Dense arrays: representation invariant
-/

namespace Baa
open Res

@[simp] theorem encode_width {w : Nat} (x : BitVec w) : (encode x).width = w := rfl

theorem encode_words_length {w : Nat} (x : BitVec w) : (encode x).words.length = (w + 63) / 64 := toWords_length _ _

theorem encode_inj {w : Nat} {x y : BitVec w} (hw : w < 2 ^ 32) (h : encode x = encode y) : x = y :=
  (encode_denotes x hw).value_unique (h ▸ encode_denotes y hw)

theorem toU64_encode {w : Nat} (hw : w ≤ 64) (x : BitVec w) : (encode x).toU64 = some (x.setWidth 64) := by
  have hlt : x.toNat < 2 ^ 64 := Nat.lt_of_lt_of_le x.isLt (Nat.pow_le_pow_right (by decide) hw)
  rw [C03_to_u64 (encode_denotes x (by omega)), if_pos hlt, BitVec.ofNat_toNat]

theorem setWidth64_toNat {w : Nat} (hw : w ≤ 64) (x : BitVec w) : (x.setWidth 64).toNat = x.toNat := by
  have hlt : x.toNat < 2 ^ 64 := Nat.lt_of_lt_of_le x.isLt (Nat.pow_le_pow_right (by decide) hw)
  rw [BitVec.toNat_setWidth, Nat.mod_eq_of_lt hlt]

theorem setWidth_inj {w v : Nat} (hw : w ≤ v) {x y : BitVec w} (h : x.setWidth v = y.setWidth v) : x = y := by
  apply BitVec.eq_of_toNat_eq
  have := congrArg BitVec.toNat h
  have hx : x.toNat < 2 ^ v := Nat.lt_of_lt_of_le x.isLt (Nat.pow_le_pow_right (by decide) hw)
  have hy : y.toNat < 2 ^ v := Nat.lt_of_lt_of_le y.isLt (Nat.pow_le_pow_right (by decide) hw)
  rwa [BitVec.toNat_setWidth, BitVec.toNat_setWidth, Nat.mod_eq_of_lt hx, Nat.mod_eq_of_lt hy] at this

theorem fromU64_encode (m : Mode) {w : Nat} (h0 : 0 < w) (hw : w ≤ 64) (x : BitVec w) :
    BitVecValue.fromU64 m (x.setWidth 64) w = ok (encode x) := by
  have h := setWidth64_toNat hw x
  obtain ⟨r, h1, h2⟩ := C01_from_u64 m h0 (by omega) (x.setWidth 64) (by rw [h]; exact x.isLt)
  rw [h, BitVec.ofNat_toNat, BitVec.setWidth_eq] at h2
  rw [h1, h2.eq_encode]

theorem fromBool_encode (m : Mode) (b : Bool) : BitVecValue.fromBool m b = ok (encode (BitVec.ofBool b)) := by
  obtain ⟨r, h1, h2⟩ := C01_from_bool m b
  rw [h1, h2.eq_encode]

theorem ofBool_getLsbD (x : BitVec 1) : BitVec.ofBool (x.getLsbD 0) = x := by
  revert x
  decide

/-- The storage holds the function. -/
def DenseRep {iw dw : Nat} (data : DenseArrayImpl) (f : BitVec iw → BitVec dw) : Prop :=
  match data with
  | .bit v => dw = 1 ∧ iw < 32 ∧ ∃ y : BitVec (2 ^ iw), Denotes v y ∧ ∀ i : BitVec iw, y.getLsbD i.toNat = (f i).getLsbD 0
  | .u8 l => dw ≠ 1 ∧ dw ≤ 8 ∧ l.length = 2 ^ iw ∧ ∀ i : BitVec iw, l[i.toNat]? = some ((f i).setWidth 8)
  | .u64 l => 8 < dw ∧ dw ≤ 64 ∧ l.length = 2 ^ iw ∧ ∀ i : BitVec iw, l[i.toNat]? = some ((f i).setWidth 64)
  | .big l => 64 < dw ∧ l.length = (dw + 63) / 64 * 2 ^ iw ∧ l.length < 2 ^ 60 ∧
      ∀ i : BitVec iw, (l.drop ((dw + 63) / 64 * i.toNat)).take ((dw + 63) / 64) = (encode (f i)).words

/-- A dense array holds the function. -/
structure DenseInv {iw dw : Nat} (d : DenseArrayValue) (f : BitVec iw → BitVec dw) : Prop where
  indexWidth : d.indexWidth = iw
  dataWidth : d.dataWidth = dw
  index_lt : iw < 64
  data_pos : 0 < dw
  data_lt : dw < 2 ^ 32
  rep : DenseRep d.data f

variable {iw dw : Nat}

theorem idx_some {α : Type} {l : List α} {i : Nat} {x : α} (h : l[i]? = some x) : idx l i = ok x := by
  rw [idx, h]

theorem setIdx_spec {α : Type} {l : List α} {i : Nat} (h : i < l.length) (x : α) :
    ∃ l', setIdx l i x = ok l' ∧ l'.length = l.length ∧ ∀ j, l'[j]? = if j = i then some x else l[j]? := by
  refine ⟨l.set i x, setIdx_ok h, List.length_set, fun j => ?_⟩
  rw [List.getElem?_set]
  by_cases hj : i = j
  · rw [if_pos hj, if_pos hj.symm, if_pos (hj ▸ h)]
  · rw [if_neg hj, if_neg (fun e => hj e.symm)]

theorem block_bound {n k i : Nat} (h : i < k) : n * i + n ≤ n * k := by
  rw [← Nat.mul_succ]
  exact Nat.mul_le_mul_left n h

/-- Reading by number. -/
theorem DenseInv.selectUsize (m : Mode) {d : DenseArrayValue} {f : BitVec iw → BitVec dw} (h : DenseInv d f)
    (i : BitVec iw) : d.selectUsize m i.toNat = ok (encode (f i)) := by
  obtain ⟨hiw, hdw, hlt, hpos, hdl, hrep⟩ := h
  obtain ⟨_, _, data⟩ := d
  dsimp only at hiw hdw hrep
  replace hiw := hiw.symm
  replace hdw := hdw.symm
  subst hiw hdw
  unfold DenseArrayValue.selectUsize
  dsimp only
  cases data with
  | bit v =>
    obtain ⟨h1, h2, y, hy, hf⟩ := hrep
    subst h1
    have hi := i.isLt
    have hp : 2 ^ iw < 2 ^ 32 := Nat.pow_lt_pow_right (by decide) h2
    have hmod : i.toNat % U32 = i.toNat := Nat.mod_eq_of_lt (by
      show i.toNat < 4294967296
      omega)
    dsimp only
    rw [hmod, C24_is_bit_set hy hi, ok_bind, hf, fromBool_encode, ofBool_getLsbD]
  | u8 l =>
    obtain ⟨h1, h2, h3, hf⟩ := hrep
    dsimp only
    rw [idx_some (hf i), ok_bind]
    have : ((f i).setWidth 8).setWidth 64 = (f i).setWidth 64 := by
      apply BitVec.eq_of_toNat_eq
      have hx : (f i).toNat < 2 ^ 8 := Nat.lt_of_lt_of_le (f i).isLt (Nat.pow_le_pow_right (by decide) h2)
      rw [setWidth64_toNat (by decide), setWidth64_toNat (by omega), BitVec.toNat_setWidth, Nat.mod_eq_of_lt hx]
    rw [this, fromU64_encode m hpos (by omega)]
  | u64 l =>
    obtain ⟨h1, h2, h3, hf⟩ := hrep
    dsimp only
    rw [idx_some (hf i), ok_bind, fromU64_encode m hpos (by omega)]
  | big l =>
    obtain ⟨h1, h2, h3, hf⟩ := hrep
    have hb := block_bound (n := (dw + 63) / 64) i.isLt
    dsimp only
    show (do
      let start ← mulC m U64 ((dw + 63) / 64) i.toNat
      let end_ ← addC m U64 start ((dw + 63) / 64)
      let ws ← sliceR l start end_
      ok (⟨dw, ws⟩ : BitVecValue)) = _
    rw [mulC_ok (by show _ < 18446744073709551616; omega), ok_bind,
      addC_ok (by show _ < 18446744073709551616; omega), ok_bind, sliceR_ok (by omega) (by omega), ok_bind,
      Nat.add_sub_cancel_left, hf]
    rfl

theorem DenseInv.select_of (m : Mode) {d : DenseArrayValue} {f : BitVec iw → BitVec dw} (h : DenseInv d f) (i : BitVec iw) :
    d.select m (encode i) = ok (encode (f i)) := by
  unfold DenseArrayValue.select
  rw [debugAssert_of (by rw [h.indexWidth]; simp), ok_bind, toU64_encode (by have := h.index_lt; omega)]
  show d.selectUsize m ((i.setWidth 64).toNat) = _
  rw [setWidth64_toNat (by have := h.index_lt; omega), h.selectUsize]

theorem update_apply (f : BitVec iw → BitVec dw) (i : BitVec iw) (e : BitVec dw) (j : BitVec iw) :
    update f i e j = if j = i then e else f j := rfl

/-- Writing the words of one element of a `Big` array. -/
theorem block_write {l new : List Word} {n k i : Nat} (hl : l.length = n * k) (hi : i < k) (hn : new.length = n) (j : Nat)
    (hj : j < k) :
    ((l.take (n * i) ++ new ++ l.drop (n * i + n)).drop (n * j)).take n =
      if j = i then new else (l.drop (n * j)).take n := by
  have hb := block_bound (n := n) hi
  have hbj := block_bound (n := n) hj
  apply List.ext_getElem?
  intro p
  by_cases hp : p < n
  · rw [List.getElem?_take_of_lt hp, List.getElem?_drop]
    by_cases hji : j = i
    · rw [if_pos hji, hji, List.getElem?_append_left (by simp; omega), List.getElem?_append_right (by simp; omega)]
      congr 1
      simp
      omega
    · rw [if_neg hji, List.getElem?_take_of_lt hp, List.getElem?_drop]
      by_cases hlt : j < i
      · have := block_bound (n := n) hlt
        rw [List.getElem?_append_left (by simp; omega), List.getElem?_append_left (by simp; omega),
          List.getElem?_take_of_lt (by omega)]
      · have := block_bound (n := n) (show i < j by omega)
        rw [List.getElem?_append_right (by simp; omega), List.getElem?_drop]
        congr 1
        simp
        omega
  · rw [List.getElem?_take_eq_none (by omega)]
    symm
    split
    · rw [List.getElem?_eq_none_iff]; omega
    · rw [List.getElem?_take_eq_none (by omega)]

theorem DenseInv.store_at (m : Mode) {d : DenseArrayValue} {f : BitVec iw → BitVec dw} (h : DenseInv d f)
    {v : BitVecValue} {k : Word} (i : BitVec iw) (hk : v.toU64 = some k) (hki : k.toNat = i.toNat)
    (hw : debugAssert m (v.width == d.indexWidth) = ok ()) (e : BitVec dw) :
    ∃ d', d.store m v (encode e) = ok d' ∧ DenseInv d' (update f i e) := by
  obtain ⟨hiw, hdw, hlt, hpos, hdl, hrep⟩ := h
  obtain ⟨_, _, data⟩ := d
  dsimp only at hiw hdw hrep hw
  replace hiw := hiw.symm
  replace hdw := hdw.symm
  subst hiw hdw
  unfold DenseArrayValue.store
  dsimp only
  rw [hw, ok_bind, hk]
  show ∃ d', (debugAssert m ((encode e).width == dw) >>= fun _ => _) = ok d' ∧ _
  rw [debugAssert_of (by simp), ok_bind]
  have hi := i.isLt
  cases data with
  | bit v =>
    obtain ⟨h1, h2, y, hy, hf⟩ := hrep
    subst h1
    have hp : 2 ^ iw < 2 ^ 32 := Nat.pow_lt_pow_right (by decide) h2
    have hmod : k.toNat % U32 = i.toNat := by
      rw [hki]
      exact Nat.mod_eq_of_lt (by
        show i.toNat < 4294967296
        omega)
    dsimp only
    rw [hmod, C25_is_tru (encode_denotes e (by decide)), ok_bind]
    have hee : (1 = 1 ∧ e.toNat = 1) ↔ e.getLsbD 0 = true := by
      revert e
      decide
    by_cases he : e.getLsbD 0 = true
    · rw [decide_eq_true (hee.mpr he)]
      obtain ⟨r, z, hr, hz, hzb⟩ := C24_set_bit hy hi
      simp only [if_true]
      rw [hr, ok_bind]
      refine ⟨_, rfl, rfl, rfl, hlt, hpos, hdl, rfl, h2, z, hz, fun j => ?_⟩
      rw [hzb, update_apply]
      by_cases hj : j = i
      · rw [if_pos hj, he, hj]; simp
      · rw [if_neg hj, hf, decide_eq_false (fun e => hj (BitVec.eq_of_toNat_eq e)), Bool.or_false]
    · rw [decide_eq_false (fun hh => he (hee.mp hh))]
      obtain ⟨r, z, hr, hz, hzb⟩ := C24_clear_bit hy hi
      simp only [Bool.false_eq_true, if_false]
      rw [hr, ok_bind]
      refine ⟨_, rfl, rfl, rfl, hlt, hpos, hdl, rfl, h2, z, hz, fun j => ?_⟩
      rw [hzb, update_apply]
      by_cases hj : j = i
      · rw [if_pos hj, hj, Bool.eq_false_iff.mpr he]; simp
      · rw [if_neg hj, hf, decide_eq_true (show j.toNat ≠ i.toNat from fun e => hj (BitVec.eq_of_toNat_eq e)), Bool.and_true]
  | u8 l =>
    obtain ⟨h1, h2, h3, hf⟩ := hrep
    dsimp only
    rw [toU64_encode (by omega)]
    obtain ⟨l', hl1, hl2, hl3⟩ := setIdx_spec (l := l) (i := k.toNat) (by omega) (((e.setWidth 64).setWidth 8))
    show ∃ d', (setIdx l k.toNat ((e.setWidth 64).setWidth 8) >>= fun _ => _) = ok d' ∧ _
    rw [hl1, ok_bind]
    refine ⟨_, rfl, rfl, rfl, hlt, hpos, hdl, h1, h2, by rw [hl2, h3], fun j => ?_⟩
    rw [hl3, update_apply, hki]
    by_cases hj : j = i
    · rw [if_pos hj, if_pos (by rw [hj]), BitVec.setWidth_setWidth_of_le _ (by decide)]
    · rw [if_neg hj, if_neg (fun e => hj (BitVec.eq_of_toNat_eq e)), hf]
  | u64 l =>
    obtain ⟨h1, h2, h3, hf⟩ := hrep
    dsimp only
    rw [toU64_encode (by omega)]
    obtain ⟨l', hl1, hl2, hl3⟩ := setIdx_spec (l := l) (i := k.toNat) (by omega) (e.setWidth 64)
    show ∃ d', (setIdx l k.toNat (e.setWidth 64) >>= fun _ => _) = ok d' ∧ _
    rw [hl1, ok_bind]
    refine ⟨_, rfl, rfl, rfl, hlt, hpos, hdl, h1, h2, by rw [hl2, h3], fun j => ?_⟩
    rw [hl3, update_apply, hki]
    by_cases hj : j = i
    · rw [if_pos hj, if_pos (by rw [hj])]
    · rw [if_neg hj, if_neg (fun e => hj (BitVec.eq_of_toNat_eq e)), hf]
  | big l =>
    obtain ⟨h1, h2, h3, hf⟩ := hrep
    have hb := block_bound (n := (dw + 63) / 64) i.isLt
    dsimp only
    rw [hki]
    have hlen : ((l.drop ((dw + 63) / 64 * i.toNat)).take ((dw + 63) / 64)).length = (dw + 63) / 64 := by
      rw [hf, encode_words_length]
    have hmr : modifyRange l ((dw + 63) / 64 * i.toNat) ((dw + 63) / 64 * i.toNat + (dw + 63) / 64) (fun ws => do
        let r ← BitVecValue.assign m ⟨dw, ws⟩ (encode e)
        ok r.words) = ok (l.take ((dw + 63) / 64 * i.toNat) ++ (encode e).words ++
          l.drop ((dw + 63) / 64 * i.toNat + (dw + 63) / 64)) := by
      refine Arith.modifyRange_ok (by omega) (by omega) ?_
      rw [Nat.add_sub_cancel_left, C26_assign m (w := dw) (x := e) ⟨hdl, rfl, hlen⟩ (encode_denotes e hdl)]
      rfl
    show ∃ d', (do
      let start ← mulC m U64 ((dw + 63) / 64) i.toNat
      let end_ ← addC m U64 start ((dw + 63) / 64)
      let values ← modifyRange l start end_ fun ws => do
        let r ← BitVecValue.assign m ⟨dw, ws⟩ (encode e)
        ok r.words
      ok (⟨iw, dw, .big values⟩ : DenseArrayValue)) = ok d' ∧ _
    rw [mulC_ok (by show _ < 18446744073709551616; omega), ok_bind,
      addC_ok (by show _ < 18446744073709551616; omega), ok_bind, hmr, ok_bind]
    have hel := encode_words_length e
    refine ⟨_, rfl, rfl, rfl, hlt, hpos, hdl, h1, ?_, ?_, fun j => ?_⟩
    · simp [hel]; omega
    · simp [hel]; omega
    · rw [block_write h2 hi hel j.toNat j.isLt, update_apply]
      by_cases hj : j = i
      · rw [if_pos hj, if_pos (by rw [hj])]
      · rw [if_neg hj, if_neg (fun e => hj (BitVec.eq_of_toNat_eq e)), hf]

theorem DenseInv.store_of (m : Mode) {d : DenseArrayValue} {f : BitVec iw → BitVec dw} (h : DenseInv d f) (i : BitVec iw)
    (e : BitVec dw) : ∃ d', d.store m (encode i) (encode e) = ok d' ∧ DenseInv d' (update f i e) := by
  have h64 := h.index_lt
  exact h.store_at m i (toU64_encode (by omega) i) (setWidth64_toNat (by omega) i)
    (debugAssert_of (by rw [h.indexWidth]; simp)) e

theorem DenseInv.clear_of {d : DenseArrayValue} {f : BitVec iw → BitVec dw} (h : DenseInv d f) :
    DenseInv d.clear (fun _ : BitVec iw => 0#dw) := by
  obtain ⟨hiw, hdw, hlt, hpos, hdl, hrep⟩ := h
  obtain ⟨_, _, data⟩ := d
  dsimp only at hiw hdw hrep
  replace hiw := hiw.symm
  replace hdw := hdw.symm
  subst hiw hdw
  unfold DenseArrayValue.clear
  cases data with
  | bit v =>
    obtain ⟨h1, h2, y, hy, hf⟩ := hrep
    exact ⟨rfl, rfl, hlt, hpos, hdl, h1, h2, _, C26_clear hy.slot, fun i => by simp⟩
  | u8 l =>
    obtain ⟨h1, h2, h3, hf⟩ := hrep
    refine ⟨rfl, rfl, hlt, hpos, hdl, h1, h2, by simp [h3], fun i => ?_⟩
    rw [List.getElem?_map, hf]
    simp
  | u64 l =>
    obtain ⟨h1, h2, h3, hf⟩ := hrep
    refine ⟨rfl, rfl, hlt, hpos, hdl, h1, h2, by simp [h3], fun i => ?_⟩
    rw [List.getElem?_map, hf]
    simp
  | big l =>
    obtain ⟨h1, h2, h3, hf⟩ := hrep
    refine ⟨rfl, rfl, hlt, hpos, hdl, h1, by simp [h2], by simpa using h3, fun i => ?_⟩
    have hbi := block_bound (n := (dw + 63) / 64) i.isLt
    have h0 : (encode (0#dw)).words = List.replicate ((dw + 63) / 64) 0#64 := by
      have := (C01_zero hdl).eq_encode
      rw [← this]
      rfl
    rw [h0, List.map_const', List.drop_replicate, List.take_replicate]
    congr 1
    omega

theorem index_lt_of {iw dw : Nat} (ha : Addressable iw dw) : iw < 64 := ha.1

theorem numElements_ok (m : Mode) {iw : Nat} (h : iw < 64) : numElements m iw = ok (2 ^ iw) := by
  unfold numElements shiftAmount64
  rw [if_pos h]
  rfl

theorem approxStorageSize_ok (m : Mode) (ha : Addressable iw dw) :
    DenseArrayValue.approxStorageSize m iw dw = ok (guardSize iw dw) := by
  have hlt := index_lt_of ha
  unfold DenseArrayValue.approxStorageSize guardSize
  replace ha := ha.2
  unfold storageBytes at ha
  rw [numElements_ok m hlt, ok_bind]
  by_cases h1 : dw = 1
  · rw [if_pos h1, if_pos h1]; rfl
  · rw [if_neg h1, if_neg h1]
    rw [if_neg h1] at ha
    by_cases h2 : dw ≤ 8
    · rw [if_pos h2, if_pos h2]
    · rw [if_neg h2, if_neg h2]
      rw [if_neg h2] at ha
      by_cases h3 : dw ≤ 64
      · rw [if_pos h3, if_pos h3]
        have : (dw + 63) / 64 = 1 := by omega
        rw [this] at ha
        exact mulC_ok (by show _ < 18446744073709551616; omega)
      · rw [if_neg h3, if_neg h3]
        have : 2 ^ iw * ((dw + 63) / 64) ≤ 2 ^ iw * (8 * ((dw + 63) / 64)) := Nat.mul_le_mul_left _ (by omega)
        exact mulC_ok (by show 2 ^ iw * ((dw + 63) / 64) < 18446744073709551616; omega)

theorem flatten_replicate_block (ws : List Word) (k i : Nat) (h : i < k) :
    ((List.replicate k ws).flatten.drop (ws.length * i)).take ws.length = ws := by
  induction k generalizing i with
  | zero => omega
  | succ k ih =>
    rw [List.replicate_succ, List.flatten_cons]
    cases i with
    | zero => simp
    | succ i =>
      rw [Nat.mul_succ, Nat.add_comm, ← List.drop_drop, List.drop_left, ih i (by omega)]

/-- `new`, apart from the size check, makes an array that is filled with the default. -/
theorem dense_new (m : Mode) (x : BitVec dw) (hpos : 0 < dw) (hdl : dw < 2 ^ 32) (ha : Addressable iw dw)
    (hb : dw ≠ 1 ∨ iw < 32) :
    ∃ d, DenseArrayValue.new m iw (encode x) =
        (debugAssert m (decide (guardSize iw dw ≤ 2 ^ 30)) >>= fun _ => ok d) ∧
      DenseInv d (fun _ : BitVec iw => x) := by
  have hlt := index_lt_of ha
  unfold DenseArrayValue.new
  dsimp only
  rw [encode_width, approxStorageSize_ok m ha, ok_bind, numElements_ok m hlt]
  replace ha := ha.2
  unfold storageBytes at ha
  suffices h : ∃ data, ((if dw = 1 then do
      let t ← (encode x).isTru
      if t = true then do
        let v ← BitVecValue.ones m (2 ^ iw % U32)
        ok (DenseArrayImpl.bit v)
      else do
        match m with
        | .debug => do
          let f ← (encode x).isFals
          debugAssert .debug f
        | .release => ok ()
        ok (.bit (BitVecValue.zero (2 ^ iw % U32)))
    else if dw ≤ 8 then do
      let d ← unwrap (encode x).toU64
      ok (.u8 (List.replicate (2 ^ iw) (d.setWidth 8)))
    else if dw ≤ 64 then do
      let d ← unwrap (encode x).toU64
      ok (.u64 (List.replicate (2 ^ iw) d))
    else do
      let _ ← mulC m U64 (2 ^ iw) (encode x).words.length
      ok (.big (List.replicate (2 ^ iw) (encode x).words).flatten)) : Res DenseArrayImpl) = ok data ∧
      DenseRep data (fun _ : BitVec iw => x) by
    obtain ⟨data, h1, h2⟩ := h
    refine ⟨⟨iw, dw, data⟩, ?_, rfl, rfl, hlt, hpos, hdl, h2⟩
    congr 1
    funext _
    rw [ok_bind]
    exact congrArg (fun r : Res DenseArrayImpl => r >>= fun data => ok (⟨iw, dw, data⟩ : DenseArrayValue)) h1
  by_cases h1 : dw = 1
  · subst h1
    have h32 : iw < 32 := by omega
    have hp : 2 ^ iw < 2 ^ 32 := Nat.pow_lt_pow_right (by decide) h32
    have hq : 0 < 2 ^ iw := Nat.two_pow_pos iw
    have hmod : 2 ^ iw % U32 = 2 ^ iw := Nat.mod_eq_of_lt (by show _ < 4294967296; omega)
    rw [if_pos rfl, hmod, C25_is_tru (encode_denotes x (by decide)), ok_bind,
      C25_is_fals (encode_denotes x (by decide))]
    have hee : (1 = 1 ∧ x.toNat = 1) ↔ x.getLsbD 0 = true := by
      revert x
      decide
    have hff : (1 = 1 ∧ x.toNat = 0) ↔ x.getLsbD 0 = false := by
      revert x
      decide
    by_cases he : x.getLsbD 0 = true
    · rw [decide_eq_true (hee.mpr he)]
      obtain ⟨r, hr, hd⟩ := C01_ones m hq hp
      simp only [if_true]
      rw [hr, ok_bind]
      refine ⟨_, rfl, rfl, h32, _, hd, fun i => ?_⟩
      rw [he]
      have := i.isLt
      simp [this]
    · rw [decide_eq_false (fun hh => he (hee.mp hh)), decide_eq_true (hff.mpr (Bool.eq_false_iff.mpr he))]
      simp only [Bool.false_eq_true, if_false]
      refine ⟨.bit (BitVecValue.zero (2 ^ iw)), ?_, rfl, h32, _, C01_zero hp, fun i => ?_⟩
      · cases m <;> rfl
      · rw [Bool.eq_false_iff.mpr he]
        simp
  · rw [if_neg h1]
    rw [if_neg h1] at ha
    by_cases h2 : dw ≤ 8
    · rw [if_pos h2, toU64_encode (by omega)]
      refine ⟨_, rfl, h1, h2, by simp, fun i => ?_⟩
      rw [List.getElem?_replicate, if_pos i.isLt, BitVec.setWidth_setWidth_of_le _ (by decide)]
    · rw [if_neg h2]
      rw [if_neg h2] at ha
      by_cases h3 : dw ≤ 64
      · rw [if_pos h3, toU64_encode h3]
        refine ⟨_, rfl, by omega, h3, by simp, fun i => ?_⟩
        rw [List.getElem?_replicate, if_pos i.isLt]
      · rw [if_neg h3]
        have hel := encode_words_length x
        have hbig : 2 ^ iw * ((dw + 63) / 64) < 2 ^ 60 := by
          have : 2 ^ iw * (8 * ((dw + 63) / 64)) = 8 * (2 ^ iw * ((dw + 63) / 64)) := by
            rw [Nat.mul_left_comm]
          omega
        rw [hel, mulC_ok (by show _ < 18446744073709551616; omega), ok_bind]
        refine ⟨_, rfl, by omega, ?_, ?_, fun i => ?_⟩
        · simp [hel, Nat.mul_comm]
        · simpa [hel] using hbig
        · have := flatten_replicate_block (encode x).words (2 ^ iw) i.toNat i.isLt
          rw [hel] at this
          exact this

theorem indexWidthFromLen_least (n : Nat) : LeastWidth (DenseArrayValue.indexWidthFromLen n) n := by
  unfold DenseArrayValue.indexWidthFromLen LeastWidth
  by_cases h0 : n = 0
  · rw [if_pos h0]
    exact ⟨by omega, fun j _ => Nat.zero_le j⟩
  · rw [if_neg h0]
    by_cases h1 : n - 1 = 0
    · rw [if_pos h1]
      exact ⟨by omega, fun j _ => Nat.zero_le j⟩
    · rw [if_neg h1]
      have h2 := (Nat.log2_lt h1).mp (Nat.lt_succ_self _)
      refine ⟨by omega, fun j hj => ?_⟩
      have : n - 1 < 2 ^ j := by omega
      have := (Nat.log2_lt h1).mpr this
      omega

theorem LeastWidth.unique {k l n : Nat} (h : LeastWidth k n) (h' : LeastWidth l n) : k = l :=
  Nat.le_antisymm (h.2 l h'.1) (h'.2 k h.1)

theorem LeastWidth.le {k n w : Nat} (h : LeastWidth k n) (hn : n ≤ 2 ^ w) : k ≤ w := h.2 w hn

theorem resize_getElem? {α : Type} (l : List α) (n : Nat) (x : α) (hl : l.length ≤ n) (i : Nat) (hi : i < n) :
    (DenseArrayValue.resize l n x)[i]? = some (l.getD i x) := by
  unfold DenseArrayValue.resize
  rw [List.take_of_length_le hl]
  by_cases h : i < l.length
  · rw [List.getElem?_append_left h, List.getElem?_eq_getElem h]
    simp [h]
  · rw [List.getElem?_append_right (by omega), List.getElem?_replicate, if_pos (by omega)]
    simp [List.getElem?_eq_none (Nat.le_of_not_lt h)]

theorem resize_length {α : Type} (l : List α) (n : Nat) (x : α) (hl : l.length ≤ n) :
    (DenseArrayValue.resize l n x).length = n := by
  unfold DenseArrayValue.resize
  simp
  omega

theorem ofU8s_spec (m : Mode) (vs : List Byte) (hl : vs.length < 2 ^ 63) (hw : LeastWidth iw vs.length) :
    ∃ d, DenseArrayValue.ofU8s m vs = ok d ∧ DenseInv d (fun i : BitVec iw => vs.getD i.toNat 0#8) := by
  have he := (indexWidthFromLen_least vs.length).unique hw
  have h64 : iw ≤ 63 := hw.le (by omega)
  unfold DenseArrayValue.ofU8s
  dsimp only
  rw [he, numElements_ok m (by omega), ok_bind]
  refine ⟨_, rfl, rfl, rfl, by omega, by decide, by decide, by decide, by decide, resize_length _ _ _ hw.1, fun i => ?_⟩
  rw [resize_getElem? _ _ _ hw.1 _ i.isLt, BitVec.setWidth_eq]

theorem ofU64s_spec (m : Mode) (vs : List Word) (hl : vs.length < 2 ^ 63) (hw : LeastWidth iw vs.length) :
    ∃ d, DenseArrayValue.ofU64s m vs = ok d ∧ DenseInv d (fun i : BitVec iw => vs.getD i.toNat 0#64) := by
  have he := (indexWidthFromLen_least vs.length).unique hw
  have h64 : iw ≤ 63 := hw.le (by omega)
  unfold DenseArrayValue.ofU64s
  dsimp only
  rw [he, numElements_ok m (by omega), ok_bind]
  refine ⟨_, rfl, rfl, rfl, by omega, by decide, by decide, by decide, by decide, resize_length _ _ _ hw.1, fun i => ?_⟩
  rw [resize_getElem? _ _ _ hw.1 _ i.isLt, BitVec.setWidth_eq]

theorem ofBools_go (n : Nat) (hn : n < 2 ^ 32) : ∀ (vs : List Bool) (k : Nat) (data : BitVecValue) (y : BitVec n),
    Denotes data y → k + vs.length ≤ n →
    ∃ r z, DenseArrayValue.ofBools.go k vs data = ok r ∧ Denotes r (z : BitVec n) ∧
      ∀ i, z.getLsbD i = (y.getLsbD i || (decide (k ≤ i) && vs.getD (i - k) false)) := by
  intro vs
  induction vs with
  | nil =>
    intro k data y hy _
    exact ⟨data, y, rfl, hy, fun i => by simp⟩
  | cons v vs ih =>
    intro k data y hy hk
    rw [List.length_cons] at hk
    have hmod : k % U32 = k := Nat.mod_eq_of_lt (by show _ < 4294967296; omega)
    unfold DenseArrayValue.ofBools.go
    rw [hmod]
    have key : ∃ r z, (if v = true then data.setBit k else ok data) = ok r ∧ Denotes r (z : BitVec n) ∧
        ∀ i, z.getLsbD i = (y.getLsbD i || (decide (i = k) && v)) := by
      cases v
      · exact ⟨data, y, rfl, hy, fun i => by simp⟩
      · obtain ⟨r, z, h1, h2, h3⟩ := C24_set_bit hy (pos := k) (by omega)
        exact ⟨r, z, by simpa using h1, h2, fun i => by rw [h3]; simp⟩
    obtain ⟨r, z, h1, h2, h3⟩ := key
    obtain ⟨r', z', h1', h2', h3'⟩ := ih (k + 1) r z h2 (by omega)
    refine ⟨r', z', ?_, h2', fun i => ?_⟩
    · rw [h1, ok_bind, h1']
    · rw [h3', h3]
      by_cases hik : i = k
      · subst hik
        simp [show ¬ i + 1 ≤ i by omega]
      · by_cases hlt : i < k
        · simp [hik, show ¬ k + 1 ≤ i by omega, show ¬ k ≤ i by omega]
        · have : i - k = (i - (k + 1)) + 1 := by omega
          rw [this]
          simp [hik, show k + 1 ≤ i by omega, show k ≤ i by omega]

theorem ofBools_spec (m : Mode) (vs : List Bool) (hw : LeastWidth iw vs.length) (h32 : iw < 32) :
    ∃ d, DenseArrayValue.ofBools m vs = ok d ∧ DenseInv d (fun i : BitVec iw => BitVec.ofBool (vs.getD i.toNat false)) := by
  have he := (indexWidthFromLen_least vs.length).unique hw
  have hp : 2 ^ iw < 2 ^ 32 := Nat.pow_lt_pow_right (by decide) h32
  have hmod : 2 ^ iw % U32 = 2 ^ iw := Nat.mod_eq_of_lt (by show _ < 4294967296; omega)
  unfold DenseArrayValue.ofBools
  dsimp only
  rw [he, numElements_ok m (by omega), ok_bind, hmod]
  obtain ⟨r, z, h1, h2, h3⟩ := ofBools_go (2 ^ iw) hp vs 0 _ _ (C01_zero hp) (by rw [Nat.zero_add]; exact hw.1)
  rw [h1, ok_bind]
  refine ⟨_, rfl, rfl, rfl, by omega, by decide, by decide, rfl, h32, z, h2, fun i => ?_⟩
  rw [h3, Nat.sub_zero]
  dsimp only
  generalize vs.getD i.toNat false = b
  cases b <;> simp

/-- Equality of dense arrays is equality of the functions. -/
theorem DenseInv.isEqual_of (m : Mode) {a b : DenseArrayValue} {f g : BitVec iw → BitVec dw} (ha : DenseInv a f)
    (hb : DenseInv b g) : ∃ r, a.isEqual m b = ok (some r) ∧ (r = true ↔ f = g) := by
  obtain ⟨hiw, hdw, hlt, hpos, hdl, hrep⟩ := ha
  obtain ⟨hiw', hdw', -, -, -, hrep'⟩ := hb
  obtain ⟨_, _, data⟩ := a
  obtain ⟨_, _, data'⟩ := b
  dsimp only at hiw hdw hrep hiw' hdw' hrep'
  replace hiw := hiw.symm
  replace hdw := hdw.symm
  subst hiw hdw
  replace hiw' := hiw'.symm
  replace hdw' := hdw'.symm
  subst hiw' hdw'
  unfold DenseArrayValue.isEqual
  rw [if_neg (by simp)]
  dsimp only
  have hex : ∀ {β : Type} (P : BitVec iw → β) (Q : BitVec iw → β) (p q : List β), p.length = 2 ^ iw → q.length = 2 ^ iw →
      (∀ i : BitVec iw, p[i.toNat]? = some (P i)) → (∀ i : BitVec iw, q[i.toNat]? = some (Q i)) →
      (p = q ↔ ∀ i, P i = Q i) := by
    intro β P Q p q hp hq hP hQ
    constructor
    · intro h i
      have h1 := hP i
      rw [h, hQ] at h1
      exact (Option.some.inj h1).symm
    · intro h
      apply List.ext_getElem?
      intro k
      by_cases hk : k < 2 ^ iw
      · have h1 := hP (BitVec.ofNat iw k)
        have h2 := hQ (BitVec.ofNat iw k)
        rw [BitVec.toNat_ofNat, Nat.mod_eq_of_lt hk] at h1 h2
        rw [h1, h2, h]
      · rw [List.getElem?_eq_none (by omega), List.getElem?_eq_none (by omega)]
  cases data with
  | bit v =>
    obtain ⟨h1, h2, y, hy, hf⟩ := hrep
    cases data' with
    | bit v' =>
      obtain ⟨_, _, y', hy', hf'⟩ := hrep'
      subst h1
      dsimp only
      rw [C15_is_equal m hy hy', ok_bind]
      refine ⟨_, rfl, ?_⟩
      rw [decide_eq_true_iff]
      constructor
      · intro h
        funext i
        rw [← ofBool_getLsbD (f i), ← ofBool_getLsbD (g i), ← hf, ← hf', h]
      · intro h
        apply BitVec.eq_of_getLsbD_eq
        intro k hk
        have h3 := hf (BitVec.ofNat iw k)
        have h4 := hf' (BitVec.ofNat iw k)
        rw [BitVec.toNat_ofNat, Nat.mod_eq_of_lt hk] at h3 h4
        rw [h3, h4, h]
    | u8 l => exact absurd h1 hrep'.1
    | u64 l => have := hrep'.1; omega
    | big l => have := hrep'.1; omega
  | u8 l =>
    obtain ⟨h1, h2, h3, hf⟩ := hrep
    cases data' with
    | bit v' => exact absurd hrep'.1 h1
    | u8 l' =>
      obtain ⟨_, _, h3', hf'⟩ := hrep'
      refine ⟨_, rfl, ?_⟩
      rw [beq_iff_eq, hex _ _ l l' h3 h3' hf hf']
      exact ⟨fun h => funext fun i => setWidth_inj h2 (h i), fun h i => by rw [h]⟩
    | u64 l => have := hrep'.1; omega
    | big l => have := hrep'.1; omega
  | u64 l =>
    obtain ⟨h1, h2, h3, hf⟩ := hrep
    cases data' with
    | bit v' => have := hrep'.1; omega
    | u8 l => have := hrep'.2.1; omega
    | u64 l' =>
      obtain ⟨_, _, h3', hf'⟩ := hrep'
      refine ⟨_, rfl, ?_⟩
      rw [beq_iff_eq, hex _ _ l l' h3 h3' hf hf']
      exact ⟨fun h => funext fun i => setWidth_inj h2 (h i), fun h i => by rw [h]⟩
    | big l => have := hrep'.1; omega
  | big l =>
    obtain ⟨h1, h2, h3, hf⟩ := hrep
    cases data' with
    | bit v' => have := hrep'.1; omega
    | u8 l => have := hrep'.2.1; omega
    | u64 l' => have := hrep'.2.1; omega
    | big l' =>
      obtain ⟨_, h2', h3', hf'⟩ := hrep'
      refine ⟨_, rfl, ?_⟩
      rw [beq_iff_eq]
      constructor
      · intro h
        funext i
        apply encode_inj hdl
        have := hf i
        rw [h, hf'] at this
        show (⟨dw, (encode (f i)).words⟩ : BitVecValue) = ⟨dw, (encode (g i)).words⟩
        rw [this]
      · intro h
        apply List.ext_getElem?
        intro k
        by_cases hk : k < (dw + 63) / 64 * 2 ^ iw
        · have hn : 0 < (dw + 63) / 64 := by omega
          have hq : k / ((dw + 63) / 64) < 2 ^ iw := Nat.div_lt_of_lt_mul hk
          have h4 := hf (BitVec.ofNat iw (k / ((dw + 63) / 64)))
          have h5 := hf' (BitVec.ofNat iw (k / ((dw + 63) / 64)))
          rw [BitVec.toNat_ofNat, Nat.mod_eq_of_lt hq] at h4 h5
          have hr : k % ((dw + 63) / 64) < (dw + 63) / 64 := Nat.mod_lt _ hn
          have h6 := congrArg (fun z => z[k % ((dw + 63) / 64)]?) (h4.trans ((congrArg (fun p : BitVec iw → BitVec dw =>
            (encode (p (BitVec.ofNat iw (k / ((dw + 63) / 64))))).words) h).trans h5.symm))
          rw [List.getElem?_take_of_lt hr, List.getElem?_take_of_lt hr, List.getElem?_drop, List.getElem?_drop,
            Nat.div_add_mod] at h6
          exact h6
        · rw [List.getElem?_eq_none (by omega), List.getElem?_eq_none (by omega)]

end Baa

import Verif.Props.RawArray
import Verif.Proofs.Counting
import Verif.Spec.Histories

/-!
# C91: conversions between arrays of arbitrary words

C52, C53 and C56 are about conversions and mixed comparisons of arrays whose indices and data are in normal form. This file predicts what
they do with the cells of C89, which any word can have reached.
-/

namespace Baa
open Res BitVecValue

/-! ## From sparse to dense -/

variable {iw dw : Nat}

theorem DenseCells.ext {d : DenseArrayValue} {f g : Nat → Nat} (h : DenseCells iw dw d f) (hfg : f = g) : DenseCells iw dw d g := hfg ▸ h

/-- One element of up to 64 bits. -/
def PutPanics (m : Mode) (iw dw I v : Nat) : Prop := reached .dense iw dw I = none ∨ (m = .debug ∧ dw = 1 ∧ 1 < v)

theorem DenseCells.putU64_of (m : Mode) {d : DenseArrayValue} {g : Nat → Nat} (h : DenseCells iw dw d g) (hdw : dw ≤ 64) (i v : Word) :
    (PutPanics m iw dw i.toNat v.toNat → Panics (d.putU64 m i v)) ∧
    (¬ PutPanics m iw dw i.toNat v.toNat → ∃ n d', reached .dense iw dw i.toNat = some n ∧ d.putU64 m i v = ok d' ∧
      DenseCells iw dw d' (setCell g n (kept .dense dw v.toNat))) := by
  obtain ⟨hiw, hdw', hlt, hpos, hdl, hrep⟩ := h
  obtain ⟨_, _, data⟩ := d
  dsimp only at hiw hdw' hrep
  replace hiw := hiw.symm
  replace hdw' := hdw'.symm
  subst hiw hdw'
  unfold PutPanics DenseArrayValue.putU64 reached cellCount kept
  dsimp only
  cases data with
  | bit b =>
    obtain ⟨h1, h2, N, hN, hf⟩ := hrep
    subst h1
    dsimp only
    rw [if_pos rfl, if_pos rfl, if_pos rfl]
    have hsc := C87_set_clear_bit hN (i.toNat % 2 ^ 32)
    have hv1 : v = 1#64 ↔ v.toNat = 1 := ⟨fun e => by rw [e]; rfl, fun e => BitVec.eq_of_toNat_eq e⟩
    by_cases hc : i.toNat % 2 ^ 32 < capacity (2 ^ iw)
    · rw [if_pos hc] at hsc ⊢
      obtain ⟨⟨r, M, hr1, hr2, hr3⟩, ⟨s, L, hs1, hs2, hs3⟩⟩ := hsc
      by_cases hD : v.toNat = 1
      · rw [if_pos (hv1.mpr hD), if_pos hD]
        refine ⟨fun h => ?_, fun _ => ⟨_, ⟨iw, 1, .bit r⟩, rfl, ?_, rfl, rfl, hlt, hpos, hdl, rfl, h2, M, hr2, fun n hn => ?_⟩⟩
        · rcases h with h | h
          · cases h
          · omega
        · show (BitVecValue.setBit b (i.toNat % 2 ^ 32) >>= _) = _
          rw [hr1, ok_bind]
        · rw [hr3, setCell_apply]
          by_cases hne : n = i.toNat % 2 ^ 32
          · rw [if_pos hne, if_pos hne]; rfl
          · rw [if_neg hne, if_neg hne, hf n hn]
      · rw [if_neg (fun e => hD (hv1.mp e)), if_neg hD]
        have hcl : (BitVecValue.clearBit b (i.toNat % 2 ^ 32) >>= fun value => ok (⟨iw, 1, .bit value⟩ : DenseArrayValue)) =
            ok ⟨iw, 1, .bit s⟩ := by rw [hs1, ok_bind]
        have hcells : DenseCells iw 1 ⟨iw, 1, .bit s⟩ (setCell g (i.toNat % 2 ^ 32) 0) := by
          refine ⟨rfl, rfl, hlt, hpos, hdl, rfl, h2, L, hs2, fun n hn => ?_⟩
          rw [hs3, setCell_apply]
          by_cases hne : n = i.toNat % 2 ^ 32
          · rw [if_pos hne, if_pos hne]; rfl
          · rw [if_neg hne, if_neg hne, hf n hn]
        constructor
        · rintro (h | ⟨hm, -, h1⟩)
          · cases h
          · subst hm
            have : (v == 0#64) = false := by
              rw [beq_eq_false_iff_ne]
              intro e
              rw [e] at h1
              exact absurd h1 (by decide)
            rw [this]
            exact ⟨.debugAssert, rfl⟩
        · intro hnot
          refine ⟨_, ⟨iw, 1, .bit s⟩, rfl, ?_, hcells⟩
          cases m with
          | release => exact hcl
          | debug =>
            have h0 : (v == 0#64) = true := by
              rw [beq_iff_eq]
              apply BitVec.eq_of_toNat_eq
              apply Classical.byContradiction
              intro hne
              refine hnot (.inr ⟨rfl, rfl, ?_⟩)
              have : v.toNat ≠ 0 := hne
              omega
            rw [h0]
            exact hcl
    · rw [if_neg hc] at hsc ⊢
      refine ⟨fun _ => ?_, fun h => absurd (.inl rfl) h⟩
      by_cases hD : v = 1#64
      · rw [if_pos hD]
        show Panics (BitVecValue.setBit b (i.toNat % 2 ^ 32) >>= _)
        rw [hsc.1]
        exact ⟨_, rfl⟩
      · rw [if_neg hD]
        cases hda : debugAssert m (v == 0#64) with
        | panic p => exact ⟨p, rfl⟩
        | ok _ =>
          show Panics (BitVecValue.clearBit b (i.toNat % 2 ^ 32) >>= _)
          rw [hsc.2]
          exact ⟨_, rfl⟩
  | u8 l =>
    obtain ⟨h1, h2, h3, hf⟩ := hrep
    dsimp only
    rw [if_neg h1, if_neg h1, if_neg h1, if_pos h2]
    by_cases hc : i.toNat < 2 ^ iw
    · obtain ⟨l', hl1, hl2, hl3⟩ := setIdx_spec (l := l) (i := i.toNat) (by omega) (v.setWidth 8)
      rw [if_pos hc, hl1, ok_bind]
      refine ⟨fun h => ?_, fun _ => ⟨_, _, rfl, rfl, rfl, rfl, hlt, hpos, hdl, h1, h2, by rw [hl2, h3], fun n hn => ?_⟩⟩
      · rcases h with h | h
        · cases h
        · exact absurd h.2.1 h1
      · by_cases hne : n = i.toNat
        · exact ⟨_, by rw [hl3, if_pos hne], by
            rw [setCell_apply, if_pos hne, BitVec.toNat_setWidth]⟩
        · obtain ⟨b, hb1, hb2⟩ := hf n hn
          exact ⟨b, by rw [hl3, if_neg hne, hb1], by rw [setCell_apply, if_neg hne, hb2]⟩
    · rw [if_neg hc, setIdx_none (by omega)]
      exact ⟨fun _ => ⟨_, rfl⟩, fun h => absurd (.inl rfl) h⟩
  | u64 l =>
    obtain ⟨h1, h2, h3, hf⟩ := hrep
    dsimp only
    rw [if_neg (show ¬ dw = 1 by omega), if_neg (show ¬ dw = 1 by omega), if_neg (show ¬ dw = 1 by omega),
      if_neg (show ¬ dw ≤ 8 by omega)]
    by_cases hc : i.toNat < 2 ^ iw
    · obtain ⟨l', hl1, hl2, hl3⟩ := setIdx_spec (l := l) (i := i.toNat) (by omega) v
      rw [if_pos hc, hl1, ok_bind]
      refine ⟨fun h => ?_, fun _ => ⟨_, _, rfl, rfl, rfl, rfl, hlt, hpos, hdl, h1, h2, by rw [hl2, h3], fun n hn => ?_⟩⟩
      · rcases h with h | h
        · cases h
        · have := h.2.1; omega
      · by_cases hne : n = i.toNat
        · exact ⟨_, by rw [hl3, if_pos hne], by rw [setCell_apply, if_pos hne]⟩
        · obtain ⟨b, hb1, hb2⟩ := hf n hn
          exact ⟨b, by rw [hl3, if_neg hne, hb1], by rw [setCell_apply, if_neg hne, hb2]⟩
    · rw [if_neg hc, setIdx_none (by omega)]
      exact ⟨fun _ => ⟨_, rfl⟩, fun h => absurd (.inl rfl) h⟩
  | big l =>
    have := hrep.1
    omega

/-- What a list of writes leaves: every cell is untouched or holds one of the numbers written to it. `es` are pairs of the index and the
number. -/
def Written (iw dw : Nat) (es : List (Nat × Nat)) (g out : Nat → Nat) : Prop :=
  ∀ n, (out n = g n ∧ ∀ e ∈ es, reached .dense iw dw e.1 ≠ some n) ∨
    ∃ e ∈ es, reached .dense iw dw e.1 = some n ∧ out n = kept .dense dw e.2

theorem Written.cons {es : List (Nat × Nat)} {g out : Nat → Nat} {I c n : Nat} (hn : reached .dense iw dw I = some n)
    (h : Written iw dw es (setCell g n (kept .dense dw c)) out) : Written iw dw ((I, c) :: es) g out := by
  intro k
  rcases h k with ⟨h1, h2⟩ | ⟨e, he, h1, h2⟩
  · rw [setCell_apply] at h1
    by_cases hk : k = n
    · rw [if_pos hk] at h1
      exact .inr ⟨(I, c), by simp, by rw [hk]; exact hn, h1⟩
    · rw [if_neg hk] at h1
      refine .inl ⟨h1, fun e he => ?_⟩
      rcases List.mem_cons.mp he with rfl | he
      · dsimp only
        rw [hn]
        exact fun hh => hk (Option.some.inj hh).symm
      · exact h2 e he
  · exact .inr ⟨e, by simp [he], h1, h2⟩

theorem DenseCells.putAllU64_of (m : Mode) (hdw : dw ≤ 64) (es : List (Word × Word)) {d : DenseArrayValue} {g : Nat → Nat}
    (h : DenseCells iw dw d g) :
    ((∃ e ∈ es, PutPanics m iw dw e.1.toNat e.2.toNat) → Panics (d.putAllU64 m es)) ∧
    ((∀ e ∈ es, ¬ PutPanics m iw dw e.1.toNat e.2.toNat) → ∃ d' out, d.putAllU64 m es = ok d' ∧ DenseCells iw dw d' out ∧
      Written iw dw (es.map fun e => (e.1.toNat, e.2.toNat)) g out) := by
  induction es generalizing d g with
  | nil =>
    refine ⟨fun ⟨e, he, _⟩ => (by cases he), fun _ => ⟨d, g, rfl, h, fun n => .inl ⟨rfl, fun e he => by cases he⟩⟩⟩
  | cons e es ih =>
    obtain ⟨h1, h2⟩ := h.putU64_of m hdw e.1 e.2
    unfold DenseArrayValue.putAllU64
    by_cases hp : PutPanics m iw dw e.1.toNat e.2.toNat
    · exact ⟨fun _ => panics_bind (h1 hp) _, fun hh => absurd hp (hh e (by simp))⟩
    · obtain ⟨n, d1, hn, hd1, hd2⟩ := h2 hp
      rw [hd1, ok_bind]
      obtain ⟨h3, h4⟩ := ih hd2
      constructor
      · rintro ⟨e', he', hp'⟩
        rcases List.mem_cons.mp he' with rfl | he'
        · exact absurd hp' hp
        · exact h3 ⟨e', he', hp'⟩
      · intro hh
        obtain ⟨d', out, ho1, ho2, ho3⟩ := h4 fun e' he' => hh e' (by simp [he'])
        exact ⟨d', out, ho1, ho2, ho3.cons hn⟩

/-- Writing a wide element of a dense array in a release build, where the width of the index is not checked. -/
theorem DenseCells.storeBig_of {d : DenseArrayValue} {g : Nat → Nat} (h : DenseCells iw dw d g) (hdw : 64 < dw) {i v : BitVecValue}
    {I : Word} {c : Nat} (hi : i.toU64 = some I) (hv : Raw v dw c) (hnw : NoWrap .release .dense dw I.toNat) :
    (reached .dense iw dw I.toNat = none → Panics (d.store .release i v)) ∧
    (∀ n, reached .dense iw dw I.toNat = some n → ∃ d', d.store .release i v = ok d' ∧
      DenseCells iw dw d' (setCell g n (kept .dense dw c))) := by
  obtain ⟨hiw, hdw', hlt, hpos, hdl, hrep⟩ := h
  obtain ⟨_, _, data⟩ := d
  dsimp only at hiw hdw' hrep
  replace hiw := hiw.symm
  replace hdw' := hdw'.symm
  subst hiw hdw'
  unfold reached cellCount kept
  dsimp only
  rw [if_neg (show ¬ dw = 1 by omega), if_neg (show ¬ dw = 1 by omega), if_neg (show ¬ dw = 1 by omega), if_neg (show ¬ dw ≤ 8 by omega)]
  cases data with
  | bit b => have := hrep.1; omega
  | u8 l => have := hrep.2.1; omega
  | u64 l => have := hrep.2.1; omega
  | big l =>
    obtain ⟨h1, h2, h3, hf⟩ := hrep
    have hst : DenseArrayValue.store .release ⟨iw, dw, .big l⟩ i v = (do
        let start ← mulC .release U64 ((dw + 63) / 64) I.toNat
        let end_ ← addC .release U64 start ((dw + 63) / 64)
        let values ← modifyRange l start end_ fun ws => do
          let r ← BitVecValue.assign .release ⟨dw, ws⟩ v
          ok r.words
        ok (⟨iw, dw, .big values⟩ : DenseArrayValue)) := by
      unfold DenseArrayValue.store
      rw [hi]
      rfl
    rw [hst]
    by_cases hc : I.toNat < 2 ^ iw
    · rw [if_pos hc]
      refine ⟨fun h => (by cases h), fun n hn => ?_⟩
      cases hn
      have hb := block_bound (n := (dw + 63) / 64) hc
      have hlen : ((l.drop ((dw + 63) / 64 * I.toNat)).take ((dw + 63) / 64)).length = (dw + 63) / 64 := by
        simp
        omega
      have hmr : modifyRange l ((dw + 63) / 64 * I.toNat) ((dw + 63) / 64 * I.toNat + (dw + 63) / 64) (fun ws => do
          let r ← BitVecValue.assign .release ⟨dw, ws⟩ v
          ok r.words) = ok (l.take ((dw + 63) / 64 * I.toNat) ++ v.words ++
            l.drop ((dw + 63) / 64 * I.toNat + (dw + 63) / 64)) := by
        refine Arith.modifyRange_ok (by omega) (by omega) ?_
        rw [Nat.add_sub_cancel_left, raw_assign .release (w := dw) ⟨hdl, rfl, hlen⟩ hv]
        rfl
      rw [mulC_ok (by show _ < 18446744073709551616; omega), ok_bind,
        addC_ok (by show _ < 18446744073709551616; omega), ok_bind, hmr, ok_bind]
      have hel := hv.length_eq
      refine ⟨_, rfl, rfl, rfl, hlt, hpos, hdl, h1, ?_, ?_, fun n hn => ?_⟩
      · simp [hel]; omega
      · simp [hel]; omega
      · rw [block_write h2 hc hel n hn, setCell_apply]
        by_cases hne : n = I.toNat
        · rw [if_pos hne, if_pos hne, hv.val_eq]
        · rw [if_neg hne, if_neg hne, hf n hn]
    · rw [if_neg hc]
      refine ⟨fun _ => ?_, fun n hn => by cases hn⟩
      exact big_out_of_range .release l h2 h1 (by omega) hnw
        (fun s e => (modifyRange l s e fun ws => do
          let r ← BitVecValue.assign .release ⟨dw, ws⟩ v
          ok r.words) >>= fun values => ok (⟨iw, dw, .big values⟩ : DenseArrayValue))
        fun s e he => panics_bind (by
          unfold modifyRange
          exact panics_bind (sliceR_past he) _) _

/-- The loop over wide elements in a release build. -/
theorem DenseCells.putAllBig_release (hdw : 64 < dw) (es : List (Word × BitVecValue)) {d : DenseArrayValue} {g : Nat → Nat} {bv : BitVecValue}
    (h : DenseCells iw dw d g) (hbv : Slot bv dw) (hes : ∀ e ∈ es, Slot e.2 dw)
    (hnw : ∀ e ∈ es, NoWrap .release .dense dw e.1.toNat) :
    ((∃ e ∈ es, reached .dense iw dw e.1.toNat = none) → Panics (d.putAllBig .release bv es)) ∧
    ((∀ e ∈ es, reached .dense iw dw e.1.toNat ≠ none) → ∃ d' out, d.putAllBig .release bv es = ok d' ∧ DenseCells iw dw d' out ∧
      Written iw dw (es.map fun e => (e.1.toNat, wordsVal e.2.words)) g out) := by
  induction es generalizing d g bv with
  | nil =>
    refine ⟨fun ⟨e, he, _⟩ => (by cases he), fun _ => ⟨d, g, rfl, h, fun n => .inl ⟨rfl, fun e he => by cases he⟩⟩⟩
  | cons e es ih =>
    have hlt : e.1.toNat < 2 ^ dw := Nat.lt_of_lt_of_le e.1.isLt (Nat.pow_le_pow_right (by decide) (by omega))
    obtain ⟨r, hr1, hr2⟩ := C26_assign_from_u64 .release (by omega) hbv e.1 hlt
    have hto : r.toU64 = some e.1 := by
      rw [C03_to_u64 hr2, BitVec.toNat_ofNat, Nat.mod_eq_of_lt hlt, if_pos e.1.isLt, BitVec.ofNat_toNat, BitVec.setWidth_eq]
    obtain ⟨h1, h2⟩ := h.storeBig_of hdw hto (hes e (by simp)).raw (hnw e (by simp))
    unfold DenseArrayValue.putAllBig
    rw [hr1, ok_bind]
    cases hn : reached .dense iw dw e.1.toNat with
    | none => exact ⟨fun _ => panics_bind (h1 hn) _, fun hh => absurd hn (hh e (by simp))⟩
    | some n =>
      obtain ⟨d1, hd1, hd2⟩ := h2 n hn
      rw [hd1, ok_bind]
      obtain ⟨h3, h4⟩ := ih hd2 hr2.slot (fun e he => hes e (by simp [he])) (fun e he => hnw e (by simp [he]))
      constructor
      · rintro ⟨e', he', hp'⟩
        rcases List.mem_cons.mp he' with rfl | he'
        · rw [hn] at hp'; cases hp'
        · exact h3 ⟨e', he', hp'⟩
      · intro hh
        obtain ⟨d', out, ho1, ho2, ho3⟩ := h4 fun e' he' => hh e' (by simp [he'])
        exact ⟨d', out, ho1, ho2, ho3.cons hn⟩

/-- In a debug build the first wide element panics, because the index has the width of the data. -/
theorem DenseCells.putAllBig_debug (hdw : 64 < dw) {es : List (Word × BitVecValue)} (hne : es ≠ []) {d : DenseArrayValue} {g : Nat → Nat}
    {bv : BitVecValue} (h : DenseCells iw dw d g) (hbv : Slot bv dw) : Panics (d.putAllBig .debug bv es) := by
  have h64 := h.index_lt
  cases es with
  | nil => exact absurd rfl hne
  | cons e es =>
    have hlt : e.1.toNat < 2 ^ dw := Nat.lt_of_lt_of_le e.1.isLt (Nat.pow_le_pow_right (by decide) (by omega))
    obtain ⟨r, hr1, hr2⟩ := C26_assign_from_u64 .debug (by omega) hbv e.1 hlt
    unfold DenseArrayValue.putAllBig
    rw [hr1, ok_bind]
    unfold DenseArrayValue.store
    have : (r.width == d.indexWidth) = false := by
      rw [hr2.width_eq, h.indexWidth, beq_eq_false_iff_ne]
      omega
    rw [this]
    exact ⟨.debugAssert, rfl⟩

/-- The entries of the hash map are the elements. -/
theorem MapCells.mem_iff {V : Type} {R : V → Nat → Prop} {map : HMap Word V} {mem : Nat → Nat} {D : Nat} (h : MapCells R map mem D)
    (env : HashEnv) (k : Word) : (∃ v, (k, v) ∈ env.order map.entries) ↔ mem k.toNat ≠ D := by
  constructor
  · rintro ⟨v, hv⟩
    have := (HMap.get_eq_some_iff h.nodup k v).mpr ((env.order_perm _).mem_iff.mp hv)
    rcases h.get k with ⟨h1, -⟩ | ⟨u, -, -, h3⟩
    · rw [h1] at this; cases this
    · exact h3
  · intro hne
    rcases h.get k with ⟨-, h2⟩ | ⟨u, h1, -, -⟩
    · exact absurd h2 hne
    · exact ⟨u, (env.order_perm _).mem_iff.mpr ((HMap.get_eq_some_iff h.nodup k u).mp h1)⟩

theorem MapCells.rel {V : Type} {R : V → Nat → Prop} {map : HMap Word V} {mem : Nat → Nat} {D : Nat} (h : MapCells R map mem D)
    (env : HashEnv) {k : Word} {v : V} (hv : (k, v) ∈ env.order map.entries) : R v (mem k.toNat) := by
  have := (HMap.get_eq_some_iff h.nodup k v).mpr ((env.order_perm _).mem_iff.mp hv)
  rcases h.get k with ⟨h1, -⟩ | ⟨u, h1, h2, -⟩
  · rw [h1] at this; cases this
  · rw [h1] at this
    cases this
    exact h2

theorem Written.densified (m : Mode) {V : Type} {R : V → Nat → Prop} {map : HMap Word V} {mem : Nat → Nat} {D x : Nat}
    (h : MapCells R map mem D) (env : HashEnv) (val : V → Nat) (hval : ∀ {v c}, R v c → val v = c) (hx : shown m dw D = some x)
    {out : Nat → Nat}
    (hw : Written iw dw ((env.order map.entries).map fun e => (e.1.toNat, val e.2)) (startCells .dense iw dw x) out) :
    Densified m iw dw mem D out := by
  refine ⟨x, hx, fun n _ => ?_⟩
  rcases hw n with ⟨h1, h2⟩ | ⟨e, he, h1, h2⟩
  · refine .inl ⟨h1, fun I hI hne => ?_⟩
    have := (h.mem_iff env (BitVec.ofNat 64 I)).mpr (by rw [ofNat64_toNat hI]; exact hne)
    obtain ⟨v, hv⟩ := this
    have := h2 _ (List.mem_map.mpr ⟨_, hv, rfl⟩)
    dsimp only at this
    rwa [ofNat64_toNat hI] at this
  · obtain ⟨⟨k, v⟩, hv, rfl⟩ := List.mem_map.mp he
    dsimp only at h1 h2
    refine .inr ⟨k.toNat, k.isLt, (h.mem_iff env k).mp ⟨v, hv⟩, h1, ?_⟩
    rw [h2, hval (h.rel env hv)]

/-- The default as the conversion reads it. -/
theorem SparseCells.default_of (m : Mode) {s : SparseArrayValue} {mem : Nat → Nat} {D : Nat} (h : SparseCells iw dw s mem D) :
    Outcome (s.default m) dw (shown m dw D) := by
  obtain ⟨hiw, hdw, hi', hpos, hdl, hrep⟩ := h
  obtain ⟨_, _, data⟩ := s
  dsimp only at hiw hdw hrep
  replace hiw := hiw.symm
  replace hdw := hdw.symm
  subst hiw hdw
  unfold SparseArrayValue.default
  cases data with
  | u64u64 d map =>
    obtain ⟨h1, h2, h3⟩ := hrep
    have := fromU64_shown m hpos h1 d
    rwa [h2] at this
  | u64big d map =>
    obtain ⟨h1, h2, h3⟩ := hrep
    rw [shown, if_neg (by omega)]
    exact ⟨d, rfl, h2⟩
  | bigbig d map => exact hrep.elim

theorem shown_none {m : Mode} {dw c : Nat} : shown m dw c = none ↔ m = .debug ∧ dw ≤ 64 ∧ 2 ^ dw ≤ c := by
  unfold shown
  by_cases h : dw ≤ 64 ∧ 2 ^ dw ≤ c
  · rw [if_pos h]
    by_cases hm : m = .debug
    · simp [hm, h]
    · simp [hm]
  · rw [if_neg h]
    constructor
    · intro hh; cases hh
    · rintro ⟨-, h2⟩; exact absurd h2 h

theorem shown_one {m : Mode} {c x : Nat} (h : shown m 1 c = some x) : x ≤ 1 := by
  unfold shown at h
  split at h
  · split at h
    · cases h
    · cases h; omega
  · cases h; omega

/-- Making a sparse array dense. -/
theorem SparseCells.ofSparse_of (m : Mode) (env : HashEnv) {s : SparseArrayValue} {mem : Nat → Nat} {D : Nat}
    (h : SparseCells iw dw s mem D) (ha : Addressable iw dw) (hb : dw ≠ 1 ∨ iw < 32)
    (hnw : ∀ I, I < 2 ^ 64 → mem I ≠ D → NoWrap m .dense dw I) :
    (DensePanics m iw dw mem D → Panics (DenseArrayValue.ofSparse m env s)) ∧
    (¬ DensePanics m iw dw mem D → ∃ d out, DenseArrayValue.ofSparse m env s = ok d ∧ DenseCells iw dw d out ∧
      Densified m iw dw mem D out) := by
  have hd := h.default_of m
  obtain ⟨hiw, hdw, hi', hpos, hdl, hrep⟩ := h
  obtain ⟨_, _, data⟩ := s
  dsimp only at hiw hdw hrep
  replace hiw := hiw.symm
  replace hdw := hdw.symm
  subst hiw hdw
  unfold DenseArrayValue.ofSparse
  cases hx : shown m dw D with
  | none =>
    rw [hx] at hd
    refine ⟨fun _ => panics_bind hd _, fun hn => absurd (.inl ?_) hn⟩
    obtain ⟨h1, h2⟩ := shown_none.mp hx
    exact ⟨h1, .inl h2⟩
  | some x =>
    rw [hx] at hd
    obtain ⟨dv, hd1, hd2⟩ := hd
    rw [hd1, ok_bind]
    obtain ⟨d, hn1, hn2⟩ := dense_new_cells m hd2 hpos ha hb
    have h01 : dw = 1 → x ≤ 1 := fun e => by subst e; exact shown_one hx
    dsimp only
    rw [hn1, decide_eq_true h01, debugAssert_true]
    by_cases hg : m = .debug ∧ 2 ^ 30 < guardSize iw dw
    · obtain ⟨rfl, hg⟩ := hg
      rw [decide_eq_false (by omega)]
      exact ⟨fun _ => ⟨.debugAssert, rfl⟩, fun hn => absurd (.inl ⟨rfl, .inr (.inl hg)⟩) hn⟩
    · have hg' : debugAssert m (decide (guardSize iw dw ≤ 2 ^ 30)) = ok () := by
        cases m with
        | release => rfl
        | debug => exact debugAssert_decide_of (by
            apply Classical.byContradiction
            intro hh
            exact hg ⟨rfl, by omega⟩)
      have hpan : DensePanics m iw dw mem D ↔ (∃ I, I < 2 ^ 64 ∧ mem I ≠ D ∧ (PutPanics m iw dw I (mem I) ∨ (m = .debug ∧ 64 < dw))) := by
        unfold DensePanics PutPanics
        constructor
        · rintro (⟨hm, h1 | h1 | ⟨I, hI, hne, h1 | h1⟩⟩ | ⟨I, hI, hne, h1⟩)
          · rw [shown_none.mpr ⟨hm, h1⟩] at hx
            cases hx
          · exact absurd ⟨hm, h1⟩ hg
          · exact ⟨I, hI, hne, .inl (.inr ⟨hm, h1⟩)⟩
          · exact ⟨I, hI, hne, .inr ⟨hm, h1⟩⟩
          · exact ⟨I, hI, hne, .inl (.inl h1)⟩
        · rintro ⟨I, hI, hne, (h1 | ⟨hm, h1⟩) | ⟨hm, h1⟩⟩
          · exact .inr ⟨I, hI, hne, h1⟩
          · exact .inl ⟨hm, .inr (.inr ⟨I, hI, hne, .inl h1⟩)⟩
          · exact .inl ⟨hm, .inr (.inr ⟨I, hI, hne, .inr h1⟩)⟩
      rw [hg', ok_bind, ok_bind, ok_bind, hn2.dataWidth, hn2.indexWidth, debugAssert_of (by simp), ok_bind, debugAssert_of (by simp), ok_bind]
      cases data with
      | u64u64 dv map =>
        obtain ⟨h1, h2, h3⟩ := hrep
        dsimp only
        obtain ⟨hp1, hp2⟩ := hn2.putAllU64_of m h1 (env.order map.entries)
        constructor
        · intro hP
          obtain ⟨I, hI, hne, hp | hp⟩ := hpan.mp hP
          · obtain ⟨v, hv⟩ := (h3.mem_iff env (BitVec.ofNat 64 I)).mpr (by rw [ofNat64_toNat hI]; exact hne)
            refine hp1 ⟨_, hv, ?_⟩
            have := h3.rel env hv
            dsimp only at this ⊢
            rw [this, ofNat64_toNat hI]
            exact hp
          · omega
        · intro hP
          obtain ⟨d', out, ho1, ho2, ho3⟩ := hp2 (fun e he hp => hP (hpan.mpr ⟨e.1.toNat, e.1.isLt,
            (h3.mem_iff env e.1).mp ⟨e.2, he⟩, .inl (by
              have := h3.rel env (k := e.1) (v := e.2) he
              rw [← this]
              exact hp)⟩))
          exact ⟨d', out, ho1, ho2, ho3.densified m h3 env (fun v => v.toNat) (fun h => h) hx⟩
      | u64big dv map =>
        obtain ⟨h1, h2, h3⟩ := hrep
        dsimp only
        cases m with
        | debug =>
          have hp1 := fun hne => hn2.putAllBig_debug h1 (es := env.order map.entries) hne (zero_slot hdl)
          constructor
          · intro hP
            obtain ⟨I, hI, hne, -⟩ := hpan.mp hP
            obtain ⟨v, hv⟩ := (h3.mem_iff env (BitVec.ofNat 64 I)).mpr (by rw [ofNat64_toNat hI]; exact hne)
            exact hp1 (fun he => by rw [he] at hv; cases hv)
          · intro hP
            have hnil : env.order map.entries = [] := by
              apply List.eq_nil_iff_forall_not_mem.mpr
              intro e he
              exact hP (hpan.mpr ⟨e.1.toNat, e.1.isLt, (h3.mem_iff env e.1).mp ⟨e.2, he⟩, .inr ⟨rfl, h1⟩⟩)
            rw [hnil]
            refine ⟨d, _, rfl, hn2, ?_⟩
            refine Written.densified .debug h3 env (fun v => wordsVal v.words) (fun h => h.val_eq) hx ?_
            rw [hnil]
            exact fun n => .inl ⟨rfl, fun e he => by cases he⟩
        | release =>
          obtain ⟨hp1, hp2⟩ := hn2.putAllBig_release h1 (env.order map.entries) (bv := BitVecValue.zero dw) (zero_slot hdl)
            (fun e he => have hr := h3.rel env (k := e.1) (v := e.2) he; ⟨hr.width_lt, hr.width_eq, hr.length_eq⟩)
            (fun e he => hnw e.1.toNat e.1.isLt ((h3.mem_iff env e.1).mp ⟨e.2, he⟩))
          constructor
          · intro hP
            obtain ⟨I, hI, hne, (hp | ⟨hm, -⟩) | ⟨hm, -⟩⟩ := hpan.mp hP
            · obtain ⟨v, hv⟩ := (h3.mem_iff env (BitVec.ofNat 64 I)).mpr (by rw [ofNat64_toNat hI]; exact hne)
              exact hp1 ⟨_, hv, by dsimp only; rw [ofNat64_toNat hI]; exact hp⟩
            · cases hm
            · cases hm
          · intro hP
            obtain ⟨d', out, ho1, ho2, ho3⟩ := hp2 (fun e he hp => hP (hpan.mpr ⟨e.1.toNat, e.1.isLt,
              (h3.mem_iff env e.1).mp ⟨e.2, he⟩, .inl (.inl hp)⟩))
            exact ⟨d', out, ho1, ho2, ho3.densified .release h3 env (fun v => wordsVal v.words) (fun h => h.val_eq) hx⟩
      | bigbig dv map => exact hrep.elim

/-! ## From dense to sparse -/

/-- The cells while the first `k` of them are being copied. -/
def fillCells (mem : Nat → Nat) (c x k : Nat) : Nat → Nat := fun n => if n < k ∧ mem n ≠ c then mem n else x

theorem fillCells_zero (mem : Nat → Nat) (c x : Nat) : fillCells mem c x 0 = fun _ => x := by
  funext n
  unfold fillCells
  rw [if_neg (by omega)]

theorem fillCells_set (mem : Nat → Nat) {c : Nat} (x : Nat) {k : Nat} (h : mem k ≠ c) :
    setCell (fillCells mem c x k) k (mem k) = fillCells mem c x (k + 1) := by
  funext n
  rw [setCell_apply]
  unfold fillCells
  by_cases hn : n = k
  · subst hn
    rw [if_pos rfl, if_pos ⟨by omega, h⟩]
  · have : (n < k ∧ mem n ≠ c) ↔ (n < k + 1 ∧ mem n ≠ c) := by omega
    rw [if_neg hn]
    by_cases hh : n < k ∧ mem n ≠ c
    · rw [if_pos hh, if_pos (this.mp hh)]
    · rw [if_neg hh, if_neg (fun h => hh (this.mpr h))]

theorem fillCells_skip (mem : Nat → Nat) {c : Nat} (x : Nat) {k : Nat} (h : mem k = c) : fillCells mem c x k = fillCells mem c x (k + 1) := by
  funext n
  unfold fillCells
  have : (n < k ∧ mem n ≠ c) ↔ (n < k + 1 ∧ mem n ≠ c) := by
    constructor
    · intro hh; exact ⟨by omega, hh.2⟩
    · rintro ⟨h1, h2⟩
      refine ⟨?_, h2⟩
      have : n ≠ k := fun e => h2 (e ▸ h)
      omega
  by_cases hh : n < k ∧ mem n ≠ c
  · rw [if_pos hh, if_pos (this.mp hh)]
  · rw [if_neg hh, if_neg (fun h => hh (this.mpr h))]

theorem SparseCells.storeU64U64_of {s : SparseArrayValue} {mem : Nat → Nat} {D : Nat} (h : SparseCells iw dw s mem D) (hdw : dw ≤ 64)
    {k : Nat} (hk : k < 2 ^ 64) (v : Word) :
    ∃ s', s.storeU64U64 (BitVec.ofNat 64 k) v = ok s' ∧ SparseCells iw dw s' (setCell mem k v.toNat) D := by
  obtain ⟨hiw, hdw', hi', hpos, hdl, hrep⟩ := h
  obtain ⟨_, _, data⟩ := s
  dsimp only at hiw hdw' hrep
  replace hiw := hiw.symm
  replace hdw' := hdw'.symm
  subst hiw hdw'
  unfold SparseArrayValue.storeU64U64
  cases data with
  | u64u64 d map =>
    obtain ⟨h1, h2, h3⟩ := hrep
    dsimp only
    by_cases he : v = d
    · have hED : v.toNat = D := by rw [he, h2]
      rw [if_pos he]
      exact ⟨_, rfl, rfl, rfl, hi', hpos, hdl, h1, h2, hED ▸ h3.remove hk⟩
    · rw [if_neg he]
      exact ⟨_, rfl, rfl, rfl, hi', hpos, hdl, h1, h2, h3.insert hk rfl (fun e => he (BitVec.eq_of_toNat_eq (by rw [e, h2])))⟩
  | u64big d map => have := hrep.1; omega
  | bigbig d map => exact hrep.elim

theorem SparseCells.storeU64Big_of (m : Mode) {s : SparseArrayValue} {mem : Nat → Nat} {D : Nat} (h : SparseCells iw dw s mem D)
    (hdw : 64 < dw) {k : Nat} (hk : k < 2 ^ 64) {v : BitVecValue} {E : Nat} (hv : Raw v dw E) :
    ∃ s', s.storeU64Big m (BitVec.ofNat 64 k) v = ok s' ∧ SparseCells iw dw s' (setCell mem k E) D := by
  obtain ⟨hiw, hdw', hi', hpos, hdl, hrep⟩ := h
  obtain ⟨_, _, data⟩ := s
  dsimp only at hiw hdw' hrep
  replace hiw := hiw.symm
  replace hdw' := hdw'.symm
  subst hiw hdw'
  unfold SparseArrayValue.storeU64Big
  cases data with
  | u64u64 d map => have := hrep.1; omega
  | u64big d map =>
    obtain ⟨h1, h2, h3⟩ := hrep
    dsimp only
    rw [raw_eq m hv h2, ok_bind]
    by_cases he : E = D
    · rw [decide_eq_true he, if_pos rfl]
      exact ⟨_, rfl, rfl, rfl, hi', hpos, hdl, h1, h2, he ▸ h3.remove hk⟩
    · rw [decide_eq_false he, if_neg (by simp)]
      exact ⟨_, rfl, rfl, rfl, hi', hpos, hdl, h1, h2, h3.insert hk hv he⟩
  | bigbig d map => exact hrep.elim

theorem storeWords_cells (hdw : dw ≤ 64) (mem : Nat → Nat) (dflt : Word) (x : Nat) (ds : List Word) :
    ∀ {k : Nat} {out : SparseArrayValue}, k + ds.length < 2 ^ 64 → (∀ j b, ds[j]? = some b → b.toNat = mem (k + j)) →
      SparseCells iw dw out (fillCells mem dflt.toNat x k) x →
      ∃ s, DenseArrayValue.storeWords dflt k ds out = ok s ∧ SparseCells iw dw s (fillCells mem dflt.toNat x (k + ds.length)) x := by
  induction ds with
  | nil => intro k out _ _ h; exact ⟨out, rfl, h⟩
  | cons d ds ih =>
    intro k out hk hds h
    have hd : d.toNat = mem k := hds 0 d rfl
    have hk' : k + 1 + ds.length = k + (d :: ds).length := by simp; omega
    have hds' : ∀ j b, ds[j]? = some b → b.toNat = mem (k + 1 + j) := fun j b hj => by
      rw [hds (j + 1) b hj, Nat.add_assoc, Nat.add_comm 1 j]
    have hlen : (d :: ds).length = ds.length + 1 := rfl
    unfold DenseArrayValue.storeWords
    by_cases hx : d = dflt
    · rw [if_neg (fun hh => hh hx), ok_bind, ← hk']
      exact ih (by omega) hds' (fillCells_skip mem x (by rw [← hd, hx]) ▸ h)
    · rw [if_pos hx]
      obtain ⟨s', h1, h2⟩ := h.storeU64U64_of hdw (show k < 2 ^ 64 by omega) d
      rw [h1, ok_bind, ← hk']
      rw [hd, fillCells_set mem x (fun e => hx (BitVec.eq_of_toNat_eq (hd.trans e)))] at h2
      exact ih (by omega) hds' h2

theorem storeBigs_cells (m : Mode) (hdw : 64 < dw) (mem : Nat → Nat) {dflt : BitVecValue} {x : Nat} (hdf : Raw dflt dw x)
    (ds : List BitVecValue) :
    ∀ {k : Nat} {out : SparseArrayValue}, k + ds.length < 2 ^ 64 → (∀ j b, ds[j]? = some b → Raw b dw (mem (k + j))) →
      SparseCells iw dw out (fillCells mem x x k) x →
      ∃ s, DenseArrayValue.storeBigs m dflt k ds out = ok s ∧ SparseCells iw dw s (fillCells mem x x (k + ds.length)) x := by
  induction ds with
  | nil => intro k out _ _ h; exact ⟨out, rfl, h⟩
  | cons d ds ih =>
    intro k out hk hds h
    have hd : Raw d dw (mem k) := hds 0 d rfl
    have hk' : k + 1 + ds.length = k + (d :: ds).length := by simp; omega
    have hds' : ∀ j b, ds[j]? = some b → Raw b dw (mem (k + 1 + j)) := fun j b hj => by
      have := hds (j + 1) b hj
      rwa [Nat.add_comm j 1, ← Nat.add_assoc] at this
    have hlen : (d :: ds).length = ds.length + 1 := rfl
    unfold DenseArrayValue.storeBigs
    rw [(C87_compare m hd hdf).2.2.2.2.1, ok_bind]
    by_cases hx : mem k = x
    · rw [decide_eq_true hx, if_pos rfl, ok_bind, ← hk']
      exact ih (by omega) hds' (fillCells_skip mem x hx ▸ h)
    · rw [decide_eq_false hx, if_neg (by simp)]
      obtain ⟨s', h1, h2⟩ := h.storeU64Big_of m hdw (show k < 2 ^ 64 by omega) hd
      rw [h1, ok_bind, ← hk']
      rw [fillCells_set mem x hx] at h2
      exact ih (by omega) hds' h2

theorem countBits_cells {v : BitVecValue} {w N : Nat} (hv : Raw v w N) :
    ∀ (k b : Nat) (c : Nat × Nat), b + k ≤ w → DenseArrayValue.countBits v b k c =
      ok (c.1 + (List.range' b k).countP (fun j => !N.testBit j), c.2 + (List.range' b k).countP (fun j => N.testBit j)) := by
  intro k
  induction k with
  | zero => intro b c _; rfl
  | succ k ih =>
    intro b c hb
    have hmod : b % U32 = b := Nat.mod_eq_of_lt (by
      have := hv.width_lt
      show _ < 4294967296
      omega)
    have hcap : b < capacity w := by unfold capacity; omega
    unfold DenseArrayValue.countBits
    rw [hmod, (C87_bits .debug hv).2, if_pos hcap, ok_bind, ih (b + 1) _ (by omega), List.range'_succ, List.countP_cons,
      List.countP_cons]
    cases N.testBit b with
    | true => simp; omega
    | false => simp; omega

theorem storeBits_cells {v : BitVecValue} {N : Nat} (hv : Raw v (2 ^ iw) N) (mem : Nat → Nat)
    (hf : ∀ n, n < 2 ^ iw → mem n = (N.testBit n).toNat) (b : Bool) :
    ∀ (n k : Nat) {out : SparseArrayValue}, k + n = 2 ^ iw → SparseCells iw 1 out (fillCells mem b.toNat b.toNat k) b.toNat →
    ∃ s, DenseArrayValue.storeBits v b k n out = ok s ∧ SparseCells iw 1 s (fillCells mem b.toNat b.toNat (2 ^ iw)) b.toNat := by
  intro n
  induction n with
  | zero =>
    intro k out hk h
    rw [Nat.add_zero] at hk
    exact ⟨out, rfl, hk ▸ h⟩
  | succ n ih =>
    intro k out hk h
    have hlt : 2 ^ iw < 2 ^ 32 := hv.width_lt
    have hmod : k % U32 = k := Nat.mod_eq_of_lt (by
      show _ < 4294967296
      omega)
    have hcap : k < capacity (2 ^ iw) := by unfold capacity; omega
    have hm := hf k (by omega)
    unfold DenseArrayValue.storeBits
    rw [hmod, (C87_bits .debug hv).2, if_pos hcap, ok_bind]
    by_cases hx : N.testBit k = b
    · rw [if_neg (fun hh => hh hx), ok_bind]
      exact ih (k + 1) (by omega) (fillCells_skip mem _ (by rw [hm, hx]) ▸ h)
    · rw [if_pos hx]
      have hval : (if b = true then 0#64 else 1#64).toNat = mem k := by
        rw [hm]
        revert hx
        cases N.testBit k <;> cases b <;> simp
      obtain ⟨s', h1, h2⟩ := h.storeU64U64_of (by decide) (show k < 2 ^ 64 by omega) (if b = true then 0#64 else 1#64)
      rw [h1, ok_bind]
      have hne : mem k ≠ b.toNat := by
        rw [hm]
        revert hx
        cases N.testBit k <;> cases b <;> simp
      rw [hval, fillCells_set mem _ hne] at h2
      exact ih (k + 1) (by omega) h2

/-- Counting in a list whose elements stand for the cells. -/
theorem count_upTo {α : Type} [DecidableEq α] {l : List α} {mem : Nat → Nat} {val : α → Nat} {N : Nat} (hl : l.length = N)
    (hval : ∀ n b, l[n]? = some b → val b = mem n) {b : α} (hinj : ∀ a ∈ l, val a = val b → a = b) : l.count b = cellsUpTo N mem (val b) := by
  have hmap : l = (List.range N).map fun n => l[n]?.getD b := by
    apply List.ext_getElem?
    intro k
    by_cases hk : k < N
    · rw [List.getElem?_map, List.getElem?_range hk, Option.map_some, List.getElem?_eq_getElem (by omega)]
      rfl
    · rw [List.getElem?_eq_none (by omega), List.getElem?_eq_none (by simp; omega)]
  have hc : l.count b = ((List.range N).map fun n => l[n]?.getD b).count b := congrArg (List.count b) hmap
  rw [hc, List.count_eq_countP, List.countP_map, cellsUpTo]
  apply List.countP_congr
  intro k hk
  have hk' : k < l.length := by rw [hl]; exact List.mem_range.mp hk
  have hr := hval k l[k] (List.getElem?_eq_getElem hk')
  simp only [Function.comp_apply, List.getElem?_eq_getElem hk', Option.getD_some, beq_iff_eq, decide_eq_true_eq]
  constructor
  · intro e
    rw [← hr, e]
  · intro e
    exact hinj _ (List.getElem_mem hk') (hr.trans e)

theorem cellsUpTo_none {mem : Nat → Nat} {y N : Nat} (h : ∀ n, n < N → mem n ≠ y) : cellsUpTo N mem y = 0 := by
  unfold cellsUpTo
  rw [List.countP_eq_zero]
  intro n hn
  simpa using h n (List.mem_range.mp hn)

theorem cellsHolding_none {mem : Nat → Nat} {y : Nat} (h : ∀ n, n < 2 ^ iw → mem n ≠ y) : cellsHolding iw mem y = 0 := by
  unfold cellsHolding cellsUpTo
  rw [List.countP_eq_zero]
  intro n hn
  simpa using h n (List.mem_range.mp hn)

theorem cellsHolding_pos {mem : Nat → Nat} {n : Nat} (h : n < 2 ^ iw) : 0 < cellsHolding iw mem (mem n) := by
  unfold cellsHolding cellsUpTo
  rw [List.countP_pos_iff]
  exact ⟨n, List.mem_range.mpr h, by simp⟩

/-- The number of cells that are counted is determined. -/
theorem Counted.unique {mem : Nat → Nat} {n n' : Nat} (h : Counted iw dw mem n) (h' : Counted iw dw mem n') : n = n' := by
  rcases Nat.lt_trichotomy n n' with hlt | heq | hgt
  · rcases h.stop with he | ⟨h8, hf⟩
    · have := h'.le; omega
    · exact absurd (h'.few h8 n hlt) hf
  · exact heq
  · rcases h'.stop with he | ⟨h8, hf⟩
    · have := h.le; omega
    · exact absurd (h.few h8 n' hgt) hf

theorem counted_all {mem : Nat → Nat} (h8 : ¬ 8 < dw) : Counted iw dw mem (2 ^ iw) := ⟨Nat.le_refl _, fun h => absurd h h8, .inl rfl⟩

/-- What the hash table of counters counts. -/
theorem counted_of_table {α : Type} [DecidableEq α] {l : List α} {mem : Nat → Nat} {val : α → Nat} (h8 : 8 < dw) {n : Nat}
    (hl : l.length = 2 ^ iw) (hval : ∀ n b, l[n]? = some b → val b = mem n) (hinj : ∀ a ∈ l, ∀ b ∈ l, val a = val b → a = b)
    (hn : n ≤ l.length) (hstop : n = l.length ∨ (tally HMap.empty (l.take n)).len > DenseArrayValue.maxSearch)
    (hbefore : ∀ j, 0 < j → j < n → (tally HMap.empty (l.take j)).len ≤ DenseArrayValue.maxSearch) : Counted iw dw mem n := by
  refine ⟨by omega, fun _ k hk => ?_, hstop.imp (fun h => h.trans hl) fun h => ⟨h8, ?_⟩⟩
  · by_cases h0 : k = 0
    · subst h0
      exact ⟨[], by simp, fun k hk => absurd hk (Nat.not_lt_zero k)⟩
    · refine ⟨(tally HMap.empty (l.take k)).entries.map fun e => val e.1, ?_, fun j hj => ?_⟩
      · rw [List.length_map]
        exact hbefore k (by omega) hk
      · have hjl : j < l.length := by omega
        refine List.mem_map.mpr ⟨(l[j], (l.take k).count l[j]), (tally_mem _ _ _).mpr ⟨?_, rfl⟩, hval j _ (List.getElem?_eq_getElem hjl)⟩
        exact List.mem_iff_getElem.mpr ⟨j, by rw [List.length_take]; omega, by rw [List.getElem_take]⟩
  · rintro ⟨L, hL1, hL2⟩
    have hle := tally_len_le (l.take n) (L.filterMap fun c => l.find? fun a => decide (val a = c)) fun a ha => by
      obtain ⟨j, hj, hje⟩ := List.mem_iff_getElem.mp ha
      rw [List.length_take] at hj
      rw [List.getElem_take] at hje
      have hjl : j < l.length := by omega
      have hv := hval j _ (List.getElem?_eq_getElem hjl)
      rw [hje] at hv
      refine List.mem_filterMap.mpr ⟨mem j, hL2 j (by omega), ?_⟩
      cases hf : l.find? fun a => decide (val a = mem j) with
      | none => exact absurd hv (by simpa using List.find?_eq_none.mp hf a (List.mem_of_mem_take ha))
      | some b =>
        have hb := List.find?_some hf
        rw [hinj b (List.mem_of_find?_eq_some hf) a (List.mem_of_mem_take ha) (by rw [hv]; simpa using hb)]
    have := List.length_filterMap_le (fun c => l.find? fun a => decide (val a = c)) L
    have h3 : DenseArrayValue.maxSearch = 2 ^ 20 := rfl
    omega

/-- Counting in the counted elements. -/
theorem count_take {α : Type} [DecidableEq α] {l : List α} {mem : Nat → Nat} {val : α → Nat}
    (hval : ∀ n b, l[n]? = some b → val b = mem n) (hinj : ∀ a ∈ l, ∀ b ∈ l, val a = val b → a = b) {n : Nat} (hn : n ≤ l.length) {b : α}
    (hb : b ∈ l) : (l.take n).count b = cellsUpTo n mem (val b) := by
  refine count_upTo (by rw [List.length_take]; omega) (fun k a hk => ?_) fun a ha => hinj a (List.mem_of_mem_take ha) b hb
  rw [List.getElem?_take] at hk
  split at hk
  · exact hval k a hk
  · cases hk

/-- The choice made by the hash table of counters. -/
theorem picked_of_table {α : Type} [DecidableEq α] (env : HashEnv) {l : List α} {mem : Nat → Nat} {val : α → Nat} (h8 : 8 < dw)
    (hl : l.length = 2 ^ iw) (hval : ∀ n b, l[n]? = some b → val b = mem n) (hinj : ∀ a ∈ l, ∀ b ∈ l, val a = val b → a = b) :
    ∃ x, DenseArrayValue.maxByCount (env.order (DenseArrayValue.countLoop HMap.empty l).entries) = some x ∧ x.1 ∈ l ∧
      Picked iw dw mem (val x.1) := by
  have hne : l ≠ [] := by
    intro he
    rw [he] at hl
    have := Nat.two_pow_pos iw
    simp at hl
    omega
  obtain ⟨x, n, h1, h2, h3, h4, h5, h6, h7⟩ := count_default_prefix env l hne
  have hx := List.mem_of_mem_take h4
  refine ⟨x, h1, hx, ?_, ⟨n, counted_of_table h8 hl hval hinj h3 h6 h7, fun y => ?_⟩, fun h => by omega, fun _ h => by omega⟩
  · obtain ⟨k, hk, hke⟩ := List.mem_iff_getElem.mp hx
    exact ⟨k, by omega, (hval k _ (by rw [List.getElem?_eq_getElem hk, hke])).symm⟩
  · by_cases hy : ∃ j, j < n ∧ mem j = y
    · obtain ⟨j, hj, rfl⟩ := hy
      have hjl : j < l.length := by omega
      have hrj := hval j l[j] (List.getElem?_eq_getElem hjl)
      rw [← hrj, ← count_take hval hinj h3 (List.getElem_mem hjl), ← count_take hval hinj h3 hx]
      exact h5 _
    · rw [cellsUpTo_none fun n hn e => hy ⟨n, hn, e⟩]
      exact Nat.zero_le _

/-- The choice made by the byte counters: the last of the largest. -/
theorem picked_of_bytes {l : List Byte} {mem : Nat → Nat} (h1 : dw ≠ 1) (hle : dw ≤ 8) (hl : l.length = 2 ^ iw)
    (hval : ∀ n b, l[n]? = some b → b.toNat = mem n) (hb : ∀ b ∈ l, b.toNat < 8) :
    ∃ c x, DenseArrayValue.countU8 l 0 (2 ^ iw) (List.replicate 8 0) = ok c ∧
      DenseArrayValue.maxByCount ((List.range 8).zip c) = some x ∧ x.1 < 8 ∧ Picked iw dw mem x.1 := by
  obtain ⟨c, hc1, hc2, hc3⟩ := countU8_count l (2 ^ iw) 0 (List.replicate 8 0) (by simp) (by omega) hb
  have hzl : ((List.range 8).zip c).length = 8 := by simp [hc2]
  have hne : (List.range 8).zip c ≠ [] := by
    intro he
    rw [he] at hzl
    cases hzl
  obtain ⟨x, hx1, hx2, hx3⟩ := maxByCount_mem _ hne
  obtain ⟨s, t, hst, hlast⟩ := maxByCount_last _ x hx1
  have hcount : ∀ j, j < 8 → c.getD j 0 = cellsHolding iw mem j := by
    intro j hj
    rw [hc3 j hj, List.drop_zero]
    have h0 : (List.replicate 8 0).getD j 0 = 0 := by
      rw [List.getD_eq_getElem?_getD, List.getElem?_replicate]
      split <;> rfl
    rw [h0, Nat.zero_add, cellsHolding, cellsUpTo]
    have hmap : l = (List.range (2 ^ iw)).map fun n => l[n]?.getD 0#8 := by
      apply List.ext_getElem?
      intro k
      by_cases hk : k < 2 ^ iw
      · rw [List.getElem?_map, List.getElem?_range hk, Option.map_some, List.getElem?_eq_getElem (by omega)]
        rfl
      · rw [List.getElem?_eq_none (by omega), List.getElem?_eq_none (by simp; omega)]
    have hcc : l.countP (fun b => decide (b.toNat = j)) =
        ((List.range (2 ^ iw)).map fun n => l[n]?.getD 0#8).countP (fun b => decide (b.toNat = j)) :=
      congrArg (List.countP fun b => decide (b.toNat = j)) hmap
    rw [hcc, List.countP_map]
    apply List.countP_congr
    intro k hk
    have hk' : k < l.length := by rw [hl]; exact List.mem_range.mp hk
    simp only [Function.comp_apply, List.getElem?_eq_getElem hk', Option.getD_some, decide_eq_true_eq]
    rw [hval k l[k] (List.getElem?_eq_getElem hk')]
  have hentry : ∀ q (hq : q < ((List.range 8).zip c).length), ((List.range 8).zip c)[q] = (q, cellsHolding iw mem q) := by
    intro q hq
    rw [hzl] at hq
    rw [← hcount q hq, List.getD_eq_getElem?_getD, List.getElem?_eq_getElem (by omega)]
    simp
  obtain ⟨q, hq, hqe⟩ := List.mem_iff_getElem.mp hx2
  rw [hentry q hq] at hqe
  rw [hzl] at hq
  have hmax : ∀ y, cellsHolding iw mem y ≤ cellsHolding iw mem q := by
    intro y
    by_cases hy : y < 8
    · have := hx3 (y, cellsHolding iw mem y) (List.mem_iff_getElem.mpr ⟨y, by omega, hentry y (by omega)⟩)
      rw [← hqe] at this
      exact this
    · rw [cellsHolding_none]
      · exact Nat.zero_le _
      · intro n hn e
        have hn' : n < l.length := by omega
        have := hb _ (List.getElem_mem hn')
        rw [hval n l[n] (List.getElem?_eq_getElem hn')] at this
        omega
  refine ⟨c, x, hc1, hx1, by rw [← hqe]; exact hq, ?_⟩
  rw [← hqe]
  dsimp only
  have hp0 : 0 < 2 ^ iw := Nat.two_pow_pos iw
  refine ⟨?_, ⟨_, counted_all (by omega), hmax⟩, fun h => absurd h h1, fun _ _ y hy => ?_⟩
  · apply Classical.byContradiction
    intro hno
    have h0 := cellsHolding_none (iw := iw) (mem := mem) (y := q) fun n hn e => hno ⟨n, hn, e⟩
    have h2 := hmax (mem 0)
    have h3 := cellsHolding_pos (mem := mem) hp0
    omega
  · apply Classical.byContradiction
    intro hgt
    by_cases hy8 : y < 8
    · -- the entry of `y` comes after the one of `q`
      have hs : s.length = q := by
        have hqs : s.length < ((List.range 8).zip c).length := by rw [hst]; simp
        have := hentry s.length hqs
        have h2 : ((List.range 8).zip c)[s.length]? = some x := by rw [hst]; simp
        rw [List.getElem?_eq_getElem hqs, this, ← hqe] at h2
        have := congrArg Prod.fst (Option.some.inj h2)
        exact this
      have hyt : (y, cellsHolding iw mem y) ∈ t := by
        have h2 : ((List.range 8).zip c)[y]? = some (y, cellsHolding iw mem y) := by
          rw [List.getElem?_eq_getElem (by omega), hentry y (by omega)]
        rw [hst, List.getElem?_append_right (by omega)] at h2
        have h3 : y - s.length = (y - s.length - 1) + 1 := by omega
        rw [h3, List.getElem?_cons_succ] at h2
        exact List.mem_of_getElem? h2
      have := hlast _ hyt
      rw [← hqe] at this
      dsimp only at this
      omega
    · have h2 : cellsHolding iw mem y = 0 := cellsHolding_none fun n hn e => by
        have hn' : n < l.length := by omega
        have := hb _ (List.getElem_mem hn')
        rw [hval n l[n] (List.getElem?_eq_getElem hn')] at this
        omega
      have h3 := hmax (mem 0)
      have h4 := cellsHolding_pos (mem := mem) hp0
      omega

/-- The choice made by the bit counters: one only if there are more ones than zeros. -/
theorem picked_of_bits {N : Nat} {mem : Nat → Nat} (hf : ∀ n, n < 2 ^ iw → mem n = (N.testBit n).toNat) :
    Picked iw 1 mem (decide ((List.range' 0 (2 ^ iw)).countP (fun j => N.testBit j) >
      (List.range' 0 (2 ^ iw)).countP (fun j => !N.testBit j))).toNat := by
  have h1 : (List.range' 0 (2 ^ iw)).countP (fun j => N.testBit j) = cellsHolding iw mem 1 := by
    rw [← List.range_eq_range', cellsHolding, cellsUpTo]
    refine List.countP_congr fun k hk => ?_
    rw [hf k (List.mem_range.mp hk)]
    cases N.testBit k <;> simp
  have h0 : (List.range' 0 (2 ^ iw)).countP (fun j => !N.testBit j) = cellsHolding iw mem 0 := by
    rw [← List.range_eq_range', cellsHolding, cellsUpTo]
    refine List.countP_congr fun k hk => ?_
    rw [hf k (List.mem_range.mp hk)]
    cases N.testBit k <;> simp
  rw [h0, h1]
  have hp0 : 0 < 2 ^ iw := Nat.two_pow_pos iw
  have hother : ∀ y, y ≠ 0 → y ≠ 1 → cellsHolding iw mem y = 0 := fun y hy0 hy1 => cellsHolding_none fun n hn e => by
    rw [hf n hn] at e
    cases hb : N.testBit n
    · rw [hb] at e; exact hy0 e.symm
    · rw [hb] at e; exact hy1 e.symm
  have hpos : 0 < cellsHolding iw mem 0 ∨ 0 < cellsHolding iw mem 1 := by
    have := cellsHolding_pos (mem := mem) hp0
    rw [hf 0 hp0] at this
    cases hb : N.testBit 0
    · rw [hb] at this; exact .inl this
    · rw [hb] at this; exact .inr this
  have hocc : ∀ z, 0 < cellsHolding iw mem z → ∃ n, n < 2 ^ iw ∧ mem n = z := fun z hz => by
    apply Classical.byContradiction
    intro hno
    rw [cellsHolding_none fun n hn e => hno ⟨n, hn, e⟩] at hz
    omega
  by_cases hgt : cellsHolding iw mem 1 > cellsHolding iw mem 0
  · rw [decide_eq_true hgt]
    refine ⟨hocc 1 (by omega), ⟨_, counted_all (by decide), fun y => ?_⟩, fun _ y hy => ?_, fun h => absurd rfl h⟩
    · show cellsHolding iw mem y ≤ cellsHolding iw mem 1
      by_cases hy0 : y = 0
      · subst hy0; omega
      · by_cases hy1 : y = 1
        · subst hy1; omega
        · rw [hother y hy0 hy1]; exact Nat.zero_le _
    · show 1 ≤ y
      replace hy : cellsHolding iw mem y = cellsHolding iw mem 1 := hy
      by_cases hy0 : y = 0
      · subst hy0; omega
      · omega
  · rw [decide_eq_false hgt]
    refine ⟨hocc 0 (by omega), ⟨_, counted_all (by decide), fun y => ?_⟩, fun _ y hy => Nat.zero_le _, fun h => absurd rfl h⟩
    show cellsHolding iw mem y ≤ cellsHolding iw mem 0
    by_cases hy0 : y = 0
    · subst hy0; omega
    · by_cases hy1 : y = 1
      · subst hy1; omega
      · rw [hother y hy0 hy1]; exact Nat.zero_le _

theorem selectAll_cells (m : Mode) {l : List Word} {mem : Nat → Nat} (hdl : dw < 2 ^ 32)
    (h : CellsRep iw dw (.big l) mem) :
    ∀ (n k : Nat), k + n ≤ 2 ^ iw → ∃ es, DenseArrayValue.selectAll m ⟨iw, dw, .big l⟩ k n = ok es ∧ es.length = n ∧
      ∀ j b, es[j]? = some b → Raw b dw (mem (k + j)) := by
  obtain ⟨h1, h2, h3, hf⟩ := h
  intro n
  induction n with
  | zero => intro k _; exact ⟨[], rfl, rfl, fun j b hj => by cases hj⟩
  | succ n ih =>
    intro k hk
    obtain ⟨es, he1, he2, he3⟩ := ih (k + 1) (by omega)
    have hb := block_bound (n := (dw + 63) / 64) (show k < 2 ^ iw by omega)
    have hs : DenseArrayValue.selectUsize m ⟨iw, dw, .big l⟩ k =
        ok ⟨dw, (l.drop ((dw + 63) / 64 * k)).take ((dw + 63) / 64)⟩ := by
      show (do
        let start ← mulC m U64 ((dw + 63) / 64) k
        let end_ ← addC m U64 start ((dw + 63) / 64)
        let ws ← sliceR l start end_
        ok (⟨dw, ws⟩ : BitVecValue)) = _
      rw [mulC_ok (by show _ < 18446744073709551616; omega), ok_bind,
        addC_ok (by show _ < 18446744073709551616; omega), ok_bind, sliceR_ok (by omega) (by omega), ok_bind,
        Nat.add_sub_cancel_left]
    unfold DenseArrayValue.selectAll
    rw [hs, ok_bind, he1, ok_bind]
    refine ⟨_, rfl, by simp [he2], fun j b hj => ?_⟩
    cases j with
    | zero =>
      cases hj
      refine ⟨hdl, rfl, ?_, hf k (by omega)⟩
      simp
      omega
    | succ j =>
      rw [List.getElem?_cons_succ] at hj
      have := he3 j b hj
      rwa [Nat.add_assoc, Nat.add_comm 1 j] at this

/-- The outcome of the conversion: an array that holds the cells, or a panic. -/
def SparseOutcome (iw dw : Nat) (r : Res SparseArrayValue) (mem : Nat → Nat) : Option Nat → Prop
  | none => Panics r
  | some x => ∃ s, r = ok s ∧ SparseCells iw dw s mem x

/-- Making a dense array sparse. -/
theorem DenseCells.toSparse_of (m : Mode) (env : HashEnv) {d : DenseArrayValue} {mem : Nat → Nat} (h : DenseCells iw dw d mem) :
    (SparsePanics iw dw mem → Panics (d.toSparse m env)) ∧
    (¬ SparsePanics iw dw mem → ∃ c, Picked iw dw mem c ∧
      SparseOutcome iw dw (d.toSparse m env) (sparsified iw mem c ((shown m dw c).getD 0)) (shown m dw c)) := by
  obtain ⟨hiw, hdw, hlt, hpos, hdl, hrep⟩ := h
  obtain ⟨_, _, data⟩ := d
  dsimp only at hiw hdw hrep
  replace hiw := hiw.symm
  replace hdw := hdw.symm
  subst hiw hdw
  have h64 : 2 ^ iw < 2 ^ 64 := Nat.pow_lt_pow_right (by decide) hlt
  have hnew : ∀ {v : BitVecValue} {x c : Nat}, Raw v dw x → ∃ s, SparseArrayValue.new iw v = ok s ∧
      SparseCells iw dw s (fillCells mem c x 0) x := by
    intro v x c hv
    obtain ⟨s, h1, h2⟩ := sparse_new_cells hv (show iw ≤ 64 by omega) hpos
    refine ⟨s, h1, ?_⟩
    rw [fillCells_zero]
    have : startCells .sparse iw dw x = fun _ => x := by
      funext n
      unfold startCells
      rw [if_neg (fun h => by cases h.1)]
      rfl
    rwa [this] at h2
  unfold DenseArrayValue.toSparse
  cases data with
  | bit v =>
    obtain ⟨h1, h2, N, hN, hf⟩ := hrep
    subst h1
    have hf' : ∀ n, n < 2 ^ iw → mem n = (N.testBit n).toNat := fun n hn => hf n (by unfold capacity; omega)
    refine ⟨fun h => absurd rfl h.1, fun _ => ⟨_, picked_of_bits hf', ?_⟩⟩
    dsimp only
    rw [numElements_ok m hlt, ok_bind, countBits_cells hN _ _ _ (by omega), ok_bind]
    dsimp only
    rw [Nat.zero_add, Nat.zero_add]
    generalize decide ((List.range' 0 (2 ^ iw)).countP (fun j => N.testBit j) >
      (List.range' 0 (2 ^ iw)).countP (fun j => !N.testBit j)) = b
    have hsh : shown m 1 b.toNat = some b.toNat := by
      unfold shown
      rw [if_neg]
      have := Bool.toNat_lt b
      omega
    rw [hsh]
    obtain ⟨r, hr1, hr2⟩ := raw_from_bool m b
    rw [hr1, ok_bind]
    obtain ⟨s0, hs1, hs2⟩ := hnew (c := b.toNat) hr2
    rw [hs1, ok_bind]
    exact storeBits_cells hN mem hf' b (2 ^ iw) 0 (by omega) hs2
  | u8 l =>
    obtain ⟨h1, h2, h3, hf⟩ := hrep
    dsimp only
    rw [numElements_ok m hlt, ok_bind]
    constructor
    · rintro ⟨-, -, n, hn, h8⟩
      obtain ⟨b, hb1, hb2⟩ := hf n hn
      exact panics_bind (countU8_panics l (2 ^ iw) 0 (List.replicate 8 0) (by simp) (by omega) ⟨n, by omega, b, hb1, by omega⟩) _
    · intro hnp
      have hval : ∀ n b, l[n]? = some b → b.toNat = mem n := fun n b hb => by
        have hn := (List.getElem?_eq_some_iff.mp hb).1
        obtain ⟨b', hb1, hb2⟩ := hf n (by omega)
        rw [hb] at hb1
        cases hb1
        exact hb2
      have hb : ∀ b ∈ l, b.toNat < 8 := fun b hb => by
        obtain ⟨n, hn, hne⟩ := List.mem_iff_getElem.mp hb
        apply Classical.byContradiction
        intro h8
        refine hnp ⟨h1, h2, n, by omega, ?_⟩
        rw [← hval n b (by rw [List.getElem?_eq_getElem hn, hne])]
        omega
      obtain ⟨c, x, hc, hx, hx8, hp⟩ := picked_of_bytes h1 h2 h3 hval hb
      refine ⟨_, hp, ?_⟩
      rw [hc, ok_bind, hx]
      show SparseOutcome iw dw (BitVecValue.fromU64 m ((BitVec.ofNat 8 x.1).setWidth 64) dw >>= fun _ => _) _ _
      have hd : ((BitVec.ofNat 8 x.1).setWidth 64 : Word).toNat = x.1 := by
        rw [setWidth64_toNat (by decide), BitVec.toNat_ofNat]
        omega
      have hsh := fromU64_shown m hpos (show dw ≤ 64 by omega) ((BitVec.ofNat 8 x.1).setWidth 64)
      rw [hd] at hsh
      cases hs : shown m dw x.1 with
      | none => rw [hs] at hsh; exact panics_bind hsh _
      | some y =>
        rw [hs] at hsh
        obtain ⟨r, hr1, hr2⟩ := hsh
        rw [hr1, ok_bind]
        obtain ⟨s0, hs1, hs2⟩ := hnew (c := ((BitVec.ofNat 8 x.1).setWidth 64 : Word).toNat) hr2
        rw [hs1, ok_bind]
        obtain ⟨s, hs3, hs4⟩ := storeWords_cells (show dw ≤ 64 by omega) mem _ y (l.map fun b => b.setWidth 64) (k := 0)
          (by simp; omega) (fun j b hj => by
            rw [List.getElem?_map, Option.map_eq_some_iff] at hj
            obtain ⟨b', hb1, rfl⟩ := hj
            rw [setWidth64_toNat (by decide), Nat.zero_add, hval j b' hb1]) hs2
        refine ⟨s, hs3, ?_⟩
        rw [hd, List.length_map, h3, Nat.zero_add] at hs4
        exact hs4
  | u64 l =>
    obtain ⟨h1, h2, h3, hf⟩ := hrep
    refine ⟨fun h => by have := h.2.1; omega, fun _ => ?_⟩
    dsimp only
    have hval : ∀ n b, l[n]? = some b → b.toNat = mem n := fun n b hb => by
      have hn := (List.getElem?_eq_some_iff.mp hb).1
      obtain ⟨b', hb1, hb2⟩ := hf n (by omega)
      rw [hb] at hb1
      cases hb1
      exact hb2
    obtain ⟨x, hx, -, hp⟩ := picked_of_table (dw := dw) env (val := BitVec.toNat) h1 h3 hval (fun a _ b _ e => BitVec.eq_of_toNat_eq e)
    refine ⟨_, hp, ?_⟩
    rw [hx]
    show SparseOutcome iw dw (BitVecValue.fromU64 m x.1 dw >>= fun _ => _) _ _
    have hsh := fromU64_shown m hpos h2 x.1
    cases hs : shown m dw x.1.toNat with
    | none => rw [hs] at hsh; exact panics_bind hsh _
    | some y =>
      rw [hs] at hsh
      obtain ⟨r, hr1, hr2⟩ := hsh
      rw [hr1, ok_bind]
      obtain ⟨s0, hs1, hs2⟩ := hnew (c := x.1.toNat) hr2
      rw [hs1, ok_bind]
      obtain ⟨s, hs3, hs4⟩ := storeWords_cells h2 mem _ y l (k := 0) (by omega) (fun j b hj => by
        rw [Nat.zero_add, hval j b hj]) hs2
      refine ⟨s, hs3, ?_⟩
      rw [h3, Nat.zero_add] at hs4
      exact hs4
  | big l =>
    have h1 := hrep.1
    refine ⟨fun h => by have := h.2.1; omega, fun _ => ?_⟩
    dsimp only
    rw [numElements_ok m hlt, ok_bind]
    obtain ⟨es, he1, he2, he3⟩ := selectAll_cells m hdl hrep (2 ^ iw) 0 (by omega)
    rw [he1, ok_bind]
    have hraw : ∀ b ∈ es, Raw b dw (wordsVal b.words) := fun b hb => by
      obtain ⟨n, hn, hne⟩ := List.mem_iff_getElem.mp hb
      have := he3 n b (by rw [List.getElem?_eq_getElem hn, hne])
      exact ⟨this.width_lt, this.width_eq, this.length_eq, rfl⟩
    obtain ⟨x, hx, hxm, hp⟩ := picked_of_table (dw := dw) env (l := es) (mem := mem) (val := fun b => wordsVal b.words) (by omega) he2
      (fun n b hb => by
        have := he3 n b hb
        rw [Nat.zero_add] at this
        exact this.val_eq) (fun a ha b hb e => (hraw a ha).unique (by
          have := hraw b hb
          rwa [← e] at this))
    refine ⟨_, hp, ?_⟩
    have hsh : shown m dw (wordsVal x.1.words) = some (wordsVal x.1.words) := by
      unfold shown
      rw [if_neg (by omega)]
    rw [hx, hsh]
    show SparseOutcome iw dw (SparseArrayValue.new iw x.1 >>= fun _ => _) _ _
    obtain ⟨s0, hs1, hs2⟩ := hnew (c := wordsVal x.1.words) (hraw _ hxm)
    rw [hs1, ok_bind]
    obtain ⟨s, hs3, hs4⟩ := storeBigs_cells m h1 mem (hraw _ hxm) es (k := 0) (by omega) he3 hs2
    refine ⟨s, hs3, ?_⟩
    rw [he2, Nat.zero_add] at hs4
    exact hs4

/-! ## Histories with conversions -/

/-- The array holds the state. -/
def HoldsState (m : Mode) (iw dw : Nat) (a : ArrayValue) (st : Cells) : Prop :=
  HoldsCells st.kind iw dw a st.mem st.dflt ∧
    (st.kind = .sparse → ∀ I, I < 2 ^ 64 → st.mem I ≠ st.dflt → Baa.NoWrap m .dense dw I)

/-- The outcome of a run. -/
def HoldsOutcome (m : Mode) (iw dw : Nat) (r : Res ArrayValue) : Option Cells → Prop
  | none => Panics r
  | some st => ∃ b, r = ok b ∧ HoldsState m iw dw b st

theorem NoWrap.weaken {m : Mode} {k : Kind} {dw I : Nat} (h : NoWrap m .dense dw I) : NoWrap m k dw I := by
  rcases h with h | h | h
  · exact .inl h
  · cases h
  · exact .inr (.inr h)

theorem noWrap_of_lt (m : Mode) (ha : Addressable iw dw) {n : Nat} (hn : n < 2 ^ iw) : NoWrap m .dense dw n := by
  by_cases hdw : dw ≤ 64
  · exact .inr (.inr (.inl hdw))
  · refine .inr (.inr (.inr ?_))
    have h1 := ha.2
    unfold storageBytes at h1
    rw [if_neg (by omega), if_neg (by omega)] at h1
    have hb := block_bound (n := (dw + 63) / 64) hn
    have h2 : 2 ^ iw * (8 * ((dw + 63) / 64)) = 8 * ((dw + 63) / 64 * 2 ^ iw) := by
      rw [Nat.mul_left_comm, Nat.mul_comm (2 ^ iw)]
    omega

theorem HoldsState.next (m : Mode) (env : HashEnv) (hadm : Admissible .dense iw dw) {a : ArrayValue} {st : Cells} (h : HoldsState m iw dw a st)
    (op : ConvOp) (hf : op.Fits iw dw) (hnw : op.NoWrap m dw) :
    ∃ r, Next m iw dw st op r ∧ HoldsOutcome m iw dw (op.run m env a) r := by
  obtain ⟨hc, hw⟩ := h
  obtain ⟨k, mem, D⟩ := st
  dsimp only at hc hw
  cases op with
  | base op =>
    refine ⟨_, rfl, ?_⟩
    have h1 := hc.run_op m env op hf (by
      cases op with
      | store i d => exact NoWrap.weaken hnw
      | clear => trivial)
    dsimp only
    cases he : op.effect k iw dw mem with
    | none => rw [he] at h1; exact h1
    | some mem' =>
      rw [he] at h1
      obtain ⟨b, hb1, hb2⟩ := h1
      refine ⟨b, hb1, hb2, fun hk I hI hne => ?_⟩
      dsimp only at hk hne
      subst hk
      cases op with
      | clear =>
        cases he
        exact absurd rfl hne
      | store i d =>
        cases he
        replace hne : setCell mem (wordsVal i.words) (kept .sparse dw (wordsVal d.words)) I ≠ D := hne
        rw [setCell_apply] at hne
        by_cases hI' : I = wordsVal i.words
        · rw [hI']
          exact hnw
        · rw [if_neg hI'] at hne
          exact hw rfl I hI hne
  | makeDense =>
    cases k with
    | dense =>
      obtain ⟨d, rfl, hd⟩ := hc.dense rfl
      exact ⟨some ⟨.dense, mem, D⟩, rfl, .dense d, rfl, hd, fun h => by cases h⟩
    | sparse =>
      obtain ⟨s, rfl, hs⟩ := hc.sparse rfl
      obtain ⟨h1, h2⟩ := hs.ofSparse_of m env hadm.2.1 hadm.2.2 (hw rfl)
      by_cases hp : DensePanics m iw dw mem D
      · exact ⟨none, .inl ⟨hp, rfl⟩, panics_bind (h1 hp) _⟩
      · obtain ⟨d, out, hd1, hd2, hd3⟩ := h2 hp
        refine ⟨some ⟨.dense, out, D⟩, .inr ⟨hp, out, hd3, rfl⟩, .dense d, ?_, hd2, fun h => by cases h⟩
        show (DenseArrayValue.ofSparse m env s >>= _) = _
        rw [hd1, ok_bind]
  | toSparse =>
    cases k with
    | sparse =>
      obtain ⟨s, rfl, hs⟩ := hc.sparse rfl
      exact ⟨some ⟨.sparse, mem, D⟩, rfl, .sparse s, rfl, hs, hw⟩
    | dense =>
      obtain ⟨d, rfl, hd⟩ := hc.dense rfl
      obtain ⟨h1, h2⟩ := hd.toSparse_of m env
      by_cases hp : SparsePanics iw dw mem
      · exact ⟨none, .inl ⟨hp, rfl⟩, panics_bind (h1 hp) _⟩
      · obtain ⟨c, hc1, hc2⟩ := h2 hp
        refine ⟨_, .inr ⟨hp, c, hc1, rfl⟩, ?_⟩
        cases hx : shown m dw c with
        | none =>
          rw [hx] at hc2
          exact panics_bind hc2 _
        | some x =>
          rw [hx] at hc2
          obtain ⟨s, hs1, hs2⟩ := hc2
          refine ⟨.sparse s, ?_, hs2, fun _ I hI hne => ?_⟩
          · show (DenseArrayValue.toSparse m env d >>= _) = _
            rw [hs1, ok_bind]
          · dsimp only [sparsified] at hne
            refine noWrap_of_lt m hadm.2.1 (Classical.byContradiction fun hI' => hne ?_)
            rw [if_neg (fun h => hI' h.1)]

theorem HoldsState.runs (m : Mode) (env : HashEnv) (hadm : Admissible .dense iw dw) (ops : List ConvOp) {a : ArrayValue} {st : Cells}
    (h : HoldsState m iw dw a st) (hf : ∀ op ∈ ops, op.Fits iw dw) (hnw : ∀ op ∈ ops, op.NoWrap m dw) :
    ∃ r, Runs m iw dw ops st r ∧ HoldsOutcome m iw dw (runConv m env a ops) r := by
  induction ops generalizing a st with
  | nil => exact ⟨some st, rfl, a, rfl, h⟩
  | cons op ops ih =>
    obtain ⟨mid, h1, h2⟩ := h.next m env hadm op (hf op (by simp)) (hnw op (by simp))
    unfold runConv
    cases mid with
    | none => exact ⟨none, ⟨none, h1, rfl⟩, panics_bind h2 _⟩
    | some st' =>
      obtain ⟨b, hb1, hb2⟩ := h2
      obtain ⟨r, h3, h4⟩ := ih hb2 (fun o ho => hf o (by simp [ho])) (fun o ho => hnw o (by simp [ho]))
      refine ⟨r, ⟨some st', h1, h3⟩, ?_⟩
      rw [hb1, ok_bind]
      exact h4

theorem holds_new (m : Mode) (k : Kind) (hadm : Admissible .dense iw dw) {v : BitVecValue} (hv : Slot v dw) {a : ArrayValue}
    (hn : newOf k m iw v = ok a) : HoldsState m iw dw a (startState k iw dw v) := by
  have hk : Admissible k iw dw := by
    cases k with
    | dense => exact hadm
    | sparse => exact ⟨hadm.1, Nat.le_of_lt (index_lt_of hadm.2.1)⟩
  have h := new_holdsCells k m hk hv
  split at h
  · obtain ⟨p, hp⟩ := h
    rw [hn] at hp
    cases hp
  · obtain ⟨b, h1, h2⟩ := h
    rw [hn] at h1
    cases h1
    refine ⟨h2, fun hk I _ hne => absurd ?_ hne⟩
    cases k with
    | dense => cases hk
    | sparse =>
      show startCells .sparse iw dw _ I = _
      unfold startCells
      rw [if_neg (fun h => by cases h.1)]
      rfl

/-- **C91** (histories): for a new array of either kind and any history of stores, clears and conversions with arbitrary words, the outcome
is one that the specification allows: it panics if the specification says so, and otherwise every `select` gives what the specification
says about the final cells. -/
theorem C91_history (m : Mode) (env : HashEnv) (k : Kind) (hadm : Admissible .dense iw dw) {v : BitVecValue} (hv : Slot v dw)
    {a : ArrayValue} (hn : newOf k m iw v = ok a) (ops : List ConvOp) (hf : ∀ op ∈ ops, op.Fits iw dw)
    (hnw : ∀ op ∈ ops, op.NoWrap m dw) :
    ∃ r, Runs m iw dw ops (startState k iw dw v) r ∧
      match r with
      | none => Panics (runConv m env a ops)
      | some st => ∃ b, runConv m env a ops = ok b ∧ b.isDense = decide (st.kind = .dense) ∧
          ∀ i, Slot i iw → NoWrap m .dense dw (wordsVal i.words) →
            Outcome (b.select m env i) dw ((reached st.kind iw dw (wordsVal i.words)).bind fun n => shown m dw (st.mem n)) := by
  obtain ⟨r, h1, h2⟩ := (holds_new m k hadm hv hn).runs m env hadm ops hf hnw
  refine ⟨r, h1, ?_⟩
  cases r with
  | none => exact h2
  | some st =>
    obtain ⟨b, hb1, hb2, -⟩ := h2
    refine ⟨b, hb1, ?_, fun i hi hw => hb2.select_of m env hi (NoWrap.weaken hw)⟩
    cases hk : st.kind with
    | dense =>
      obtain ⟨d, rfl, -⟩ := hb2.dense hk
      rfl
    | sparse =>
      obtain ⟨s, rfl, -⟩ := hb2.sparse hk
      rfl

theorem isEqualMixed_cells (m : Mode) (env : HashEnv) (hadm : Admissible .dense iw dw) {d : DenseArrayValue} {s : SparseArrayValue}
    {g mem : Nat → Nat} {D : Nat} (hd : DenseCells iw dw d g) (hs : SparseCells iw dw s mem D)
    (hnw : ∀ I, I < 2 ^ 64 → mem I ≠ D → NoWrap m .dense dw I) :
    (DensePanics m iw dw mem D → Panics (isEqualMixed m env d s)) ∧
    (¬ DensePanics m iw dw mem D → ∃ out b, Densified m iw dw mem D out ∧ isEqualMixed m env d s = ok (some b) ∧
      (b = true ↔ ∀ n, n < cellCount iw dw → out n = g n)) := by
  obtain ⟨h1, h2⟩ := hs.ofSparse_of m env hadm.2.1 hadm.2.2 hnw
  unfold isEqualMixed
  rw [if_neg (by rw [hd.indexWidth, hd.dataWidth, hs.indexWidth, hs.dataWidth]; simp)]
  refine ⟨fun hp => panics_bind (h1 hp) _, fun hp => ?_⟩
  obtain ⟨d', out, ho1, ho2, ho3⟩ := h2 hp
  rw [ho1, ok_bind]
  obtain ⟨b, hb1, hb2⟩ := ho2.isEqual_of m hd
  exact ⟨out, b, ho3, hb1, hb2⟩

theorem HoldsState.eq_of (m : Mode) (env : HashEnv) (hadm : Admissible .dense iw dw) {a b : ArrayValue} {s t : Cells} (ha : HoldsState m iw dw a s)
    (hb : HoldsState m iw dw b t) : EqualSpec m iw dw s t (a.eq m env b) := by
  obtain ⟨k, f, D⟩ := s
  obtain ⟨k', g, E⟩ := t
  obtain ⟨ha1, ha2⟩ := ha
  obtain ⟨hb1, hb2⟩ := hb
  dsimp only at ha1 ha2 hb1 hb2
  have hmix : ∀ {r : Res (Option Bool)} {P Q : Prop} {p q : (Nat → Nat) → Prop},
      ((P → Panics r) ∧ (¬ P → ∃ out b, p out ∧ r = ok (some b) ∧ (b = true ↔ q out))) →
      (P → Panics (r >>= fun x => ok (x.getD false))) ∧
      (¬ P → ∃ out b, p out ∧ (r >>= fun x => ok (x.getD false)) = ok b ∧ (b = true ↔ q out)) := by
    intro r P Q p q ⟨h1, h2⟩
    refine ⟨fun hp => panics_bind (h1 hp) _, fun hp => ?_⟩
    obtain ⟨out, b, h3, h4, h5⟩ := h2 hp
    exact ⟨out, b, h3, by rw [h4]; rfl, h5⟩
  cases k with
  | dense =>
    obtain ⟨d, rfl, hd⟩ := ha1.dense rfl
    cases k' with
    | dense =>
      obtain ⟨e, rfl, he⟩ := hb1.dense rfl
      obtain ⟨r, hr1, hr2⟩ := hd.isEqual_of m he
      refine ⟨r, ?_, hr2⟩
      show (DenseArrayValue.isEqual m d e >>= _) = _
      rw [hr1]
      rfl
    | sparse =>
      obtain ⟨e, rfl, he⟩ := hb1.sparse rfl
      exact hmix (Q := True) (isEqualMixed_cells m env hadm hd he (hb2 rfl))
  | sparse =>
    obtain ⟨d, rfl, hd⟩ := ha1.sparse rfl
    cases k' with
    | dense =>
      obtain ⟨e, rfl, he⟩ := hb1.dense rfl
      exact hmix (Q := True) (isEqualMixed_cells m env hadm he hd (ha2 rfl))
    | sparse =>
      obtain ⟨e, rfl, he⟩ := hb1.sparse rfl
      obtain ⟨r, hr1, hr2⟩ := hd.isEqual_of m env he
      refine ⟨r, ?_, hr2⟩
      show (SparseArrayValue.isEqual m env d e >>= _) = _
      rw [hr1]
      rfl

/-- **C91** (comparisons): the comparison of two arrays with any histories of stores, clears and conversions. -/
theorem C91_equal (m : Mode) (env : HashEnv) (k k' : Kind) (hadm : Admissible .dense iw dw) {u v : BitVecValue} (hu : Slot u dw)
    (hv : Slot v dw) {a a' b b' : ArrayValue} (ha : newOf k m iw u = ok a) (hb : newOf k' m iw v = ok b) (ops ops' : List ConvOp)
    (hf : ∀ op ∈ ops ++ ops', op.Fits iw dw) (hnw : ∀ op ∈ ops ++ ops', op.NoWrap m dw) (ha' : runConv m env a ops = ok a')
    (hb' : runConv m env b ops' = ok b') :
    ∃ s t, Runs m iw dw ops (startState k iw dw u) (some s) ∧ Runs m iw dw ops' (startState k' iw dw v) (some t) ∧
      EqualSpec m iw dw s t (a'.eq m env b') := by
  have get : ∀ {k : Kind} {u : BitVecValue} {a a' : ArrayValue} {ops : List ConvOp}, Slot u dw → newOf k m iw u = ok a →
      (∀ op ∈ ops, op.Fits iw dw) → (∀ op ∈ ops, op.NoWrap m dw) → runConv m env a ops = ok a' →
      ∃ s, Runs m iw dw ops (startState k iw dw u) (some s) ∧ HoldsState m iw dw a' s := by
    intro k u a a' ops hu ha hf hnw ha'
    obtain ⟨r, h1, h2⟩ := (holds_new m k hadm hu ha).runs m env hadm ops hf hnw
    rw [ha'] at h2
    cases r with
    | none =>
      obtain ⟨p, hp⟩ := h2
      cases hp
    | some st =>
      obtain ⟨x, hx1, hx2⟩ := h2
      cases hx1
      exact ⟨st, h1, hx2⟩
  obtain ⟨s, hs1, hs2⟩ := get hu ha (fun o ho => hf o (by simp [ho])) (fun o ho => hnw o (by simp [ho])) ha'
  obtain ⟨t, ht1, ht2⟩ := get hv hb (fun o ho => hf o (by simp [ho])) (fun o ho => hnw o (by simp [ho])) hb'
  exact ⟨s, t, hs1, ht1, hs2.eq_of m env hadm ht2⟩

/-- **C91** (determinism): except for one-bit data, the cells after making an array dense do not depend on the order of the hash map. -/
theorem C91_dense_deterministic (m : Mode) {mem : Nat → Nat} {D : Nat} (h1 : dw ≠ 1) {out out' : Nat → Nat}
    (h : Densified m iw dw mem D out) (h' : Densified m iw dw mem D out') : ∀ n, n < cellCount iw dw → out n = out' n := by
  obtain ⟨x, hx, h⟩ := h
  obtain ⟨y, hy, h'⟩ := h'
  rw [hx] at hy
  cases hy
  have hinj : ∀ {I n : Nat}, reached .dense iw dw I = some n → I = n := by
    intro I n hr
    unfold reached at hr
    dsimp only at hr
    rw [if_neg h1] at hr
    split at hr
    · exact Option.some.inj hr
    · cases hr
  intro n hn
  rcases h n hn with ⟨h1, h2⟩ | ⟨I, hI, hne, hr, ho⟩
  · rcases h' n hn with ⟨h3, -⟩ | ⟨I, hI, hne, hr, ho⟩
    · rw [h1, h3]
    · exact absurd hr (h2 I hI hne)
  · rcases h' n hn with ⟨-, h4⟩ | ⟨J, hJ, hne', hr', ho'⟩
    · exact absurd hr (h4 I hI hne)
    · rw [ho, ho', hinj hr, hinj hr']

/-! ## Non-vacuity -/

/-- The hypotheses hold for operands that are not in normal form. -/
example : Admissible .dense 2 4 ∧ (∀ op ∈ [ConvOp.base (.store ⟨2, [9#64]⟩ ⟨4, [999#64]⟩), .makeDense, .toSparse], op.Fits 2 4) ∧
    (∀ op ∈ [ConvOp.base (.store ⟨2, [9#64]⟩ ⟨4, [999#64]⟩), .makeDense, .toSparse], op.NoWrap .debug 4) := by
  refine ⟨by unfold Admissible Addressable storageBytes; decide, fun op ho => ?_, fun op ho => ?_⟩ <;>
    simp only [List.mem_cons, List.not_mem_nil, or_false] at ho <;> rcases ho with rfl | rfl | rfl <;> try trivial
  · exact ⟨⟨by decide, rfl, rfl⟩, ⟨by decide, rfl, rfl⟩⟩
  · exact .inr (.inr (.inl (by decide)))

/-- An element at a stray index keeps a sparse array from becoming dense, in both builds. -/
example : (do let a ← newOf .sparse .release 2 (encode 0#8)
              let a ← runConv .release listEnv a [.base (.store ⟨2, [9#64]⟩ (encode 1#8)), .makeDense]
              a.select .release listEnv (encode 1#2)) = panic .bounds ∧
    DensePanics .release 2 8 (setCell (fun _ => 0) 9 1) 0 :=
  ⟨by decide, .inr ⟨9, by decide, by decide, by decide⟩⟩

/-- A byte that is not in normal form keeps a dense array from becoming sparse, in both builds. -/
example : (do let a ← newOf .dense .release 2 (encode 0#3)
              let a ← runConv .release listEnv a [.base (.store (encode 1#2) ⟨3, [8#64]⟩), .toSparse]
              a.select .release listEnv (encode 1#2)) = panic .bounds ∧
    SparsePanics 2 3 (setCell (fun _ => 0) 1 8) :=
  ⟨by decide, by unfold SparsePanics; exact ⟨by decide, by decide, 1, by decide, by decide⟩⟩

/-- A sparse array reads 1 from a one-bit element that holds 3, and 0 after becoming dense. -/
example : (do let a ← newOf .sparse .release 2 (encode 0#1)
              let a ← runConv .release listEnv a [.base (.store (encode 1#2) ⟨1, [3#64]⟩)]
              a.select .release listEnv (encode 1#2)) = ok (encode 1#1) ∧
    (do let a ← newOf .sparse .release 2 (encode 0#1)
        let a ← runConv .release listEnv a [.base (.store (encode 1#2) ⟨1, [3#64]⟩), .makeDense]
        a.select .release listEnv (encode 1#2)) = ok (encode 0#1) := by decide

end Baa

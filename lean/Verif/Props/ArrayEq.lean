import Verif.Props.ArrayConv

/-!
# Equality of arrays: C54, C55, C56
-/

namespace Baa
open Res

/-! ## C54: dense arrays -/

theorem DenseGen.select_iff (m : Mode) {iw dw : Nat} {a b : DenseArrayValue} {f g : BitVec iw → BitVec dw}
    (ha : DenseGen a f) (hb : DenseGen b g) (hdw : dw < 2 ^ 32) (hfg : f = g ∨ DenseInv a f ∧ DenseInv b g) :
    f = g ↔ ∀ i : BitVec iw, a.select m (encode i) = b.select m (encode i) := by
  constructor
  · rintro rfl i
    rcases ha with ha | ha
    · rcases hb with hb | hb
      · rw [ha.select_of, hb.select_of]
      · exfalso
        obtain ⟨-, ⟨rfl, -⟩ | ⟨rfl, h32, -⟩⟩ := hb
        · have := ha.data_pos
          omega
        · have hrep := ha.rep
          cases hdata : a.data with
          | bit v => rw [hdata] at hrep; have := hrep.2.1; omega
          | u8 l => rw [hdata] at hrep; exact absurd rfl hrep.1
          | u64 l => rw [hdata] at hrep; have := hrep.1; omega
          | big l => rw [hdata] at hrep; have := hrep.1; omega
    · rcases hb with hb | hb
      · exfalso
        obtain ⟨-, ⟨rfl, -⟩ | ⟨rfl, h32, -⟩⟩ := ha
        · have := hb.data_pos
          omega
        · have hrep := hb.rep
          cases hdata : b.data with
          | bit v => rw [hdata] at hrep; have := hrep.2.1; omega
          | u8 l => rw [hdata] at hrep; exact absurd rfl hrep.1
          | u64 l => rw [hdata] at hrep; have := hrep.1; omega
          | big l => rw [hdata] at hrep; have := hrep.1; omega
      · rw [ha.select_of, hb.select_of]
  · intro h
    rcases hfg with hfg | ⟨ha, hb⟩
    · exact hfg
    · funext i
      have := h i
      rw [ha.select_of, hb.select_of] at this
      exact encode_inj hdw (Res.ok.inj this)

/-- `is_equal` of two dense arrays of the same type returns `Some`, of `true` exactly if all reads agree, which is exactly if
the two arrays hold the same function. -/
theorem C54_dense_equal (m : Mode) (env : HashEnv) {iw dw : Nat} (hiw : iw < 2 ^ 32) (hdw : dw < 2 ^ 32)
    {a b : ArrayValue} {f g : BitVec iw → BitVec dw} (ha : Reachable m a f) (hb : Reachable m b g)
    (hda : a.isDense = true) (hdb : b.isDense = true) :
    ∃ r, a.isEqual m env b = ok (some r) ∧ a.eq m env b = ok r ∧
      (r = true ↔ ∀ i : BitVec iw, a.select m env (encode i) = b.select m env (encode i)) ∧ (r = true ↔ f = g) := by
  rcases ha.inv hiw hdw with ⟨d, rfl, hd⟩ | ⟨s, x, rfl, -⟩
  · rcases hb.inv hiw hdw with ⟨e, rfl, he⟩ | ⟨s, x, rfl, -⟩
    · obtain ⟨r, h1, h2⟩ := hd.isEqual_of m he
      refine ⟨r, h1, ?_, ?_, h2⟩
      · unfold ArrayValue.eq ArrayValue.isEqual
        dsimp only
        rw [h1]
        rfl
      · rw [h2]
        refine hd.select_iff m he hdw ?_
        by_cases hfg : f = g
        · exact .inl hfg
        · rcases hd with hd' | hd'
          · rcases he with he' | he'
            · exact .inr ⟨hd', he'⟩
            · obtain ⟨-, ⟨rfl, -⟩ | ⟨rfl, h32, -⟩⟩ := he'
              · exact .inl (funext fun i => by rw [BitVec.eq_nil (f i), BitVec.eq_nil (g i)])
              · have hrep := hd'.rep
                cases hdata : d.data with
                | bit v => rw [hdata] at hrep; have := hrep.2.1; omega
                | u8 l => rw [hdata] at hrep; exact absurd rfl hrep.1
                | u64 l => rw [hdata] at hrep; have := hrep.1; omega
                | big l => rw [hdata] at hrep; have := hrep.1; omega
          · obtain ⟨-, ⟨rfl, -⟩ | ⟨rfl, h32, -, hf⟩⟩ := hd'
            · exact .inl (funext fun i => by rw [BitVec.eq_nil (f i), BitVec.eq_nil (g i)])
            · rcases he with he' | ⟨-, ⟨h, -⟩ | ⟨-, -, -, hg⟩⟩
              · have hrep := he'.rep
                cases hdata : e.data with
                | bit v => rw [hdata] at hrep; have := hrep.2.1; omega
                | u8 l => rw [hdata] at hrep; exact absurd rfl hrep.1
                | u64 l => rw [hdata] at hrep; have := hrep.1; omega
                | big l => rw [hdata] at hrep; have := hrep.1; omega
              · omega
              · exact .inl (funext fun i => by rw [hf, hg])
    · cases hdb
  · cases hda

/-- For arrays of different types (in any representation) `is_equal` returns `None` and `==` returns `false`. -/
theorem C54_different_types (m : Mode) (env : HashEnv) (a b : ArrayValue)
    (h : a.indexWidth ≠ b.indexWidth ∨ a.dataWidth ≠ b.dataWidth) :
    a.isEqual m env b = ok none ∧ a.eq m env b = ok false := by
  have h1 : a.isEqual m env b = ok none := by
    unfold ArrayValue.isEqual
    cases a with
    | dense a =>
      cases b with
      | dense b =>
        dsimp only
        unfold DenseArrayValue.isEqual
        exact if_pos (h.imp Ne.symm Ne.symm)
      | sparse b =>
        dsimp only
        unfold isEqualMixed
        exact if_pos h
    | sparse a =>
      cases b with
      | dense b =>
        dsimp only
        unfold isEqualMixed
        exact if_pos (h.imp Ne.symm Ne.symm)
      | sparse b =>
        dsimp only
        unfold SparseArrayValue.isEqual
        exact if_pos (h.imp Ne.symm Ne.symm)
  refine ⟨h1, ?_⟩
  unfold ArrayValue.eq
  rw [h1]
  rfl

/-- Two arrays that differ in one element. -/
example (m : Mode) (env : HashEnv) : ∃ a b, ArrayValue.ofU8s m [1#8, 2#8] = ok a ∧ ArrayValue.ofU8s m [1#8, 3#8] = ok b ∧
    a.isEqual m env b = ok (some false) ∧ a.isEqual m env a = ok (some true) := by
  obtain ⟨d, h1, -⟩ := ofU8s_spec m [1#8, 2#8] (by decide) (iw := 1) (indexWidthFromLen_least 2)
  obtain ⟨e, h2, -⟩ := ofU8s_spec m [1#8, 3#8] (by decide) (iw := 1) (indexWidthFromLen_least 2)
  have hn : ArrayValue.ofU8s m [1#8, 2#8] = ok (.dense d) := by unfold ArrayValue.ofU8s; rw [h1]; rfl
  have hn' : ArrayValue.ofU8s m [1#8, 3#8] = ok (.dense e) := by unfold ArrayValue.ofU8s; rw [h2]; rfl
  have hr : Reachable m (.dense d) (fun i : BitVec 1 => [1#8, 2#8].getD i.toNat 0#8) :=
    .ofU8s _ _ (by decide) (indexWidthFromLen_least 2) hn
  have hr' : Reachable m (.dense e) (fun i : BitVec 1 => [1#8, 3#8].getD i.toNat 0#8) :=
    .ofU8s _ _ (by decide) (indexWidthFromLen_least 2) hn'
  obtain ⟨r, h3, -, -, h4⟩ := C54_dense_equal m env (by decide) (by decide) hr hr' rfl rfl
  obtain ⟨r', h3', -, -, h4'⟩ := C54_dense_equal m env (by decide) (by decide) hr hr rfl rfl
  refine ⟨_, _, hn, hn', ?_, ?_⟩
  · rw [h3]
    have : r = false := Bool.eq_false_iff.mpr fun h => by
      have := congrFun (h4.mp h) 1#1
      revert this
      decide
    rw [this]
  · rw [h3', h4'.mpr rfl]

/-! ## C55: sparse arrays -/

/-- The full claim: `is_equal` is `Some(true)` exactly if the two sparse arrays hold the same function. -/
def C55_statement : Prop :=
  ∀ (m : Mode) (env : HashEnv) (iw dw : Nat), iw < 2 ^ 32 → dw < 2 ^ 32 →
    ∀ (a b : ArrayValue) (f g : BitVec iw → BitVec dw), Reachable m a f → Reachable m b g → a.isSparse = true →
      b.isSparse = true → ∃ r, a.isEqual m env b = ok (some r) ∧ (r = true ↔ f = g)

/-- C55 for arrays with the same default. With different defaults the answer is always `Some(false)`. -/
theorem C55_sparse_equal_partial (m : Mode) (env : HashEnv) {iw dw : Nat} (hiw : iw < 2 ^ 32) (hdw : dw < 2 ^ 32)
    {a b : SparseArrayValue} {f g : BitVec iw → BitVec dw} (ha : Reachable m (.sparse a) f)
    (hb : Reachable m (.sparse b) g) :
    ∃ r, (ArrayValue.sparse a).isEqual m env (.sparse b) = ok (some r) ∧
      (ArrayValue.sparse a).eq m env (.sparse b) = ok r ∧ (r = true ↔ a.default m = b.default m ∧ f = g) := by
  rcases ha.inv hiw hdw with ⟨d, h, -⟩ | ⟨s, x, h, hs⟩
  · cases h
  · cases h
    rcases hb.inv hiw hdw with ⟨d, h, -⟩ | ⟨s', y, h, ht⟩
    · cases h
    · cases h
      obtain ⟨r, h1, h2⟩ := hs.isEqual_of m env ht
      refine ⟨r, h1, ?_, ?_⟩
      · unfold ArrayValue.eq ArrayValue.isEqual
        dsimp only
        rw [h1]
        rfl
      · rw [h2]
        have hd : a.default m = b.default m ↔ x = y := by
          by_cases hpos : 0 < dw
          · rw [hs.default_of m hpos, ht.default_of m hpos]
            exact ⟨fun h => encode_inj hdw (Res.ok.inj h), fun h => by rw [h]⟩
          · have h0 : dw = 0 := by omega
            subst h0
            have hxy : x = y := by rw [BitVec.eq_nil x, BitVec.eq_nil y]
            refine ⟨fun _ => hxy, fun _ => ?_⟩
            have hra := hs.rep
            have hrb := ht.rep
            unfold SparseArrayValue.default
            rw [hs.dataWidth, ht.dataWidth]
            cases hda : a.data <;> cases hdb : b.data <;> rw [hda] at hra <;> rw [hdb] at hrb
            case u64u64.u64u64 => rfl
            case bigbig.bigbig => dsimp only; rw [hra.2.1, hrb.2.1, hxy]
            all_goals
              exfalso
              obtain ⟨h1, h2, -⟩ := hra
              obtain ⟨h3, h4, -⟩ := hrb
              omega
        rw [hd]

/-- In terms of reads (for arrays that can be read): with equal defaults, `is_equal` says whether all reads agree. -/
theorem C55_sparse_equal_reads_partial (m : Mode) (env : HashEnv) {iw dw : Nat} (hiw : iw ≤ 64) (hpos : 0 < dw)
    (hdw : dw < 2 ^ 32) {a b : SparseArrayValue} {f g : BitVec iw → BitVec dw} (ha : Reachable m (.sparse a) f)
    (hb : Reachable m (.sparse b) g) (hd : a.default m = b.default m) :
    ∃ r, (ArrayValue.sparse a).isEqual m env (.sparse b) = ok (some r) ∧
      (r = true ↔ ∀ i : BitVec iw, (ArrayValue.sparse a).select m env (encode i) = (ArrayValue.sparse b).select m env (encode i)) := by
  obtain ⟨r, h1, -, h2⟩ := C55_sparse_equal_partial m env (by omega) hdw ha hb
  refine ⟨r, h1, ?_⟩
  rw [h2]
  rcases ha.inv (by omega) hdw with ⟨d, h, -⟩ | ⟨s, x, h, hs⟩
  · cases h
  · cases h
    rcases hb.inv (by omega) hdw with ⟨d, h, -⟩ | ⟨s', y, h, ht⟩
    · cases h
    · cases h
      constructor
      · rintro ⟨-, rfl⟩ i
        exact (hs.select_of m env hpos hiw i).trans (ht.select_of m env hpos hiw i).symm
      · intro h
        refine ⟨hd, funext fun i => ?_⟩
        have := ((hs.select_of m env hpos hiw i).symm.trans (h i)).trans (ht.select_of m env hpos hiw i)
        exact encode_inj hdw (Res.ok.inj this)

/-- `Some(true)` is never wrong. -/
theorem C55_equal_sound (m : Mode) (env : HashEnv) {iw dw : Nat} (hiw : iw < 2 ^ 32) (hdw : dw < 2 ^ 32)
    {a b : SparseArrayValue} {f g : BitVec iw → BitVec dw} (ha : Reachable m (.sparse a) f)
    (hb : Reachable m (.sparse b) g) (h : (ArrayValue.sparse a).isEqual m env (.sparse b) = ok (some true)) : f = g := by
  obtain ⟨r, h1, -, h2⟩ := C55_sparse_equal_partial m env hiw hdw ha hb
  rw [h] at h1
  cases h1
  exact (h2.mp rfl).2

/-- The full claim is false: a one-element array with default 0 into which 1 was stored, and one with default 1. -/
theorem C55_refuted : ¬ C55_statement := by
  intro h
  have hr : Reachable .release (.sparse ⟨0, 1, .u64u64 0#64 ⟨[(0#64, 1#64)]⟩⟩) (update (fun _ => 0#1) 0#0 1#1) :=
    .store (env := listEnv) _ (.sparse ⟨0, 1, .u64u64 0#64 HMap.empty⟩) _ _ _ (.newSparse _ _ rfl) rfl
  have hr' : Reachable .release (.sparse ⟨0, 1, .u64u64 1#64 HMap.empty⟩) (fun _ : BitVec 0 => 1#1) :=
    .newSparse _ _ rfl
  obtain ⟨r, h1, h2⟩ := h .release listEnv 0 1 (by decide) (by decide) _ _ _ _ hr hr' rfl rfl
  have h3 : r = true := h2.mpr (funext fun i => by exact if_pos (BitVec.eq_nil i))
  subst h3
  cases h1

/-- Two histories that lead to the same contents give equal arrays. -/
example (m : Mode) (env : HashEnv) : ∃ a b c, ArrayValue.newSparse 3 (encode 0#8) = ok a ∧
    a.store m env (encode 1#3) (encode 9#8) = ok b ∧ b.store m env (encode 1#3) (encode 0#8) = ok c ∧
    c.isEqual m env a = ok (some true) ∧ b.isEqual m env a = ok (some false) := by
  obtain ⟨s, h1, h2⟩ := sparse_new (iw := 3) (dw := 8) (by decide) (by decide) 0#8
  have hn : ArrayValue.newSparse 3 (encode 0#8) = ok (.sparse s) := by unfold ArrayValue.newSparse; rw [h1]; rfl
  obtain ⟨s1, h3, h4⟩ := h2.store_of m env (by decide) 1#3 9#8
  obtain ⟨s2, h5, h6⟩ := h4.store_of m env (by decide) 1#3 0#8
  have hst : ∀ {s s' : SparseArrayValue} {i v}, s.store m env i v = ok s' →
      (ArrayValue.sparse s).store m env i v = ok (.sparse s') := fun h => by
    unfold ArrayValue.store; dsimp only; rw [h]; rfl
  have hr : Reachable m (.sparse s) (fun _ : BitVec 3 => 0#8) := .newSparse _ _ hn
  have hr1 := Reachable.store _ _ _ _ _ hr (hst h3)
  have hr2 := Reachable.store _ _ _ _ _ hr1 (hst h5)
  obtain ⟨r, h7, -, h8⟩ := C55_sparse_equal_partial m env (by decide) (by decide) hr2 hr
  obtain ⟨r', h9, -, h10⟩ := C55_sparse_equal_partial m env (by decide) (by decide) hr1 hr
  refine ⟨_, _, _, hn, hst h3, hst h5, ?_, ?_⟩
  · rw [h7, h8.mpr ⟨by rw [h6.default_of m (by decide), h2.default_of m (by decide)], by
      funext i
      simp only [update]
      split
      · rfl
      · rfl⟩]
  · have : r' = false := Bool.eq_false_iff.mpr fun h => by
      have := congrFun (h10.mp h).2 1#3
      revert this
      decide
    rw [h9, this]

/-! ## C56: mixed representations -/

/-- The full claim: in either argument order `is_equal` of a dense and a sparse array says whether they hold the same
function, provided that the dense form is allowed (in a debug build: at most 1 GiB). -/
def C56_statement : Prop :=
  ∀ (m : Mode) (env : HashEnv) (iw dw : Nat), iw < 2 ^ 32 → dw < 2 ^ 32 → Addressable iw dw →
    (m = .release ∨ storageBytes iw dw ≤ 2 ^ 30) →
    ∀ (a b : ArrayValue) (f g : BitVec iw → BitVec dw), Reachable m a f → Reachable m b g → a.isDense = true →
      b.isSparse = true →
      ∃ r, a.isEqual m env b = ok (some r) ∧ b.isEqual m env a = ok (some r) ∧ (r = true ↔ f = g)

/-- C56 for data of up to 64 bits, and for wider data in release builds; without the unreadable shapes of C49. -/
theorem C56_mixed_equal_partial (m : Mode) (env : HashEnv) {iw dw : Nat} (hpos : 0 < dw) (hdw : dw < 2 ^ 32)
    (had : Addressable iw dw) (hg : m = .release ∨ storageBytes iw dw ≤ 2 ^ 30) (hbit : dw ≠ 1 ∨ iw < 32)
    (hok : dw ≤ 64 ∨ m = .release) {a b : ArrayValue} {f g : BitVec iw → BitVec dw} (ha : Reachable m a f)
    (hb : Reachable m b g) (hda : a.isDense = true) (hsb : b.isSparse = true) :
    ∃ r, a.isEqual m env b = ok (some r) ∧ b.isEqual m env a = ok (some r) ∧ a.eq m env b = ok r ∧ b.eq m env a = ok r ∧
      (r = true ↔ f = g) ∧
      (r = true ↔ ∀ i : BitVec iw, a.select m env (encode i) = b.select m env (encode i)) := by
  have hlt := had.1
  rcases ha.inv (by omega) hdw with ⟨d, rfl, hd⟩ | ⟨s, x, rfl, -⟩
  · rcases hb.inv (by omega) hdw with ⟨e, rfl, -⟩ | ⟨s, x, rfl, hs⟩
    · cases hsb
    · replace hd : DenseInv d f := by
        rcases hd with hd | ⟨-, ⟨h0, -⟩ | ⟨h1, h32, -⟩⟩
        · exact hd
        · omega
        · omega
      obtain ⟨e, h1, h2⟩ := ofSparse_spec m env hs hpos had hbit
        (hg.imp_right fun h => Nat.le_trans (guardSize_le_storageBytes iw dw) h) (hok.imp_right .inl)
      obtain ⟨r, h3, h4⟩ := h2.isEqual_of m hd
      have hmix : isEqualMixed m env d s = ok (some r) := by
        unfold isEqualMixed
        rw [if_neg (by rw [hd.indexWidth, hd.dataWidth, hs.indexWidth, hs.dataWidth]; simp), h1, ok_bind, h3]
      refine ⟨r, hmix, hmix, ?_, ?_, h4.trans ⟨Eq.symm, Eq.symm⟩, ?_⟩
      · unfold ArrayValue.eq ArrayValue.isEqual
        dsimp only
        rw [hmix]
        rfl
      · unfold ArrayValue.eq ArrayValue.isEqual
        dsimp only
        rw [hmix]
        rfl
      · rw [h4]
        constructor
        · rintro rfl i
          exact (hd.select_of m i).trans (hs.select_of m env hpos (by omega) i).symm
        · intro h
          funext i
          have := ((hd.select_of m i).symm.trans (h i)).trans (hs.select_of m env hpos (by omega) i)
          exact (encode_inj hdw (Res.ok.inj this)).symm
  · cases hda

/-- What happens to wider data in a debug build: the comparison panics if the sparse array has an element different from its
default. -/
theorem C56_wide_debug_panics (env : HashEnv) {iw dw : Nat} (hdw : dw < 2 ^ 32) (had : Addressable iw dw) (hwide : 64 < dw)
    {d : DenseArrayValue} {s : SparseArrayValue} {f g : BitVec iw → BitVec dw} (ha : Reachable .debug (.dense d) f)
    (hb : Reachable .debug (.sparse s) g) {x : BitVec dw} (hx : s.default .debug = ok (encode x)) {i : BitVec iw}
    (hi : g i ≠ x) :
    Panics ((ArrayValue.dense d).isEqual .debug env (.sparse s)) ∧ Panics ((ArrayValue.sparse s).isEqual .debug env (.dense d)) := by
  have hlt := had.1
  rcases ha.inv (by omega) hdw with ⟨d', h, hd⟩ | ⟨s, x, h, -⟩
  · cases h
    rcases hb.inv (by omega) hdw with ⟨e, h, -⟩ | ⟨s', x', h, hs⟩
    · cases h
    · cases h
      cases hs.default_eq .debug hx
      have : Panics (isEqualMixed .debug env d s) := by
        obtain ⟨p, hp⟩ := ofSparse_wide_debug env hs hwide hi had
        unfold isEqualMixed
        rw [if_neg (by rw [hd.indexWidth, hd.dataWidth, hs.indexWidth, hs.dataWidth]; simp), hp]
        exact ⟨p, rfl⟩
      exact ⟨this, this⟩
  · cases h

/-- The full claim is false: a debug build panics for two 65-bit elements. -/
theorem C56_refuted : ¬ C56_statement := by
  intro h
  obtain ⟨s, h1, h2⟩ := sparse_new (iw := 1) (dw := 65) (by decide) (by decide) 0#65
  obtain ⟨s', h3, h4⟩ := h2.store_of .debug listEnv (by decide) 1#1 1#65
  have hr : Reachable .debug (.sparse s') (update (fun _ => 0#65) 1#1 1#65) :=
    .store _ (.sparse s) _ _ _ (.newSparse _ _ (by unfold ArrayValue.newSparse; rw [h1]; rfl))
      (by unfold ArrayValue.store; dsimp only; rw [h3]; rfl)
  have ha : Addressable 1 65 := ⟨by decide, by decide⟩
  obtain ⟨d, h5, h6⟩ := dense_new .debug (iw := 1) 0#65 (by decide) (by decide) ha (.inl (by decide))
  rw [debugAssert_decide_of (by decide +kernel), ok_bind] at h5
  have hr' : Reachable .debug (.dense d) (fun _ : BitVec 1 => 0#65) :=
    .newDense _ _ ha (by unfold ArrayValue.newDense; rw [h5]; rfl)
  obtain ⟨r, h7, -⟩ := h .debug listEnv 1 65 (by decide) (by decide) ha (.inr (by decide)) _ _ _ _ hr' hr rfl rfl
  exact not_panics (C56_wide_debug_panics listEnv (by decide) ha (by decide) hr' hr (h4.default_of .debug (by decide))
    (i := 1#1) (by decide)).1 h7

/-- A dense and a sparse array of the same contents. -/
example (m : Mode) (env : HashEnv) : ∃ a b c, ArrayValue.ofU8s m [0#8, 9#8] = ok a ∧
    ArrayValue.newSparse 1 (encode 0#8) = ok b ∧ b.store m env (encode 1#1) (encode 9#8) = ok c ∧
    a.isEqual m env c = ok (some true) ∧ c.isEqual m env a = ok (some true) := by
  obtain ⟨d, h1, -⟩ := ofU8s_spec m [0#8, 9#8] (by decide) (iw := 1) (indexWidthFromLen_least 2)
  have hn : ArrayValue.ofU8s m [0#8, 9#8] = ok (.dense d) := by unfold ArrayValue.ofU8s; rw [h1]; rfl
  have hr : Reachable m (.dense d) (fun i : BitVec 1 => [0#8, 9#8].getD i.toNat 0#8) :=
    .ofU8s _ _ (by decide) (indexWidthFromLen_least 2) hn
  obtain ⟨s, h2, h3⟩ := sparse_new (iw := 1) (dw := 8) (by decide) (by decide) 0#8
  have hn' : ArrayValue.newSparse 1 (encode 0#8) = ok (.sparse s) := by unfold ArrayValue.newSparse; rw [h2]; rfl
  obtain ⟨s', h4, -⟩ := h3.store_of m env (by decide) 1#1 9#8
  have hst : (ArrayValue.sparse s).store m env (encode 1#1) (encode 9#8) = ok (.sparse s') := by
    unfold ArrayValue.store; dsimp only; rw [h4]; rfl
  have hr' : Reachable m (.sparse s') (update (fun _ : BitVec 1 => 0#8) 1#1 9#8) :=
    .store _ _ _ _ _ (.newSparse _ _ hn') hst
  obtain ⟨r, h5, h6, -, -, h7, -⟩ := C56_mixed_equal_partial m env (by decide) (by decide) ⟨by decide, by decide⟩
    (.inr (by decide)) (.inl (by decide)) (.inl (by decide)) hr hr' rfl rfl
  have : r = true := h7.mpr (by
    funext i
    revert i
    decide)
  subst this
  exact ⟨_, _, _, hn, hn', hst, h5, h6⟩

end Baa

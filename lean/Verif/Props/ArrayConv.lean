import Verif.Props.Arrays
import Verif.Spec.Arrays

/-!
# Conversions and entry lists of arrays: C52, C53, C57
-/

namespace Baa
open Res

/-! ## C52: `make_dense` -/

/-- The full claim: `make_dense` succeeds on every array whose dense form is allowed (in a debug build: at most 1 GiB), makes
it dense and does not change any read. -/
def C52_statement : Prop :=
  ∀ (m : Mode) (env : HashEnv) (iw dw : Nat) (a : ArrayValue) (f : BitVec iw → BitVec dw), iw < 2 ^ 32 → dw < 2 ^ 32 →
    Reachable m a f → Addressable iw dw → (m = .release ∨ storageBytes iw dw ≤ 2 ^ 30) →
    ∃ b, a.makeDense m env = ok b ∧ b.isDense = true ∧
      ∀ i : BitVec iw, b.select m env (encode i) = a.select m env (encode i)

theorem guardSize_le_storageBytes (iw dw : Nat) : guardSize iw dw ≤ storageBytes iw dw := by
  unfold guardSize storageBytes
  split
  · exact Nat.le_refl _
  · split
    · exact Nat.le_refl _
    · refine Nat.mul_le_mul_left _ ?_
      split <;> omega

/-- C52 for data of up to 64 bits, and for wider data in release builds; without the unreadable shapes of C49. -/
theorem C52_make_dense_partial (m : Mode) (env : HashEnv) {iw dw : Nat} {a : ArrayValue} {f : BitVec iw → BitVec dw}
    (hdw : dw < 2 ^ 32) (hr : Reachable m a f) (ha : Addressable iw dw)
    (hg : m = .release ∨ storageBytes iw dw ≤ 2 ^ 30) (hpos : 0 < dw) (hb : dw ≠ 1 ∨ iw < 32)
    (hok : dw ≤ 64 ∨ m = .release) :
    ∃ b, a.makeDense m env = ok b ∧ b.isDense = true ∧ Reads m env b f ∧
      ∀ i : BitVec iw, b.select m env (encode i) = a.select m env (encode i) := by
  have hlt := ha.1
  rcases hr.inv (by omega) hdw with ⟨d, rfl, hd⟩ | ⟨s, x, rfl, hs⟩
  · refine ⟨.dense d, rfl, rfl, ?_, fun i => rfl⟩
    rcases hd with hd | ⟨-, ⟨h0, -⟩ | ⟨h1, h32, -⟩⟩
    · exact hd.reads
    · omega
    · omega
  · obtain ⟨d, h1, h2⟩ := ofSparse_spec m env hs hpos ha hb
      (hg.imp_right fun h => Nat.le_trans (guardSize_le_storageBytes iw dw) h) (hok.imp_right .inl)
    refine ⟨.dense d, ?_, rfl, h2.reads, fun i => ?_⟩
    · unfold ArrayValue.makeDense
      dsimp only
      rw [h1]
      rfl
    · exact (h2.select_of m i).trans (hs.select_of m env hpos (by omega) i).symm

/-- What happens to wider data in a debug build: `make_dense` panics on every sparse array that has an element different from
its default. -/
theorem C52_wide_debug_panics (env : HashEnv) {iw dw : Nat} {s : SparseArrayValue} {f : BitVec iw → BitVec dw}
    (hdw : dw < 2 ^ 32) (hr : Reachable .debug (.sparse s) f) (ha : Addressable iw dw) (hwide : 64 < dw) {x : BitVec dw}
    (hx : s.default .debug = ok (encode x)) {i : BitVec iw} (hi : f i ≠ x) :
    Panics ((ArrayValue.sparse s).makeDense .debug env) := by
  have hlt := ha.1
  rcases hr.inv (by omega) hdw with ⟨d, h, -⟩ | ⟨s', x', h, hs⟩
  · cases h
  · cases h
    have := hs.default_of .debug (by omega)
    rw [hx] at this
    cases encode_inj hdw (Res.ok.inj this)
    obtain ⟨p, hp⟩ := ofSparse_wide_debug env hs hwide hi ha
    unfold ArrayValue.makeDense
    dsimp only
    rw [hp]
    exact ⟨p, rfl⟩

/-- `make_dense` never changes the contents, whenever it succeeds. -/
theorem C52_make_dense_sound (m : Mode) (env : HashEnv) {iw dw : Nat} {a b : ArrayValue} {f : BitVec iw → BitVec dw}
    (hdw : dw < 2 ^ 32) (hr : Reachable m a f) (ha : Addressable iw dw) (hm : a.makeDense m env = ok b) (i : BitVec iw)
    {r : BitVecValue} (hs : b.select m env (encode i) = ok r) : Denotes r (f i) := by
  have hlt := ha.1
  rcases (Reachable.makeDense f a b ha hr hm).inv (by omega) hdw with ⟨d, rfl, hd⟩ | ⟨s, x, rfl, hi⟩
  · rcases hd with hd | hd
    · cases (hd.select_of m i).symm.trans hs
      exact encode_denotes _ hdw
    · cases (hd.select_of m i).symm.trans hs
  · cases a with
    | dense d => cases hm
    | sparse s' =>
      obtain ⟨_, -, h⟩ := of_bind_ok hm
      cases h

/-- The full claim is false: a debug build panics for a sparse array of two 65-bit elements, one of which was stored. -/
theorem C52_refuted : ¬ C52_statement := by
  intro h
  obtain ⟨s, h1, h2⟩ := sparse_new (iw := 1) (dw := 65) (by decide) (by decide) 0#65
  obtain ⟨s', h3, h4⟩ := h2.store_of .debug listEnv (by decide) 1#1 1#65
  have hr : Reachable .debug (.sparse s') (update (fun _ => 0#65) 1#1 1#65) :=
    .store _ (.sparse s) _ _ _ (.newSparse _ _ (by unfold ArrayValue.newSparse; rw [h1]; rfl))
      (by unfold ArrayValue.store; dsimp only; rw [h3]; rfl)
  have ha : Addressable 1 65 := ⟨by decide, by decide⟩
  obtain ⟨b, h5, -⟩ := h .debug listEnv 1 65 _ _ (by decide) (by decide) hr ha (.inr (by decide))
  exact not_panics (C52_wide_debug_panics listEnv (by decide) hr ha (by decide) (h4.default_of .debug (by decide))
    (i := 1#1) (by decide)) h5

/-- A sparse array with a stored element meets the hypotheses. -/
example (m : Mode) (env : HashEnv) : ∃ a b c, ArrayValue.newSparse 4 (encode 3#16) = ok a ∧
    a.store m env (encode 9#4) (encode 77#16) = ok b ∧ b.makeDense m env = ok c ∧
    c.select m env (encode 9#4) = ok (encode 77#16) ∧ c.select m env (encode 8#4) = ok (encode 3#16) := by
  obtain ⟨s, h1, h2⟩ := sparse_new (iw := 4) (dw := 16) (by decide) (by decide) 3#16
  obtain ⟨s', h3, h4⟩ := h2.store_of m env (by decide) 9#4 77#16
  have hn : ArrayValue.newSparse 4 (encode 3#16) = ok (.sparse s) := by unfold ArrayValue.newSparse; rw [h1]; rfl
  have hst : (ArrayValue.sparse s).store m env (encode 9#4) (encode 77#16) = ok (.sparse s') := by
    unfold ArrayValue.store; dsimp only; rw [h3]; rfl
  obtain ⟨c, h5, -, h6, -⟩ := C52_make_dense_partial m env (by decide)
    (.store _ (.sparse s) _ _ _ (.newSparse 3#16 _ hn) hst) ⟨by decide, by decide⟩ (.inr (by decide)) (by decide)
    (.inl (by decide)) (.inl (by decide))
  refine ⟨_, _, c, hn, hst, h5, ?_, ?_⟩
  · obtain ⟨r, h7, h8⟩ := h6 9#4 _ (encode_denotes _ (by decide))
    rw [h7, h8.eq_encode]
    rfl
  · obtain ⟨r, h7, h8⟩ := h6 8#4 _ (encode_denotes _ (by decide))
    rw [h7, h8.eq_encode]
    rfl

/-! ## C53: conversion to a sparse array -/

/-- The full claim: converting to a sparse array succeeds and does not change any read. -/
def C53_statement : Prop :=
  ∀ (m : Mode) (env : HashEnv) (iw dw : Nat) (a : ArrayValue) (f : BitVec iw → BitVec dw), iw < 2 ^ 32 → dw < 2 ^ 32 →
    Reachable m a f →
    ∃ s, a.toSparse m env = ok s ∧
      ∀ i : BitVec iw, (ArrayValue.sparse s).select m env (encode i) = a.select m env (encode i)

/-- C53 for dense arrays of 1-bit data, of data wider than 8 bits, and of 2- to 8-bit data whose elements are all below 8;
without the unreadable shapes of C49. -/
theorem C53_to_sparse_partial (m : Mode) (env : HashEnv) {iw dw : Nat} {d : DenseArrayValue} {f : BitVec iw → BitVec dw}
    (hiw : iw < 2 ^ 32) (hdw : dw < 2 ^ 32) (hr : Reachable m (.dense d) f) (hpos : 0 < dw) (hb : dw ≠ 1 ∨ iw < 32)
    (hok : dw = 1 ∨ 8 < dw ∨ ∀ i, (f i).toNat < 8) :
    ∃ s, (ArrayValue.dense d).toSparse m env = ok s ∧ Reads m env (.sparse s) f ∧
      ∀ i : BitVec iw, (ArrayValue.sparse s).select m env (encode i) = (ArrayValue.dense d).select m env (encode i) := by
  rcases hr.inv hiw hdw with ⟨d', h, hd⟩ | ⟨s, x, h, -⟩
  · cases h
    rcases hd with hd | ⟨-, ⟨h0, -⟩ | ⟨h1, h32, -⟩⟩
    · have hlt := hd.index_lt
      obtain ⟨s, x, h1, h2⟩ := toSparse_spec m env hd hok
      exact ⟨s, h1, h2.reads hpos (by omega), fun i =>
        (h2.select_of m env hpos (by omega) i).trans (hd.select_of m i).symm⟩
    · omega
    · omega
  · cases h

/-- A sparse array is returned as it is. -/
theorem C53_sparse_unchanged (m : Mode) (env : HashEnv) (s : SparseArrayValue) : (ArrayValue.sparse s).toSparse m env = ok s :=
  rfl

/-- What happens to the excluded data: the conversion panics if an element of 2- to 8-bit data is 8 or more. -/
theorem C53_u8_panics (m : Mode) (env : HashEnv) {iw dw : Nat} {d : DenseArrayValue} {f : BitVec iw → BitVec dw}
    (hiw : iw < 2 ^ 32) (hdw : dw < 2 ^ 32) (hr : Reachable m (.dense d) f) (h1 : dw ≠ 1) (h8 : dw ≤ 8) {i : BitVec iw}
    (hi : 8 ≤ (f i).toNat) : Panics ((ArrayValue.dense d).toSparse m env) := by
  rcases hr.inv hiw hdw with ⟨d', h, hd⟩ | ⟨s, x, h, -⟩
  · cases h
    rcases hd with hd | hd
    · exact toSparse_u8_panics m env hd h1 h8 hi
    · exact hd.toSparse_of m env
  · cases h

/-- Whenever the conversion succeeds, the contents are the same, for all shapes. -/
theorem C53_to_sparse_sound (m : Mode) (env : HashEnv) {iw dw : Nat} {a : ArrayValue} {s : SparseArrayValue}
    {f : BitVec iw → BitVec dw} (hiw : iw ≤ 64) (hpos : 0 < dw) (hdw : dw < 2 ^ 32) (hr : Reachable m a f)
    (hs : a.toSparse m env = ok s) : Reads m env (.sparse s) f := by
  rcases (Reachable.toSparse f a s hr hs).inv (by omega) hdw with ⟨d, h, -⟩ | ⟨s', x, h, hi⟩
  · cases h
  · cases h
    exact hi.reads hpos hiw

/-- The full claim is false: one byte of value 8 is enough. -/
theorem C53_refuted : ¬ C53_statement := by
  intro h
  have ha : Addressable 0 8 := ⟨by decide, by decide⟩
  have hr : Reachable .release (.dense ⟨0, 8, .u8 [8#8]⟩) (fun _ : BitVec 0 => 8#8) :=
    .newDense _ _ ha rfl
  obtain ⟨s, h1, -⟩ := h .release listEnv 0 8 _ _ (by decide) (by decide) hr
  exact not_panics (C53_u8_panics .release listEnv (by decide) (by decide) hr (by decide) (by decide) (i := 0#0) (by decide)) h1

/-- A dense array of words meets the hypotheses. -/
example (m : Mode) (env : HashEnv) : ∃ a s, ArrayValue.ofU64s m [7#64, 9#64, 7#64] = ok a ∧ a.toSparse m env = ok s ∧
    s.select m env (encode 1#2) = ok (encode 9#64) ∧ s.select m env (encode 2#2) = ok (encode 7#64) := by
  obtain ⟨d, h1, h2⟩ := ofU64s_spec m [7#64, 9#64, 7#64] (by decide) (iw := 2) (indexWidthFromLen_least 3)
  have hn : ArrayValue.ofU64s m [7#64, 9#64, 7#64] = ok (.dense d) := by unfold ArrayValue.ofU64s; rw [h1]; rfl
  obtain ⟨s, h3, h4, -⟩ := C53_to_sparse_partial m env (by decide) (by decide)
    (.ofU64s [7#64, 9#64, 7#64] _ (by decide) (indexWidthFromLen_least 3) hn) (by decide) (.inl (by decide))
    (.inr (.inl (by decide)))
  refine ⟨_, s, hn, h3, ?_, ?_⟩
  · obtain ⟨r, h7, h8⟩ := h4 1#2 _ (encode_denotes _ (by decide))
    exact h7.trans (by rw [h8.eq_encode]; decide +kernel)
  · obtain ⟨r, h7, h8⟩ := h4 2#2 _ (encode_denotes _ (by decide))
    exact h7.trans (by rw [h8.eq_encode]; decide +kernel)

/-! ## C57: the entries of a sparse array -/

/-- The full claim, where the default is what `default` returns. -/
def C57_statement : Prop :=
  ∀ (m : Mode) (env : HashEnv) (iw dw : Nat) (s : SparseArrayValue) (f : BitVec iw → BitVec dw) (x : BitVec dw),
    iw < 2 ^ 32 → dw < 2 ^ 32 → Reachable m (.sparse s) f → s.default m = ok (encode x) →
    ∃ l, s.nonDefaultEntries m env = ok l ∧ ListsEntries l f x

theorem mapRes_ok {α β : Type} {g : α → Res β} {p : α → β} (l : List α) (h : ∀ a ∈ l, g a = ok (p a)) :
    SparseArrayValue.mapRes g l = ok (l.map p) := by
  induction l with
  | nil => rfl
  | cons a l ih =>
    unfold SparseArrayValue.mapRes
    rw [h a (by simp), ok_bind, ih (fun b hb => h b (by simp [hb])), ok_bind]
    rfl

theorem SparseInv.default_eq (m : Mode) {iw dw : Nat} {s : SparseArrayValue} {f : BitVec iw → BitVec dw} {x y : BitVec dw}
    (h : SparseInv s f x) (hy : s.default m = ok (encode y)) : x = y := by
  by_cases hpos : 0 < dw
  · have := h.default_of m hpos
    rw [hy] at this
    exact (encode_inj h.data_lt (Res.ok.inj this)).symm
  · have h0 : dw = 0 := by omega
    subst h0
    rw [BitVec.eq_nil x, BitVec.eq_nil y]

/-- Turning a list of map entries into a list of pairs of values. -/
theorem listsEntries_of {iw dw : Nat} {K V : Type} [DecidableEq K] {ek : BitVec iw → K} {ev : BitVec dw → V} {map : HMap K V}
    {f : BitVec iw → BitVec dw} {x : BitVec dw} (hiw : iw < 2 ^ 32) (hdw : dw < 2 ^ 32) (hm : MapRep ek ev map f x)
    (env : HashEnv) (l : List (BitVecValue × BitVecValue))
    (hl : ∃ p : K × V → BitVecValue × BitVecValue, l = (env.order map.entries).map p ∧
      ∀ i, f i ≠ x → p (ek i, ev (f i)) = (encode i, encode (f i))) : ListsEntries l f x := by
  obtain ⟨p, rfl, hp⟩ := hl
  have hmem : ∀ e, e ∈ env.order map.entries ↔ ∃ i, f i ≠ x ∧ e = (ek i, ev (f i)) := by
    intro e
    rw [(env.order_perm _).mem_iff, show e = (e.1, e.2) from rfl, hm.mem_iff]
    constructor
    · rintro ⟨i, h1, h2, h3⟩
      exact ⟨i, h1, by rw [h2, h3]⟩
    · rintro ⟨i, h1, h2⟩
      exact ⟨i, h1, congrArg Prod.fst h2, congrArg Prod.snd h2⟩
  constructor
  · rw [List.map_map]
    have hnd : ((env.order map.entries).map Prod.fst).Nodup :=
      ((env.order_perm map.entries).map Prod.fst).nodup_iff.mpr hm.nodup
    revert hnd hmem
    generalize env.order map.entries = es
    intro hmem hnd
    have hsub : ∀ e ∈ es, ∃ i, f i ≠ x ∧ e = (ek i, ev (f i)) := fun e he => (hmem e).mp he
    clear hmem
    induction es with
    | nil => exact List.nodup_nil
    | cons e es ih =>
      rw [List.map_cons, List.nodup_cons] at hnd ⊢
      refine ⟨fun hin => hnd.1 ?_, ih hnd.2 fun e he => hsub e (by simp [he])⟩
      obtain ⟨e', he', heq⟩ := List.mem_map.mp hin
      obtain ⟨i, hi, rfl⟩ := hsub e (by simp)
      obtain ⟨j, hj, rfl⟩ := hsub e' (by simp [he'])
      simp only [Function.comp_apply, hp i hi, hp j hj] at heq
      have := encode_inj hiw heq
      subst this
      exact List.mem_map.mpr ⟨_, he', rfl⟩
  · intro k v
    rw [List.mem_map]
    constructor
    · rintro ⟨e, he, heq⟩
      obtain ⟨i, hi, rfl⟩ := (hmem e).mp he
      rw [hp i hi] at heq
      cases heq
      exact ⟨i, hi, encode_denotes _ hiw, encode_denotes _ hdw⟩
    · rintro ⟨i, hi, hk, hv⟩
      refine ⟨_, (hmem _).mpr ⟨i, hi, rfl⟩, ?_⟩
      rw [hp i hi, hk.eq_encode, hv.eq_encode]

/-- C57 for index widths that are not zero. -/
theorem C57_entries_partial (m : Mode) (env : HashEnv) {iw dw : Nat} {s : SparseArrayValue} {f : BitVec iw → BitVec dw}
    {x : BitVec dw} (hpos : 0 < iw) (hiw : iw < 2 ^ 32) (hdw : dw < 2 ^ 32) (hr : Reachable m (.sparse s) f)
    (hx : s.default m = ok (encode x)) : ∃ l, s.nonDefaultEntries m env = ok l ∧ ListsEntries l f x := by
  rcases hr.inv hiw hdw with ⟨d, h, -⟩ | ⟨s', x', h, hs⟩
  · cases h
  · cases h
    cases hs.default_eq m hx
    have hrep := hs.rep
    unfold SparseArrayValue.nonDefaultEntries
    rw [hs.indexWidth, hs.dataWidth]
    cases hdata : s.data with
    | u64u64 d map =>
      rw [hdata] at hrep
      obtain ⟨h1, h2, h3, hm⟩ := hrep
      dsimp only
      refine ⟨_, mapRes_ok (p := fun e => (encode (e.1.setWidth iw), encode (e.2.setWidth dw))) _ ?_,
        listsEntries_of hiw hdw hm env _ ⟨_, rfl, fun i _ => ?_⟩⟩
      · rintro ⟨k, v⟩ he
        obtain ⟨i, hi, rfl, rfl⟩ := (hm.mem_iff k v).mp ((env.order_perm _).mem_iff.mp he)
        have hd0 : 0 < dw := by
          apply Classical.byContradiction
          intro h0
          have h0 : dw = 0 := by omega
          subst h0
          exact hi (by rw [BitVec.eq_nil (f i), BitVec.eq_nil x])
        dsimp only
        rw [fromU64_encode m hpos h1, ok_bind, fromU64_encode m hd0 h2, ok_bind, BitVec.setWidth_setWidth_of_le _ h1,
          BitVec.setWidth_setWidth_of_le _ h2, BitVec.setWidth_eq, BitVec.setWidth_eq]
      · dsimp only
        rw [BitVec.setWidth_setWidth_of_le _ h1, BitVec.setWidth_setWidth_of_le _ h2, BitVec.setWidth_eq, BitVec.setWidth_eq]
    | u64big d map =>
      rw [hdata] at hrep
      obtain ⟨h1, h2, h3, hm⟩ := hrep
      dsimp only
      refine ⟨_, mapRes_ok (p := fun e => (encode (e.1.setWidth iw), e.2)) _ ?_,
        listsEntries_of hiw hdw hm env _ ⟨_, rfl, fun i _ => ?_⟩⟩
      · rintro ⟨k, v⟩ he
        obtain ⟨i, hi, rfl, rfl⟩ := (hm.mem_iff k v).mp ((env.order_perm _).mem_iff.mp he)
        dsimp only
        rw [fromU64_encode m hpos h1, ok_bind, BitVec.setWidth_setWidth_of_le _ h1, BitVec.setWidth_eq]
      · dsimp only
        rw [BitVec.setWidth_setWidth_of_le _ h1, BitVec.setWidth_eq]
    | bigbig d map =>
      rw [hdata] at hrep
      obtain ⟨h1, h3, hm⟩ := hrep
      dsimp only
      exact ⟨_, rfl, listsEntries_of hiw hdw hm env _ ⟨id, by simp, fun i _ => rfl⟩⟩

/-- The full claim is false: with an index of width zero, the single entry cannot be listed. -/
theorem C57_refuted : ¬ C57_statement := by
  intro h
  obtain ⟨s, h1, h2⟩ := sparse_new (iw := 0) (dw := 8) (by decide) (by decide) 0#8
  have hs : s = ⟨0, 8, .u64u64 0#64 HMap.empty⟩ := (Res.ok.inj h1).symm
  subst hs
  have hr : Reachable .release (.sparse ⟨0, 8, .u64u64 0#64 ⟨[(0#64, 1#64)]⟩⟩) (update (fun _ => 0#8) 0#0 1#8) :=
    .store (env := listEnv) _ (.sparse ⟨0, 8, .u64u64 0#64 HMap.empty⟩) _ _ _ (.newSparse _ _ rfl) rfl
  obtain ⟨l, h3, -⟩ := h .release listEnv 0 8 _ _ 0#8 (by decide) (by decide) hr rfl
  cases h3

/-- A sparse array with two entries (the third store writes the default) meets the hypotheses. -/
example (m : Mode) (env : HashEnv) : ∃ a b, ArrayValue.newSparse 3 (encode 5#4) = ok a ∧
    runOps m env a [.store 1#3 6#4, .store 2#3 7#4, .store 1#3 5#4, .store 4#3 1#4] = ok b ∧
    ∃ s l, b = .sparse s ∧ s.nonDefaultEntries m env = ok l ∧
      ListsEntries l (contents 5#4 [.store 1#3 6#4, .store 2#3 7#4, .store 1#3 5#4, .store 4#3 1#4]) 5#4 ∧
      (encode 2#3, encode 7#4) ∈ l ∧ (encode 1#3, encode 5#4) ∉ l := by
  obtain ⟨s, h1, h2⟩ := sparse_new (iw := 3) (dw := 4) (by decide) (by decide) 5#4
  have hn : ArrayValue.newSparse 3 (encode 5#4) = ok (.sparse s) := by unfold ArrayValue.newSparse; rw [h1]; rfl
  obtain ⟨s1, h3, h4⟩ := h2.store_of m env (by decide) 1#3 6#4
  obtain ⟨s2, h5, h6⟩ := h4.store_of m env (by decide) 2#3 7#4
  obtain ⟨s3, h7, h8⟩ := h6.store_of m env (by decide) 1#3 5#4
  obtain ⟨s4, h9, h10⟩ := h8.store_of m env (by decide) 4#3 1#4
  have hst : ∀ {s s' : SparseArrayValue} {i v}, s.store m env i v = ok s' →
      (ArrayValue.sparse s).store m env i v = ok (.sparse s') := fun h => by
    unfold ArrayValue.store; dsimp only; rw [h]; rfl
  have hr : Reachable m (.sparse s4)
      (contents 5#4 [.store 1#3 6#4, .store 2#3 7#4, .store 1#3 5#4, .store 4#3 1#4]) :=
    .store _ _ _ _ _ (.store _ _ _ _ _ (.store _ _ _ _ _ (.store _ _ _ _ _ (.newSparse _ _ hn) (hst h3)) (hst h5)) (hst h7))
      (hst h9)
  obtain ⟨l, h11, h12⟩ := C57_entries_partial m env (by decide) (by decide) (by decide) hr (h10.default_of m (by decide))
  refine ⟨_, _, hn, ?_, s4, l, rfl, h11, h12, ?_, ?_⟩
  · simp only [runOps, ArrayOp.run]
    rw [hst h3, ok_bind, hst h5, ok_bind, hst h7, ok_bind, hst h9, ok_bind]
  · exact (h12.2 _ _).mpr ⟨2#3, by decide, encode_denotes _ (by decide), encode_denotes _ (by decide)⟩
  · intro hin
    obtain ⟨i, hi, hk, hv⟩ := (h12.2 _ _).mp hin
    have := hk.value_unique (encode_denotes _ (by decide))
    subst this
    exact hi (by decide)

end Baa

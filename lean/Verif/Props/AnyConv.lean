import Verif.Props.RawConv
import Verif.SpecAnyConv
import Verif.Spec.LongTables
import Verif.Props.AnyArray

/-!
# C111: conversions between arrays are predictable whatever values they hold

C91 is about values that have the number of words of their width. C110 is about arbitrary values, but without conversions. This file adds them.
-/

namespace Baa
open Res BitVecValue

variable {iw dw : Nat}

/-! ## From sparse to dense -/

/-- One entry of up to 64 bits. -/
theorem DenseHolds.putU64_of {m : Mode} {d : DenseArrayValue} {mem : Memory} (h : DenseHolds m iw dw d mem) (hdw : dw ≤ 64) (i v : Word)
    {s : Shape} (hs : s.number = v.toNat) : Fate (DenseHolds m iw dw) (d.putU64 m i v) (mem.put m iw dw i.toNat s) := by
  obtain ⟨hiw, hdw', hlt, hrep⟩ := h
  obtain ⟨_, _, data⟩ := d
  dsimp only at hiw hdw' hrep
  replace hiw := hiw.symm
  replace hdw' := hdw'.symm
  subst hiw hdw'
  unfold Memory.put DenseArrayValue.putU64 Memory.locate
  rw [if_neg (show ¬ 64 < dw by omega), hs]
  dsimp only
  cases data with
  | bit b =>
    obtain ⟨h1, n, N, hn, hN, hc, hf⟩ := hrep
    subst h1
    dsimp only
    rw [if_pos rfl]
    have hsc := C87_set_clear_bit hN (i.toNat % 2 ^ 32)
    rw [← hc] at hsc
    have hv1 : v = 1#64 ↔ v.toNat = 1 := ⟨fun e => by rw [e]; rfl, fun e => BitVec.eq_of_toNat_eq e⟩
    by_cases hk : i.toNat % 2 ^ 32 < mem.count
    · rw [if_pos hk] at hsc ⊢
      obtain ⟨⟨r, M, hr1, hr2, hr3⟩, ⟨s, L, hs1, hs2, hs3⟩⟩ := hsc
      rw [Option.bind_some, if_pos rfl]
      by_cases hD : v.toNat = 1
      · rw [if_pos (hv1.mpr hD), if_pos hD, if_neg (by omega)]
        refine ⟨⟨iw, 1, .bit r⟩, ?_, rfl, rfl, hlt, rfl, n, M, hn, hr2, hc, fun k hk' => ?_⟩
        · show (BitVecValue.setBit b (i.toNat % 2 ^ 32) >>= _) = _
          rw [hr1, ok_bind]
        · dsimp only
          rw [hr3, setCell_apply]
          by_cases hne : k = i.toNat % 2 ^ 32
          · rw [if_pos hne, if_pos hne]; rfl
          · rw [if_neg hne, if_neg hne, hf k hk']
      · rw [if_neg (fun e => hD (hv1.mp e)), if_neg hD]
        have hg := Fate.guard (Q := DenseHolds m iw 1) (m := m) (b := v == 0#64)
          (x := BitVecValue.clearBit b (i.toNat % U32) >>= fun value => ok (⟨iw, 1, .bit value⟩ : DenseArrayValue))
          (o := some { mem with cell := setCell mem.cell (i.toNat % 2 ^ 32) 0 }) (1 < v.toNat) (by
            rw [beq_iff_eq]
            constructor
            · rintro rfl; decide
            · intro h
              apply BitVec.eq_of_toNat_eq
              show v.toNat = 0
              omega) (fun _ => by
            refine ⟨⟨iw, 1, .bit s⟩, ?_, rfl, rfl, hlt, rfl, n, L, hn, hs2, hc, fun k hk' => ?_⟩
            · show (BitVecValue.clearBit b (i.toNat % 2 ^ 32) >>= _) = _
              rw [hs1, ok_bind]
            · dsimp only
              rw [hs3, setCell_apply]
              by_cases hne : k = i.toNat % 2 ^ 32
              · rw [if_pos hne, if_pos hne]; rfl
              · rw [if_neg hne, if_neg hne, hf k hk'])
        have hiff : (1 = 1 ∧ 1 < v.toNat ∧ m = .debug) ↔ (m = .debug ∧ 1 < v.toNat) := ⟨fun h => ⟨h.2.2, h.2.1⟩, fun h => ⟨rfl, h.2, h.1⟩⟩
        by_cases hh : m = .debug ∧ 1 < v.toNat
        · rw [if_pos hh] at hg
          rw [if_pos (hiff.mpr hh)]
          exact hg
        · rw [if_neg hh] at hg
          rw [if_neg (fun h => hh (hiff.mp h))]
          exact hg
    · rw [if_neg hk] at hsc ⊢
      show Panics _
      by_cases hD : v = 1#64
      · rw [if_pos hD]
        show Panics (BitVecValue.setBit b (i.toNat % 2 ^ 32) >>= _)
        rw [hsc.1]
        exact ⟨_, rfl⟩
      · rw [if_neg hD]
        refine panics_bind_of _ fun _ _ => ?_
        show Panics (BitVecValue.clearBit b (i.toNat % 2 ^ 32) >>= _)
        rw [hsc.2]
        exact ⟨_, rfl⟩
  | u8 l =>
    obtain ⟨h1, h2, h3, hf⟩ := hrep
    dsimp only
    rw [if_neg h1, if_pos hdw]
    by_cases hc : i.toNat < mem.count
    · rw [if_pos hc, Option.bind_some, if_neg (fun h => h1 h.1), if_neg h1, if_pos h2]
      obtain ⟨l', hl1, hl2, hl3⟩ := setIdx_spec (l := l) (i := i.toNat) (by omega) (v.setWidth 8)
      rw [hl1, ok_bind]
      refine ⟨_, rfl, rfl, rfl, hlt, h1, h2, by rw [hl2, h3], fun n hn => ?_⟩
      by_cases hne : n = i.toNat
      · exact ⟨_, by rw [hl3, if_pos hne], by dsimp only; rw [setCell_apply, if_pos hne, BitVec.toNat_setWidth]⟩
      · obtain ⟨b, hb1, hb2⟩ := hf n hn
        exact ⟨b, by rw [hl3, if_neg hne, hb1], by dsimp only; rw [setCell_apply, if_neg hne, hb2]⟩
    · rw [if_neg hc, setIdx_none (by omega)]
      exact ⟨_, rfl⟩
  | u64 l =>
    obtain ⟨h1, h2, h3, hf⟩ := hrep
    dsimp only
    rw [if_neg (show ¬ dw = 1 by omega), if_pos hdw]
    by_cases hc : i.toNat < mem.count
    · rw [if_pos hc, Option.bind_some, if_neg (show ¬ (dw = 1 ∧ _) by omega), if_neg (show ¬ dw = 1 by omega), if_neg (show ¬ dw ≤ 8 by omega)]
      obtain ⟨l', hl1, hl2, hl3⟩ := setIdx_spec (l := l) (i := i.toNat) (by omega) v
      rw [hl1, ok_bind]
      refine ⟨_, rfl, rfl, rfl, hlt, h1, h2, by rw [hl2, h3], fun n hn => ?_⟩
      by_cases hne : n = i.toNat
      · exact ⟨_, by rw [hl3, if_pos hne], by dsimp only; rw [setCell_apply, if_pos hne]⟩
      · obtain ⟨b, hb1, hb2⟩ := hf n hn
        exact ⟨b, by rw [hl3, if_neg hne, hb1], by dsimp only; rw [setCell_apply, if_neg hne, hb2]⟩
    · rw [if_neg hc, setIdx_none (by omega)]
      exact ⟨_, rfl⟩
  | big l => have := hrep.1; omega

/-- The loop over entries of up to 64 bits. -/
theorem DenseHolds.putAllU64_of {m : Mode} (hdw : dw ≤ 64) {t : Table} (es : List (Word × Word)) {d : DenseArrayValue} {mem : Memory}
    (h : DenseHolds m iw dw d mem) (hes : ∀ e ∈ es, t.cell e.1.toNat = ⟨dw, 1, e.2.toNat⟩) :
    Fate (DenseHolds m iw dw) (d.putAllU64 m es) (mem.fill m iw dw t (es.map fun e => e.1.toNat)) := by
  induction es generalizing d mem with
  | nil => exact ⟨d, rfl, h⟩
  | cons e es ih =>
    refine Fate.bind (h.putU64_of hdw e.1 e.2 (s := t.cell e.1.toNat) (by rw [hes e (by simp)])) fun d' mem' h' => ?_
    exact ih h' fun e he => hes e (by simp [he])

/-- The loop over wide entries. -/
theorem DenseHolds.putAllBig_of {m : Mode} (hdw : 64 < dw) {t : Table} (es : List (Word × BitVecValue)) {d : DenseArrayValue} {mem : Memory}
    {bv : BitVecValue} (h : DenseHolds m iw dw d mem) (hbv : Slot bv dw) (hes : ∀ e ∈ es, t.cell e.1.toNat = e.2.shape) :
    Fate (DenseHolds m iw dw) (d.putAllBig m bv es) (mem.fill m iw dw t (es.map fun e => e.1.toNat)) := by
  induction es generalizing d mem bv with
  | nil => exact ⟨d, rfl, h⟩
  | cons e es ih =>
    have hlt : e.1.toNat < 2 ^ dw := Nat.lt_of_lt_of_le e.1.isLt (Nat.pow_le_pow_right (by decide) (by omega))
    obtain ⟨r, hr1, hr2⟩ := C26_assign_from_u64 m (by omega) hbv e.1 hlt
    have hsh : r.shape = ⟨dw, need dw, e.1.toNat⟩ := by
      have := hr2.raw
      unfold BitVecValue.shape
      rw [this.width_eq, this.length_eq, this.val_eq, BitVec.toNat_ofNat, Nat.mod_eq_of_lt hlt]
      rfl
    unfold DenseArrayValue.putAllBig
    rw [hr1, ok_bind]
    have hst := h.store_of r e.2
    rw [hsh, ← hes e (by simp)] at hst
    have hput : mem.put m iw dw e.1.toNat (t.cell e.1.toNat) = mem.store m iw dw ⟨dw, need dw, e.1.toNat⟩ (t.cell e.1.toNat) := by
      unfold Memory.put
      rw [if_pos hdw]
    rw [← hput] at hst
    exact hst.bind fun d' mem' h' => ih h' hr2.slot fun e he => hes e (by simp [he])

/-- The entries of the hash map, in any order, are the cells that do not hold the default. -/
theorem MapHolds.lists {V : Type} {R : V → Shape → Prop} {map : HMap Word V} {t : Table} (h : MapHolds R map t.cell t.default) (env : HashEnv) :
    t.Lists ((env.order map.entries).map fun e => e.1.toNat) := by
  have hperm := env.order_perm map.entries
  refine ⟨?_, fun I => ?_⟩
  · have h1 : (map.entries.map Prod.fst).Nodup := h.nodup
    have h2 : ((env.order map.entries).map Prod.fst).Nodup := (hperm.map _).nodup_iff.mpr h1
    have h3 : ((env.order map.entries).map fun e => e.1.toNat) = ((env.order map.entries).map Prod.fst).map BitVec.toNat := by
      rw [List.map_map]
      rfl
    rw [h3]
    exact List.Pairwise.map _ (fun a b hab e => hab (BitVec.eq_of_toNat_eq e)) h2
  · rw [List.mem_map]
    constructor
    · rintro ⟨⟨k, v⟩, hm, rfl⟩
      have := (HMap.get_eq_some_iff h.nodup k v).mpr (hperm.mem_iff.mp hm)
      rcases h.get k with ⟨h1, -⟩ | ⟨u, -, -, h3⟩
      · rw [h1] at this; cases this
      · exact ⟨k.isLt, h3⟩
    · rintro ⟨hI, hne⟩
      have hg := h.get (BitVec.ofNat 64 I)
      rw [ofNat64_toNat hI] at hg
      rcases hg with ⟨-, h2⟩ | ⟨u, h1, -, -⟩
      · exact absurd h2 hne
      · exact ⟨(BitVec.ofNat 64 I, u), hperm.mem_iff.mpr ((HMap.get_eq_some_iff h.nodup _ u).mp h1), ofNat64_toNat hI⟩

theorem MapHolds.rel {V : Type} {R : V → Shape → Prop} {map : HMap Word V} {t : Table} (h : MapHolds R map t.cell t.default) (env : HashEnv)
    {e : Word × V} (he : e ∈ env.order map.entries) : R e.2 (t.cell e.1.toNat) := by
  have := (HMap.get_eq_some_iff h.nodup e.1 e.2).mpr ((env.order_perm _).mem_iff.mp he)
  rcases h.get e.1 with ⟨h1, -⟩ | ⟨u, h1, h2, -⟩
  · rw [h1] at this; cases this
  · rw [h1] at this
    cases this
    exact h2

theorem SparseHolds.default_of {s : SparseArrayValue} {t : Table} (h : SparseHolds iw dw s t) (m : Mode) :
    Fate (fun r d => r.shape = d ∧ r.width = dw) (s.default m) (t.default.unfiled m dw) := by
  obtain ⟨-, hdw, hdl, hrep⟩ := h
  unfold SparseArrayValue.default Shape.unfiled
  cases hd : s.data with
  | u64u64 d map =>
    rw [hd] at hrep
    have hle := hrep.1
    rw [if_neg (show ¬ 64 < dw by omega), show t.default = _ from hrep.2.1]
    dsimp only
    rw [hdw]
    have := shownAs_fate m hle d
    cases hs : shownAs m dw d.toNat with
    | none => rw [hs] at this; exact this
    | some x =>
      rw [hs] at this
      obtain ⟨r, h1, h2, -⟩ := this
      refine ⟨r, h1, h2, ?_⟩
      have : x.width = dw := by
        unfold shownAs at hs
        split at hs
        · cases hs
        · split at hs
          · cases hs; rfl
          · split at hs
            · cases hs
            · cases hs; rfl
      rw [← this, ← h2]
      rfl
  | u64big d map =>
    rw [hd] at hrep
    rw [if_pos hrep.1]
    exact ⟨d, rfl, hrep.2.2.1.1, hrep.2.1⟩
  | bigbig d map => rw [hd] at hrep; exact hrep.elim

/-- The default, as it is read, has the words of the default or one word. -/
theorem unfiled_words {m : Mode} {s d : Shape} (h : s.unfiled m dw = some d) (hdw : 64 < dw) : d = s := by
  unfold Shape.unfiled at h
  rw [if_pos hdw] at h
  exact (Option.some.inj h).symm

/-- The indices of the entries of the hash map, in the order in which they are visited. -/
def SparseArrayValue.listing (env : HashEnv) (s : SparseArrayValue) : List Nat :=
  match s.data with
  | .u64u64 _ map => (env.order map.entries).map fun e => e.1.toNat
  | .u64big _ map => (env.order map.entries).map fun e => e.1.toNat
  | .bigbig _ _ => []

theorem SparseHolds.listed {s : SparseArrayValue} {t : Table} (h : SparseHolds iw dw s t) (env : HashEnv) : t.Lists (s.listing env) := by
  obtain ⟨-, -, -, hrep⟩ := h
  obtain ⟨_, _, data⟩ := s
  cases data with
  | u64u64 d map => exact hrep.2.2.lists env
  | u64big d map => exact hrep.2.2.2.lists env
  | bigbig d map => exact hrep.elim

/-- Making a sparse array dense. -/
theorem SparseHolds.ofSparse_listing {s : SparseArrayValue} {t : Table} (h : SparseHolds iw dw s t) (m : Mode) (env : HashEnv)
    (hs : ∀ n, elementCount m iw = some n → 64 < dw → n * t.default.words < 2 ^ 60) :
    Fate (DenseHolds m iw dw) (DenseArrayValue.ofSparse m env s) (t.densified m iw dw (s.listing env)) := by
  have hd := h.default_of m
  have hall := h
  obtain ⟨hiw, hdw, hdl, hrep⟩ := h
  obtain ⟨_, _, data⟩ := s
  dsimp only at hiw hdw hrep
  replace hiw := hiw.symm
  replace hdw := hdw.symm
  subst hiw hdw
  have key : ∀ (L : List Nat) (f : DenseArrayValue → Res DenseArrayValue),
      (∀ d mem, DenseHolds m iw dw d mem → Fate (DenseHolds m iw dw) (f d) (mem.fill m iw dw t L)) →
      Fate (DenseHolds m iw dw) (SparseArrayValue.default m ⟨iw, dw, data⟩ >>= fun dflt => DenseArrayValue.new m iw dflt >>= fun dense =>
        debugAssert m (dw == dense.dataWidth) >>= fun _ => debugAssert m (iw == dense.indexWidth) >>= fun _ => f dense)
        (t.densified m iw dw L) := by
    intro L f hf
    unfold Table.densified
    have hd' : Fate (fun r d => r.shape = d ∧ r.width = dw ∧ (64 < dw → d = t.default)) (SparseArrayValue.default m ⟨iw, dw, data⟩)
        (t.default.unfiled m dw) := by
      cases hu : t.default.unfiled m dw with
      | none => rw [hu] at hd; exact hd
      | some x =>
        rw [hu] at hd
        obtain ⟨r, h1, h2, h3⟩ := hd
        exact ⟨r, h1, h2, h3, fun hw => unfiled_words hu hw⟩
    refine hd'.bind fun r x hx => ?_
    obtain ⟨rfl, hx2, hx3⟩ := hx
    have hnew := dense_new_fate m iw (v := r) (by omega) (fun n hn hw => by
      have := hs n hn (by omega)
      have he : r.words.length = t.default.words := congrArg Shape.words (hx3 (by omega))
      rw [he]
      exact this)
    rw [hx2] at hnew
    refine hnew.bind fun d mem hdm => ?_
    rw [hdm.dataWidth, hdm.indexWidth]
    have : ∀ n : Nat, debugAssert m (n == n) = ok () := fun n => by cases m <;> simp [debugAssert]
    rw [this, ok_bind, this, ok_bind]
    exact hf d mem hdm
  unfold DenseArrayValue.ofSparse
  cases data with
  | u64u64 d map =>
    obtain ⟨h1, h2, h3⟩ := hrep
    refine key _ _ fun d mem hdm => ?_
    exact hdm.putAllU64_of h1 (env.order map.entries) fun e he => h3.rel env he
  | u64big d map =>
    obtain ⟨h1, -, h2, h3⟩ := hrep
    refine key _ _ fun d mem hdm => ?_
    exact hdm.putAllBig_of h1 (env.order map.entries) (zero_slot hdl) fun e he => (h3.rel env he).1.symm
  | bigbig d map => exact hrep.elim

theorem SparseHolds.ofSparse_of {s : SparseArrayValue} {t : Table} (h : SparseHolds iw dw s t) (m : Mode) (env : HashEnv)
    (hs : ∀ n, elementCount m iw = some n → 64 < dw → n * t.default.words < 2 ^ 60) :
    ∃ L, t.Lists L ∧ Fate (DenseHolds m iw dw) (DenseArrayValue.ofSparse m env s) (t.densified m iw dw L) :=
  ⟨_, h.listed env, h.ofSparse_listing m env hs⟩

/-! ## From dense to sparse -/

/-- Data of 2 to 64 bits: there is one cell for every element. -/
def Memory.Whole (m : Mode) (iw dw : Nat) (mem : Memory) : Prop := dw ≠ 1 → dw ≤ 64 → elementCount m iw = some mem.count

/-- The cells of the table after the first `k` elements. -/
def tableCells (dw : Nat) (el : Nat → Nat) (c : Nat) (d : Shape) (k : Nat) : Nat → Shape :=
  fun n => if n < k ∧ el n ≠ c then ⟨dw, need dw, el n⟩ else d

theorem tableCells_zero (el : Nat → Nat) (c : Nat) (d : Shape) : tableCells dw el c d 0 = fun _ => d := by
  funext n
  unfold tableCells
  rw [if_neg (by omega)]

theorem tableCells_set (el : Nat → Nat) {c : Nat} (d : Shape) {k : Nat} (h : el k ≠ c) :
    (fun n => if n = k then ⟨dw, need dw, el k⟩ else tableCells dw el c d k n) = tableCells dw el c d (k + 1) := by
  funext n
  unfold tableCells
  by_cases hn : n = k
  · subst hn
    rw [if_pos rfl, if_pos ⟨by omega, h⟩]
  · rw [if_neg hn]
    have : (n < k ∧ el n ≠ c) ↔ (n < k + 1 ∧ el n ≠ c) := by omega
    by_cases hh : n < k ∧ el n ≠ c
    · rw [if_pos hh, if_pos (this.mp hh)]
    · rw [if_neg hh, if_neg (fun h => hh (this.mpr h))]

theorem tableCells_skip (el : Nat → Nat) {c : Nat} (d : Shape) {k : Nat} (h : el k = c) : tableCells dw el c d k = tableCells dw el c d (k + 1) := by
  funext n
  unfold tableCells
  have : (n < k ∧ el n ≠ c) ↔ (n < k + 1 ∧ el n ≠ c) := by
    constructor
    · rintro ⟨h1, h2⟩; exact ⟨by omega, h2⟩
    · rintro ⟨h1, h2⟩
      refine ⟨?_, h2⟩
      apply Classical.byContradiction
      intro hn
      exact h2 (by rw [show n = k by omega, h])
  by_cases hh : n < k ∧ el n ≠ c
  · rw [if_pos hh, if_pos (this.mp hh)]
  · rw [if_neg hh, if_neg (fun h => hh (this.mpr h))]

theorem SparseHolds.storeU64U64_of {s : SparseArrayValue} {d : Shape} {cell : Nat → Shape} (h : SparseHolds iw dw s ⟨d, cell⟩) (hdw : dw ≤ 64)
    {k : Nat} (hk : k < 2 ^ 64) (v : Word) :
    ∃ s', s.storeU64U64 (BitVec.ofNat 64 k) v = ok s' ∧ SparseHolds iw dw s' ⟨d, fun n => if n = k then ⟨dw, 1, v.toNat⟩ else cell n⟩ := by
  obtain ⟨hiw, hdw', hdl, hrep⟩ := h
  obtain ⟨_, _, data⟩ := s
  dsimp only at hiw hdw' hrep
  replace hiw := hiw.symm
  replace hdw' := hdw'.symm
  subst hiw hdw'
  unfold SparseArrayValue.storeU64U64
  cases data with
  | u64u64 x map =>
    obtain ⟨h1, h2, h3⟩ := hrep
    dsimp only at h2 h3 ⊢
    have h2' : d = ⟨dw, 1, x.toNat⟩ := h2
    by_cases he : v = x
    · rw [if_pos he]
      have := h3.remove (BitVec.ofNat 64 k)
      rw [ofNat64_toNat hk, h2'] at this
      refine ⟨_, rfl, rfl, rfl, hdl, h1, h2, ?_⟩
      rw [he, h2']
      exact this
    · rw [if_neg he]
      have := h3.insert (BitVec.ofNat 64 k) (show WordEntry dw v ⟨dw, 1, v.toNat⟩ from rfl) (fun e => he (by
        rw [h2'] at e
        injection e with _ _ e
        exact BitVec.eq_of_toNat_eq e))
      rw [ofNat64_toNat hk] at this
      exact ⟨_, rfl, rfl, rfl, hdl, h1, h2, this⟩
  | u64big x map => have := hrep.1; omega
  | bigbig x map => exact hrep.elim

/-- The description of a value with the words of its width. -/
theorem Raw.shape_eq {v : BitVecValue} {c : Nat} (h : Raw v dw c) : v.shape = ⟨dw, need dw, c⟩ := by
  unfold BitVecValue.shape
  rw [h.width_eq, h.length_eq, h.val_eq]
  rfl

theorem raw_of_shape {v : BitVecValue} {c : Nat} (h : v.shape = ⟨dw, need dw, c⟩) (hdl : dw < 2 ^ 32) : Raw v dw c := by
  unfold BitVecValue.shape at h
  injection h with h1 h2 h3
  exact ⟨hdl, h1, h2, h3⟩

theorem SparseHolds.storeU64Big_of (m : Mode) {s : SparseArrayValue} {D : Nat} {cell : Nat → Shape} (h : SparseHolds iw dw s ⟨⟨dw, need dw, D⟩, cell⟩)
    (hdw : 64 < dw) {k : Nat} (hk : k < 2 ^ 64) {v : BitVecValue} {E : Nat} (hv : Raw v dw E) :
    ∃ s', s.storeU64Big m (BitVec.ofNat 64 k) v = ok s' ∧
      SparseHolds iw dw s' ⟨⟨dw, need dw, D⟩, fun n => if n = k then ⟨dw, need dw, E⟩ else cell n⟩ := by
  obtain ⟨hiw, hdw', hdl, hrep⟩ := h
  obtain ⟨_, _, data⟩ := s
  dsimp only at hiw hdw' hrep
  replace hiw := hiw.symm
  replace hdw' := hdw'.symm
  subst hiw hdw'
  unfold SparseArrayValue.storeU64Big
  cases data with
  | u64u64 x map => have := hrep.1; omega
  | u64big x map =>
    obtain ⟨h1, h0, h2, h3⟩ := hrep
    dsimp only at h2 h3 ⊢
    rw [raw_eq m hv (raw_of_shape h2.1 hdl), ok_bind]
    by_cases he : E = D
    · rw [decide_eq_true he, if_pos rfl]
      have := h3.remove (BitVec.ofNat 64 k)
      rw [ofNat64_toNat hk] at this
      refine ⟨_, rfl, rfl, rfl, hdl, h1, h0, h2, ?_⟩
      rw [he]
      exact this
    · rw [decide_eq_false he, if_neg (by simp)]
      have := h3.insert (BitVec.ofNat 64 k) (c := ⟨dw, need dw, E⟩) (v := v) ⟨hv.shape_eq, by rw [hv.width_eq]; exact hdl⟩ (fun e => he (by
        injection e))
      rw [ofNat64_toNat hk] at this
      exact ⟨_, rfl, rfl, rfl, hdl, h1, h0, h2, this⟩
  | bigbig x map => exact hrep.elim

theorem storeWords_table (h0 : 0 < dw) (hdw : dw ≤ 64) (el : Nat → Nat) (dflt : Word) (x : Shape) (ds : List Word) :
    ∀ {k : Nat} {out : SparseArrayValue}, k + ds.length < 2 ^ 64 → (∀ j b, ds[j]? = some b → b.toNat = el (k + j)) →
      SparseHolds iw dw out ⟨x, tableCells dw el dflt.toNat x k⟩ →
      ∃ s, DenseArrayValue.storeWords dflt k ds out = ok s ∧ SparseHolds iw dw s ⟨x, tableCells dw el dflt.toNat x (k + ds.length)⟩ := by
  have hneed : need dw = 1 := by unfold need; omega
  induction ds with
  | nil => intro k out _ _ h; exact ⟨out, rfl, h⟩
  | cons d ds ih =>
    intro k out hk hds h
    have hd : d.toNat = el k := hds 0 d rfl
    have hk' : k + 1 + ds.length = k + (d :: ds).length := by simp; omega
    have hds' : ∀ j b, ds[j]? = some b → b.toNat = el (k + 1 + j) := fun j b hj => by
      rw [hds (j + 1) b hj, Nat.add_assoc, Nat.add_comm 1 j]
    have hlen : (d :: ds).length = ds.length + 1 := rfl
    unfold DenseArrayValue.storeWords
    by_cases hx : d = dflt
    · rw [if_neg (fun hh => hh hx), ok_bind, ← hk']
      exact ih (by omega) hds' (tableCells_skip el x (by rw [← hd, hx]) ▸ h)
    · rw [if_pos hx]
      obtain ⟨s', h1, h2⟩ := h.storeU64U64_of hdw (show k < 2 ^ 64 by omega) d
      rw [h1, ok_bind, ← hk']
      have hset := tableCells_set (dw := dw) el x (fun e => hx (BitVec.eq_of_toNat_eq (hd.trans e)))
      rw [hneed] at hset
      rw [hd, hset] at h2
      exact ih (by omega) hds' h2

theorem storeBigs_table (m : Mode) (hdw : 64 < dw) (el : Nat → Nat) {dflt : BitVecValue} {x : Nat} (hdf : Raw dflt dw x)
    (ds : List BitVecValue) :
    ∀ {k : Nat} {out : SparseArrayValue}, k + ds.length < 2 ^ 64 → (∀ j b, ds[j]? = some b → Raw b dw (el (k + j))) →
      SparseHolds iw dw out ⟨⟨dw, need dw, x⟩, tableCells dw el x ⟨dw, need dw, x⟩ k⟩ →
      ∃ s, DenseArrayValue.storeBigs m dflt k ds out = ok s ∧
        SparseHolds iw dw s ⟨⟨dw, need dw, x⟩, tableCells dw el x ⟨dw, need dw, x⟩ (k + ds.length)⟩ := by
  induction ds with
  | nil => intro k out _ _ h; exact ⟨out, rfl, h⟩
  | cons d ds ih =>
    intro k out hk hds h
    have hd : Raw d dw (el k) := hds 0 d rfl
    have hk' : k + 1 + ds.length = k + (d :: ds).length := by simp; omega
    have hds' : ∀ j b, ds[j]? = some b → Raw b dw (el (k + 1 + j)) := fun j b hj => by
      have := hds (j + 1) b hj
      rwa [Nat.add_comm j 1, ← Nat.add_assoc] at this
    have hlen : (d :: ds).length = ds.length + 1 := rfl
    unfold DenseArrayValue.storeBigs
    rw [(C87_compare m hd hdf).2.2.2.2.1, ok_bind]
    by_cases hx : el k = x
    · rw [decide_eq_true hx, if_pos rfl, ok_bind, ← hk']
      exact ih (by omega) hds' (tableCells_skip el _ hx ▸ h)
    · rw [decide_eq_false hx, if_neg (by simp)]
      obtain ⟨s', h1, h2⟩ := h.storeU64Big_of m hdw (show k < 2 ^ 64 by omega) hd
      rw [h1, ok_bind, ← hk']
      rw [tableCells_set el _ hx] at h2
      exact ih (by omega) hds' h2

theorem storeBits_table {v : BitVecValue} {N W : Nat} (hv : Raw v W N) (el : Nat → Nat)
    (hf : ∀ n, n < W → el n = (N.testBit n).toNat) (b : Bool) (x : Shape) :
    ∀ (n k : Nat) {out : SparseArrayValue}, k + n = W → SparseHolds iw 1 out ⟨x, tableCells 1 el b.toNat x k⟩ →
    ∃ s, DenseArrayValue.storeBits v b k n out = ok s ∧ SparseHolds iw 1 s ⟨x, tableCells 1 el b.toNat x W⟩ := by
  intro n
  induction n with
  | zero =>
    intro k out hk h
    rw [Nat.add_zero] at hk
    exact ⟨out, rfl, hk ▸ h⟩
  | succ n ih =>
    intro k out hk h
    have hlt : W < 2 ^ 32 := hv.width_lt
    have hmod : k % U32 = k := Nat.mod_eq_of_lt (by
      show _ < 4294967296
      omega)
    have hcap : k < capacity W := by unfold capacity; omega
    have hm := hf k (by omega)
    unfold DenseArrayValue.storeBits
    rw [hmod, (C87_bits .debug hv).2, if_pos hcap, ok_bind]
    by_cases hx : N.testBit k = b
    · rw [if_neg (fun hh => hh hx), ok_bind]
      exact ih (k + 1) (by omega) (tableCells_skip el _ (by rw [hm, hx]) ▸ h)
    · rw [if_pos hx]
      have hval : (if b = true then 0#64 else 1#64).toNat = el k := by
        rw [hm]
        revert hx
        cases N.testBit k <;> cases b <;> simp
      obtain ⟨s', h1, h2⟩ := h.storeU64U64_of (by decide) (show k < 2 ^ 64 by omega) (if b = true then 0#64 else 1#64)
      rw [h1, ok_bind]
      have hne : el k ≠ b.toNat := by
        rw [hm]
        revert hx
        cases N.testBit k <;> cases b <;> simp
      have hset := tableCells_set (dw := 1) el x hne
      rw [show need 1 = 1 from rfl] at hset
      rw [hval, hset] at h2
      exact ih (k + 1) (by omega) h2

/-- Reading all elements of wide data. -/
theorem selectAll_table (m : Mode) {l : List Word} {mem : Memory} (hdl : dw < 2 ^ 32) (h : MemRep m iw dw (.big l) mem) :
    ∀ (n k : Nat), ((k + n) * need dw ≤ mem.count → ∃ es, DenseArrayValue.selectAll m ⟨iw, dw, .big l⟩ k n = ok es ∧ es.length = n ∧
      ∀ j b, es[j]? = some b → Raw b dw (gather mem.cell (need dw * (k + j)) (need dw))) ∧
      (k * need dw ≤ mem.count → mem.count < (k + n) * need dw → Panics (DenseArrayValue.selectAll m ⟨iw, dw, .big l⟩ k n)) := by
  obtain ⟨h1, h2, h3, hf⟩ := h
  intro n
  induction n with
  | zero => intro k; exact ⟨fun _ => ⟨[], rfl, rfl, fun j b hj => by cases hj⟩, fun a b => by rw [Nat.add_zero] at b; omega⟩
  | succ n ih =>
    intro k
    have hneed : need dw < 2 ^ 32 := by unfold need; omega
    have hmul : (k + 1) * need dw = k * need dw + need dw := Nat.succ_mul _ _
    have hmul2 : (k + (n + 1)) * need dw = (k + 1 + n) * need dw := by rw [show k + (n + 1) = k + 1 + n by omega]
    have hmono : (k + 1) * need dw ≤ (k + 1 + n) * need dw := Nat.mul_le_mul_right _ (by omega)
    have hcomm : need dw * k = k * need dw := Nat.mul_comm _ _
    have hun : DenseArrayValue.selectUsize m ⟨iw, dw, .big l⟩ k = (mulC m U64 (need dw) k >>= fun start =>
        addC m U64 start (need dw) >>= fun end_ => sliceR l start end_ >>= fun ws => ok ⟨dw, ws⟩) := rfl
    by_cases hk : (k + 1) * need dw ≤ mem.count
    · have hs : DenseArrayValue.selectUsize m ⟨iw, dw, .big l⟩ k = ok ⟨dw, (l.drop (need dw * k)).take (need dw)⟩ := by
        rw [hun, mulC_ok (by show _ < 18446744073709551616; omega), ok_bind,
          addC_ok (by show _ < 18446744073709551616; omega), ok_bind, sliceR_ok (by omega) (by omega), ok_bind,
          Nat.add_sub_cancel_left]
      have ih' := ih (k + 1)
      unfold DenseArrayValue.selectAll
      rw [hs, ok_bind]
      refine ⟨fun hle => ?_, fun _ hlt => panics_bind (ih'.2 hk (by omega)) _⟩
      obtain ⟨es, he1, he2, he3⟩ := ih'.1 (by omega)
      rw [he1, ok_bind]
      refine ⟨_, rfl, by simp [he2], fun j b hj => ?_⟩
      cases j with
      | zero =>
        cases hj
        refine ⟨hdl, rfl, ?_, gather_eq hf _ _ (by rw [Nat.add_zero] at *; omega)⟩
        simp
        unfold need at *
        omega
      | succ j =>
        rw [List.getElem?_cons_succ] at hj
        have := he3 j b hj
        rwa [Nat.add_assoc, Nat.add_comm 1 j] at this
    · refine ⟨fun hle => by omega, fun hge _ => ?_⟩
      have hs : Panics (DenseArrayValue.selectUsize m ⟨iw, dw, .big l⟩ k) := by
        rw [hun, mulC_ok (by show _ < 18446744073709551616; omega), ok_bind,
          addC_ok (by show _ < 18446744073709551616; omega), ok_bind]
        exact panics_bind ⟨.bounds, by rw [sliceR, if_neg (by omega)]⟩ _
      unfold DenseArrayValue.selectAll
      exact panics_bind hs _

theorem elementCount_eq {m : Mode} {n : Nat} (h : elementCount m iw = some n) : n = 2 ^ (iw % 64) := by
  unfold elementCount at h
  by_cases hi : iw < 64
  · rw [if_pos hi] at h
    rw [Nat.mod_eq_of_lt hi]
    exact (Option.some.inj h).symm
  · rw [if_neg hi] at h
    split at h
    · cases h
    · exact (Option.some.inj h).symm

theorem numElements_of {m : Mode} {n : Nat} (h : elementCount m iw = some n) : numElements m iw = ok n := by
  have := numElements_fate m iw
  rw [h] at this
  obtain ⟨a, h1, rfl⟩ := this
  exact h1

/-- A new sparse array with a default that has one word, or the words of a wide width. -/
theorem sparse_new_of (hi : iw ≤ 64) {v : BitVecValue} {c : Nat} (h0 : 0 < dw) (hv : Raw v dw c) (el : Nat → Nat) (e : Nat) :
    ∃ s, SparseArrayValue.new iw v = ok s ∧ SparseHolds iw dw s ⟨⟨dw, need dw, c⟩, tableCells dw el e ⟨dw, need dw, c⟩ 0⟩ := by
  have h := sparse_new_fate hi (v := v) (by rw [hv.width_eq]; exact hv.width_lt)
  rw [tableCells_zero]
  have hc : Table.create v.shape = some ⟨⟨dw, need dw, c⟩, fun _ => ⟨dw, need dw, c⟩⟩ := by
    rw [hv.shape_eq]
    unfold Table.create Shape.filed
    dsimp only
    by_cases hd : 64 < dw
    · rw [if_pos hd]; rfl
    · rw [if_neg hd]
      have hlen : v.words.length = 1 := by rw [hv.length_eq]; omega
      have hlt : c < 2 ^ 64 := by
        rw [← hv.val_eq]
        have := wordsVal_lt v.words
        rwa [hlen] at this
      rw [if_neg (by omega), show need dw = 1 by unfold need; omega]
      rfl
  rw [hc, hv.width_eq] at h
  exact h

/-- A default of up to 64 bits as it is read. -/
theorem unfiled_word (m : Mode) (hdw : dw ≤ 64) (w : Word) (n : Nat) :
    Fate (fun r d => 0 < dw ∧ ∃ x, d = ⟨dw, need dw, x⟩ ∧ Raw r dw x) (BitVecValue.fromU64 m w dw) ((⟨dw, n, w.toNat⟩ : Shape).unfiled m dw) := by
  unfold Shape.unfiled
  rw [if_neg (by omega)]
  have h := shownAs_fate m hdw w
  dsimp only
  unfold shownAs at h ⊢
  by_cases h0 : dw = 0
  · rw [if_pos h0] at h ⊢
    exact h
  · rw [if_neg h0] at h ⊢
    have hneed : need dw = 1 := by unfold need; omega
    have hr : ∀ {r : BitVecValue} {x : Nat}, r.shape = ⟨dw, 1, x⟩ → Raw r dw x := fun h => raw_of_shape (by rw [hneed]; exact h) (by omega)
    by_cases hc : w.toNat < 2 ^ dw
    · rw [if_pos hc] at h ⊢
      obtain ⟨r, h1, h2, -⟩ := h
      exact ⟨r, h1, by omega, _, by rw [hneed], hr h2⟩
    · rw [if_neg hc] at h ⊢
      by_cases hm : m = .debug
      · rw [if_pos hm] at h ⊢
        exact h
      · rw [if_neg hm] at h ⊢
        obtain ⟨r, h1, h2, -⟩ := h
        exact ⟨r, h1, by omega, _, by rw [hneed], hr h2⟩

theorem sparsified_none {m : Mode} {mem : Memory} {n : Nat} (hn : elementCount m iw = some n)
    (h : mem.count < n * perElement dw ∨ (dw ≠ 1 ∧ dw ≤ 8 ∧ (List.range n).any fun k => decide (8 ≤ mem.cell k))) (c : Nat) :
    mem.sparsified m iw dw c = none := by
  unfold Memory.sparsified
  rw [hn]
  show (if _ then _ else _) = _
  rw [if_pos h]

theorem sparsified_some {m : Mode} {mem : Memory} {n : Nat} (hn : elementCount m iw = some n)
    (h : ¬ (mem.count < n * perElement dw ∨ (dw ≠ 1 ∧ dw ≤ 8 ∧ (List.range n).any fun k => decide (8 ≤ mem.cell k)))) (c : Nat) :
    mem.sparsified m iw dw c = ((⟨dw, need dw, c⟩ : Shape).unfiled m dw).bind fun d => some ⟨d, tableCells dw (mem.element dw) c d n⟩ := by
  unfold Memory.sparsified
  rw [hn]
  show (if _ then _ else _) = _
  rw [if_neg h]
  rfl

/-- The default that is picked for data of up to 8 bits is determined. -/
theorem Picked.unique {mem : Nat → Nat} {c c' : Nat} (h : Picked iw dw mem c) (h' : Picked iw dw mem c') (h8 : dw ≤ 8) : c = c' := by
  obtain ⟨n, hn, hmax⟩ := h.frequent
  obtain ⟨n', hn', hmax'⟩ := h'.frequent
  rw [hn.unique (counted_all (by omega))] at hmax
  rw [hn'.unique (counted_all (by omega))] at hmax'
  have he : cellsHolding iw mem c = cellsHolding iw mem c' := Nat.le_antisymm (hmax' c) (hmax c')
  by_cases h1 : dw = 1
  · exact Nat.le_antisymm (h.bit h1 c' he.symm) (h'.bit h1 c he)
  · exact Nat.le_antisymm (h'.byte h1 h8 c he) (h.byte h1 h8 c' he.symm)

/-- The last entry is picked if no other one has a larger counter. -/
theorem maxByCount_ends {α : Type} (l : List (α × Nat)) (x : α × Nat) (h : ∀ y ∈ l, y.2 ≤ x.2) :
    DenseArrayValue.maxByCount (l ++ [x]) = some x := by
  induction l with
  | nil => rfl
  | cons a l ih =>
    rw [List.cons_append, DenseArrayValue.maxByCount, ih fun y hy => h y (by simp [hy])]
    have := h a (by simp)
    exact if_neg (by omega)

/-- Every choice that is allowed is made by some hash table of counters. -/
theorem picked_any {α : Type} [DecidableEq α] {l : List α} {mem : Nat → Nat} {val : α → Nat} (h8 : 8 < dw)
    (hl : l.length = 2 ^ iw) (hval : ∀ n b, l[n]? = some b → val b = mem n) (hinj : ∀ a ∈ l, ∀ b ∈ l, val a = val b → a = b) {c : Nat}
    (hp : Picked iw dw mem c) :
    ∃ env x, DenseArrayValue.maxByCount (HashEnv.order env (DenseArrayValue.countLoop HMap.empty l).entries) = some x ∧ x.1 ∈ l ∧
      val x.1 = c := by
  obtain ⟨n, h1, h2, h3, -, h5⟩ := countLoop_tally l HMap.empty
  obtain ⟨n', hn', hmax⟩ := hp.frequent
  have hcounted := counted_of_table (dw := dw) h8 hl hval hinj h1 h3 h5
  rw [hn'.unique hcounted] at hmax
  have hpos : 0 < n := by
    rcases hcounted.stop with he | ⟨-, hf⟩
    · rw [he]; exact Nat.two_pow_pos _
    · cases n with
      | zero => exact absurd ⟨[], by simp, fun k hk => absurd hk (Nat.not_lt_zero k)⟩ hf
      | succ n => omega
  -- it is among the counted elements
  have hin : ∃ j, j < n ∧ mem j = c := by
    apply Classical.byContradiction
    intro hno
    have h0 := hmax (mem 0)
    rw [cellsUpTo_none (y := c) fun k hk e => hno ⟨k, hk, e⟩] at h0
    have : 0 < cellsUpTo n mem (mem 0) := by
      unfold cellsUpTo
      rw [List.countP_pos_iff]
      exact ⟨0, List.mem_range.mpr hpos, by simp⟩
    omega
  obtain ⟨j, hj, rfl⟩ := hin
  have hjl : j < l.length := by omega
  have hv := hval j _ (List.getElem?_eq_getElem hjl)
  have hmem : (l[j], (l.take n).count l[j]) ∈ (tally HMap.empty (l.take n)).entries :=
    (tally_mem _ _ _).mpr ⟨List.mem_iff_getElem.mpr ⟨j, by rw [List.length_take]; omega, by rw [List.getElem_take]⟩, rfl⟩
  obtain ⟨u, w, huw⟩ := List.append_of_mem hmem
  refine ⟨crowdedEnv (u.length + 1), (l[j], (l.take n).count l[j]), ?_, List.getElem_mem hjl, hv⟩
  have hord : (crowdedEnv (u.length + 1)).order (DenseArrayValue.countLoop HMap.empty l).entries =
      (w ++ u) ++ [(l[j], (l.take n).count l[j])] := by
    show List.drop _ _ ++ List.take _ _ = _
    rw [h2, huw, List.append_cons, List.drop_left' (by simp), List.take_left' (by simp), List.append_assoc]
  rw [hord]
  refine maxByCount_ends _ _ fun y hy => ?_
  have hy' : y ∈ (tally HMap.empty (l.take n)).entries := by
    rw [huw]
    rcases List.mem_append.mp hy with hy | hy <;> simp [hy]
  obtain ⟨hy1, hy2⟩ := (tally_mem _ y.1 y.2).mp hy'
  rw [hy2, count_take hval hinj h1 (List.mem_of_mem_take hy1), count_take hval hinj h1 (List.getElem_mem hjl), hv]
  exact hmax _

/-- Only one choice is allowed. -/
theorem picked_alone {α : Type} {R : SparseArrayValue → α → Prop} {mem : Nat → Nat} {F : HashEnv → Res SparseArrayValue} {spec : Nat → Option α}
    {c : Nat} (hp : Picked iw dw mem c) (h8 : dw ≤ 8) (h : ∀ env, Fate R (F env) (spec c)) :
    (∀ env, ∃ c, Picked iw dw mem c ∧ Fate R (F env) (spec c)) ∧ ∀ c, Picked iw dw mem c → ∃ env, Fate R (F env) (spec c) := by
  refine ⟨fun env => ⟨c, hp, h env⟩, fun c' hp' => ⟨listEnv, ?_⟩⟩
  rw [hp'.unique hp h8]
  exact h _

/-- Making a dense array sparse: exactly the choices of the default that are allowed can be made. -/
theorem DenseHolds.toSparse_all {m : Mode} {d : DenseArrayValue} {mem : Memory} (h : DenseHolds m iw dw d mem)
    (hw : mem.Whole m iw dw) {n : Nat} (hn : elementCount m iw = some n) (hi : iw ≤ 64) :
    ((∀ env, Panics (d.toSparse m env)) ∧ ∀ c, mem.sparsified m iw dw c = none) ∨
    ((∀ env, ∃ c, Picked (iw % 64) dw (mem.element dw) c ∧ Fate (SparseHolds iw dw) (d.toSparse m env) (mem.sparsified m iw dw c)) ∧
      ∀ c, Picked (iw % 64) dw (mem.element dw) c → ∃ env, Fate (SparseHolds iw dw) (d.toSparse m env) (mem.sparsified m iw dw c)) := by
  obtain ⟨hiw, hdw, hdl, hrep⟩ := h
  obtain ⟨_, _, data⟩ := d
  dsimp only at hiw hdw hrep
  replace hiw := hiw.symm
  replace hdw := hdw.symm
  subst hiw hdw
  have hnum := numElements_of hn
  have hn2 := elementCount_eq hn
  have h64 : n < 2 ^ 64 := by
    rw [hn2]
    exact Nat.pow_lt_pow_right (by decide) (Nat.mod_lt _ (by decide))
  have hpos : 0 < n := by rw [hn2]; exact Nat.two_pow_pos _
  -- the part after the default has been picked, for data of up to 64 bits
  have words : ∀ (dflt : Word) (l : List Word), 0 < dw → dw ≤ 64 → l.length = n → (∀ j b, l[j]? = some b → b.toNat = mem.element dw j) →
      Fate (SparseHolds iw dw) (BitVecValue.fromU64 m dflt dw >>= fun bv => SparseArrayValue.new iw bv >>= fun out =>
        DenseArrayValue.storeWords dflt 0 l out)
        (((⟨dw, need dw, dflt.toNat⟩ : Shape).unfiled m dw).bind fun d => some ⟨d, tableCells dw (mem.element dw) dflt.toNat d n⟩) := by
    intro dflt l h0 hdw hl hval
    refine (unfiled_word m hdw dflt _).bind fun r d hd => ?_
    obtain ⟨-, x, rfl, hr⟩ := hd
    obtain ⟨s0, hs1, hs2⟩ := sparse_new_of hi h0 hr (mem.element dw) dflt.toNat
    rw [hs1, ok_bind]
    obtain ⟨s, hs3, hs4⟩ := storeWords_table h0 hdw (mem.element dw) dflt _ l (k := 0) (by omega) (fun j b hj => by
      rw [Nat.zero_add, hval j b hj]) hs2
    refine ⟨s, hs3, ?_⟩
    rw [hl, Nat.zero_add] at hs4
    exact hs4
  unfold DenseArrayValue.toSparse
  cases data with
  | bit v =>
    obtain ⟨h1, n', N, hn', hN, hc, hf⟩ := hrep
    subst h1
    rw [hn] at hn'
    cases hn'
    dsimp only
    rw [hnum, ok_bind]
    have hmod : n % 2 ^ 32 = 0 ∨ n % 2 ^ 32 = n := by
      rw [hn2]
      by_cases he : iw % 64 < 32
      · exact .inr (Nat.mod_eq_of_lt (Nat.pow_lt_pow_right (by decide) he))
      · left
        rw [show iw % 64 = 32 + (iw % 64 - 32) by omega, Nat.pow_add]
        exact Nat.mul_mod_right _ _
    by_cases hlt : n < 2 ^ 32
    · right
      rw [Nat.mod_eq_of_lt hlt] at hN hc
      have hel : ∀ k, k < n → mem.element 1 k = (N.testBit k).toNat := fun k hk => by
        unfold Memory.element
        rw [if_pos (by decide), hf k (by rw [hc]; unfold capacity; omega)]
      refine picked_alone (picked_of_bits (N := N) (by rw [← hn2]; exact hel)) (by decide) fun _ => ?_
      rw [← hn2, sparsified_some hn (by
        rintro (h | h)
        · unfold perElement at h
          rw [if_pos (by decide), hc] at h
          unfold capacity at h
          omega
        · exact h.1 rfl), countBits_cells hN _ _ _ (by omega), ok_bind]
      dsimp only
      rw [Nat.zero_add, Nat.zero_add]
      generalize decide ((List.range' 0 n).countP (fun j => N.testBit j) > (List.range' 0 n).countP (fun j => !N.testBit j)) = b
      obtain ⟨r, hr1, hr2⟩ := raw_from_bool m b
      have hun : (⟨1, need 1, b.toNat⟩ : Shape).unfiled m 1 = some ⟨1, need 1, b.toNat⟩ := by
        unfold Shape.unfiled shownAs
        rw [if_neg (by decide), if_neg (by decide), if_pos (Bool.toNat_lt b)]
        rfl
      rw [hr1, ok_bind, hun]
      obtain ⟨s0, hs1, hs2⟩ := sparse_new_of hi (by decide) hr2 (mem.element 1) b.toNat
      rw [hs1, ok_bind]
      exact storeBits_table hN (mem.element 1) hel b _ n 0 (by omega) hs2
    · left
      have h0 : n % 2 ^ 32 = 0 := by
        rcases hmod with h | h
        · exact h
        · have := Nat.mod_lt n (show 0 < 2 ^ 32 by decide)
          omega
      rw [h0] at hN hc
      refine ⟨fun _ => ?_, sparsified_none hn (.inl ?_)⟩
      · refine panics_bind ?_ _
        obtain ⟨k, rfl⟩ : ∃ k, n = k + 1 := ⟨n - 1, by omega⟩
        unfold DenseArrayValue.countBits
        have : BitVecValue.isBitSet v (0 % U32) = panic .bounds := by
          have := (C87_bits .debug hN).2 (0 % U32)
          rw [if_neg (by show ¬ 0 < capacity 0; decide)] at this
          exact this
        rw [this]
        exact ⟨_, rfl⟩
      · rw [hc]
        unfold perElement
        rw [if_pos (by decide)]
        show 0 < n * 1
        omega
  | u8 l =>
    obtain ⟨h1, h2, h3, hf⟩ := hrep
    have hcnt : mem.count = n := Option.some.inj ((hw h1 (by omega)).symm.trans hn)
    have hval : ∀ k b, l[k]? = some b → b.toNat = mem.cell k := fun k b hb => by
      have hk := (List.getElem?_eq_some_iff.mp hb).1
      obtain ⟨b', hb1, hb2⟩ := hf k (by omega)
      rw [hb] at hb1
      cases hb1
      exact hb2
    have hel : mem.element dw = mem.cell := by
      funext k
      unfold Memory.element
      rw [if_pos (by omega)]
    have hper : perElement dw = 1 := by
      unfold perElement
      rw [if_pos (by omega)]
    dsimp only
    rw [hnum, ok_bind]
    by_cases hbig : (List.range n).any fun k => decide (8 ≤ mem.cell k)
    · left
      refine ⟨fun _ => ?_, sparsified_none hn (.inr ⟨h1, h2, hbig⟩)⟩
      obtain ⟨k, hk, h8⟩ := List.any_eq_true.mp hbig
      replace hk := List.mem_range.mp hk
      replace h8 := of_decide_eq_true h8
      obtain ⟨b, hb1, hb2⟩ := hf k (by omega)
      exact panics_bind (countU8_panics l n 0 (List.replicate 8 0) (by simp) (by omega) ⟨k, by omega, b, hb1, by omega⟩) _
    · right
      have hb : ∀ b ∈ l, b.toNat < 8 := fun b hb => by
        obtain ⟨k, hk, hke⟩ := List.mem_iff_getElem.mp hb
        apply Classical.byContradiction
        intro h8
        refine hbig (List.any_eq_true.mpr ⟨k, List.mem_range.mpr (by omega), decide_eq_true ?_⟩)
        rw [← hval k b (by rw [List.getElem?_eq_getElem hk, hke])]
        omega
      obtain ⟨c, x, hc, hx, hx8, hp⟩ := picked_of_bytes (iw := iw % 64) h1 h2 (by omega) hval hb
      rw [← hel] at hp
      refine picked_alone hp h2 fun _ => ?_
      rw [← hn2] at hc
      have hd : ((BitVec.ofNat 8 x.1).setWidth 64 : Word).toNat = x.1 := by
        rw [setWidth64_toNat (by decide), BitVec.toNat_ofNat]
        omega
      have hspec := sparsified_some (dw := dw) hn (mem := mem) (by
        rw [hper, hcnt]
        rintro (h | h)
        · omega
        · exact hbig h.2.2) x.1
      rw [hspec, hc, ok_bind, hx]
      by_cases h0 : dw = 0
      · subst h0
        exact ⟨.bounds, rfl⟩
      have hw := words ((BitVec.ofNat 8 x.1).setWidth 64) (l.map fun b => b.setWidth 64) (by omega) (by omega) (by simp; omega) (fun j b hj => by
        rw [List.getElem?_map, Option.map_eq_some_iff] at hj
        obtain ⟨b', hb1, rfl⟩ := hj
        rw [setWidth64_toNat (by decide), hel, hval j b' hb1])
      rw [hd] at hw
      exact hw
  | u64 l =>
    obtain ⟨h1, h2, h3, hf⟩ := hrep
    have hcnt : mem.count = n := Option.some.inj ((hw (by omega) h2).symm.trans hn)
    have hval : ∀ k b, l[k]? = some b → b.toNat = mem.cell k := fun k b hb => by
      have hk := (List.getElem?_eq_some_iff.mp hb).1
      obtain ⟨b', hb1, hb2⟩ := hf k (by omega)
      rw [hb] at hb1
      cases hb1
      exact hb2
    have hel : mem.element dw = mem.cell := by
      funext k
      unfold Memory.element
      rw [if_pos h2]
    have hper : perElement dw = 1 := by
      unfold perElement
      rw [if_pos h2]
    right
    have hspec := sparsified_some (dw := dw) hn (mem := mem) (by
      rw [hper, hcnt]
      rintro (h | h)
      · omega
      · have := h.2.1; omega)
    dsimp only
    rw [← hel] at hval
    refine ⟨fun env => ?_, fun c hc => ?_⟩
    · obtain ⟨x, hx, -, hp⟩ := picked_of_table (iw := iw % 64) (dw := dw) env (l := l) (val := BitVec.toNat) h1 (by omega) hval
        (fun a _ b _ e => BitVec.eq_of_toNat_eq e)
      refine ⟨_, hp, ?_⟩
      rw [hspec x.1.toNat, hx]
      exact words x.1 l (by omega) h2 (by omega) hval
    · obtain ⟨env, x, hx, -, rfl⟩ := picked_any (iw := iw % 64) (dw := dw) (l := l) (val := BitVec.toNat) h1 (by omega) hval
        (fun a _ b _ e => BitVec.eq_of_toNat_eq e) hc
      refine ⟨env, ?_⟩
      rw [hspec x.1.toNat, hx]
      exact words x.1 l (by omega) h2 (by omega) hval
  | big l =>
    have h1 := hrep.1
    have hel : ∀ k, mem.element dw k = gather mem.cell (need dw * k) (need dw) := by
      intro k
      unfold Memory.element
      rw [if_neg (by omega)]
    have hper : perElement dw = need dw := by
      unfold perElement
      rw [if_neg (by omega)]
    dsimp only
    simp only [hnum, ok_bind]
    have hall := selectAll_table m hdl hrep n 0
    rw [Nat.zero_add] at hall
    by_cases hfit : n * need dw ≤ mem.count
    · right
      obtain ⟨es, he1, he2, he3⟩ := hall.1 hfit
      have he3' : ∀ j b, es[j]? = some b → Raw b dw (mem.element dw j) := fun j b hj => by
        have := he3 j b hj
        rw [Nat.zero_add] at this
        rw [hel]
        exact this
      simp only [he1, ok_bind]
      have hraw : ∀ b ∈ es, Raw b dw (wordsVal b.words) := fun b hb => by
        obtain ⟨k, hk, hke⟩ := List.mem_iff_getElem.mp hb
        have := he3' k b (by rw [List.getElem?_eq_getElem hk, hke])
        exact ⟨this.width_lt, this.width_eq, this.length_eq, rfl⟩
      have hval : ∀ k b, es[k]? = some b → wordsVal b.words = mem.element dw k := fun k b hb => (he3' k b hb).val_eq
      have hinj : ∀ a ∈ es, ∀ b ∈ es, wordsVal a.words = wordsVal b.words → a = b := fun a ha b hb e => (hraw a ha).unique (by
        have := hraw b hb
        rwa [← e] at this)
      have big : ∀ x : BitVecValue × Nat, x.1 ∈ es → Fate (SparseHolds iw dw)
          (SparseArrayValue.new iw x.1 >>= fun out => DenseArrayValue.storeBigs m x.1 0 es out)
          (mem.sparsified m iw dw (wordsVal x.1.words)) := by
        intro x hxm
        have hun : (⟨dw, need dw, wordsVal x.1.words⟩ : Shape).unfiled m dw = some ⟨dw, need dw, wordsVal x.1.words⟩ := by
          unfold Shape.unfiled
          rw [if_pos h1]
        rw [sparsified_some hn (by
          rw [hper]
          rintro (h | h)
          · omega
          · have := h.2.1; omega), hun]
        obtain ⟨s0, hs1, hs2⟩ := sparse_new_of hi (by omega) (hraw _ hxm) (mem.element dw) (wordsVal x.1.words)
        rw [hs1, ok_bind]
        obtain ⟨s, hs3, hs4⟩ := storeBigs_table m h1 (mem.element dw) (hraw _ hxm) es (k := 0) (by omega) (fun j b hj => by
          rw [Nat.zero_add]; exact he3' j b hj) hs2
        refine ⟨s, hs3, ?_⟩
        rw [he2, Nat.zero_add] at hs4
        exact hs4
      refine ⟨fun env => ?_, fun c hc => ?_⟩
      · obtain ⟨x, hx, hxm, hp⟩ := picked_of_table (iw := iw % 64) (dw := dw) env (l := es) (mem := mem.element dw)
          (val := fun b => wordsVal b.words) (by omega) (by omega) hval hinj
        refine ⟨_, hp, ?_⟩
        rw [hx]
        exact big x hxm
      · obtain ⟨env, x, hx, hxm, rfl⟩ := picked_any (iw := iw % 64) (dw := dw) (l := es) (mem := mem.element dw)
          (val := fun b => wordsVal b.words) (by omega) (by omega) hval hinj hc
        refine ⟨env, ?_⟩
        rw [hx]
        exact big x hxm
    · left
      exact ⟨fun _ => panics_bind (hall.2 (by omega) (by omega)) _, sparsified_none hn (.inl (by rw [hper]; omega))⟩

theorem DenseHolds.toSparse_of {m : Mode} (env : HashEnv) {d : DenseArrayValue} {mem : Memory} (h : DenseHolds m iw dw d mem)
    (hw : mem.Whole m iw dw) {n : Nat} (hn : elementCount m iw = some n) (hi : iw ≤ 64) :
    (Panics (d.toSparse m env) ∧ ∀ c, mem.sparsified m iw dw c = none) ∨
    ∃ c, Picked (iw % 64) dw (mem.element dw) c ∧ Fate (SparseHolds iw dw) (d.toSparse m env) (mem.sparsified m iw dw c) :=
  (h.toSparse_all hw hn hi).imp (fun h => ⟨h.1 env, h.2⟩) fun h => h.1 env

/-! ## Histories -/

/-- A dense array has a cell for every element of 2 to 64 bits; the dense version of a sparse array fits into the address space. -/
def Contents.Sound (m : Mode) (iw dw : Nat) : Contents → Prop
  | .dense mem => mem.Whole m iw dw ∧ ∃ n, elementCount m iw = some n
  | .sparse t => ∀ n, elementCount m iw = some n → 64 < dw → n * t.default.words < 2 ^ 60

/-- The array holds the contents. -/
def HoldsAny (m : Mode) (iw dw : Nat) (a : ArrayValue) (c : Contents) : Prop := ∃ k, Holding m iw dw k a c ∧ c.Sound m iw dw

theorem store_count {m : Mode} {mem mem' : Memory} {i d : Shape} (h : mem.store m iw dw i d = some mem') : mem'.count = mem.count := by
  unfold Memory.store at h
  cases hi : i.points m iw with
  | none => rw [hi] at h; cases h
  | some I =>
    rw [hi] at h
    replace h : ((mem.locate m dw I).bind fun n => _) = some mem' := h
    cases hl : mem.locate m dw I with
    | none => rw [hl] at h; cases h
    | some n =>
      rw [hl, Option.bind_some] at h
      split at h
      · cases h
      · split at h
        · obtain ⟨c, -, rfl⟩ := Option.map_eq_some_iff.mp h
          rfl
        · split at h
          · cases h; rfl
          · cases h

theorem put_count {m : Mode} {mem mem' : Memory} {I : Nat} {s : Shape} (h : mem.put m iw dw I s = some mem') : mem'.count = mem.count := by
  unfold Memory.put at h
  split at h
  · exact store_count h
  · cases hl : mem.locate m dw I with
    | none => rw [hl] at h; cases h
    | some n =>
      rw [hl, Option.bind_some] at h
      split at h
      · cases h
      · cases h; rfl

theorem fill_count {m : Mode} {t : Table} (L : List Nat) {mem mem' : Memory} (h : mem.fill m iw dw t L = some mem') : mem'.count = mem.count := by
  induction L generalizing mem with
  | nil => cases h; rfl
  | cons I L ih =>
    unfold Memory.fill at h
    cases hp : mem.put m iw dw I (t.cell I) with
    | none => rw [hp] at h; cases h
    | some mem1 =>
      rw [hp] at h
      rw [ih h, put_count hp]

theorem create_whole {m : Mode} {v : Shape} {mem : Memory} (h : Memory.create m iw v = some mem) :
    mem.Whole m iw v.width ∧ ∃ n, elementCount m iw = some n := by
  unfold Memory.create at h
  cases hn : elementCount m iw with
  | none => rw [hn] at h; cases h
  | some n =>
    rw [hn] at h
    refine ⟨fun h1 h2 => ?_, n, rfl⟩
    rw [hn]
    replace h : (if m = .debug ∧ 2 ^ 30 < guardBytes n v.width then none else if v.width = 1 then _ else if v.width ≤ 64 then
      (v.datum v.width).map fun c => (⟨n, fun _ => c⟩ : Memory) else _) = some mem := h
    simp only [if_neg h1, if_pos h2] at h
    split at h
    · cases h
    · obtain ⟨c, -, rfl⟩ := Option.map_eq_some_iff.mp h
      rfl

theorem shownAs_width {m : Mode} {c : Nat} {s : Shape} (h : shownAs m dw c = some s) : s.width = dw := by
  unfold shownAs at h
  split at h
  · cases h
  · split at h
    · cases h; rfl
    · split at h
      · cases h
      · cases h; rfl

theorem densified_whole {m : Mode} {t : Table} {L : List Nat} {mem : Memory} (hd : t.default.width = dw) (h : t.densified m iw dw L = some mem) :
    mem.Whole m iw dw ∧ ∃ n, elementCount m iw = some n := by
  unfold Table.densified at h
  cases hu : t.default.unfiled m dw with
  | none => rw [hu] at h; cases h
  | some d =>
    rw [hu] at h
    replace h : ((Memory.create m iw d).bind fun mem => mem.fill m iw dw t L) = some mem := h
    cases hc : Memory.create m iw d with
    | none => rw [hc] at h; cases h
    | some mem0 =>
      rw [hc, Option.bind_some] at h
      have hw := create_whole hc
      have hdw : d.width = dw := by
        unfold Shape.unfiled at hu
        split at hu
        · rw [← Option.some.inj hu]; exact hd
        · exact shownAs_width hu
      rw [hdw] at hw
      exact ⟨fun h1 h2 => by rw [fill_count L h]; exact hw.1 h1 h2, hw.2⟩

theorem SparseHolds.default_width {s : SparseArrayValue} {t : Table} (h : SparseHolds iw dw s t) : t.default.width = dw := by
  obtain ⟨-, -, -, hrep⟩ := h
  cases hd : s.data with
  | u64u64 d map =>
    rw [hd] at hrep
    rw [show t.default = _ from hrep.2.1]
  | u64big d map =>
    rw [hd] at hrep
    rw [← hrep.2.2.1.1]
    exact hrep.2.1
  | bigbig d map => rw [hd] at hrep; exact hrep.elim

theorem sparsified_default {m : Mode} {mem : Memory} {c : Nat} {t : Table} (h : mem.sparsified m iw dw c = some t) (hdw : 64 < dw) :
    t.default.words = need dw := by
  unfold Memory.sparsified at h
  cases hn : elementCount m iw with
  | none => rw [hn] at h; cases h
  | some n =>
    rw [hn] at h
    replace h : (if _ then none else ((⟨dw, need dw, c⟩ : Shape).unfiled m dw).bind fun d => some (⟨d, _⟩ : Table)) = some t := h
    split at h
    · cases h
    · unfold Shape.unfiled at h
      rw [if_pos hdw, Option.bind_some] at h
      cases h
      rfl

theorem sparsified_uniform {m : Mode} {mem : Memory} {c : Nat} {t : Table} (h : mem.sparsified m iw dw c = some t) : t.Uniform m dw := by
  intro _ hdw
  unfold Memory.sparsified at h
  cases hn : elementCount m iw with
  | none => rw [hn] at h; cases h
  | some n =>
    rw [hn] at h
    replace h : (if _ then none else ((⟨dw, need dw, c⟩ : Shape).unfiled m dw).bind fun d => some (⟨d, _⟩ : Table)) = some t := h
    split at h
    · cases h
    · unfold Shape.unfiled at h
      rw [if_pos hdw, Option.bind_some] at h
      cases h
      refine ⟨rfl, fun k => ?_⟩
      dsimp only
      split
      · exact ⟨rfl, rfl⟩
      · exact ⟨rfl, rfl⟩

/-- One operation. -/
theorem HoldsAny.next {m : Mode} (env : HashEnv) (hi : iw ≤ 64) (hz : ∀ n, elementCount m iw = some n → 64 < dw → n * need dw < 2 ^ 60)
    {a : ArrayValue} {c : Contents} (h : HoldsAny m iw dw a c) (op : ConvOp) (ho : op.Sized) :
    ∃ r, c.Next m iw dw op r ∧ Fate (HoldsAny m iw dw) (op.run m env a) r := by
  obtain ⟨k, h, hs⟩ := h
  cases op with
  | base op =>
    refine ⟨_, rfl, ?_⟩
    have ha := h.after_of env op ho
    cases hr : c.after m iw dw op with
    | none => rw [hr] at ha; exact ha
    | some c' =>
      rw [hr] at ha
      obtain ⟨b, hb1, hb2⟩ := ha
      refine ⟨b, hb1, k, hb2, ?_⟩
      cases c with
      | dense mem =>
        cases op with
        | clear => cases hr; exact hs
        | store i d =>
          obtain ⟨mem', hm, rfl⟩ := Option.map_eq_some_iff.mp hr
          exact ⟨fun h1 h2 => by rw [store_count hm]; exact hs.1 h1 h2, hs.2⟩
      | sparse t =>
        cases op with
        | clear =>
          cases hr
          intro n hn hw
          show n * (zeroFiled dw).words < _
          unfold zeroFiled
          rw [if_pos hw]
          exact hz n hn hw
        | store i d =>
          obtain ⟨t', ht, rfl⟩ := Option.map_eq_some_iff.mp hr
          have : t'.default = t.default := by
            unfold Table.store at ht
            cases hp : i.shape.points m iw with
            | none => rw [hp] at ht; cases ht
            | some I =>
              rw [hp] at ht
              replace ht : ((d.shape.filed dw).bind fun s => _) = some t' := ht
              cases hf : d.shape.filed dw with
              | none => rw [hf] at ht; cases ht
              | some s =>
                rw [hf, Option.bind_some] at ht
                split at ht
                · cases ht
                · cases ht; rfl
          intro n hn hw
          rw [this]
          exact hs n hn hw
  | makeDense =>
    cases h with
    | @dense d mem h => exact ⟨_, rfl, _, rfl, _, .dense h, hs⟩
    | @sparse s t h hu =>
      obtain ⟨L, hL, hf⟩ := h.ofSparse_of m env hs
      refine ⟨_, ⟨L, hL, rfl⟩, ?_⟩
      cases hr : t.densified m iw dw L with
      | none =>
        rw [hr] at hf
        exact panics_bind hf _
      | some mem =>
        rw [hr] at hf
        obtain ⟨d, hd1, hd2⟩ := hf
        refine ⟨.dense d, ?_, _, .dense hd2, densified_whole h.default_width hr⟩
        show (DenseArrayValue.ofSparse m env s >>= fun d => ok (ArrayValue.dense d)) = _
        rw [hd1, ok_bind]
  | toSparse =>
    cases h with
    | @sparse s t h hu => exact ⟨_, rfl, _, rfl, _, .sparse h hu, hs⟩
    | @dense d mem h =>
      obtain ⟨hw, n, hn⟩ := hs
      rcases h.toSparse_of env hw hn hi with ⟨hp, hnone⟩ | ⟨c, hc, hf⟩
      · exact ⟨none, .inl ⟨rfl, hnone⟩, panics_bind hp _⟩
      · refine ⟨_, .inr ⟨c, hc, rfl⟩, ?_⟩
        cases hr : mem.sparsified m iw dw c with
        | none =>
          rw [hr] at hf
          exact panics_bind hf _
        | some t =>
          rw [hr] at hf
          obtain ⟨s, hs1, hs2⟩ := hf
          refine ⟨.sparse s, ?_, _, .sparse hs2 (sparsified_uniform hr), fun n hn hw => by rw [sparsified_default hr hw]; exact hz n hn hw⟩
          show (DenseArrayValue.toSparse m env d >>= fun s => ok (ArrayValue.sparse s)) = _
          rw [hs1, ok_bind]

theorem HoldsAny.runs {m : Mode} (env : HashEnv) (hi : iw ≤ 64) (hz : ∀ n, elementCount m iw = some n → 64 < dw → n * need dw < 2 ^ 60)
    (ops : List ConvOp) {a : ArrayValue} {c : Contents} (h : HoldsAny m iw dw a c) (ho : ∀ op ∈ ops, op.Sized) :
    ∃ r, c.Runs m iw dw ops r ∧ Fate (HoldsAny m iw dw) (runConv m env a ops) r := by
  induction ops generalizing a c with
  | nil => exact ⟨_, rfl, a, rfl, h⟩
  | cons op ops ih =>
    obtain ⟨mid, h1, h2⟩ := h.next env hi hz op (ho op (by simp))
    cases mid with
    | none => exact ⟨none, ⟨none, h1, rfl⟩, panics_bind h2 _⟩
    | some c' =>
      obtain ⟨b, hb1, hb2⟩ := h2
      obtain ⟨r, hr1, hr2⟩ := ih hb2 fun op hop => ho op (by simp [hop])
      refine ⟨r, ⟨some c', h1, hr1⟩, ?_⟩
      unfold runConv
      rw [hb1, ok_bind]
      exact hr2

theorem holdsAny_new (k : Kind) (m : Mode) {v : BitVecValue} (hv : v.width < 2 ^ 32) (hc : Convertible m iw v.shape) :
    Fate (HoldsAny m iw v.width) (newOf k m iw v) (Contents.create k m iw v.shape) := by
  have h := any_new (iw := iw) k m hv (by
    cases k with
    | dense => exact hc.2.1
    | sparse => exact hc.1)
  cases hr : Contents.create k m iw v.shape with
  | none => rw [hr] at h; exact h
  | some c =>
    rw [hr] at h
    obtain ⟨a, h1, h2⟩ := h
    refine ⟨a, h1, k, h2, ?_⟩
    cases k with
    | dense =>
      obtain ⟨mem, hm, rfl⟩ := Option.map_eq_some_iff.mp hr
      exact create_whole hm
    | sparse =>
      obtain ⟨t, ht, rfl⟩ := Option.map_eq_some_iff.mp hr
      intro n hn hw
      have : t.default = v.shape := by
        unfold Table.create Shape.filed at ht
        rw [if_pos (show 64 < v.shape.width from hw)] at ht
        cases ht
        rfl
      rw [this]
      exact hc.2.1 n hn hw

theorem any_runs (k : Kind) (m : Mode) (env : HashEnv) {v : BitVecValue} (hv : v.width < 2 ^ 32) (hc : Convertible m iw v.shape)
    (ops : List ConvOp) (ho : ∀ op ∈ ops, op.Sized) {c : Contents} (hr : Contents.create k m iw v.shape = some c) :
    ∃ r, c.Runs m iw v.width ops r ∧ Fate (HoldsAny m iw v.width) (newOf k m iw v >>= fun a => runConv m env a ops) r := by
  have h := holdsAny_new k m hv hc
  rw [hr] at h
  obtain ⟨a, h1, h2⟩ := h
  rw [h1]
  exact h2.runs env hc.1 hc.2.2 ops ho

/-- **C111** (histories): create an array of either kind with any default, and then store any data at any indices, clear the array, make it dense
and convert it to a sparse array, in any order. The outcome is one that the specification allows: it panics if the specification says so,
and otherwise the array has the kind that the specification says and every `select` does what the specification says. -/
theorem C111_history (k : Kind) (m : Mode) (env : HashEnv) {v : BitVecValue} (hv : v.width < 2 ^ 32) (hc : Convertible m iw v.shape)
    (ops : List ConvOp) (ho : ∀ op ∈ ops, op.Sized) :
    match Contents.create k m iw v.shape with
    | none => Panics (newOf k m iw v)
    | some c => ∃ r, c.Runs m iw v.width ops r ∧
      match r with
      | none => Panics (newOf k m iw v >>= fun a => runConv m env a ops)
      | some e => ∃ b, (newOf k m iw v >>= fun a => runConv m env a ops) = ok b ∧
          (b.isDense = match e with | .dense _ => true | .sparse _ => false) ∧
          ∀ i, Makes (b.select m env i) (e.select m iw v.width i.shape) := by
  cases hr : Contents.create k m iw v.shape with
  | none =>
    have h := holdsAny_new k m hv hc
    rw [hr] at h
    exact h
  | some c =>
    obtain ⟨r, h1, h2⟩ := any_runs k m env hv hc ops ho hr
    refine ⟨r, h1, ?_⟩
    cases r with
    | none => exact h2
    | some e =>
      obtain ⟨b, hb1, k', hb2, -⟩ := h2
      refine ⟨b, hb1, ?_, fun i => hb2.select_of env i⟩
      cases hb2 <;> rfl

/-! ## Comparisons -/

theorem isEqualMixed_listing {m : Mode} (env : HashEnv) {d : DenseArrayValue} {s : SparseArrayValue} {mem : Memory} {t : Table}
    (hd : DenseHolds m iw dw d mem) (hs : SparseHolds iw dw s t) (hst : (Contents.sparse t).Sound m iw dw) :
    match t.densified m iw dw (s.listing env) with
      | none => Panics (isEqualMixed m env d s)
      | some out => ∃ b, isEqualMixed m env d s = ok (some b) ∧ (b = true ↔ out.Same mem) := by
  have hf := hs.ofSparse_listing m env hst
  unfold isEqualMixed
  rw [if_neg (by rw [hd.indexWidth, hd.dataWidth, hs.indexWidth, hs.dataWidth]; simp)]
  cases hr : t.densified m iw dw (s.listing env) with
  | none =>
    rw [hr] at hf
    exact panics_bind hf _
  | some out =>
    rw [hr] at hf
    obtain ⟨d', h1, h2⟩ := hf
    rw [h1, ok_bind]
    obtain ⟨r, hr1, hr2⟩ := h2.isEqual_of hd
    exact ⟨r, hr1, hr2⟩

theorem isEqualMixed_of {m : Mode} (env : HashEnv) {d : DenseArrayValue} {s : SparseArrayValue} {mem : Memory} {t : Table}
    (hd : DenseHolds m iw dw d mem) (hs : SparseHolds iw dw s t) (hst : (Contents.sparse t).Sound m iw dw) :
    ∃ L, t.Lists L ∧ match t.densified m iw dw L with
      | none => Panics (isEqualMixed m env d s)
      | some out => ∃ b, isEqualMixed m env d s = ok (some b) ∧ (b = true ↔ out.Same mem) :=
  ⟨_, hs.listed env, isEqualMixed_listing env hd hs hst⟩

theorem HoldsAny.compared {m : Mode} (env : HashEnv) {a b : ArrayValue} {c e : Contents} (ha : HoldsAny m iw dw a c) (hb : HoldsAny m iw dw b e) :
    c.Compared m iw dw e (a.eq m env b) := by
  have heq : ∀ {x : Res (Option Bool)}, Panics x → Panics (x >>= fun r => ok (r.getD false)) := fun h => panics_bind h _
  have heq2 : ∀ {x : Res (Option Bool)} {r : Bool}, x = ok (some r) → (x >>= fun r => ok (r.getD false)) = ok r := fun h => by
    rw [h, ok_bind]
    rfl
  obtain ⟨k, ha, has⟩ := ha
  obtain ⟨k', hb, hbs⟩ := hb
  cases ha with
  | dense ha =>
    cases hb with
    | dense hb =>
      refine ⟨fun h => h.elim, fun _ => ?_⟩
      obtain ⟨r, hr1, hr2⟩ := ha.isEqual_of hb
      exact ⟨r, heq2 hr1, hr2⟩
    | @sparse s t hb hbu =>
      obtain ⟨L, hL, h⟩ := isEqualMixed_of env ha hb hbs
      refine ⟨L, hL, ?_⟩
      cases hr : t.densified m iw dw L with
      | none => rw [hr] at h; exact heq h
      | some out =>
        rw [hr] at h
        obtain ⟨r, hr1, hr2⟩ := h
        exact ⟨r, heq2 hr1, hr2⟩
  | @sparse s t ha hau =>
    cases hb with
    | dense hb =>
      obtain ⟨L, hL, h⟩ := isEqualMixed_of env hb ha has
      refine ⟨L, hL, ?_⟩
      cases hr : t.densified m iw dw L with
      | none => rw [hr] at h; exact heq h
      | some out =>
        rw [hr] at h
        obtain ⟨r, hr1, hr2⟩ := h
        exact ⟨r, heq2 hr1, hr2⟩
    | @sparse s' t' hb hbu =>
      have h := ha.isEqual_of m env hb hau hbu
      refine ⟨fun hcl => ?_, fun hcl => ?_⟩
      · rw [if_pos (show m = .debug ∧ 64 < dw ∧ t.default.words ≠ t'.default.words from hcl)] at h
        exact heq h
      · rw [if_neg (show ¬ (m = .debug ∧ 64 < dw ∧ t.default.words ≠ t'.default.words) from hcl)] at h
        obtain ⟨r, hr1, hr2⟩ := h
        exact ⟨r, heq2 hr1, hr2⟩

/-- What a history that ends without a panic has led to. -/
theorem any_reached (k : Kind) (m : Mode) (env : HashEnv) {v : BitVecValue} (hv : v.width < 2 ^ 32) (hc : Convertible m iw v.shape)
    (ops : List ConvOp) (ho : ∀ op ∈ ops, op.Sized) {a : ArrayValue} (ha : (newOf k m iw v >>= fun a => runConv m env a ops) = ok a) :
    ∃ c e, Contents.create k m iw v.shape = some c ∧ c.Runs m iw v.width ops (some e) ∧ HoldsAny m iw v.width a e := by
  cases hr : Contents.create k m iw v.shape with
  | none =>
    have h := holdsAny_new k m hv hc
    rw [hr] at h
    obtain ⟨p, hp⟩ := panics_bind (show Panics (newOf k m iw v) from h) fun a => runConv m env a ops
    rw [ha] at hp
    cases hp
  | some c =>
    obtain ⟨r, h1, h2⟩ := any_runs k m env hv hc ops ho hr
    cases r with
    | none =>
      obtain ⟨p, hp⟩ := h2
      rw [ha] at hp
      cases hp
    | some e =>
      obtain ⟨b, hb1, hb2⟩ := h2
      rw [ha] at hb1
      cases hb1
      exact ⟨c, e, rfl, h1, hb2⟩

/-- **C111** (comparisons): two arrays of the same widths, each of either kind and after any history of stores, clears and conversions, compare as
the specification says. -/
theorem C111_equal (k k' : Kind) (m : Mode) (env : HashEnv) {u v : BitVecValue} (hu : u.width < 2 ^ 32) (huv : v.width = u.width)
    (hcu : Convertible m iw u.shape) (hcv : Convertible m iw v.shape) (ops ops' : List ConvOp) (ho : ∀ op ∈ ops ++ ops', op.Sized)
    {a b : ArrayValue} (ha : (newOf k m iw u >>= fun a => runConv m env a ops) = ok a)
    (hb : (newOf k' m iw v >>= fun a => runConv m env a ops') = ok b) :
    ∃ c c' e e', Contents.create k m iw u.shape = some c ∧ c.Runs m iw u.width ops (some e) ∧
      Contents.create k' m iw v.shape = some c' ∧ c'.Runs m iw v.width ops' (some e') ∧ e.Compared m iw u.width e' (a.eq m env b) := by
  obtain ⟨c, e, h1, h2, h3⟩ := any_reached k m env hu hcu ops (fun op hop => ho op (by simp [hop])) ha
  obtain ⟨c', e', h1', h2', h3'⟩ := any_reached k' m env (by omega) hcv ops' (fun op hop => ho op (by simp [hop])) hb
  rw [huv] at h3'
  exact ⟨c, c', e, e', h1, h2, h1', h2', h3.compared env h3'⟩

/-! ## The entries of a sparse array -/

/-- The entry is what the specification says. -/
def EntryShape (e : BitVecValue × BitVecValue) (s : Shape × Shape) : Prop := (e.1.shape, e.2.shape) = s

theorem mapRes_entries {α : Type} {m : Mode} {t : Table} (f : α → Res (BitVecValue × BitVecValue)) (key : α → Nat) (l : List α)
    (h : ∀ a ∈ l, Fate EntryShape (f a) ((shownAs m iw (key a)).bind fun i => ((t.cell (key a)).unfiled m dw).bind fun d => some (i, d))) :
    Fate (fun es ss => es.map (fun e => (e.1.shape, e.2.shape)) = ss) (SparseArrayValue.mapRes f l) (t.entries m iw dw (l.map key)) := by
  induction l with
  | nil => exact ⟨[], rfl, rfl⟩
  | cons a l ih =>
    have h1 := h a (by simp)
    have h2 := ih fun b hb => h b (by simp [hb])
    rw [List.map_cons]
    unfold SparseArrayValue.mapRes Table.entries
    cases hi : shownAs m iw (key a) with
    | none =>
      rw [hi] at h1
      exact panics_bind (show Panics (f a) from h1) _
    | some i =>
      rw [hi] at h1
      cases hd : (t.cell (key a)).unfiled m dw with
      | none =>
        rw [hd] at h1
        exact panics_bind (show Panics (f a) from h1) _
      | some d =>
        rw [hd] at h1
        obtain ⟨e, he1, he2⟩ := h1
        rw [he1, ok_bind]
        refine h2.bind (g := fun ss => some ((i, d) :: ss)) fun es ss hes => ⟨_, rfl, ?_⟩
        show List.map _ (e :: es) = _
        rw [List.map_cons, hes, show (e.1.shape, e.2.shape) = (i, d) from he2]

theorem SparseHolds.entries_of {s : SparseArrayValue} {t : Table} (h : SparseHolds iw dw s t) (hi : iw ≤ 64) (m : Mode) (env : HashEnv) :
    ∃ L, t.Lists L ∧
      Fate (fun es ss => es.map (fun e => (e.1.shape, e.2.shape)) = ss) (s.nonDefaultEntries m env) (t.entries m iw dw L) := by
  have made : ∀ {x : Res BitVecValue} {o : Option Shape}, Makes x o → Fate (fun r s => r.shape = s) x o := fun {x o} h => by
    cases o with
    | none => exact h
    | some s =>
      obtain ⟨r, h1, h2, -⟩ := h
      exact ⟨r, h1, h2⟩
  obtain ⟨hiw, hdw, -, hrep⟩ := h
  unfold SparseArrayValue.nonDefaultEntries
  cases hd : s.data with
  | u64u64 d map =>
    rw [hd] at hrep
    obtain ⟨hle, -, hmap⟩ := hrep
    refine ⟨_, hmap.lists env, mapRes_entries _ _ _ fun e he => ?_⟩
    rw [hiw, hdw, show t.cell e.1.toNat = _ from hmap.rel env he]
    refine (made (shownAs_fate m hi e.1)).bind fun i i' hi' => ?_
    unfold Shape.unfiled
    rw [if_neg (show ¬ 64 < dw by omega)]
    refine (made (shownAs_fate m hle e.2)).bind fun v v' hv' => ⟨_, rfl, ?_⟩
    show (i.shape, v.shape) = (i', v')
    rw [hi', hv']
  | u64big d map =>
    rw [hd] at hrep
    obtain ⟨hlt, -, -, hmap⟩ := hrep
    refine ⟨_, hmap.lists env, mapRes_entries _ _ _ fun e he => ?_⟩
    rw [hiw]
    refine (made (shownAs_fate m hi e.1)).bind fun i i' hi' => ?_
    unfold Shape.unfiled
    rw [if_pos hlt, Option.bind_some]
    refine ⟨_, rfl, ?_⟩
    show (i.shape, e.2.shape) = (i', _)
    rw [hi', (hmap.rel env he).1]
  | bigbig d map => rw [hd] at hrep; exact hrep.elim

/-- **C111** (entries): `non_default_entries` of a sparse array, after any history, lists what the specification says, in some order of the
indices that do not hold the default; if one of the entries cannot be made, it panics. -/
theorem C111_entries (k : Kind) (m : Mode) (env : HashEnv) {v : BitVecValue} (hv : v.width < 2 ^ 32) (hc : Convertible m iw v.shape)
    (ops : List ConvOp) (ho : ∀ op ∈ ops, op.Sized) {s : SparseArrayValue}
    (hs : (newOf k m iw v >>= fun a => runConv m env a ops) = ok (.sparse s)) :
    ∃ c t L, Contents.create k m iw v.shape = some c ∧ c.Runs m iw v.width ops (some (.sparse t)) ∧ t.Lists L ∧
      match t.entries m iw v.width L with
      | none => Panics (s.nonDefaultEntries m env)
      | some ss => ∃ es, s.nonDefaultEntries m env = ok es ∧ es.map (fun e => (e.1.shape, e.2.shape)) = ss := by
  obtain ⟨c, e, h1, h2, k', h3, -⟩ := any_reached k m env hv hc ops ho hs
  cases h3 with
  | @sparse _ t h3 hu =>
    obtain ⟨L, hL, hf⟩ := h3.entries_of hc.1 m env
    refine ⟨c, t, L, h1, h2, hL, ?_⟩
    cases hr : t.entries m iw v.width L with
    | none => rw [hr] at hf; exact hf
    | some ss => rw [hr] at hf; exact hf

/-! ## The order does not decide whether a conversion panics -/

theorem put_fails {m : Mode} {mem mem' : Memory} (h : mem.count = mem'.count) (I : Nat) (s : Shape) :
    mem.put m iw dw I s = none ↔ mem'.put m iw dw I s = none := by
  have hl : ∀ I, mem.locate m dw I = mem'.locate m dw I := fun I => by unfold Memory.locate; rw [h]
  unfold Memory.put
  by_cases hw : 64 < dw
  · rw [if_pos hw, if_pos hw]
    unfold Memory.store
    cases hp : (⟨dw, need dw, I⟩ : Shape).points m iw with
    | none => exact Iff.rfl
    | some J =>
      show ((mem.locate m dw J).bind fun n => _) = none ↔ ((mem'.locate m dw J).bind fun n => _) = none
      rw [hl]
      cases mem'.locate m dw J with
      | none => exact Iff.rfl
      | some n =>
        rw [Option.bind_some, Option.bind_some]
        simp only [if_neg (show ¬ dw ≤ 64 by omega)]
        split
        · exact Iff.rfl
        · split
          · exact ⟨fun h => (by cases h), fun h => (by cases h)⟩
          · exact Iff.rfl
  · rw [if_neg hw, if_neg hw, hl]
    cases mem'.locate m dw I with
    | none => exact Iff.rfl
    | some n =>
      rw [Option.bind_some, Option.bind_some]
      by_cases hb : dw = 1 ∧ 1 < s.number ∧ m = .debug
      · rw [if_pos hb, if_pos hb]
      · rw [if_neg hb, if_neg hb]
        exact ⟨fun h => (by cases h), fun h => (by cases h)⟩

theorem fill_fails {m : Mode} {t : Table} {mem : Memory} (L : List Nat) {mem' : Memory} (h : mem.count = mem'.count) :
    mem'.fill m iw dw t L = none ↔ ∃ I ∈ L, mem.put m iw dw I (t.cell I) = none := by
  induction L generalizing mem' with
  | nil => exact ⟨fun h => (by cases h), fun ⟨I, hI, _⟩ => (by cases hI)⟩
  | cons I L ih =>
    unfold Memory.fill
    cases hp : mem'.put m iw dw I (t.cell I) with
    | none => exact ⟨fun _ => ⟨I, by simp, (put_fails h I _).mpr hp⟩, fun _ => rfl⟩
    | some mem1 =>
      show mem1.fill m iw dw t L = none ↔ _
      rw [ih (h.trans (put_count hp).symm)]
      constructor
      · rintro ⟨J, hJ, h1⟩
        exact ⟨J, by simp [hJ], h1⟩
      · rintro ⟨J, hJ, h1⟩
        rcases List.mem_cons.mp hJ with rfl | hJ
        · rw [(put_fails h J _).mp h1] at hp
          cases hp
        · exact ⟨J, hJ, h1⟩

/-- **C111** (order): the order in which the hash map gives its entries does not decide whether making the array dense panics. -/
theorem C111_order {m : Mode} {t : Table} {L L' : List Nat} (h : t.Lists L) (h' : t.Lists L') :
    t.densified m iw dw L = none ↔ t.densified m iw dw L' = none := by
  unfold Table.densified
  cases t.default.unfiled m dw with
  | none => exact Iff.rfl
  | some d =>
    show ((Memory.create m iw d).bind fun mem => mem.fill m iw dw t L) = none ↔ ((Memory.create m iw d).bind fun mem => mem.fill m iw dw t L') = none
    cases Memory.create m iw d with
    | none => exact Iff.rfl
    | some mem =>
      rw [Option.bind_some, Option.bind_some, fill_fails L rfl, fill_fails L' rfl]
      constructor
      · rintro ⟨I, hI, h1⟩
        exact ⟨I, (h'.2 I).mpr ((h.2 I).mp hI), h1⟩
      · rintro ⟨I, hI, h1⟩
        exact ⟨I, (h.2 I).mpr ((h'.2 I).mp hI), h1⟩

/-! ## Concrete cases -/

/-- The hypotheses are met by a default with one word where two belong, by a default with bits beyond its width, and by a history with a
malformed index, malformed data and both conversions. -/
example : Convertible .release 1 (BitVecValue.shape ⟨65, [7#64]⟩) ∧ Convertible .debug 3 (BitVecValue.shape ⟨4, [19#64]⟩) ∧
    ∀ op ∈ [ConvOp.toSparse, .base (.store ⟨0, [1#64]⟩ ⟨65, [1#64, 255#64]⟩), .makeDense, .base .clear], op.Sized := by
  refine ⟨⟨by decide, fun n hn _ => by cases hn; decide, fun n hn _ => by cases hn; decide⟩,
    ⟨by decide, fun n _ h => absurd h (by decide), fun n _ h => absurd h (by decide)⟩, ?_⟩
  intro op hop
  simp only [List.mem_cons, List.not_mem_nil, or_false] at hop
  rcases hop with rfl | rfl | rfl | rfl
  · trivial
  · unfold ConvOp.Sized RawOp.Sized; decide
  · trivial
  · trivial

/-- A sparse array reads a default with one word where two belong as it is. Made dense, the array has half of the cells it needs: the first
element is made of two copies of the word and reading the second one panics, and so does converting the array back. -/
example : (do let a ← newOf .sparse .release 1 ⟨65, [7#64]⟩
              let x ← a.select .release listEnv (encode 1#1)
              let a ← runConv .release listEnv a [.makeDense]
              let y ← a.select .release listEnv (encode 0#1)
              ok (x.words, y.words)) = ok ([7#64], [7#64, 7#64]) ∧
    Panics (do let a ← newOf .sparse .release 1 ⟨65, [7#64]⟩
               let a ← runConv .release listEnv a [.makeDense]
               a.select .release listEnv (encode 1#1)) ∧
    Panics (do let a ← newOf .sparse .release 1 ⟨65, [7#64]⟩
               runConv .release listEnv a [.makeDense, .toSparse]) :=
  ⟨by decide +kernel, ⟨.bounds, by rfl⟩, ⟨.bounds, by rfl⟩⟩

/-- A default of 12 bits that holds 2^12 + 3: a release build cuts it to 3 when the array is converted to a sparse array; a debug build panics.
With 4 bits that hold 2^4 + 3 the conversion panics in both builds. -/
example : (do let a ← newOf .dense .release 1 ⟨12, [4099#64]⟩
              let a ← runConv .release listEnv a [.toSparse]
              match a with
              | .sparse s => s.default .release
              | .dense _ => Res.panic .unwrap) = ok (encode 3#12) ∧
    Panics (newOf .dense .debug 1 ⟨12, [4099#64]⟩ >>= fun a => runConv .debug listEnv a [.toSparse]) ∧
    Panics (newOf .dense .release 1 ⟨4, [19#64]⟩ >>= fun a => runConv .release listEnv a [.toSparse]) :=
  ⟨by decide +kernel, ⟨.debugAssert, by rfl⟩, ⟨.bounds, by rfl⟩⟩

/-- Comparing a sparse array with a dense array of wide data: a release build looks at every word, a debug build panics. -/
example : (do let a ← newOf .sparse .release 1 (encode 7#65)
              let a ← a.store .release listEnv (encode 1#1) ⟨65, [7#64, 2#64]⟩
              let b ← newOf .dense .release 1 (encode 7#65)
              let r ← a.eq .release listEnv b
              let b ← b.store .release listEnv (encode 1#1) ⟨65, [7#64, 2#64]⟩
              let r' ← a.eq .release listEnv b
              ok (r, r')) = ok (false, true) ∧
    Panics (do let a ← newOf .sparse .debug 1 (encode 7#65)
               let a ← a.store .debug listEnv (encode 1#1) ⟨65, [7#64, 2#64]⟩
               let b ← newOf .dense .debug 1 (encode 7#65)
               a.eq .debug listEnv b) :=
  ⟨by decide +kernel, ⟨.debugAssert, by rfl⟩⟩

/-- The entries of a sparse array with data of 4 bits that holds 19. -/
example : (do let a ← newOf .sparse .release 1 (encode 0#4)
              let a ← a.store .release listEnv (encode 1#1) ⟨4, [19#64]⟩
              match a with
              | .sparse s => s.nonDefaultEntries .release listEnv
              | .dense _ => Res.panic .unwrap) = ok [(encode 1#1, encode 3#4)] ∧
    Panics (do let a ← newOf .sparse .debug 1 (encode 0#4)
               let a ← a.store .debug listEnv (encode 1#1) ⟨4, [19#64]⟩
               match a with
               | .sparse s => s.nonDefaultEntries .debug listEnv
               | .dense _ => ok []) :=
  ⟨by decide +kernel, ⟨.debugAssert, by rfl⟩⟩

end Baa

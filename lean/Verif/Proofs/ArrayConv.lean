import Verif.Proofs.Sparse

/-!
# Conversions between dense and sparse arrays
-/

namespace Baa
open Res

variable {iw dw : Nat}

/-! ## Sparse to dense -/

theorem putU64_spec (m : Mode) {d : DenseArrayValue} {g : BitVec iw → BitVec dw} (h : DenseInv d g) (hdw : dw ≤ 64)
    (i : BitVec iw) (e : BitVec dw) :
    ∃ d', d.putU64 m (i.setWidth 64) (e.setWidth 64) = ok d' ∧ DenseInv d' (update g i e) := by
  have h64 := h.index_lt
  have heq : d.putU64 m (i.setWidth 64) (e.setWidth 64) = d.store m (encode i) (encode e) := by
    obtain ⟨hiw, hdw', hlt, hpos, hdl, hrep⟩ := h
    obtain ⟨_, _, data⟩ := d
    dsimp only at hiw hdw' hrep
    replace hiw := hiw.symm
    replace hdw' := hdw'.symm
    subst hiw hdw'
    unfold DenseArrayValue.store DenseArrayValue.putU64
    dsimp only
    rw [debugAssert_of (b := (encode i).width == iw) (by simp), ok_bind, toU64_encode (by omega)]
    show _ = (debugAssert m ((encode e).width == dw) >>= fun _ => _)
    rw [debugAssert_of (b := (encode e).width == dw) (by simp), ok_bind]
    cases data with
    | bit v =>
      obtain ⟨h1, h2, y, hy, hf⟩ := hrep
      subst h1
      dsimp only
      rw [C25_is_tru (encode_denotes e (by decide)), ok_bind]
      have hee : e = 1#1 ∨ e = 0#1 := by
        revert e
        decide
      rcases hee with rfl | rfl
      · rfl
      · show (debugAssert m true >>= fun _ => _) = _
        rw [debugAssert_true, ok_bind]
        rfl
    | u8 l =>
      dsimp only
      rw [toU64_encode hdw]
      rfl
    | u64 l =>
      dsimp only
      rw [toU64_encode hdw]
      rfl
    | big l =>
      have := hrep.1
      omega
  rw [heq]
  exact h.store_of m i e

theorem putAllU64_spec (m : Mode) (hdw : dw ≤ 64) (f : BitVec iw → BitVec dw) (es : List (Word × Word))
    (hes : ∀ e ∈ es, ∃ i : BitVec iw, e = (i.setWidth 64, (f i).setWidth 64)) :
    ∀ {d : DenseArrayValue} {g : BitVec iw → BitVec dw}, DenseInv d g →
    ∃ d', d.putAllU64 m es = ok d' ∧
      DenseInv d' (fun i => if i.setWidth 64 ∈ es.map Prod.fst then f i else g i) := by
  induction es with
  | nil =>
    intro d g h
    exact ⟨d, rfl, by simpa using h⟩
  | cons e es ih =>
    intro d g h
    have h64 := h.index_lt
    obtain ⟨i, rfl⟩ := hes e (by simp)
    obtain ⟨d1, h1, h2⟩ := putU64_spec m h hdw i (f i)
    obtain ⟨d2, h3, h4⟩ := ih (fun e he => hes e (by simp [he])) h2
    refine ⟨d2, ?_, ?_⟩
    · unfold DenseArrayValue.putAllU64
      dsimp only
      rw [h1, ok_bind, h3]
    · have : (fun j => if j.setWidth 64 ∈ es.map Prod.fst then f j else update g i (f i) j) =
          (fun j => if j.setWidth 64 ∈ ((i.setWidth 64, (f i).setWidth 64) :: es).map Prod.fst then f j else g j) := by
        funext j
        simp only [List.map_cons, List.mem_cons, update_apply]
        by_cases hj : j = i
        · subst hj; simp
        · have hne : ¬ BitVec.setWidth 64 j = BitVec.setWidth 64 i := fun hh => hj (setWidth_inj (by omega) hh)
          rw [if_neg hj]
          simp only [hne, false_or]
      rw [← this]
      exact h4

theorem putAllBig_release (f : BitVec iw → BitVec dw) (es : List (Word × BitVecValue))
    (hes : ∀ e ∈ es, ∃ i : BitVec iw, e = (i.setWidth 64, encode (f i))) :
    ∀ {d : DenseArrayValue} {g : BitVec iw → BitVec dw} {bv : BitVecValue}, DenseInv d g → Slot bv dw → 64 < dw →
    ∃ d', d.putAllBig .release bv es = ok d' ∧
      DenseInv d' (fun i => if i.setWidth 64 ∈ es.map Prod.fst then f i else g i) := by
  induction es with
  | nil =>
    intro d g bv h _ _
    exact ⟨d, rfl, by simpa using h⟩
  | cons e es ih =>
    intro d g bv h hbv hdw
    have h64 := h.index_lt
    obtain ⟨i, rfl⟩ := hes e (by simp)
    have hi64 := setWidth64_toNat (show iw ≤ 64 by omega) i
    have hlt : (i.setWidth 64).toNat < 2 ^ dw :=
      Nat.lt_of_lt_of_le (i.setWidth 64).isLt (Nat.pow_le_pow_right (by decide) (by omega))
    obtain ⟨r, hr1, hr2⟩ := C26_assign_from_u64 .release (by omega) hbv (i.setWidth 64) hlt
    have hto : r.toU64 = some (i.setWidth 64) := by
      rw [C03_to_u64 hr2, BitVec.toNat_ofNat, Nat.mod_eq_of_lt hlt, if_pos (i.setWidth 64).isLt, BitVec.ofNat_toNat,
        BitVec.setWidth_eq]
    obtain ⟨d1, h1, h2⟩ := h.store_at .release i hto hi64 rfl (f i)
    obtain ⟨d2, h3, h4⟩ := ih (fun e he => hes e (by simp [he])) h2 hr2.slot hdw
    refine ⟨d2, ?_, ?_⟩
    · unfold DenseArrayValue.putAllBig
      dsimp only
      rw [hr1, ok_bind, h1, ok_bind, h3]
    · have : (fun j => if j.setWidth 64 ∈ es.map Prod.fst then f j else update g i (f i) j) =
          (fun j => if j.setWidth 64 ∈ ((i.setWidth 64, encode (f i)) :: es).map Prod.fst then f j else g j) := by
        funext j
        simp only [List.map_cons, List.mem_cons, update_apply]
        by_cases hj : j = i
        · subst hj; simp
        · have hne : ¬ BitVec.setWidth 64 j = BitVec.setWidth 64 i := fun hh => hj (setWidth_inj (by omega) hh)
          rw [if_neg hj]
          simp only [hne, false_or]
      rw [← this]
      exact h4

theorem putAllBig_debug {d : DenseArrayValue} {g : BitVec iw → BitVec dw} {bv : BitVecValue} (h : DenseInv d g)
    (hbv : Slot bv dw) (hdw : 64 < dw) {es : List (Word × BitVecValue)} (hes : es ≠ []) :
    Panics (d.putAllBig .debug bv es) := by
  have h64 := h.index_lt
  cases es with
  | nil => exact absurd rfl hes
  | cons e es =>
    have hlt : e.1.toNat < 2 ^ dw := Nat.lt_of_lt_of_le e.1.isLt (Nat.pow_le_pow_right (by decide) (by omega))
    obtain ⟨r, hr1, hr2⟩ := C26_assign_from_u64 .debug (by omega) hbv e.1 hlt
    unfold DenseArrayValue.putAllBig
    rw [hr1, ok_bind]
    unfold DenseArrayValue.store
    have : (r.width == d.indexWidth) = false := by
      rw [hr2.width_eq, h.indexWidth, beq_eq_false_iff_ne]
      omega
    rw [this]
    exact ⟨_, rfl⟩

theorem order_map_mem (env : HashEnv) {α β : Type} (l : List α) (p : α → β) (b : β) :
    b ∈ (env.order l).map p ↔ b ∈ l.map p := ((env.order_perm l).map p).mem_iff

/-- The conversion makes a dense array with the same contents (if the size check passes), except for wide data in a debug
build. -/
theorem ofSparse_spec (m : Mode) (env : HashEnv) {s : SparseArrayValue} {f : BitVec iw → BitVec dw} {x : BitVec dw}
    (h : SparseInv s f x) (hpos : 0 < dw) (ha : Addressable iw dw) (hb : dw ≠ 1 ∨ iw < 32)
    (hg : m = .release ∨ guardSize iw dw ≤ 2 ^ 30) (hok : dw ≤ 64 ∨ m = .release ∨ ∀ i, f i = x) :
    ∃ d, DenseArrayValue.ofSparse m env s = ok d ∧ DenseInv d f := by
  have hlt := index_lt_of ha
  obtain ⟨d0, hn1, hn2⟩ := dense_new m x hpos h.data_lt ha hb
  have hgd : debugAssert m (decide (guardSize iw dw ≤ 2 ^ 30)) = ok () := by
    rcases hg with rfl | hg
    · rfl
    · exact debugAssert_decide_of hg
  rw [hgd, ok_bind] at hn1
  unfold DenseArrayValue.ofSparse
  rw [h.default_of m hpos, ok_bind, h.indexWidth, hn1, ok_bind,
    debugAssert_of (by rw [h.dataWidth, hn2.dataWidth]; simp), ok_bind, debugAssert_of (by rw [hn2.indexWidth]; simp),
    ok_bind]
  have hrep := h.rep
  have hdl := h.data_lt
  rw [h.dataWidth]
  cases hdata : s.data with
  | u64u64 d map =>
    rw [hdata] at hrep
    obtain ⟨h1, h2, h3, hm⟩ := hrep
    dsimp only
    obtain ⟨d', hd1, hd2⟩ := putAllU64_spec m h2 f (env.order map.entries) (by
      rintro ⟨k, v⟩ he
      obtain ⟨i, _, rfl, rfl⟩ := (hm.mem_iff k v).mp ((env.order_perm _).mem_iff.mp he)
      exact ⟨i, rfl⟩) hn2
    refine ⟨d', hd1, ?_⟩
    have : (fun i : BitVec iw => if i.setWidth 64 ∈ (env.order map.entries).map Prod.fst then f i else x) = f := by
      funext i
      by_cases hx : f i = x
      · rw [hx, ite_self]
      · rw [if_pos ((order_map_mem env _ _ _).mpr ((hm.key_mem_iff i).mpr hx))]
    rw [this] at hd2
    exact hd2
  | u64big d map =>
    rw [hdata] at hrep
    obtain ⟨h1, h2, h3, hm⟩ := hrep
    dsimp only
    have hfin : (fun i : BitVec iw => if i.setWidth 64 ∈ (env.order map.entries).map Prod.fst then f i else x) = f := by
      funext i
      by_cases hx : f i = x
      · rw [hx, ite_self]
      · rw [if_pos ((order_map_mem env _ _ _).mpr ((hm.key_mem_iff i).mpr hx))]
    rcases hok with hok | rfl | hok
    · omega
    · obtain ⟨d', hd1, hd2⟩ := putAllBig_release f (env.order map.entries) (by
        rintro ⟨k, v⟩ he
        obtain ⟨i, _, rfl, rfl⟩ := (hm.mem_iff k v).mp ((env.order_perm _).mem_iff.mp he)
        exact ⟨i, rfl⟩) hn2 (zero_slot hdl) h2
      rw [hfin] at hd2
      exact ⟨d', hd1, hd2⟩
    · have hemp : env.order map.entries = [] := by
        rw [List.eq_nil_iff_forall_not_mem]
        rintro ⟨k, v⟩ he
        obtain ⟨i, hne, _⟩ := (hm.mem_iff k v).mp ((env.order_perm _).mem_iff.mp he)
        exact hne (hok i)
      rw [hemp]
      refine ⟨d0, rfl, ?_⟩
      have : f = fun _ => x := funext hok
      rw [this]
      exact hn2
  | bigbig d map =>
    rw [hdata] at hrep
    have := hrep.1
    omega

/-- In a debug build the conversion of a sparse array of wide data panics as soon as one entry differs from the default. -/
theorem ofSparse_wide_debug (env : HashEnv) {s : SparseArrayValue} {f : BitVec iw → BitVec dw} {x : BitVec dw}
    (h : SparseInv s f x) (hdw : 64 < dw) {i : BitVec iw} (hi : f i ≠ x) (ha : Addressable iw dw) :
    Panics (DenseArrayValue.ofSparse .debug env s) := by
  have hlt := index_lt_of ha
  obtain ⟨d0, hn1, hn2⟩ := dense_new .debug x (by omega) h.data_lt ha (.inl (by omega))
  unfold DenseArrayValue.ofSparse
  rw [h.default_of .debug (by omega), ok_bind, h.indexWidth, hn1]
  by_cases hg : guardSize iw dw ≤ 2 ^ 30
  · rw [debugAssert_decide_of hg, ok_bind, ok_bind,
      debugAssert_of (by rw [h.dataWidth, hn2.dataWidth]; simp), ok_bind, debugAssert_of (by rw [hn2.indexWidth]; simp),
      ok_bind]
    have hrep := h.rep
    have hdl := h.data_lt
    rw [h.dataWidth]
    cases hdata : s.data with
    | u64u64 d map =>
      rw [hdata] at hrep
      have := hrep.2.1
      omega
    | u64big d map =>
      rw [hdata] at hrep
      obtain ⟨h1, h2, h3, hm⟩ := hrep
      dsimp only
      refine putAllBig_debug hn2 (zero_slot hdl) hdw ?_
      intro he
      have := (order_map_mem env map.entries Prod.fst _).mpr ((hm.key_mem_iff i).mpr hi)
      rw [he] at this
      cases this
    | bigbig d map => exact ⟨_, rfl⟩
  · rw [decide_eq_false hg]
    exact ⟨_, rfl⟩

/-! ## Dense to sparse -/

/-- The function that agrees with `f` below `k` and is `x` elsewhere. -/
def fillTo (f : BitVec iw → BitVec dw) (x : BitVec dw) (k : Nat) : BitVec iw → BitVec dw :=
  fun i => if i.toNat < k then f i else x

theorem fillTo_zero (f : BitVec iw → BitVec dw) (x : BitVec dw) : fillTo f x 0 = fun _ => x := by
  funext i
  simp [fillTo]

theorem fillTo_full (f : BitVec iw → BitVec dw) (x : BitVec dw) : fillTo f x (2 ^ iw) = f := by
  funext i
  simp [fillTo, i.isLt]

theorem toNat_eq_iff {k : Nat} (hk : k < 2 ^ iw) (i : BitVec iw) : i.toNat = k ↔ i = BitVec.ofNat iw k := by
  constructor
  · intro h
    rw [← h, BitVec.ofNat_toNat, BitVec.setWidth_eq]
  · intro h
    rw [h, BitVec.toNat_ofNat, Nat.mod_eq_of_lt hk]

theorem fillTo_store (f : BitVec iw → BitVec dw) (x : BitVec dw) {k : Nat} (hk : k < 2 ^ iw) :
    update (fillTo f x k) (BitVec.ofNat iw k) (f (BitVec.ofNat iw k)) = fillTo f x (k + 1) := by
  funext i
  unfold update fillTo
  by_cases hi : i = BitVec.ofNat iw k
  · have := (toNat_eq_iff hk i).mpr hi
    rw [if_pos hi, if_pos (by omega), hi]
  · have : ¬ i.toNat = k := fun h => hi ((toNat_eq_iff hk i).mp h)
    rw [if_neg hi]
    by_cases h : i.toNat < k
    · rw [if_pos h, if_pos (by omega)]
    · rw [if_neg h, if_neg (by omega)]

theorem fillTo_skip (f : BitVec iw → BitVec dw) (x : BitVec dw) {k : Nat} (hk : k < 2 ^ iw)
    (hx : f (BitVec.ofNat iw k) = x) : fillTo f x k = fillTo f x (k + 1) := by
  rw [← fillTo_store f x hk]
  funext i
  unfold update
  by_cases hi : i = BitVec.ofNat iw k
  · have := (toNat_eq_iff hk i).mpr hi
    rw [if_pos hi, fillTo, if_neg (by omega), hx]
  · rw [if_neg hi]

theorem ofNat_setWidth {k : Nat} (hlt : iw ≤ 64) (hk : k < 2 ^ iw) :
    BitVec.ofNat 64 k = (BitVec.ofNat iw k).setWidth 64 := by
  apply BitVec.eq_of_toNat_eq
  have h64 : k < 2 ^ 64 := Nat.lt_of_lt_of_le hk (Nat.pow_le_pow_right (by decide) hlt)
  rw [setWidth64_toNat hlt, BitVec.toNat_ofNat, BitVec.toNat_ofNat, Nat.mod_eq_of_lt hk, Nat.mod_eq_of_lt h64]

theorem SparseInv.storeU64U64_of {s : SparseArrayValue} {f : BitVec iw → BitVec dw} {x : BitVec dw} (h : SparseInv s f x)
    (hiw : iw ≤ 64) (hdw : dw ≤ 64) (i : BitVec iw) (e : BitVec dw) :
    ∃ s', s.storeU64U64 (i.setWidth 64) (e.setWidth 64) = ok s' ∧ SparseInv s' (update f i e) x := by
  obtain ⟨hiw', hdw', hi, hd, hrep⟩ := h
  obtain ⟨_, _, data⟩ := s
  dsimp only at hiw' hdw' hrep
  replace hiw' := hiw'.symm
  replace hdw' := hdw'.symm
  subst hiw' hdw'
  unfold SparseArrayValue.storeU64U64
  cases data with
  | u64u64 d map =>
    obtain ⟨h1, h2, h3, hm⟩ := hrep
    dsimp only
    rw [h3]
    by_cases he : e = x
    · rw [if_pos (by rw [he])]
      exact ⟨_, rfl, rfl, rfl, hi, hd, h1, h2, rfl, he ▸ hm.remove i⟩
    · rw [if_neg (fun hh => he (hm.vinj _ _ hh))]
      exact ⟨_, rfl, rfl, rfl, hi, hd, h1, h2, rfl, hm.insert i he⟩
  | u64big d map => have := hrep.2.1; omega
  | bigbig d map => have := hrep.1; omega

theorem SparseInv.storeU64Big_of (m : Mode) {s : SparseArrayValue} {f : BitVec iw → BitVec dw} {x : BitVec dw}
    (h : SparseInv s f x) (hiw : iw ≤ 64) (i : BitVec iw) (e : BitVec dw) :
    ∃ s', s.storeU64Big m (i.setWidth 64) (encode e) = ok s' ∧ SparseInv s' (update f i e) x := by
  obtain ⟨hiw', hdw', hi, hd, hrep⟩ := h
  obtain ⟨_, _, data⟩ := s
  dsimp only at hiw' hdw' hrep
  replace hiw' := hiw'.symm
  replace hdw' := hdw'.symm
  subst hiw' hdw'
  unfold SparseArrayValue.storeU64Big
  cases data with
  | u64u64 d map =>
    obtain ⟨h1, h2, h3, hm⟩ := hrep
    dsimp only
    rw [h3, toU64_encode h2]
    show ∃ s', (if e.setWidth 64 = x.setWidth 64 then _ else _) = ok s' ∧ _
    by_cases he : e = x
    · rw [if_pos (by rw [he])]
      exact ⟨_, rfl, rfl, rfl, hi, hd, h1, h2, rfl, he ▸ hm.remove i⟩
    · rw [if_neg (fun hh => he (hm.vinj _ _ hh))]
      exact ⟨_, rfl, rfl, rfl, hi, hd, h1, h2, rfl, hm.insert i he⟩
  | u64big d map =>
    obtain ⟨h1, h2, h3, hm⟩ := hrep
    dsimp only
    rw [h3, C15_is_equal m (encode_denotes e hd) (encode_denotes x hd), ok_bind]
    by_cases he : e = x
    · rw [decide_eq_true he]
      exact ⟨_, rfl, rfl, rfl, hi, hd, h1, h2, rfl, he ▸ hm.remove i⟩
    · rw [decide_eq_false he]
      exact ⟨_, rfl, rfl, rfl, hi, hd, h1, h2, rfl, hm.insert i he⟩
  | bigbig d map => have := hrep.1; omega

theorem storeWords_spec (hiw : iw ≤ 64) (hdw : dw ≤ 64) (f : BitVec iw → BitVec dw) (x : BitVec dw) (ds : List Word) :
    ∀ {k : Nat} {out : SparseArrayValue}, k + ds.length = 2 ^ iw →
    (∀ j, j < ds.length → ds[j]? = some ((f (BitVec.ofNat iw (k + j))).setWidth 64)) →
    SparseInv out (fillTo f x k) x →
    ∃ s, DenseArrayValue.storeWords (x.setWidth 64) k ds out = ok s ∧ SparseInv s f x := by
  induction ds with
  | nil =>
    intro k out hk _ h
    refine ⟨out, rfl, ?_⟩
    rw [List.length_nil, Nat.add_zero] at hk
    rw [hk, fillTo_full] at h
    exact h
  | cons d ds ih =>
    intro k out hk hds h
    rw [List.length_cons] at hk
    have hkl : k < 2 ^ iw := by omega
    have hd := hds 0 (by simp)
    rw [List.getElem?_cons_zero, Nat.add_zero] at hd
    have hd := Option.some.inj hd
    have hds' : ∀ j, j < ds.length → ds[j]? = some ((f (BitVec.ofNat iw (k + 1 + j))).setWidth 64) := fun j hj => by
      have := hds (j + 1) (by simpa using hj)
      rw [List.getElem?_cons_succ] at this
      rw [this, Nat.add_assoc, Nat.add_comm 1 j]
    unfold DenseArrayValue.storeWords
    by_cases hx : f (BitVec.ofNat iw k) = x
    · rw [hd, hx, if_neg (by simp), ok_bind]
      exact ih (by omega) hds' (fillTo_skip f x hkl hx ▸ h)
    · rw [hd, if_pos (fun hh => hx (setWidth_inj hdw hh)), ofNat_setWidth hiw hkl]
      obtain ⟨s', hs1, hs2⟩ := h.storeU64U64_of hiw hdw (BitVec.ofNat iw k) (f (BitVec.ofNat iw k))
      rw [hs1, ok_bind]
      rw [fillTo_store f x hkl] at hs2
      exact ih (by omega) hds' hs2

theorem storeBigs_spec (m : Mode) (hiw : iw ≤ 64) (hdw : dw < 2 ^ 32) (f : BitVec iw → BitVec dw) (x : BitVec dw)
    (ds : List BitVecValue) :
    ∀ {k : Nat} {out : SparseArrayValue}, k + ds.length = 2 ^ iw →
    (∀ j, j < ds.length → ds[j]? = some (encode (f (BitVec.ofNat iw (k + j))))) →
    SparseInv out (fillTo f x k) x →
    ∃ s, DenseArrayValue.storeBigs m (encode x) k ds out = ok s ∧ SparseInv s f x := by
  induction ds with
  | nil =>
    intro k out hk _ h
    refine ⟨out, rfl, ?_⟩
    rw [List.length_nil, Nat.add_zero] at hk
    rw [hk, fillTo_full] at h
    exact h
  | cons d ds ih =>
    intro k out hk hds h
    rw [List.length_cons] at hk
    have hkl : k < 2 ^ iw := by omega
    have hd := hds 0 (by simp)
    rw [List.getElem?_cons_zero, Nat.add_zero] at hd
    have hd := Option.some.inj hd
    have hds' : ∀ j, j < ds.length → ds[j]? = some (encode (f (BitVec.ofNat iw (k + 1 + j)))) := fun j hj => by
      have := hds (j + 1) (by simpa using hj)
      rw [List.getElem?_cons_succ] at this
      rw [this, Nat.add_assoc, Nat.add_comm 1 j]
    unfold DenseArrayValue.storeBigs
    rw [hd, C15_eq_owned m (encode_denotes _ hdw) (encode_denotes _ hdw), ok_bind]
    by_cases hx : f (BitVec.ofNat iw k) = x
    · rw [hx, decide_eq_true ⟨rfl, rfl⟩, if_pos rfl, ok_bind]
      exact ih (by omega) hds' (fillTo_skip f x hkl hx ▸ h)
    · rw [decide_eq_false (fun hh => hx (BitVec.eq_of_toNat_eq hh.2)), if_neg (by simp), ofNat_setWidth hiw hkl]
      obtain ⟨s', hs1, hs2⟩ := h.storeU64Big_of m hiw (BitVec.ofNat iw k) (f (BitVec.ofNat iw k))
      rw [hs1, ok_bind]
      rw [fillTo_store f x hkl] at hs2
      exact ih (by omega) hds' hs2

theorem countBits_ok {v : BitVecValue} {n : Nat} {y : BitVec n} (hy : Denotes v y) :
    ∀ (k b : Nat) (c : Nat × Nat), b + k ≤ n → ∃ c', DenseArrayValue.countBits v b k c = ok c' := by
  intro k
  induction k with
  | zero => intro b c _; exact ⟨c, rfl⟩
  | succ k ih =>
    intro b c hb
    have hmod : b % U32 = b := Nat.mod_eq_of_lt (by
      have := hy.width_lt
      show _ < 4294967296
      omega)
    unfold DenseArrayValue.countBits
    rw [hmod, C24_is_bit_set hy (by omega), ok_bind]
    exact ih (b + 1) _ (by omega)

theorem storeBits_spec {v : BitVecValue} {y : BitVec (2 ^ iw)} (hy : Denotes v y) (hiw : iw ≤ 64) (f : BitVec iw → BitVec 1)
    (hf : ∀ i : BitVec iw, y.getLsbD i.toNat = (f i).getLsbD 0) (b : Bool) :
    ∀ (n k : Nat) {out : SparseArrayValue}, k + n = 2 ^ iw → SparseInv out (fillTo f (BitVec.ofBool b) k) (BitVec.ofBool b) →
    ∃ s, DenseArrayValue.storeBits v b k n out = ok s ∧ SparseInv s f (BitVec.ofBool b) := by
  intro n
  induction n with
  | zero =>
    intro k out hk h
    refine ⟨out, rfl, ?_⟩
    rw [Nat.add_zero] at hk
    rw [hk, fillTo_full] at h
    exact h
  | succ n ih =>
    intro k out hk h
    have hkl : k < 2 ^ iw := by omega
    have hmod : k % U32 = k := Nat.mod_eq_of_lt (by
      have := hy.width_lt
      show _ < 4294967296
      omega)
    have hbit : y.getLsbD k = (f (BitVec.ofNat iw k)).getLsbD 0 := by
      rw [← hf, BitVec.toNat_ofNat, Nat.mod_eq_of_lt hkl]
    unfold DenseArrayValue.storeBits
    rw [hmod, C24_is_bit_set hy hkl, ok_bind, hbit]
    by_cases hx : (f (BitVec.ofNat iw k)).getLsbD 0 = b
    · rw [if_neg (fun hh => hh hx), ok_bind]
      refine ih (k + 1) (by omega) (fillTo_skip f _ hkl ?_ ▸ h)
      rw [← hx, ofBool_getLsbD]
    · rw [if_pos (by simpa using hx), ofNat_setWidth hiw hkl]
      have hval : (if b = true then 0#64 else 1#64) = (f (BitVec.ofNat iw k)).setWidth 64 := by
        clear h ih
        revert hx
        generalize f (BitVec.ofNat iw k) = z
        revert b z
        decide
      rw [hval]
      obtain ⟨s', hs1, hs2⟩ := h.storeU64U64_of hiw (by decide) (BitVec.ofNat iw k) (f (BitVec.ofNat iw k))
      rw [hs1, ok_bind]
      rw [fillTo_store f _ hkl] at hs2
      exact ih (k + 1) (by omega) hs2

theorem maxByCount_mem {α : Type} (l : List (α × Nat)) (h : l ≠ []) :
    ∃ x, DenseArrayValue.maxByCount l = some x ∧ x ∈ l ∧ ∀ y ∈ l, y.2 ≤ x.2 := by
  induction l with
  | nil => exact absurd rfl h
  | cons a l ih =>
    unfold DenseArrayValue.maxByCount
    by_cases hl : l = []
    · subst hl
      exact ⟨a, rfl, by simp, by simp⟩
    · obtain ⟨x, h1, h2, h3⟩ := ih hl
      rw [h1]
      dsimp only
      by_cases hc : a.2 > x.2
      · rw [if_pos hc]
        refine ⟨a, rfl, by simp, fun y hy => ?_⟩
        rcases List.mem_cons.mp hy with rfl | hy
        · exact Nat.le_refl _
        · have := h3 y hy
          omega
      · rw [if_neg hc]
        refine ⟨x, rfl, by simp [h2], fun y hy => ?_⟩
        rcases List.mem_cons.mp hy with rfl | hy
        · omega
        · exact h3 y hy

theorem countLoop_spec {K : Type} [DecidableEq K] (ks : List K) : ∀ (c : HMap K Nat),
    (∀ e ∈ (DenseArrayValue.countLoop c ks).entries, e.1 ∈ ks ∨ e.1 ∈ c.entries.map Prod.fst) ∧
      ((c.entries ≠ [] ∨ ks ≠ []) → (DenseArrayValue.countLoop c ks).entries ≠ []) := by
  induction ks with
  | nil =>
    intro c
    exact ⟨fun e he => .inr (List.mem_map.mpr ⟨e, he, rfl⟩), fun h => by rcases h with h | h; exact h; exact absurd rfl h⟩
  | cons k ks ih =>
    intro c
    have hb : ∀ e ∈ (DenseArrayValue.bump c k).entries, e.1 = k ∨ e.1 ∈ c.entries.map Prod.fst := by
      intro e he
      rcases List.mem_cons.mp he with rfl | he
      · exact .inl rfl
      · exact .inr (List.mem_map.mpr ⟨e, (List.mem_filter.mp he).1, rfl⟩)
    have hbn : (DenseArrayValue.bump c k).entries ≠ [] := by
      unfold DenseArrayValue.bump HMap.insert
      simp
    unfold DenseArrayValue.countLoop
    dsimp only
    split
    · refine ⟨fun e he => ?_, fun _ => hbn⟩
      rcases hb e he with h | h
      · exact .inl (by simp [h])
      · exact .inr h
    · obtain ⟨h1, h2⟩ := ih (DenseArrayValue.bump c k)
      refine ⟨fun e he => ?_, fun _ => h2 (.inl hbn)⟩
      rcases h1 e he with h | h
      · exact .inl (by simp [h])
      · obtain ⟨e', he', heq⟩ := List.mem_map.mp h
        rcases hb e' he' with h' | h'
        · exact .inl (by rw [← heq, h']; simp)
        · exact .inr (by rw [← heq]; exact h')

/-- The default that the counting picks is one of the elements. -/
theorem count_default {K : Type} [DecidableEq K] (env : HashEnv) (ks : List K) (h : ks ≠ []) :
    ∃ x, DenseArrayValue.maxByCount (env.order (DenseArrayValue.countLoop HMap.empty ks).entries) = some x ∧ x.1 ∈ ks := by
  obtain ⟨h1, h2⟩ := countLoop_spec ks HMap.empty
  have hne : env.order (DenseArrayValue.countLoop HMap.empty ks).entries ≠ [] := by
    intro he
    have := (env.order_perm (DenseArrayValue.countLoop HMap.empty ks).entries).length_eq
    rw [he] at this
    exact h2 (.inr h) (List.eq_nil_of_length_eq_zero this.symm)
  obtain ⟨x, hx1, hx2, -⟩ := maxByCount_mem _ hne
  refine ⟨x, hx1, ?_⟩
  rcases h1 x ((env.order_perm _).mem_iff.mp hx2) with h | h
  · exact h
  · cases h

theorem selectAll_spec (m : Mode) {d : DenseArrayValue} {f : BitVec iw → BitVec dw} (h : DenseInv d f) :
    ∀ (n k : Nat), k + n ≤ 2 ^ iw →
    ∃ l, DenseArrayValue.selectAll m d k n = ok l ∧ l.length = n ∧
      ∀ j, j < n → l[j]? = some (encode (f (BitVec.ofNat iw (k + j)))) := by
  intro n
  induction n with
  | zero => intro k _; exact ⟨[], rfl, rfl, fun j hj => by omega⟩
  | succ n ih =>
    intro k hk
    obtain ⟨l, h1, h2, h3⟩ := ih (k + 1) (by omega)
    have hs := h.selectUsize m (BitVec.ofNat iw k)
    rw [BitVec.toNat_ofNat, Nat.mod_eq_of_lt (by omega)] at hs
    unfold DenseArrayValue.selectAll
    rw [hs, ok_bind, h1, ok_bind]
    refine ⟨_, rfl, by simp [h2], fun j hj => ?_⟩
    cases j with
    | zero => simp
    | succ j => rw [List.getElem?_cons_succ, h3 j (by omega), Nat.add_assoc, Nat.add_comm 1 j]

theorem mem_of_get {α : Type} {l : List α} {P : BitVec iw → α} (hl : l.length = 2 ^ iw)
    (h : ∀ i : BitVec iw, l[i.toNat]? = some (P i)) {x : α} (hx : x ∈ l) : ∃ i, x = P i := by
  obtain ⟨k, hk, rfl⟩ := List.mem_iff_getElem.mp hx
  have := h (BitVec.ofNat iw k)
  rw [BitVec.toNat_ofNat, Nat.mod_eq_of_lt (by omega), List.getElem?_eq_getElem hk] at this
  exact ⟨_, Option.some.inj this⟩

/-- The counting loop for bytes: every element must be below 8. -/
theorem countU8_spec (l : List Byte) : ∀ (n k : Nat) (c : List Nat), c.length = 8 → k + n = l.length →
    (∀ b ∈ l, b.toNat < 8) → (∀ j, 0 < c.getD j 0 → ∃ b ∈ l, b.toNat = j) →
    ∃ c', DenseArrayValue.countU8 l k n c = ok c' ∧ c'.length = 8 ∧ (∀ j, 0 < c'.getD j 0 → ∃ b ∈ l, b.toNat = j) ∧
      ((0 < n ∨ ∃ j, 0 < c.getD j 0) → ∃ j, 0 < c'.getD j 0) := by
  intro n
  induction n with
  | zero =>
    intro k c hc _ _ hp
    exact ⟨c, rfl, hc, hp, fun h => by rcases h with h | h; omega; exact h⟩
  | succ n ih =>
    intro k c hc hk hb hp
    have hkl : k < l.length := by omega
    have hm : l[k] ∈ l := List.getElem_mem hkl
    have h8 := hb _ hm
    unfold DenseArrayValue.countU8
    rw [idx_ok hkl, ok_bind, idx_ok (by omega), ok_bind, setIdx_ok (by omega), ok_bind]
    have hget : ∀ j, (c.set l[k].toNat (c[l[k].toNat] + 1)).getD j 0 =
        if j = l[k].toNat then c[l[k].toNat] + 1 else c.getD j 0 := by
      intro j
      rw [List.getD_eq_getElem?_getD, List.getElem?_set]
      by_cases hj : l[k].toNat = j
      · rw [if_pos hj, if_pos hj.symm, if_pos (by omega)]; rfl
      · rw [if_neg hj, if_neg (fun e => hj e.symm), List.getD_eq_getElem?_getD]
    obtain ⟨c', h1, h2, h3, h4⟩ := ih (k + 1) (c.set l[k].toNat (c[l[k].toNat] + 1)) (by simpa using hc) (by omega) hb
      (fun j hj => by
      rw [hget] at hj
      by_cases hjk : j = l[k].toNat
      · exact ⟨_, hm, hjk.symm⟩
      · rw [if_neg hjk] at hj
        exact hp j hj)
    exact ⟨c', h1, h2, h3, fun _ => h4 (.inr ⟨l[k].toNat, by rw [hget, if_pos rfl]; omega⟩)⟩

theorem countU8_panics (l : List Byte) : ∀ (n k : Nat) (c : List Nat), c.length = 8 → k + n = l.length →
    (∃ j, k ≤ j ∧ ∃ b, l[j]? = some b ∧ 8 ≤ b.toNat) → Panics (DenseArrayValue.countU8 l k n c) := by
  intro n
  induction n with
  | zero =>
    rintro k c hc hk ⟨j, hj, b, hb, -⟩
    have := (List.getElem?_eq_some_iff.mp hb).1
    omega
  | succ n ih =>
    rintro k c hc hk ⟨j, hj, b, hb, hb8⟩
    have hkl : k < l.length := by omega
    unfold DenseArrayValue.countU8
    rw [idx_ok hkl, ok_bind]
    by_cases h8 : l[k].toNat < 8
    · rw [idx_ok (by omega), ok_bind, setIdx_ok (by omega), ok_bind]
      refine ih (k + 1) _ (by simpa using hc) (by omega) ⟨j, ?_, b, hb, hb8⟩
      apply Classical.byContradiction
      intro hlt
      have hjk : j = k := by omega
      subst hjk
      rw [List.getElem?_eq_getElem hkl] at hb
      rw [Option.some.inj hb] at h8
      omega
    · have : idx c l[k].toNat = Res.panic .bounds := by
        unfold idx
        rw [List.getElem?_eq_none (by omega)]
      rw [this]
      exact ⟨_, rfl⟩

/-- The conversion to a sparse array keeps the contents, except that 2- to 8-bit data has to be below 8. -/
theorem toSparse_spec (m : Mode) (env : HashEnv) {d : DenseArrayValue} {f : BitVec iw → BitVec dw} (h : DenseInv d f)
    (hok : dw = 1 ∨ 8 < dw ∨ ∀ i, (f i).toNat < 8) :
    ∃ s x, d.toSparse m env = ok s ∧ SparseInv s f x := by
  have hall := h
  obtain ⟨hiw, hdw, hlt, hpos, hdl, hrep⟩ := h
  have hilt : iw < 2 ^ 32 := by omega
  have hp0 : 0 < 2 ^ iw := Nat.two_pow_pos iw
  unfold DenseArrayValue.toSparse
  rw [hiw, hdw]
  cases hdata : d.data with
  | bit v =>
    rw [hdata] at hrep
    obtain ⟨h1, h2, y, hy, hf⟩ := hrep
    subst h1
    dsimp only
    rw [numElements_ok m hlt, ok_bind]
    obtain ⟨c, hc⟩ := countBits_ok hy (2 ^ iw) 0 (0, 0) (by omega)
    rw [hc, ok_bind, fromBool_encode, ok_bind]
    obtain ⟨s0, hs1, hs2⟩ := sparse_new hilt hdl (BitVec.ofBool (decide (c.2 > c.1)))
    rw [hs1, ok_bind]
    obtain ⟨s, hs3, hs4⟩ := storeBits_spec hy (by omega) f hf (decide (c.2 > c.1)) (2 ^ iw) 0 (by omega)
      (by rw [fillTo_zero]; exact hs2)
    exact ⟨s, _, hs3, hs4⟩
  | u8 l =>
    rw [hdata] at hrep
    obtain ⟨h1, h2, h3, hf⟩ := hrep
    have hsmall : ∀ i, (f i).toNat < 8 := by
      rcases hok with hok | hok | hok
      · exact absurd hok h1
      · omega
      · exact hok
    have hval : ∀ i, ((f i).setWidth 8).toNat = (f i).toNat := fun i => by
      rw [BitVec.toNat_setWidth, Nat.mod_eq_of_lt (Nat.lt_of_lt_of_le (f i).isLt (Nat.pow_le_pow_right (by decide) h2))]
    have hb : ∀ b ∈ l, b.toNat < 8 := by
      intro b hb
      obtain ⟨i, rfl⟩ := mem_of_get h3 hf hb
      rw [hval]
      exact hsmall i
    dsimp only
    rw [numElements_ok m hlt, ok_bind]
    obtain ⟨c, hc1, hc2, hc3, hc4⟩ := countU8_spec l (2 ^ iw) 0 (List.replicate 8 0) (by simp) (by omega) hb (by
      intro j hj
      rw [List.getD_eq_getElem?_getD, List.getElem?_replicate] at hj
      split at hj <;> simp at hj)
    rw [hc1, ok_bind]
    have hzl : ((List.range 8).zip c).length = 8 := by simp [hc2]
    obtain ⟨mx, hm1, hm2, hm3⟩ := maxByCount_mem ((List.range 8).zip c) (by
      intro he
      rw [he] at hzl
      cases hzl)
    rw [hm1]
    -- the chosen value occurs
    obtain ⟨j, hj⟩ := hc4 (.inl hp0)
    have hj8 : j < 8 := by
      apply Classical.byContradiction
      intro hge
      rw [List.getD_eq_getElem?_getD, List.getElem?_eq_none (by omega)] at hj
      simp at hj
    have hmem : ∀ q (hq : q < 8), (q, c[q]) ∈ (List.range 8).zip c := fun q hq => by
      rw [List.mem_iff_getElem]
      exact ⟨q, by rw [hzl]; exact hq, by simp⟩
    have hge := hm3 _ (hmem j hj8)
    obtain ⟨q, hq, hqe⟩ := List.mem_iff_getElem.mp hm2
    rw [hzl] at hq
    have hmx : mx = (q, c[q]) := by
      rw [← hqe]
      simp
    have hpos' : 0 < c.getD q 0 := by
      rw [List.getD_eq_getElem?_getD, List.getElem?_eq_getElem (by omega)] at hj ⊢
      rw [hmx] at hge
      dsimp only at hge
      simp only [Option.getD_some] at hj ⊢
      omega
    obtain ⟨b, hbm, hbq⟩ := hc3 q hpos'
    obtain ⟨i0, hi0⟩ := mem_of_get h3 hf hbm
    have hxq : (f i0).toNat = q := by rw [← hbq, hi0, hval]
    show ∃ s x, (BitVecValue.fromU64 m ((BitVec.ofNat 8 mx.1).setWidth 64) dw >>= fun _ => _) = ok s ∧ _
    have hdflt : (BitVec.ofNat 8 mx.1).setWidth 64 = (f i0).setWidth 64 := by
      apply BitVec.eq_of_toNat_eq
      rw [setWidth64_toNat (by decide), setWidth64_toNat (by omega), hxq, hmx, BitVec.toNat_ofNat]
      dsimp only
      omega
    rw [hdflt, fromU64_encode m hpos (by omega), ok_bind]
    obtain ⟨s0, hs1, hs2⟩ := sparse_new hilt hdl (f i0)
    rw [hs1, ok_bind]
    obtain ⟨s, hs3, hs4⟩ := storeWords_spec (by omega) (by omega) f (f i0) (l.map fun b => b.setWidth 64) (k := 0)
      (out := s0) (by simp [h3]) (by
        intro j hj
        rw [List.length_map, h3] at hj
        have := hf (BitVec.ofNat iw j)
        rw [BitVec.toNat_ofNat, Nat.mod_eq_of_lt hj] at this
        rw [List.getElem?_map, this, Nat.zero_add, Option.map_some]
        congr 1
        apply BitVec.eq_of_toNat_eq
        rw [setWidth64_toNat (by decide), setWidth64_toNat (by omega), hval]) (by rw [fillTo_zero]; exact hs2)
    exact ⟨s, _, hs3, hs4⟩
  | u64 l =>
    rw [hdata] at hrep
    obtain ⟨h1, h2, h3, hf⟩ := hrep
    dsimp only
    obtain ⟨mx, hm1, hm2⟩ := count_default env l (by
      intro he
      rw [he] at h3
      simp at h3
      omega)
    rw [hm1]
    obtain ⟨i0, hi0⟩ := mem_of_get h3 hf hm2
    show ∃ s x, (BitVecValue.fromU64 m mx.1 dw >>= fun _ => _) = ok s ∧ _
    rw [hi0, fromU64_encode m hpos (by omega), ok_bind]
    obtain ⟨s0, hs1, hs2⟩ := sparse_new hilt hdl (f i0)
    rw [hs1, ok_bind]
    obtain ⟨s, hs3, hs4⟩ := storeWords_spec (by omega) (by omega) f (f i0) l (k := 0) (out := s0) (by omega) (by
        intro j hj
        have := hf (BitVec.ofNat iw j)
        rw [BitVec.toNat_ofNat, Nat.mod_eq_of_lt (by omega)] at this
        rw [this, Nat.zero_add]) (by rw [fillTo_zero]; exact hs2)
    exact ⟨s, _, hs3, hs4⟩
  | big l =>
    rw [hdata] at hrep
    dsimp only
    rw [numElements_ok m hlt, ok_bind]
    obtain ⟨es, he1, he2, he3⟩ := selectAll_spec m hall (2 ^ iw) 0 (by omega)
    rw [he1, ok_bind]
    obtain ⟨mx, hm1, hm2⟩ := count_default env es (by
      intro he
      rw [he] at he2
      simp at he2
      omega)
    rw [hm1]
    obtain ⟨k, hk, hke⟩ := List.mem_iff_getElem.mp hm2
    have hx := he3 k (by omega)
    rw [List.getElem?_eq_getElem hk, hke, Nat.zero_add] at hx
    have hx := Option.some.inj hx
    show ∃ s x, (SparseArrayValue.new iw mx.1 >>= fun _ => _) = ok s ∧ _
    obtain ⟨s0, hs1, hs2⟩ := sparse_new hilt hdl (f (BitVec.ofNat iw k))
    rw [hx, hs1, ok_bind]
    obtain ⟨s, hs3, hs4⟩ := storeBigs_spec m (by omega) hdl f (f (BitVec.ofNat iw k)) es (k := 0) (out := s0) (by omega)
      (by
        intro j hj
        exact he3 j (by omega)) (by rw [fillTo_zero]; exact hs2)
    exact ⟨s, _, hs3, hs4⟩

/-- Data of 2 to 8 bits with an element of at least 8 cannot be converted. -/
theorem toSparse_u8_panics (m : Mode) (env : HashEnv) {d : DenseArrayValue} {f : BitVec iw → BitVec dw} (h : DenseInv d f)
    (hd1 : dw ≠ 1) (hd8 : dw ≤ 8) {i : BitVec iw} (hi : 8 ≤ (f i).toNat) : Panics (d.toSparse m env) := by
  obtain ⟨hiw, hdw, hlt, hpos, hdl, hrep⟩ := h
  unfold DenseArrayValue.toSparse
  rw [hiw, hdw]
  cases hdata : d.data with
  | bit v =>
    rw [hdata] at hrep
    exact absurd hrep.1 hd1
  | u8 l =>
    rw [hdata] at hrep
    obtain ⟨h1, h2, h3, hf⟩ := hrep
    dsimp only
    rw [numElements_ok m hlt, ok_bind]
    obtain ⟨p, hp⟩ := countU8_panics l (2 ^ iw) 0 (List.replicate 8 0) (by simp) (by omega)
      ⟨i.toNat, by omega, _, hf i, by
        rw [BitVec.toNat_setWidth, Nat.mod_eq_of_lt
          (Nat.lt_of_lt_of_le (f i).isLt (Nat.pow_le_pow_right (by decide) h2))]
        exact hi⟩
    rw [hp]
    exact ⟨p, rfl⟩
  | u64 l =>
    rw [hdata] at hrep
    have := hrep.1
    omega
  | big l =>
    rw [hdata] at hrep
    have := hrep.1
    omega

end Baa

import Verif.Proofs.Dense
import Verif.Proofs.MapEq

/-!
# Sparse arrays: representation invariant
-/

namespace Baa
open Res

variable {iw dw : Nat}

/-- A hash map holds the entries of `f` that differ from `x`, under the key encoding `ek` and the value encoding `ev`. -/
structure MapRep {K V : Type} [DecidableEq K] (ek : BitVec iw → K) (ev : BitVec dw → V) (map : HMap K V)
    (f : BitVec iw → BitVec dw) (x : BitVec dw) : Prop where
  inj : ∀ i j, ek i = ek j → i = j
  vinj : ∀ d e, ev d = ev e → d = e
  nodup : map.Nodup
  get : ∀ i, map.get (ek i) = if f i = x then none else some (ev (f i))
  keys : ∀ e ∈ map.entries, ∃ i, e.1 = ek i

namespace MapRep
variable {K V : Type} [DecidableEq K] {ek : BitVec iw → K} {ev : BitVec dw → V} {map : HMap K V}
  {f : BitVec iw → BitVec dw} {x : BitVec dw}

theorem empty (hi : ∀ i j, ek i = ek j → i = j) (hv : ∀ d e, ev d = ev e → d = e) (x : BitVec dw) :
    MapRep ek ev HMap.empty (fun _ => x) x :=
  ⟨hi, hv, HMap.nodup_empty, fun i => by simp [HMap.get_empty], fun e he => by cases he⟩

theorem insert (h : MapRep ek ev map f x) (i : BitVec iw) {d : BitVec dw} (hd : d ≠ x) :
    MapRep ek ev (map.insert (ek i) (ev d)) (update f i d) x := by
  refine ⟨h.inj, h.vinj, HMap.nodup_insert h.nodup _ _, fun j => ?_, fun e he => ?_⟩
  · rw [HMap.get_insert, update_apply]
    by_cases hj : j = i
    · rw [if_pos (by rw [hj]), if_pos hj, if_neg hd]
    · rw [if_neg (fun hh => hj (h.inj _ _ hh)), if_neg hj, h.get]
  · rcases List.mem_cons.mp he with rfl | he
    · exact ⟨i, rfl⟩
    · exact h.keys e (List.mem_filter.mp he).1

theorem remove (h : MapRep ek ev map f x) (i : BitVec iw) : MapRep ek ev (map.remove (ek i)) (update f i x) x := by
  refine ⟨h.inj, h.vinj, HMap.nodup_remove h.nodup _, fun j => ?_, fun e he => ?_⟩
  · rw [HMap.get_remove, update_apply]
    by_cases hj : j = i
    · rw [if_pos (by rw [hj]), if_pos hj, if_pos rfl]
    · rw [if_neg (fun hh => hj (h.inj _ _ hh)), if_neg hj, h.get]
  · exact h.keys e (List.mem_filter.mp he).1

/-- The entries of the map. -/
theorem mem_iff (h : MapRep ek ev map f x) (k : K) (v : V) :
    (k, v) ∈ map.entries ↔ ∃ i, f i ≠ x ∧ k = ek i ∧ v = ev (f i) := by
  constructor
  · intro hm
    obtain ⟨i, hi⟩ := h.keys _ hm
    dsimp only at hi
    have hg := (HMap.get_eq_some_iff h.nodup k v).mpr hm
    rw [hi, h.get] at hg
    by_cases hx : f i = x
    · rw [if_pos hx] at hg; cases hg
    · rw [if_neg hx] at hg
      exact ⟨i, hx, hi, (Option.some.inj hg).symm⟩
  · rintro ⟨i, hx, rfl, rfl⟩
    rw [← HMap.get_eq_some_iff h.nodup, h.get, if_neg hx]

theorem key_mem_iff (h : MapRep ek ev map f x) (i : BitVec iw) : ek i ∈ map.entries.map Prod.fst ↔ f i ≠ x := by
  rw [List.mem_map]
  constructor
  · rintro ⟨⟨k, v⟩, hm, hk⟩
    obtain ⟨j, hj, hk', -⟩ := (h.mem_iff k v).mp hm
    dsimp only at hk
    rw [hk] at hk'
    rw [h.inj _ _ hk']
    exact hj
  · intro hx
    exact ⟨(ek i, ev (f i)), (h.mem_iff _ _).mpr ⟨i, hx, rfl, rfl⟩, rfl⟩

theorem getD (h : MapRep ek ev map f x) (i : BitVec iw) : (map.get (ek i)).getD (ev x) = ev (f i) := by
  rw [h.get]
  by_cases hx : f i = x
  · rw [if_pos hx, hx]; rfl
  · rw [if_neg hx]; rfl

theorem len_le {map' : HMap K V} (hl : ∀ k, map.get k = map'.get k) (h1 : map.Nodup) (h2 : map'.Nodup) :
    map.len = map'.len := by
  have hmem : ∀ e, e ∈ map.entries ↔ e ∈ map'.entries := fun e => by
    rw [← HMap.get_eq_some_iff h1 e.1 e.2, ← HMap.get_eq_some_iff h2 e.1 e.2, hl]
  exact ((List.perm_ext_iff_of_nodup (nodup_of_map h1) (nodup_of_map h2)).mpr hmem).length_eq

theorem beq_iff [DecidableEq V] {map' : HMap K V} {g : BitVec iw → BitVec dw} (h : MapRep ek ev map f x)
    (h' : MapRep ek ev map' g x) : map.beq map' = true ↔ f = g := by
  rw [HMap.beq_iff h.nodup h'.nodup]
  constructor
  · intro hk
    funext i
    have := hk (ek i)
    rw [h.get, h'.get] at this
    by_cases h1 : f i = x
    · by_cases h2 : g i = x
      · rw [h1, h2]
      · rw [if_pos h1, if_neg h2] at this; cases this
    · by_cases h2 : g i = x
      · rw [if_neg h1, if_pos h2] at this; cases this
      · rw [if_neg h1, if_neg h2] at this
        exact h.vinj _ _ (Option.some.inj this)
  · intro hfg k
    by_cases hk : ∃ i, k = ek i
    · obtain ⟨i, rfl⟩ := hk
      rw [h.get, h'.get, hfg]
    · have e1 : map.get k = none := by
        rw [HMap.get_eq_none_iff]
        intro hm
        obtain ⟨e, he, hek⟩ := List.mem_map.mp hm
        obtain ⟨i, hi⟩ := h.keys e he
        exact hk ⟨i, by rw [← hek, hi]⟩
      have e2 : map'.get k = none := by
        rw [HMap.get_eq_none_iff]
        intro hm
        obtain ⟨e, he, hek⟩ := List.mem_map.mp hm
        obtain ⟨i, hi⟩ := h'.keys e he
        exact hk ⟨i, by rw [← hek, hi]⟩
      rw [e1, e2]

/-- The comparison as it is written in `is_equal`, with a separate check of the lengths. -/
theorem eq_iff [DecidableEq V] {map' : HMap K V} {g : BitVec iw → BitVec dw} (h : MapRep ek ev map f x)
    (h' : MapRep ek ev map' g x) :
    ∃ r, (if map.len = map'.len then (ok (some (map.beq map')) : Res (Option Bool)) else ok (some false)) = ok (some r) ∧
      (r = true ↔ f = g) := by
  by_cases hl : map.len = map'.len
  · rw [if_pos hl]
    exact ⟨_, rfl, h.beq_iff h'⟩
  · rw [if_neg hl]
    refine ⟨_, rfl, ?_⟩
    constructor
    · intro hh; cases hh
    · intro hfg
      exfalso
      exact hl (len_le ((HMap.beq_iff h.nodup h'.nodup).mp ((h.beq_iff h').mpr hfg)) h.nodup h'.nodup)

end MapRep

theorem fits_encode (m : Mode) (d e : BitVec dw) : Fits m (encode d) (encode e) := fun _ _ => by simp [encode, toWords_length]

theorem MapRep.fits {K : Type} [DecidableEq K] {ek : BitVec iw → K} {map map' : HMap K BitVecValue} {f g : BitVec iw → BitVec dw}
    {x y : BitVec dw} (m : Mode) (h : MapRep ek encode map f x) (h' : MapRep ek encode map' g y) :
    ∀ e ∈ map.entries, ∀ v, map'.get e.1 = some v → Fits m e.2 v := by
  intro e he v hv
  obtain ⟨i, -, -, h1⟩ := (h.mem_iff e.1 e.2).mp he
  obtain ⟨j, -, -, h2⟩ := (h'.mem_iff e.1 v).mp ((HMap.get_eq_some_iff h'.nodup _ _).mp hv)
  rw [h1, h2]
  exact fits_encode m _ _

theorem MapRep.lookup {V : Type} {ev : BitVec dw → V} {map : HMap BitVecValue V} {f : BitVec iw → BitVec dw} {x : BitVec dw} (m : Mode)
    (env : HashEnv) (h : MapRep encode ev map f x) (i : BitVec iw) : lookupOwned m env map (encode i) = ok () := by
  refine lookupOwned_ok env fun k hk => ?_
  obtain ⟨e, he, rfl⟩ := List.mem_map.mp hk
  obtain ⟨j, hj⟩ := h.keys e he
  rw [hj]
  exact fits_encode m _ _

theorem MapRep.lookups {V W : Type} {ev : BitVec dw → V} {ev' : BitVec dw → W} {map : HMap BitVecValue V} {map' : HMap BitVecValue W}
    {f g : BitVec iw → BitVec dw} {x y : BitVec dw} (m : Mode) (env : HashEnv) (h : MapRep encode ev map f x)
    (h' : MapRep encode ev' map' g y) : ∀ e ∈ map.entries, lookupOwned m env map' e.1 = ok () := by
  intro e he
  obtain ⟨i, hi⟩ := h.keys e he
  rw [hi]
  exact h'.lookup m env i

/-- The storage holds `f` with default `x`. -/
def SparseRep (data : SparseArrayImpl) (f : BitVec iw → BitVec dw) (x : BitVec dw) : Prop :=
  match data with
  | .u64u64 d map => iw ≤ 64 ∧ dw ≤ 64 ∧ d = x.setWidth 64 ∧ MapRep (BitVec.setWidth 64) (BitVec.setWidth 64) map f x
  | .u64big d map => iw ≤ 64 ∧ 64 < dw ∧ d = encode x ∧ MapRep (BitVec.setWidth 64) encode map f x
  | .bigbig d map => 64 < iw ∧ d = encode x ∧ MapRep encode encode map f x

/-- A sparse array holds `f` with default `x`. -/
structure SparseInv (s : SparseArrayValue) (f : BitVec iw → BitVec dw) (x : BitVec dw) : Prop where
  indexWidth : s.indexWidth = iw
  dataWidth : s.dataWidth = dw
  index_lt : iw < 2 ^ 32
  data_lt : dw < 2 ^ 32
  rep : SparseRep s.data f x

theorem sparse_new (hi : iw < 2 ^ 32) (hd : dw < 2 ^ 32) (x : BitVec dw) :
    ∃ s, SparseArrayValue.new iw (encode x) = ok s ∧ SparseInv s (fun _ : BitVec iw => x) x := by
  unfold SparseArrayValue.new
  dsimp only
  rw [encode_width]
  by_cases h1 : iw > BITS
  · rw [if_pos h1, ok_bind]
    exact ⟨_, rfl, rfl, rfl, hi, hd, h1, rfl, MapRep.empty (fun _ _ h => encode_inj hi h) (fun _ _ h => encode_inj hd h) x⟩
  · rw [if_neg h1]
    have h1' : iw ≤ 64 := Nat.le_of_not_lt h1
    by_cases h2 : dw > BITS
    · rw [if_pos h2, ok_bind]
      exact ⟨_, rfl, rfl, rfl, hi, hd, h1', h2, rfl,
        MapRep.empty (fun _ _ h => setWidth_inj h1' h) (fun _ _ h => encode_inj hd h) x⟩
    · have h2' : dw ≤ 64 := Nat.le_of_not_lt h2
      rw [if_neg h2, toU64_encode h2']
      exact ⟨_, rfl, rfl, rfl, hi, hd, h1', h2', rfl,
        MapRep.empty (fun _ _ h => setWidth_inj h1' h) (fun _ _ h => setWidth_inj h2' h) x⟩

theorem SparseInv.clear_of {s : SparseArrayValue} {f : BitVec iw → BitVec dw} {x : BitVec dw} (h : SparseInv s f x) :
    SparseInv s.clear (fun _ : BitVec iw => 0#dw) (0#dw) := by
  obtain ⟨hiw, hdw, hi, hd, hrep⟩ := h
  obtain ⟨_, _, data⟩ := s
  dsimp only at hiw hdw hrep
  replace hiw := hiw.symm
  replace hdw := hdw.symm
  subst hiw hdw
  unfold SparseArrayValue.clear
  cases data with
  | u64u64 d map =>
    obtain ⟨h1, h2, h3, hm⟩ := hrep
    exact ⟨rfl, rfl, hi, hd, h1, h2, by simp, MapRep.empty hm.inj hm.vinj _⟩
  | u64big d map =>
    obtain ⟨h1, h2, h3, hm⟩ := hrep
    exact ⟨rfl, rfl, hi, hd, h1, h2, (C01_zero hd).eq_encode, MapRep.empty hm.inj hm.vinj _⟩
  | bigbig d map =>
    obtain ⟨h1, h3, hm⟩ := hrep
    exact ⟨rfl, rfl, hi, hd, h1, (C01_zero hd).eq_encode, MapRep.empty hm.inj hm.vinj _⟩

theorem SparseInv.default_of (m : Mode) {s : SparseArrayValue} {f : BitVec iw → BitVec dw} {x : BitVec dw}
    (h : SparseInv s f x) (hpos : 0 < dw) : s.default m = ok (encode x) := by
  obtain ⟨hiw, hdw, hi, hd, hrep⟩ := h
  obtain ⟨_, _, data⟩ := s
  dsimp only at hiw hdw hrep
  replace hdw := hdw.symm
  subst hdw
  unfold SparseArrayValue.default
  cases data with
  | u64u64 d map =>
    obtain ⟨h1, h2, h3, hm⟩ := hrep
    dsimp only
    rw [h3, fromU64_encode m hpos h2]
  | u64big d map =>
    obtain ⟨h1, h2, h3, hm⟩ := hrep
    dsimp only
    rw [h3]
  | bigbig d map =>
    obtain ⟨h1, h3, hm⟩ := hrep
    dsimp only
    rw [h3]

theorem SparseInv.select_of (m : Mode) (env : HashEnv) {s : SparseArrayValue} {f : BitVec iw → BitVec dw} {x : BitVec dw}
    (h : SparseInv s f x) (hpos : 0 < dw) (hiw64 : iw ≤ 64) (i : BitVec iw) :
    s.select m env (encode i) = ok (encode (f i)) := by
  obtain ⟨hiw, hdw, hi, hd, hrep⟩ := h
  obtain ⟨_, _, data⟩ := s
  dsimp only at hiw hdw hrep
  replace hiw := hiw.symm
  replace hdw := hdw.symm
  subst hiw hdw
  unfold SparseArrayValue.select
  dsimp only
  rw [debugAssert_of (by simp), ok_bind]
  cases data with
  | u64u64 d map =>
    obtain ⟨h1, h2, h3, hm⟩ := hrep
    rw [toU64_encode h1]
    show BitVecValue.fromU64 m ((map.get (i.setWidth 64)).getD d) dw = _
    rw [h3, hm.getD, fromU64_encode m hpos h2]
  | u64big d map =>
    obtain ⟨h1, h2, h3, hm⟩ := hrep
    rw [toU64_encode h1]
    show ok ((map.get (i.setWidth 64)).getD d) = _
    rw [h3, hm.getD]
  | bigbig d map =>
    have := hrep.1
    omega

/-- Reading a sparse array whose indices are wider than 64 bits: stored entries cannot be read, and other indices show the
default unless the hash table happens to compare the index with a stored one. -/
theorem SparseInv.select_wide (m : Mode) (env : HashEnv) {s : SparseArrayValue} {f : BitVec iw → BitVec dw}
    {x : BitVec dw} (h : SparseInv s f x) (hiw64 : 64 < iw) (i : BitVec iw) :
    (f i ≠ x → Panics (s.select m env (encode i))) ∧
      (f i = x → s.select m env (encode i) = ok (encode (f i)) ∨ Panics (s.select m env (encode i))) := by
  obtain ⟨hiw, hdw, hi, hd, hrep⟩ := h
  obtain ⟨_, _, data⟩ := s
  dsimp only at hiw hdw hrep
  replace hiw := hiw.symm
  replace hdw := hdw.symm
  subst hiw hdw
  cases data with
  | u64u64 d map =>
    have := hrep.1
    omega
  | u64big d map =>
    have := hrep.1
    omega
  | bigbig d map =>
    obtain ⟨h1, h3, hm⟩ := hrep
    unfold SparseArrayValue.select
    dsimp only
    rw [debugAssert_of (by simp), ok_bind]
    unfold lookupBorrowed
    constructor
    · intro hx
      rw [env.probe_mem _ _ ((hm.key_mem_iff i).mpr hx)]
      exact ⟨_, rfl⟩
    · intro hx
      cases env.probe (map.entries.map Prod.fst) (encode i) with
      | true => exact .inr ⟨_, rfl⟩
      | false =>
        left
        rw [h3, hx]
        rfl

theorem SparseInv.select_narrow_zero (m : Mode) (env : HashEnv) {s : SparseArrayValue} {f : BitVec iw → BitVec 0}
    {x : BitVec 0} (h : SparseInv s f x) (hiw64 : iw ≤ 64) (i : BitVec iw) : Panics (s.select m env (encode i)) := by
  obtain ⟨hiw, hdw, hi, hd, hrep⟩ := h
  obtain ⟨_, _, data⟩ := s
  dsimp only at hiw hdw hrep
  subst hiw hdw
  cases data with
  | u64u64 d map =>
    obtain ⟨h1, h2, h3, hm⟩ := hrep
    unfold SparseArrayValue.select
    dsimp only
    rw [debugAssert_of (by simp), ok_bind, toU64_encode h1]
    exact ⟨.bounds, rfl⟩
  | u64big d map =>
    have := hrep.2.1
    omega
  | bigbig d map =>
    have := hrep.1
    omega

theorem SparseInv.store_of (m : Mode) (env : HashEnv) {s : SparseArrayValue} {f : BitVec iw → BitVec dw} {x : BitVec dw}
    (h : SparseInv s f x) (hiw64 : iw ≤ 64) (i : BitVec iw) (e : BitVec dw) :
    ∃ s', s.store m env (encode i) (encode e) = ok s' ∧ SparseInv s' (update f i e) x := by
  obtain ⟨hiw, hdw, hi, hd, hrep⟩ := h
  obtain ⟨_, _, data⟩ := s
  dsimp only at hiw hdw hrep
  replace hiw := hiw.symm
  replace hdw := hdw.symm
  subst hiw hdw
  unfold SparseArrayValue.store
  dsimp only
  rw [debugAssert_of (by simp), ok_bind, debugAssert_of (by simp), ok_bind]
  cases data with
  | u64u64 d map =>
    obtain ⟨h1, h2, h3, hm⟩ := hrep
    dsimp only
    rw [toU64_encode h1, toU64_encode h2]
    show ∃ s', (if e.setWidth 64 = d then _ else _) = ok s' ∧ _
    rw [h3]
    by_cases he : e = x
    · rw [if_pos (by rw [he])]
      exact ⟨_, rfl, rfl, rfl, hi, hd, h1, h2, rfl, he ▸ hm.remove i⟩
    · rw [if_neg (fun hh => he (hm.vinj _ _ hh))]
      exact ⟨_, rfl, rfl, rfl, hi, hd, h1, h2, rfl, hm.insert i he⟩
  | u64big d map =>
    obtain ⟨h1, h2, h3, hm⟩ := hrep
    dsimp only
    rw [toU64_encode h1]
    show ∃ s', (BitVecValue.isEqual m (encode e) d >>= fun _ => _) = ok s' ∧ _
    rw [h3, C15_is_equal m (encode_denotes e hd) (encode_denotes x hd), ok_bind]
    by_cases he : e = x
    · rw [decide_eq_true he]
      exact ⟨_, rfl, rfl, rfl, hi, hd, h1, h2, rfl, he ▸ hm.remove i⟩
    · rw [decide_eq_false he]
      exact ⟨_, rfl, rfl, rfl, hi, hd, h1, h2, rfl, hm.insert i he⟩
  | bigbig d map =>
    have := hrep.1
    omega

/-- Storing with any index width: the operation may panic, but it does not store anything else. -/
theorem SparseInv.store_sound (m : Mode) (env : HashEnv) {s s' : SparseArrayValue} {f : BitVec iw → BitVec dw}
    {x : BitVec dw} (h : SparseInv s f x) (i : BitVec iw) (e : BitVec dw)
    (hs : s.store m env (encode i) (encode e) = ok s') : SparseInv s' (update f i e) x := by
  by_cases hiw64 : iw ≤ 64
  · obtain ⟨s'', h1, h2⟩ := h.store_of m env hiw64 i e
    rw [hs] at h1
    cases h1
    exact h2
  · obtain ⟨hiw, hdw, hi, hd, hrep⟩ := h
    obtain ⟨_, _, data⟩ := s
    dsimp only at hiw hdw hrep
    replace hiw := hiw.symm
    replace hdw := hdw.symm
    subst hiw hdw
    unfold SparseArrayValue.store at hs
    dsimp only at hs
    rw [debugAssert_of (by simp), ok_bind, debugAssert_of (by simp), ok_bind] at hs
    cases data with
    | u64u64 d map => exact absurd hrep.1 hiw64
    | u64big d map => exact absurd hrep.1 hiw64
    | bigbig d map =>
      obtain ⟨h1, h3, hm⟩ := hrep
      dsimp only at hs
      rw [h3, C15_is_equal m (encode_denotes e hd) (encode_denotes x hd), ok_bind] at hs
      by_cases he : e = x
      · rw [decide_eq_true he, if_pos rfl] at hs
        unfold lookupBorrowed at hs
        cases hp : env.probe (map.entries.map Prod.fst) (encode i) with
        | true => rw [hp] at hs; cases hs
        | false =>
          rw [hp] at hs
          cases hs
          have hx : f i = x := by
            apply Classical.byContradiction
            intro hne
            rw [env.probe_mem _ _ ((hm.key_mem_iff i).mpr hne)] at hp
            cases hp
          have hu : update f i e = f := by
            funext j
            rw [update_apply]
            by_cases hj : j = i
            · rw [if_pos hj, hj, hx, he]
            · rw [if_neg hj]
          rw [hu]
          exact ⟨rfl, rfl, hi, hd, h1, rfl, hm⟩
      · rw [decide_eq_false he, if_neg (by simp), hm.lookup m env i, ok_bind] at hs
        cases hs
        exact ⟨rfl, rfl, hi, hd, h1, rfl, hm.insert i he⟩

theorem SparseInv.isEqual_of (m : Mode) (env : HashEnv) {a b : SparseArrayValue} {f g : BitVec iw → BitVec dw} {x y : BitVec dw}
    (ha : SparseInv a f x) (hb : SparseInv b g y) :
    ∃ r, a.isEqual m env b = ok (some r) ∧ (r = true ↔ x = y ∧ f = g) := by
  obtain ⟨hiw, hdw, hi, hd, hrep⟩ := ha
  obtain ⟨hiw', hdw', -, -, hrep'⟩ := hb
  obtain ⟨_, _, data⟩ := a
  obtain ⟨_, _, data'⟩ := b
  dsimp only at hiw hdw hrep hiw' hdw' hrep'
  replace hiw := hiw.symm
  replace hdw := hdw.symm
  subst hiw hdw
  replace hiw' := hiw'.symm
  replace hdw' := hdw'.symm
  subst hiw' hdw'
  unfold SparseArrayValue.isEqual
  rw [if_neg (by simp)]
  dsimp only
  cases data with
  | u64u64 d map =>
    obtain ⟨h1, h2, h3, hm⟩ := hrep
    cases data' with
    | u64u64 d' map' =>
      obtain ⟨h1', h2', h3', hm'⟩ := hrep'
      dsimp only
      rw [h3, h3']
      by_cases hxy : x = y
      · subst hxy
        rw [if_pos rfl]
        obtain ⟨r, hr1, hr2⟩ := hm.eq_iff hm'
        exact ⟨r, hr1, hr2.trans (by simp)⟩
      · rw [if_neg (fun hh => hxy (hm.vinj _ _ hh))]
        exact ⟨_, rfl, by simp [hxy]⟩
    | u64big d' map' => have := hrep'.2.1; omega
    | bigbig d' map' => have := hrep'.1; omega
  | u64big d map =>
    obtain ⟨h1, h2, h3, hm⟩ := hrep
    cases data' with
    | u64u64 d' map' => have := hrep'.2.1; omega
    | u64big d' map' =>
      obtain ⟨h1', h2', h3', hm'⟩ := hrep'
      dsimp only
      rw [h3, h3', C15_eq_owned m (encode_denotes x hd) (encode_denotes y hd), ok_bind]
      by_cases hxy : x = y
      · subst hxy
        rw [decide_eq_true ⟨rfl, rfl⟩, if_pos rfl, eqMaps_branch (lookup := fun _ => ok ()) env (fun _ _ => rfl) (hm.fits m hm')]
        obtain ⟨r, hr1, hr2⟩ := hm.eq_iff hm'
        exact ⟨r, hr1, hr2.trans (by simp)⟩
      · rw [decide_eq_false (fun hh => hxy (BitVec.eq_of_toNat_eq hh.2)), if_neg (by simp)]
        exact ⟨_, rfl, by simp [hxy]⟩
    | bigbig d' map' => have := hrep'.1; omega
  | bigbig d map =>
    obtain ⟨h1, h3, hm⟩ := hrep
    cases data' with
    | u64u64 d' map' => have := hrep'.1; omega
    | u64big d' map' => have := hrep'.1; omega
    | bigbig d' map' =>
      obtain ⟨h1', h3', hm'⟩ := hrep'
      dsimp only
      rw [h3, h3', C15_eq_owned m (encode_denotes x hd) (encode_denotes y hd), ok_bind]
      by_cases hxy : x = y
      · subst hxy
        rw [decide_eq_true ⟨rfl, rfl⟩, if_pos rfl, eqMaps_branch env (hm.lookups m env hm') (hm.fits m hm')]
        obtain ⟨r, hr1, hr2⟩ := hm.eq_iff hm'
        exact ⟨r, hr1, hr2.trans (by simp)⟩
      · rw [decide_eq_false (fun hh => hxy (BitVec.eq_of_toNat_eq hh.2)), if_neg (by simp)]
        exact ⟨_, rfl, by simp [hxy]⟩

end Baa

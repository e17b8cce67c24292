import Verif.Props.HashOrder
import Verif.Props.ArrayLaws
import Verif.Spec.Arrays

/-!
# Exact behaviour of arrays where C49, C50, C52, C53, C56, C57, C58, C59 and C73 fail

Each theorem here says, for every array that can be built, precisely when an operation succeeds.
-/

namespace Baa
open Res

variable {iw dw : Nat}

theorem guardSize_iff (iw dw : Nat) : guardSize iw dw ≤ 2 ^ 30 ↔ storageBytes iw dw ≤ guardLimit dw := by
  unfold guardSize storageBytes guardLimit
  by_cases h1 : dw = 1
  · rw [if_pos h1, if_pos h1, if_pos (by omega)]
  · rw [if_neg h1, if_neg h1]
    by_cases h2 : dw ≤ 8
    · rw [if_pos h2, if_pos h2, if_pos (by omega)]
    · rw [if_neg h2, if_neg h2]
      by_cases h3 : dw ≤ 64
      · rw [if_pos h3, if_pos h3, show (dw + 63) / 64 = 1 by omega]
      · rw [if_neg h3, if_neg h3, Nat.mul_left_comm]
        omega

/-- Arrays that pass the check can be addressed. -/
theorem addressable_of_guard (h : storageBytes iw dw ≤ guardLimit dw) : Addressable iw dw := by
  have hl : guardLimit dw ≤ 2 ^ 33 := by unfold guardLimit; split <;> decide
  refine ⟨?_, by omega⟩
  apply Classical.byContradiction
  intro hi
  have h1 : 2 ^ 64 ≤ 2 ^ iw := Nat.pow_le_pow_right (by decide) (by omega)
  unfold storageBytes at h
  split at h
  · omega
  · split at h
    · omega
    · have : 2 ^ iw * 1 ≤ 2 ^ iw * (8 * ((dw + 63) / 64)) := Nat.mul_le_mul_left _ (by omega)
      omega

/-- An array that can be read has one of the supported shapes. -/
theorem DenseInv.shape {d : DenseArrayValue} {f : BitVec iw → BitVec dw} (h : DenseInv d f) : 0 < dw ∧ (dw ≠ 1 ∨ iw < 32) := by
  refine ⟨h.data_pos, ?_⟩
  apply Classical.byContradiction
  intro hn
  have h1 : dw = 1 := by omega
  have hrep := h.rep
  cases hdata : d.data with
  | bit v => rw [hdata] at hrep; have := hrep.2.1; omega
  | u8 l => rw [hdata] at hrep; exact hrep.1 h1
  | u64 l => rw [hdata] at hrep; have := hrep.1; omega
  | big l => rw [hdata] at hrep; have := hrep.1; omega

theorem DenseGen.inv_of {d : DenseArrayValue} {f : BitVec iw → BitVec dw} (h : DenseGen d f) (h0 : 0 < dw) (hb : dw ≠ 1 ∨ iw < 32) :
    DenseInv d f := by
  rcases h with h | ⟨-, ⟨h1, -⟩ | ⟨h1, h32, -⟩⟩
  · exact h
  · omega
  · omega

theorem DenseGen.degenerate_of {d : DenseArrayValue} {f : BitVec iw → BitVec dw} (h : DenseGen d f)
    (hb : ¬ (0 < dw ∧ (dw ≠ 1 ∨ iw < 32))) : DenseDegenerate d f := by
  rcases h with h | h
  · exact absurd h.shape hb
  · exact h

/-! ## C49, C59: dense arrays -/

/-- **C49, exact** A dense array can be read everywhere, or nowhere: it is unreadable exactly if its data has no bits, or one
bit and an index of 32 bits or more. -/
theorem C49_exact (m : Mode) (env : HashEnv) {d : DenseArrayValue} {f : BitVec iw → BitVec dw} (hiw : iw < 2 ^ 32)
    (hdw : dw < 2 ^ 32) (hr : Reachable m (.dense d) f) :
    (0 < dw ∧ (dw ≠ 1 ∨ iw < 32) → Reads m env (.dense d) f) ∧
    (¬ (0 < dw ∧ (dw ≠ 1 ∨ iw < 32)) → ∀ i : BitVec iw, Panics ((ArrayValue.dense d).select m env (encode i))) := by
  rcases hr.inv hiw hdw with ⟨d', h, hd⟩ | ⟨s, x, h, -⟩
  · cases h
    exact ⟨fun hs => (hd.inv_of hs.1 hs.2).reads, fun hs i => ⟨_, (hd.degenerate_of hs).select_of m i⟩⟩
  · cases h

/-- **C59, exact** A debug build creates a dense array exactly if it takes at most 1 GiB (8 GiB for data of more than 64 bits),
except for arrays of ones with an index of 32 bits or more. -/
theorem C59_exact (hdw : dw < 2 ^ 32) (x : BitVec dw) :
    (∃ a, ArrayValue.newDense .debug iw (encode x) = ok a) ↔
      storageBytes iw dw ≤ guardLimit dw ∧ ¬ (dw = 1 ∧ 32 ≤ iw ∧ x.toNat = 1) := by
  constructor
  · rintro ⟨a, ha⟩
    have hg := (guardSize_iff iw dw).mp (newDense_guard ha)
    refine ⟨hg, ?_⟩
    rintro ⟨h1, h32, hx⟩
    obtain ⟨d, h2, -⟩ := of_bind_ok ha
    rcases (dense_new_sound .debug x hdw (addressable_of_guard hg) h2).1 with h | ⟨-, ⟨h, -⟩ | ⟨-, -, -, h⟩⟩
    · have := h.shape; omega
    · omega
    · have this : x = 0#dw := h 0
      rw [this] at hx
      simp at hx
  · rintro ⟨hg, hx⟩
    have had := addressable_of_guard hg
    have hg' := (guardSize_iff iw dw).mpr hg
    by_cases h0 : 0 < dw
    · by_cases hb : dw ≠ 1 ∨ iw < 32
      · obtain ⟨d, h1, -⟩ := dense_new .debug x h0 hdw had hb
        rw [debugAssert_decide_of hg', ok_bind] at h1
        exact ⟨.dense d, by unfold ArrayValue.newDense; rw [h1]; rfl⟩
      · have h1 : dw = 1 := by omega
        subst h1
        have hx0 : x = 0#1 := by
          rcases bit_cases x with h | h
          · subst h; exact absurd ⟨rfl, by omega, rfl⟩ hx
          · exact h
        subst hx0
        refine ⟨.dense ⟨iw, 1, .bit ⟨0, []⟩⟩, ?_⟩
        unfold ArrayValue.newDense DenseArrayValue.new
        dsimp only
        rw [encode_width, approxStorageSize_ok .debug had, ok_bind, debugAssert_decide_of hg', ok_bind,
          numElements_ok .debug had.1, ok_bind, if_pos rfl, pow_mod_u32 (by omega)]
        rfl
    · have h1 : dw = 0 := by omega
      subst h1
      refine ⟨.dense ⟨iw, 0, .u8 (List.replicate (2 ^ iw) 0#8)⟩, ?_⟩
      unfold ArrayValue.newDense DenseArrayValue.new
      dsimp only
      rw [encode_width, approxStorageSize_ok .debug had, ok_bind, debugAssert_decide_of hg', ok_bind,
        numElements_ok .debug had.1, ok_bind, if_neg (by decide), if_pos (by decide), toU64_encode (by decide)]
      rw [BitVec.eq_nil x]
      rfl

/-! ## C50: sparse arrays -/

/-- The table of a sparse array with a wide index. -/
theorem SparseInv.wide_data {s : SparseArrayValue} {f : BitVec iw → BitVec dw} {x : BitVec dw} (h : SparseInv s f x)
    (h64 : 64 < iw) : ∃ map, s.data = .bigbig (encode x) map ∧ MapRep encode encode map f x := by
  have hrep := h.rep
  cases hdata : s.data with
  | u64u64 d map => rw [hdata] at hrep; have := hrep.1; omega
  | u64big d map => rw [hdata] at hrep; have := hrep.1; omega
  | bigbig d map =>
    rw [hdata] at hrep
    obtain ⟨-, h3, hm⟩ := hrep
    exact ⟨map, by rw [h3], hm⟩

theorem listEnv_probe (keys : List BitVecValue) (key : BitVecValue) : listEnv.probe keys key = true ↔ key ∈ keys := by
  refine ⟨fun h => ?_, listEnv.probe_mem keys key⟩
  unfold HashEnv.probe at h
  cases he : listEnv.compared keys key with
  | nil => rw [he] at h; cases h
  | cons k ks =>
    have hk : k ∈ keys.filter (· = key) := by
      show k ∈ listEnv.compared keys key
      rw [he]
      exact List.mem_cons_self
    obtain ⟨h1, h2⟩ := List.mem_filter.mp hk
    exact of_decide_eq_true h2 ▸ h1

/-- **C50, exact** Reading a sparse array. Up to 64 index bits every element can be read unless the data has no bits, when
none can. Above, elements that differ from the default can never be read; the others can unless the hash table happens to
compare two different indices, which does not happen if nothing is stored and need not happen otherwise. -/
theorem C50_exact (m : Mode) {s : SparseArrayValue} {f : BitVec iw → BitVec dw} (hiw : iw < 2 ^ 32) (hdw : dw < 2 ^ 32)
    (hr : Reachable m (.sparse s) f) :
    (iw ≤ 64 → 0 < dw → ∀ env, Reads m env (.sparse s) f) ∧
    (iw ≤ 64 → dw = 0 → ∀ env (i : BitVec iw), Panics (s.select m env (encode i))) ∧
    (64 < iw → ∃ x, s.default m = ok (encode x) ∧ ∀ i : BitVec iw,
      (f i ≠ x → ∀ env, Panics (s.select m env (encode i))) ∧
      (f i = x → ∀ env, s.select m env (encode i) = ok (encode x) ∨ Panics (s.select m env (encode i))) ∧
      (f i = x → ∃ env, s.select m env (encode i) = ok (encode x)) ∧
      ((∀ j, f j = x) → ∀ env, s.select m env (encode i) = ok (encode x))) := by
  rcases hr.inv hiw hdw with ⟨d', h, -⟩ | ⟨s', x, h, hs⟩
  · cases h
  · cases h
    refine ⟨fun h1 h2 env => hs.reads h2 h1, fun h1 h2 env i => ?_, fun h64 => ?_⟩
    · subst h2
      exact hs.select_narrow_zero m env h1 i
    · obtain ⟨map, hdata, hm⟩ := hs.wide_data h64
      have hsel : ∀ env (i : BitVec iw), s.select m env (encode i) =
          (lookupBorrowed env map (encode i) >>= fun _ => ok (encode x)) := by
        intro env i
        unfold SparseArrayValue.select
        rw [encode_width, hs.indexWidth, debugAssert_of (by simp), ok_bind, hdata]
      refine ⟨x, ?_, fun i => ⟨fun hi env => ?_, fun hi env => ?_, fun hi => ⟨listEnv, ?_⟩, fun hall env => ?_⟩⟩
      · unfold SparseArrayValue.default
        rw [hdata]
      · exact (hs.select_wide m env h64 i).1 hi
      · have := (hs.select_wide m env h64 i).2 hi
        rw [hi] at this
        exact this
      · rw [hsel]
        unfold lookupBorrowed
        rw [if_neg]
        · rfl
        · rw [listEnv_probe]
          intro hmem
          exact (hm.key_mem_iff i).mp hmem hi
      · rw [hsel]
        have hnil : map.entries = [] := by
          apply List.eq_nil_iff_forall_not_mem.mpr
          rintro ⟨k, v⟩ he
          obtain ⟨j, hj, -⟩ := (hm.mem_iff k v).mp he
          exact hj (hall j)
        unfold lookupBorrowed
        rw [hnil, List.map_nil, env.probe_nil, if_neg (by simp)]
        rfl

/-- **C50, exact** Writing to a sparse array with more than 64 index bits: storing something else than the default always
works, putting the default back over a stored element always panics. -/
theorem C50_wide_store (m : Mode) (env : HashEnv) {s : SparseArrayValue} {f : BitVec iw → BitVec dw} (h64 : 64 < iw)
    (hiw : iw < 2 ^ 32) (hdw : dw < 2 ^ 32) (hr : Reachable m (.sparse s) f) (i : BitVec iw) (e : BitVec dw) :
    ∃ x, s.default m = ok (encode x) ∧ (e ≠ x → ∃ s', s.store m env (encode i) (encode e) = ok s') ∧
      (e = x → f i ≠ x → Panics (s.store m env (encode i) (encode e))) := by
  rcases hr.inv hiw hdw with ⟨d', h, -⟩ | ⟨s', x, h, hs⟩
  · cases h
  · cases h
    obtain ⟨map, hdata, hm⟩ := hs.wide_data h64
    have hst : s.store m env (encode i) (encode e) =
        if e = x then (lookupBorrowed env map (encode i) >>= fun _ => ok { s with data := .bigbig (encode x) map })
        else ok { s with data := .bigbig (encode x) (map.insert (encode i) (encode e)) } := by
      unfold SparseArrayValue.store
      rw [encode_width, encode_width, hs.indexWidth, hs.dataWidth, debugAssert_of (by simp), ok_bind,
        debugAssert_of (by simp), ok_bind, hdata]
      dsimp only
      rw [C15_is_equal m (encode_denotes e hdw) (encode_denotes x hdw), ok_bind]
      by_cases hex : e = x
      · rw [if_pos hex, if_pos (by simpa using hex)]
      · rw [if_neg hex, if_neg (by simpa using hex), hm.lookup m env i]
        rfl
    refine ⟨x, ?_, fun he => ?_, fun he hi => ?_⟩
    · unfold SparseArrayValue.default
      rw [hdata]
    · rw [hst, if_neg he]
      exact ⟨_, rfl⟩
    · rw [hst, if_pos he]
      unfold lookupBorrowed
      rw [env.probe_mem _ _ ((hm.key_mem_iff i).mpr hi), if_pos rfl]
      exact ⟨_, rfl⟩

/-! ## C52, C56: making an array dense -/

theorem ofSparse_exact (m : Mode) (env : HashEnv) {s : SparseArrayValue} {f : BitVec iw → BitVec dw} {x : BitVec dw}
    (h : SparseInv s f x) (ha : Addressable iw dw) :
    (∃ d, DenseArrayValue.ofSparse m env s = ok d) ↔
      0 < dw ∧ (m = .release ∨ storageBytes iw dw ≤ guardLimit dw) ∧
      (dw = 1 → 32 ≤ iw → x = 0#dw ∧ ∀ i, f i = x) ∧ (64 < dw → m = .debug → ∀ i, f i = x) := by
  have hlt := ha.1
  constructor
  · rintro ⟨d, hd⟩
    have hgen := ofSparse_sound m env h ha hd
    have hd' := hd
    unfold DenseArrayValue.ofSparse at hd'
    obtain ⟨dflt, h1, hd'⟩ := of_bind_ok hd'
    obtain ⟨d0, h2, -⟩ := of_bind_ok hd'
    have h0 : 0 < dw := by
      apply Classical.byContradiction
      intro h0
      have h0 : dw = 0 := by omega
      subst h0
      have hrep := h.rep
      unfold SparseArrayValue.default at h1
      cases hdata : s.data with
      | u64u64 d map =>
        rw [hdata, h.dataWidth] at h1
        exact not_panics (fromU64_zero_panics m _) h1
      | u64big d map => rw [hdata] at hrep; have := hrep.2.1; omega
      | bigbig d map => rw [hdata] at hrep; have := hrep.1; omega
    rw [h.default_of m h0] at h1
    cases h1
    rw [h.indexWidth] at h2
    obtain ⟨h3, h4⟩ := dense_new_sound m x h.data_lt ha h2
    refine ⟨h0, h4.imp_right (guardSize_iff iw dw).mp, fun h1 h32 => ?_, fun hw hm => ?_⟩
    · have hb : ¬ (0 < dw ∧ (dw ≠ 1 ∨ iw < 32)) := by omega
      rcases h3.degenerate_of hb with ⟨-, ⟨h5, -⟩ | ⟨-, -, -, h5⟩⟩
      · omega
      · rcases hgen.degenerate_of hb with ⟨-, ⟨h6, -⟩ | ⟨-, -, -, h6⟩⟩
        · omega
        · have h7 := h5 0
          exact ⟨h7, fun i => (h6 i).trans h7.symm⟩
    · subst hm
      intro i
      apply Classical.byContradiction
      intro hi
      exact not_panics (ofSparse_wide_debug env h hw hi ha) hd
  · rintro ⟨h0, hg, h1, h2⟩
    have hg' := hg.imp_right (guardSize_iff iw dw).mpr
    by_cases hb : dw ≠ 1 ∨ iw < 32
    · obtain ⟨d, hd, -⟩ := ofSparse_spec m env h h0 ha hb hg' (by
        by_cases h64 : dw ≤ 64
        · exact .inl h64
        · cases m with
          | release => exact .inr (.inl rfl)
          | debug => exact .inr (.inr (h2 (by omega) rfl)))
      exact ⟨d, hd⟩
    · have hd1 : dw = 1 := by omega
      subst hd1
      obtain ⟨rfl, hall⟩ := h1 rfl (by omega)
      refine ⟨⟨iw, 1, .bit ⟨0, []⟩⟩, ?_⟩
      have hnew : DenseArrayValue.new m iw (encode 0#1) = ok ⟨iw, 1, .bit ⟨0, []⟩⟩ := by
        unfold DenseArrayValue.new
        dsimp only
        have hass : debugAssert m (decide (guardSize iw 1 ≤ DenseArrayValue.maxBytes)) = ok () := by
          rcases hg' with h | h
          · subst h; rfl
          · exact debugAssert_decide_of h
        rw [encode_width, approxStorageSize_ok m ha, ok_bind, hass, ok_bind, numElements_ok m hlt, ok_bind, if_pos rfl,
          pow_mod_u32 (by omega)]
        cases m <;> rfl
      have hrep := h.rep
      unfold DenseArrayValue.ofSparse
      rw [h.default_of m (by decide), ok_bind, h.indexWidth, h.dataWidth, hnew, ok_bind, debugAssert_of (by simp), ok_bind,
        debugAssert_of (by simp), ok_bind]
      cases hdata : s.data with
      | u64u64 d map =>
        rw [hdata] at hrep
        obtain ⟨-, -, -, hm⟩ := hrep
        have hnil : map.entries = [] := by
          apply List.eq_nil_iff_forall_not_mem.mpr
          rintro ⟨k, v⟩ he
          obtain ⟨j, hj, -⟩ := (hm.mem_iff k v).mp he
          exact hj (hall j)
        have ho : env.order map.entries = [] := by
          have := env.order_perm map.entries
          rw [hnil] at this ⊢
          exact List.perm_nil.mp this
        dsimp only
        rw [ho]
        rfl
      | u64big d map => rw [hdata] at hrep; have := hrep.2.1; omega
      | bigbig d map => rw [hdata] at hrep; have := hrep.1; omega

/-- **C52, exact** When `make_dense` of a sparse array with default `x` and elements `f` succeeds: if the data has bits, the
result passes the size check of a debug build, and — in a debug build with data of more than 64 bits, and for 1-bit data with
an index of 32 bits or more — nothing is stored (and the default is 0 in the latter case). -/
theorem C52_exact (m : Mode) (env : HashEnv) {s : SparseArrayValue} {f : BitVec iw → BitVec dw} (hdw : dw < 2 ^ 32)
    (ha : Addressable iw dw) (hr : Reachable m (.sparse s) f) :
    (∃ b, (ArrayValue.sparse s).makeDense m env = ok b) ↔
      ∃ x, s.default m = ok (encode x) ∧ 0 < dw ∧ (m = .release ∨ storageBytes iw dw ≤ guardLimit dw) ∧
        (dw = 1 → 32 ≤ iw → x = 0#dw ∧ ∀ i, f i = x) ∧ (64 < dw → m = .debug → ∀ i, f i = x) := by
  have hlt := ha.1
  rcases hr.inv (by omega) hdw with ⟨d', h, -⟩ | ⟨s', x, h, hs⟩
  · cases h
  · cases h
    have he := ofSparse_exact m env hs ha
    constructor
    · rintro ⟨b, hb⟩
      obtain ⟨d, h1, -⟩ := of_bind_ok hb
      have := he.mp ⟨d, h1⟩
      exact ⟨x, hs.default_of m this.1, this⟩
    · rintro ⟨y, h1, h2⟩
      cases hs.default_eq m h1
      obtain ⟨d, hd⟩ := he.mpr h2
      exact ⟨.dense d, by unfold ArrayValue.makeDense; dsimp only; rw [hd]; rfl⟩

theorem isEqualMixed_exact (m : Mode) (env : HashEnv) {d : DenseArrayValue} {s : SparseArrayValue} {f g : BitVec iw → BitVec dw}
    {x : BitVec dw} (hd : DenseGen d f) (hs : SparseInv s g x) (ha : Addressable iw dw) :
    ((∃ e, DenseArrayValue.ofSparse m env s = ok e) → isEqualMixed m env d s = ok (some true) ∧ f = g ∨
      isEqualMixed m env d s = ok (some false) ∧ f ≠ g) ∧
    (Panics (DenseArrayValue.ofSparse m env s) → Panics (isEqualMixed m env d s)) := by
  have hmix : isEqualMixed m env d s =
      (DenseArrayValue.ofSparse m env s >>= fun e => DenseArrayValue.isEqual m e d) := by
    unfold isEqualMixed
    rw [if_neg (by rw [hd.indexWidth, hd.dataWidth, hs.indexWidth, hs.dataWidth]; simp)]
  rw [hmix]
  constructor
  · rintro ⟨e, he⟩
    obtain ⟨r, h1, h2⟩ := (ofSparse_sound m env hs ha he).isEqual_of m hd
    rw [he, ok_bind, h1]
    cases r with
    | true => exact .inl ⟨rfl, (h2.mp rfl).symm⟩
    | false => exact .inr ⟨rfl, fun h => by cases h2.mpr h.symm⟩
  · rintro ⟨p, hp⟩
    rw [hp]
    exact ⟨p, rfl⟩

/-- **C56, exact** Comparing a dense with a sparse array panics exactly if making the sparse one dense panics; otherwise the
answer is right, in both argument orders. -/
theorem C56_exact (m : Mode) (env : HashEnv) {d : DenseArrayValue} {s : SparseArrayValue} {f g : BitVec iw → BitVec dw}
    (hdw : dw < 2 ^ 32) (ha : Addressable iw dw) (hr : Reachable m (.dense d) f) (hr' : Reachable m (.sparse s) g) :
    (ArrayValue.sparse s).isEqual m env (.dense d) = (ArrayValue.dense d).isEqual m env (.sparse s) ∧
    ((∃ b, (ArrayValue.sparse s).makeDense m env = ok b) → ∃ r, (ArrayValue.dense d).isEqual m env (.sparse s) = ok (some r) ∧
      (r = true ↔ f = g)) ∧
    (Panics ((ArrayValue.sparse s).makeDense m env) → Panics ((ArrayValue.dense d).isEqual m env (.sparse s))) := by
  have hlt := ha.1
  rcases hr'.inv (by omega) hdw with ⟨d', h, -⟩ | ⟨s', x, h, hs⟩
  · cases h
  · cases h
    rcases hr.inv (by omega) hdw with ⟨d', h, hd⟩ | ⟨s', x, h, -⟩
    · cases h
      obtain ⟨h1, h2⟩ := isEqualMixed_exact m env hd hs ha
      refine ⟨rfl, ?_, ?_⟩
      · rintro ⟨b, hb⟩
        obtain ⟨e, he, -⟩ := of_bind_ok hb
        rcases h1 ⟨e, he⟩ with ⟨h3, h4⟩ | ⟨h3, h4⟩
        · exact ⟨true, h3, by simp [h4]⟩
        · exact ⟨false, h3, by simp [h4]⟩
      · rintro ⟨p, hp⟩
        apply h2
        cases he : DenseArrayValue.ofSparse m env s with
        | panic q => exact ⟨q, rfl⟩
        | ok e =>
          unfold ArrayValue.makeDense at hp
          dsimp only at hp
          rw [he] at hp
          cases hp
    · cases h

/-! ## C53: converting to a sparse array -/

/-- **C53, exact** When the conversion of a dense array succeeds. -/
theorem C53_exact (m : Mode) (env : HashEnv) {d : DenseArrayValue} {f : BitVec iw → BitVec dw} (hiw : iw < 2 ^ 32)
    (hdw : dw < 2 ^ 32) (hr : Reachable m (.dense d) f) :
    (∃ s, (ArrayValue.dense d).toSparse m env = ok s) ↔
      0 < dw ∧ (dw ≠ 1 ∨ iw < 32) ∧ (dw = 1 ∨ 8 < dw ∨ ∀ i, (f i).toNat < 8) := by
  constructor
  · rintro ⟨s, hs⟩
    rcases hr.inv hiw hdw with ⟨d', h, hd⟩ | ⟨s, x, h, -⟩
    · cases h
      rcases hd with hd | hd
      · refine ⟨hd.shape.1, hd.shape.2, ?_⟩
        by_cases h1 : dw = 1
        · exact .inl h1
        · by_cases h8 : 8 < dw
          · exact .inr (.inl h8)
          · refine .inr (.inr fun i => ?_)
            apply Classical.byContradiction
            intro hi
            exact not_panics (toSparse_u8_panics m env hd h1 (by omega) (i := i) (by omega)) hs
      · exact absurd hs fun hs => not_panics (hd.toSparse_of m env) hs
    · cases h
  · rintro ⟨h0, hb, hok⟩
    obtain ⟨s, hs, -⟩ := C53_to_sparse_partial m env hiw hdw hr h0 hb hok
    exact ⟨s, hs⟩

/-! ## C57: listing entries -/

/-- **C57, exact** With an index of no bits the listing is empty if the element is the default, and panics otherwise. -/
theorem C57_no_index (m : Mode) (env : HashEnv) {s : SparseArrayValue} {f : BitVec 0 → BitVec dw} {x : BitVec dw}
    (hdw : dw < 2 ^ 32) (hr : Reachable m (.sparse s) f) (hx : s.default m = ok (encode x)) :
    (f 0#0 = x → s.nonDefaultEntries m env = ok []) ∧ (f 0#0 ≠ x → Panics (s.nonDefaultEntries m env)) := by
  have order_nil : ∀ {K V : Type} {map : HMap K V}, map.entries = [] → env.order map.entries = [] := by
    intro K V map h
    have := env.order_perm map.entries
    rw [h] at this ⊢
    exact List.perm_nil.mp this
  have panics_of : ∀ {α β : Type} {g : α → Res β} {l : List α}, l ≠ [] → (∀ a, Panics (g a)) →
      Panics (SparseArrayValue.mapRes g l) := by
    intro α β g l hl hg
    cases l with
    | nil => exact absurd rfl hl
    | cons a l =>
      obtain ⟨p, hp⟩ := hg a
      exact ⟨p, by rw [SparseArrayValue.mapRes, hp]; rfl⟩
  rcases hr.inv (by decide) hdw with ⟨d, h, -⟩ | ⟨s', x', h, hs⟩
  · cases h
  · cases h
    cases hs.default_eq m hx
    have key : ∀ {K V : Type} [DecidableEq K] {ek : BitVec 0 → K} {ev : BitVec dw → V} {map : HMap K V}, MapRep ek ev map f x →
        (f 0#0 = x → map.entries = []) ∧ (f 0#0 ≠ x → env.order map.entries ≠ []) := by
      intro K V _ ek ev map hm
      constructor
      · intro hf
        apply List.eq_nil_iff_forall_not_mem.mpr
        rintro ⟨k, v⟩ he
        obtain ⟨j, hj, -⟩ := (hm.mem_iff k v).mp he
        rw [BitVec.eq_nil j] at hj
        exact hj hf
      · intro hf ho
        have hmem := (hm.mem_iff (ek 0#0) (ev (f 0#0))).mpr ⟨0#0, hf, rfl, rfl⟩
        have := (env.order_perm map.entries).mem_iff.mpr hmem
        rw [ho] at this
        cases this
    have hrep := hs.rep
    unfold SparseArrayValue.nonDefaultEntries
    rw [hs.indexWidth]
    cases hdata : s.data with
    | u64u64 d map =>
      rw [hdata] at hrep
      obtain ⟨-, -, -, hm⟩ := hrep
      dsimp only
      refine ⟨fun hf => ?_, fun hf => panics_of ((key hm).2 hf) fun e => ?_⟩
      · rw [order_nil ((key hm).1 hf)]
        rfl
      · obtain ⟨p, hp⟩ := fromU64_zero_panics m e.1
        rw [hp]
        exact ⟨p, rfl⟩
    | u64big d map =>
      rw [hdata] at hrep
      obtain ⟨-, -, -, hm⟩ := hrep
      dsimp only
      refine ⟨fun hf => ?_, fun hf => panics_of ((key hm).2 hf) fun e => ?_⟩
      · rw [order_nil ((key hm).1 hf)]
        rfl
      · obtain ⟨p, hp⟩ := fromU64_zero_panics m e.1
        rw [hp]
        exact ⟨p, rfl⟩
    | bigbig d map => rw [hdata] at hrep; have := hrep.1; omega

/-! ## C73: transitivity -/

/-- **C73, exact** `==` is transitive except in one situation: two sparse arrays with different defaults that equal the same
dense array are unequal. -/
theorem C73_transitive_exact (m : Mode) (env : HashEnv) {a b c : ArrayValue} {f g h : BitVec iw → BitVec dw} (hdw : dw < 2 ^ 32)
    (had : Addressable iw dw) (ha : Reachable m a f) (hb : Reachable m b g) (hc : Reachable m c h)
    (h1 : a.eq m env b = ok true) (h2 : b.eq m env c = ok true) :
    a.eq m env c = ok true ∨ ∃ s t, a = .sparse s ∧ c = .sparse t ∧ b.isDense = true ∧ s.default m ≠ t.default m ∧
      a.eq m env c = ok false := by
  have hlt := had.1
  have hiw : iw < 2 ^ 32 := by omega
  have of_eq : ∀ {a b : ArrayValue}, a.eq m env b = ok true → a.isEqual m env b = ok (some true) := by
    intro a b hab
    obtain ⟨r, hr, hr'⟩ := of_bind_ok hab
    cases r with
    | none => cases hr'
    | some v => cases hr'; exact hr
  have to_eq : ∀ {a b : ArrayValue}, a.isEqual m env b = ok (some true) → a.eq m env b = ok true := by
    intro a b hab
    unfold ArrayValue.eq
    rw [hab]
    rfl
  have mixed_ok : ∀ {d : DenseArrayValue} {s : SparseArrayValue} {f g : BitVec iw → BitVec dw} {x : BitVec dw},
      DenseGen d f → SparseInv s g x → isEqualMixed m env d s = ok (some true) →
      (∃ e, DenseArrayValue.ofSparse m env s = ok e) ∧ f = g := by
    intro d s f g x hd hs hmix
    obtain ⟨k1, k2⟩ := isEqualMixed_exact m env hd hs had
    have hok : ∃ e, DenseArrayValue.ofSparse m env s = ok e := by
      cases he : DenseArrayValue.ofSparse m env s with
      | ok e => exact ⟨e, rfl⟩
      | panic p => exact (not_panics (k2 ⟨p, he⟩) hmix).elim
    refine ⟨hok, ?_⟩
    rcases k1 hok with ⟨-, h⟩ | ⟨h, -⟩
    · exact h
    · rw [hmix] at h; cases h
  have to_mixed : ∀ {d : DenseArrayValue} {s : SparseArrayValue} {f : BitVec iw → BitVec dw} {x : BitVec dw},
      DenseGen d f → SparseInv s f x → (∃ e, DenseArrayValue.ofSparse m env s = ok e) →
      isEqualMixed m env d s = ok (some true) := by
    intro d s f x hd hs hok
    rcases (isEqualMixed_exact m env hd hs had).1 hok with ⟨h, -⟩ | ⟨-, h⟩
    · exact h
    · exact absurd rfl h
  replace h1 := of_eq h1
  replace h2 := of_eq h2
  rcases ha.inv hiw hdw with ⟨d, rfl, hd⟩ | ⟨s, x, rfl, hs⟩
  · rcases hb.inv hiw hdw with ⟨e, rfl, he⟩ | ⟨t, y, rfl, ht⟩
    · obtain ⟨r, k1, k2⟩ := hd.isEqual_of m he
      rw [show (ArrayValue.dense d).isEqual m env (.dense e) = d.isEqual m e from rfl, k1] at h1
      cases h1
      cases k2.mp rfl
      rcases hc.inv hiw hdw with ⟨c, rfl, hc'⟩ | ⟨u, z, rfl, hu⟩
      · obtain ⟨r, k3, k4⟩ := he.isEqual_of m hc'
        rw [show (ArrayValue.dense e).isEqual m env (.dense c) = e.isEqual m c from rfl, k3] at h2
        cases h2
        cases k4.mp rfl
        obtain ⟨r, k5, k6⟩ := hd.isEqual_of m hc'
        rw [k6.mpr rfl] at k5
        exact .inl (to_eq k5)
      · obtain ⟨k3, rfl⟩ := mixed_ok he hu h2
        exact .inl (to_eq (to_mixed hd hu k3))
    · obtain ⟨k1, rfl⟩ := mixed_ok hd ht h1
      rcases hc.inv hiw hdw with ⟨c, rfl, hc'⟩ | ⟨u, z, rfl, hu⟩
      · obtain ⟨-, rfl⟩ := mixed_ok hc' ht h2
        obtain ⟨r, k5, k6⟩ := hd.isEqual_of m hc'
        rw [k6.mpr rfl] at k5
        exact .inl (to_eq k5)
      · obtain ⟨r, k3, k4⟩ := ht.isEqual_of m env hu
        rw [show (ArrayValue.sparse t).isEqual m env (.sparse u) = t.isEqual m env u from rfl, k3] at h2
        cases h2
        obtain ⟨rfl, rfl⟩ := k4.mp rfl
        have k5 := (ofSparse_exact m env hu had).mpr ((ofSparse_exact m env ht had).mp k1)
        exact .inl (to_eq (to_mixed hd hu k5))
  · rcases hb.inv hiw hdw with ⟨e, rfl, he⟩ | ⟨t, y, rfl, ht⟩
    · obtain ⟨k1, rfl⟩ := mixed_ok he hs h1
      rcases hc.inv hiw hdw with ⟨c, rfl, hc'⟩ | ⟨u, z, rfl, hu⟩
      · obtain ⟨r, k3, k4⟩ := he.isEqual_of m hc'
        rw [show (ArrayValue.dense e).isEqual m env (.dense c) = e.isEqual m c from rfl, k3] at h2
        cases h2
        cases k4.mp rfl
        exact .inl (to_eq (to_mixed hc' hs k1))
      · obtain ⟨-, rfl⟩ := mixed_ok he hu h2
        have h0 : 0 < dw := ((ofSparse_exact m env hs had).mp k1).1
        obtain ⟨r, k3, k4⟩ := hs.isEqual_of m env hu
        cases r with
        | true => exact .inl (to_eq k3)
        | false =>
          refine .inr ⟨s, u, rfl, rfl, rfl, ?_, ?_⟩
          · rw [hs.default_of m h0, hu.default_of m h0]
            intro heq
            cases k4.mpr ⟨encode_inj hdw (Res.ok.inj heq), rfl⟩
          · unfold ArrayValue.eq ArrayValue.isEqual
            dsimp only
            rw [k3]
            rfl
    · obtain ⟨r, k3, k4⟩ := hs.isEqual_of m env ht
      rw [show (ArrayValue.sparse s).isEqual m env (.sparse t) = s.isEqual m env t from rfl, k3] at h1
      cases h1
      obtain ⟨rfl, rfl⟩ := k4.mp rfl
      rcases hc.inv hiw hdw with ⟨c, rfl, hc'⟩ | ⟨u, z, rfl, hu⟩
      · obtain ⟨k1, rfl⟩ := mixed_ok hc' ht h2
        have k5 := (ofSparse_exact m env hs had).mpr ((ofSparse_exact m env ht had).mp k1)
        exact .inl (to_eq (to_mixed hc' hs k5))
      · obtain ⟨r, k5, k6⟩ := ht.isEqual_of m env hu
        rw [show (ArrayValue.sparse t).isEqual m env (.sparse u) = t.isEqual m env u from rfl, k5] at h2
        cases h2
        obtain ⟨rfl, rfl⟩ := k6.mp rfl
        obtain ⟨r, k7, k8⟩ := hs.isEqual_of m env hu
        rw [k8.mpr ⟨rfl, rfl⟩] at k7
        exact .inl (to_eq k7)

/-! ## C58: slices of booleans -/

/-- **C58, exact** A slice of more than 2³¹ booleans can be converted exactly if all of them are false. -/
theorem C58_long_bool_exact (m : Mode) (vs : List Bool) (hl : vs.length < 2 ^ 63) (hlong : 2 ^ 31 < vs.length) :
    (∃ a, ArrayValue.ofBools m vs = ok a) ↔ ∀ b ∈ vs, b = false := by
  have hw := indexWidthFromLen_least vs.length
  have h32 : 32 ≤ DenseArrayValue.indexWidthFromLen vs.length := by
    apply Classical.byContradiction
    intro h
    have : 2 ^ DenseArrayValue.indexWidthFromLen vs.length ≤ 2 ^ 31 := Nat.pow_le_pow_right (by decide) (by omega)
    have := hw.1
    omega
  have h64 : DenseArrayValue.indexWidthFromLen vs.length < 64 := by
    have := hw.le (w := 63) (by omega)
    omega
  have hrun : ArrayValue.ofBools m vs = (DenseArrayValue.ofBools.go 0 vs ⟨0, []⟩ >>= fun data =>
      ok (.dense ⟨DenseArrayValue.indexWidthFromLen vs.length, 1, .bit data⟩)) := by
    unfold ArrayValue.ofBools DenseArrayValue.ofBools
    dsimp only
    rw [numElements_ok m h64, ok_bind, pow_mod_u32 h32]
    show ((DenseArrayValue.ofBools.go 0 vs ⟨0, []⟩ >>= _) >>= _) = _
    cases DenseArrayValue.ofBools.go 0 vs ⟨0, []⟩ <;> rfl
  rw [hrun]
  constructor
  · rintro ⟨a, ha⟩
    obtain ⟨r, hr, -⟩ := of_bind_ok ha
    exact (ofBools_go_empty vs 0 r hr).2
  · intro h
    have hgo : ∀ (l : List Bool) (k : Nat), (∀ b ∈ l, b = false) → DenseArrayValue.ofBools.go k l ⟨0, []⟩ = ok ⟨0, []⟩ := by
      intro l
      induction l with
      | nil => intro k _; rfl
      | cons b l ih =>
        intro k hb
        rw [DenseArrayValue.ofBools.go, hb b (by simp)]
        exact ih (k + 1) fun b' hb' => hb b' (by simp [hb'])
    rw [hgo vs 0 h]
    exact ⟨_, rfl⟩

/-! ## Examples -/

/-- 2²⁷ elements of 1024 bits do not pass the check, 2²⁶ do. -/
example : (∃ a, ArrayValue.newDense .debug 26 (encode 0#1024) = ok a) ∧
    ¬ ∃ a, ArrayValue.newDense .debug 27 (encode 0#1024) = ok a :=
  ⟨(C59_exact (by decide) _).mpr ⟨by decide +kernel, by decide⟩,
    fun h => absurd ((C59_exact (by decide) _).mp h).1 (by decide +kernel)⟩

/-- An array of 2³² ones cannot be created. -/
example : ¬ ∃ a, ArrayValue.newDense .debug 32 (encode 1#1) = ok a :=
  fun h => ((C59_exact (by decide) _).mp h).2 ⟨rfl, by decide, rfl⟩

/-- A reachable sparse array with 65 index bits and one entry: the entry cannot be read. -/
example (m : Mode) : ∃ s, Reachable m (.sparse s) (update (fun _ : BitVec 65 => 5#8) 3#65 6#8) ∧
    Panics (s.select m listEnv (encode 3#65)) ∧ s.select m listEnv (encode 4#65) = ok (encode 5#8) := by
  have hr0 : Reachable m (.sparse ⟨65, 8, .bigbig (encode 5#8) HMap.empty⟩) (fun _ : BitVec 65 => 5#8) := .newSparse _ _ rfl
  have hr : Reachable m (.sparse ⟨65, 8, .bigbig (encode 5#8) ⟨[(encode 3#65, encode 6#8)]⟩⟩) (update (fun _ : BitVec 65 => 5#8) 3#65 6#8) :=
    .store (env := listEnv) _ _ _ _ _ hr0 (by cases m <;> rfl)
  refine ⟨_, hr, ?_, by cases m <;> decide +kernel⟩
  obtain ⟨x, h1, h2⟩ := (C50_exact m (by decide) (by decide) hr).2.2 (by decide)
  have hx : x = 5#8 := (encode_inj (by decide) (Res.ok.inj h1)).symm
  subst hx
  exact (h2 3#65).1 (by decide) listEnv

end Baa

import Verif.Props.Blocks
import Verif.Spec.Cache

/-!
# C154: a cache is not noticed
-/

namespace Baa
open Res

variable {tw iw dw : Nat}

/-! ## On functions -/

theorem append_eq_iff {t t' : BitVec tw} {i i' : BitVec iw} : t ++ i = t' ++ i' ↔ t = t' ∧ i = i' := by
  constructor
  · intro h
    have h1 := congrArg (fun a => BitVec.extractLsb' iw tw a) h
    have h2 := congrArg (fun a => BitVec.extractLsb' 0 iw a) h
    simp only [BitVec.extractLsb'_append_eq_left, BitVec.extractLsb'_append_eq_right] at h1 h2
    exact ⟨h1, h2⟩
  · rintro ⟨rfl, rfl⟩; rfl

/-- The lines and the memory behind them together are the memory `f`. -/
structure CacheInv (T : BitVec iw → BitVec tw) (U D : BitVec iw → BitVec 1) (C : BitVec iw → BitVec dw)
    (B f : BitVec (tw + iw) → BitVec dw) : Prop where
  val : ∀ t i, f (t ++ i) = if U i ≠ 0#1 ∧ T i = t then C i else B (t ++ i)
  clean : ∀ i, U i ≠ 0#1 → D i = 0#1 → C i = B (T i ++ i)

/-- The memory after a line went back. -/
def backed (T : BitVec iw → BitVec tw) (U D : BitVec iw → BitVec 1) (C : BitVec iw → BitVec dw) (B : BitVec (tw + iw) → BitVec dw)
    (i : BitVec iw) : BitVec (tw + iw) → BitVec dw :=
  if U i ≠ 0#1 ∧ D i ≠ 0#1 then update B (T i ++ i) (C i) else B

theorem CacheInv.backed_other {T : BitVec iw → BitVec tw} {U D : BitVec iw → BitVec 1} {C : BitVec iw → BitVec dw}
    {B : BitVec (tw + iw) → BitVec dw} {i j : BitVec iw} (h : j ≠ i) (t : BitVec tw) :
    backed T U D C B i (t ++ j) = B (t ++ j) := by
  unfold backed
  by_cases c : U i ≠ 0#1 ∧ D i ≠ 0#1
  · rw [if_pos c, update, if_neg fun e => h (append_eq_iff.1 e).2]
  · rw [if_neg c]

theorem CacheInv.backed_same {T : BitVec iw → BitVec tw} {U D : BitVec iw → BitVec 1} {C : BitVec iw → BitVec dw}
    {B f : BitVec (tw + iw) → BitVec dw} (h : CacheInv T U D C B f) (i : BitVec iw) (t : BitVec tw) :
    backed T U D C B i (t ++ i) = f (t ++ i) := by
  rw [h.val]
  unfold backed
  by_cases c : U i ≠ 0#1 ∧ D i ≠ 0#1
  · rw [if_pos c, update]
    by_cases e : t = T i
    · rw [if_pos (by rw [e]), if_pos ⟨c.1, e.symm⟩]
    · rw [if_neg fun q => e (append_eq_iff.1 q).1, if_neg fun q => e q.2.symm]
  · rw [if_neg c]
    by_cases e : U i ≠ 0#1 ∧ T i = t
    · have hd : D i = 0#1 := Decidable.byContradiction fun q => c ⟨e.1, q⟩
      rw [if_pos e, h.clean i e.1 hd, e.2]
    · rw [if_neg e]

theorem update_at {a b : Nat} (f : BitVec a → BitVec b) (i : BitVec a) (x : BitVec b) : update f i x i = x := if_pos rfl
theorem update_away {a b : Nat} {f : BitVec a → BitVec b} {i j : BitVec a} {x : BitVec b} (h : j ≠ i) : update f i x j = f j := if_neg h

theorem CacheInv.fetch {T : BitVec iw → BitVec tw} {U D : BitVec iw → BitVec 1} {C : BitVec iw → BitVec dw}
    {B f : BitVec (tw + iw) → BitVec dw} (h : CacheInv T U D C B f) (t : BitVec tw) (i : BitVec iw) :
    CacheInv (update T i t) (update U i 1#1) (update D i 0#1) (update C i (backed T U D C B i (t ++ i))) (backed T U D C B i) f := by
  constructor
  · intro t' j
    by_cases e : j = i
    · subst e
      rw [update_at, update_at, update_at, h.backed_same, h.backed_same]
      by_cases q : t = t'
      · rw [if_pos ⟨by decide, q⟩, q]
      · rw [if_neg fun p => q p.2]
    · rw [update_away e, update_away e, update_away e, CacheInv.backed_other e, h.val]
  · intro j
    by_cases e : j = i
    · subst e
      intro _ _
      rw [update_at, update_at]
    · rw [update_away e, update_away e, update_away e, update_away e, CacheInv.backed_other e]
      exact h.clean j

theorem CacheInv.write {T : BitVec iw → BitVec tw} {U D : BitVec iw → BitVec 1} {C : BitVec iw → BitVec dw}
    {B f : BitVec (tw + iw) → BitVec dw} (h : CacheInv T U D C B f) {t : BitVec tw} {i : BitVec iw} (hu : U i ≠ 0#1) (ht : T i = t)
    (x : BitVec dw) : CacheInv T U (update D i 1#1) (update C i x) B (update f (t ++ i) x) := by
  constructor
  · intro t' j
    by_cases e : j = i
    · subst e
      rw [update_at]
      by_cases q : t' = t
      · rw [q, update_at, if_pos ⟨hu, ht⟩]
      · rw [update_away fun p => q (append_eq_iff.1 p).1, h.val, if_neg fun p => q (p.2.symm.trans ht),
          if_neg fun p => q (p.2.symm.trans ht)]
    · rw [update_away fun p => e (append_eq_iff.1 p).2, update_away e, h.val]
  · intro j
    by_cases e : j = i
    · subst e
      rw [update_at]
      intro _ q
      exact absurd q (by decide)
    · rw [update_away e, update_away e]
      exact h.clean j

/-! ## On arrays -/

/-- The arrays of the cache hold these functions. -/
structure Cache.Holds (m : Mode) (c : Cache) (T : BitVec iw → BitVec tw) (U D : BitVec iw → BitVec 1) (C : BitVec iw → BitVec dw)
    (B : BitVec (tw + iw) → BitVec dw) : Prop where
  tags : Means m (.arr iw tw) c.tags T
  used : Means m (.arr iw 1) c.used U
  dirty : Means m (.arr iw 1) c.dirty D
  data : Means m (.arr iw dw) c.data C
  mem : Means m (.arr (tw + iw) dw) c.mem B

theorem concat_encode (m : Mode) (ht : 0 < tw) (hi : 0 < iw) (h : tw + iw ≤ 64) (t : BitVec tw) (i : BitVec iw) :
    BitVecValue.concat m (encode t) (encode i) = ok (encode (t ++ i)) := by
  obtain ⟨r, h1, h2⟩ := C21_concat_partial m (encode_denotes t (by omega)) (encode_denotes i (by omega)) (by omega) (.inl ⟨ht, hi⟩)
  rw [h1, h2.eq_encode]

theorem tru_encode (m : Mode) : BitVecValue.tru m = ok (encode 1#1) := by
  obtain ⟨r, h1, h2⟩ := C01_from_bool m true
  exact h1.trans (congrArg ok h2.eq_encode)

theorem fals_encode (m : Mode) : BitVecValue.fals m = ok (encode 0#1) := by
  obtain ⟨r, h1, h2⟩ := C01_from_bool m false
  exact h1.trans (congrArg ok h2.eq_encode)

theorem not_isZero_encode (x : BitVec 1) : (!(encode x).isZero) = decide (x ≠ 0#1) := by
  rw [C25_is_zero (encode_denotes x (by decide))]
  by_cases h : x = 0#1
  · simp [h]
  · simp [h]

theorem Cache.Holds.writeBack {m : Mode} (env : HashEnv) (htw : 0 < tw) (hiw : 0 < iw) {c : Cache} {T : BitVec iw → BitVec tw}
    {U D : BitVec iw → BitVec 1} {C : BitVec iw → BitVec dw} {B : BitVec (tw + iw) → BitVec dw} (h : c.Holds m T U D C B) (i : BitVec iw) :
    ∃ b, Cache.writeBack m env c (encode (U i)) (encode (T i)) (encode i) = ok b ∧
      Means m (.arr (tw + iw) dw) b (backed T U D C B i) := by
  have h64 := h.mem.2.index_le
  rw [Cache.writeBack, h.dirty.select_eq, ok_bind, not_isZero_encode, not_isZero_encode]
  unfold backed
  by_cases c2 : U i ≠ 0#1 ∧ D i ≠ 0#1
  · rw [if_pos (by simp [c2.1, c2.2]), if_pos c2, h.data.select_eq, ok_bind, concat_encode m htw hiw h64, ok_bind]
    exact h.mem.store_ex m env _ _
  · rw [if_neg (by simpa using c2), if_neg c2]
    exact ⟨_, rfl, h.mem⟩

/-- After a fetch the line holds the cell. -/
theorem Cache.Holds.fetch {m : Mode} (env : HashEnv) (htw : 0 < tw) (hiw : 0 < iw) {c : Cache} {T : BitVec iw → BitVec tw}
    {U D : BitVec iw → BitVec 1} {C : BitVec iw → BitVec dw} {B f : BitVec (tw + iw) → BitVec dw} (h : c.Holds m T U D C B)
    (hv : CacheInv T U D C B f) (t : BitVec tw) (i : BitVec iw) :
    ∃ (c' : Cache) (T' : BitVec iw → BitVec tw) (U' D' : BitVec iw → BitVec 1) (C' : BitVec iw → BitVec dw)
      (B' : BitVec (tw + iw) → BitVec dw), Cache.fetch m env c (encode t) (encode i) = ok c' ∧ c'.Holds m T' U' D' C' B' ∧
      CacheInv T' U' D' C' B' f ∧ U' i ≠ 0#1 ∧ T' i = t := by
  have h64 := h.mem.2.index_le
  have htl := h.tags.2.data_lt
  rw [Cache.fetch, h.used.select_eq, ok_bind, h.tags.select_eq, ok_bind, C15_is_equal m (encode_denotes _ htl) (encode_denotes _ htl),
    ok_bind, not_isZero_encode]
  by_cases c1 : U i ≠ 0#1 ∧ T i = t
  · rw [if_pos (by simp [c1.1, c1.2])]
    exact ⟨c, T, U, D, C, B, rfl, h, hv, c1.1, c1.2⟩
  · rw [if_neg (by simpa using c1)]
    obtain ⟨b, b1, b2⟩ := h.writeBack env htw hiw i
    obtain ⟨d, d1, d2⟩ := h.data.store_ex m env i (backed T U D C B i (t ++ i))
    obtain ⟨g, g1, g2⟩ := h.tags.store_ex m env i t
    obtain ⟨u, u1, u2⟩ := h.used.store_ex m env i 1#1
    obtain ⟨e, e1, e2⟩ := h.dirty.store_ex m env i 0#1
    refine ⟨⟨g, u, e, d, b⟩, _, _, _, _, _, ?_, ⟨g2, u2, e2, d2, b2⟩, hv.fetch t i, by rw [update_at]; decide, update_at ..⟩
    rw [b1, ok_bind, concat_encode m htw hiw h64, ok_bind, b2.select_eq, ok_bind, d1, ok_bind, g1, ok_bind, tru_encode, ok_bind, u1, ok_bind,
      fals_encode, ok_bind, e1, ok_bind]

theorem cache_slices (m : Mode) (htw : 0 < tw) (hiw : 0 < iw) (h : tw + iw ≤ 64) (t : BitVec tw) (i : BitVec iw) :
    BitVecValue.slice m (encode (t ++ i)) (iw - 1) 0 = ok (encode i) ∧
    BitVecValue.slice m (encode (t ++ i)) (tw + iw - 1) iw = ok (encode t) := by
  have d := encode_denotes (t ++ i) (by omega)
  obtain ⟨k, rfl⟩ : ∃ k, iw = k + 1 := ⟨iw - 1, by omega⟩
  obtain ⟨l, rfl⟩ : ∃ l, tw = l + 1 := ⟨tw - 1, by omega⟩
  constructor
  · obtain ⟨r, r1, r2⟩ := C19_slice m d (msb := k) (lsb := 0) (by omega) (by omega)
    rw [show k - 0 + 1 = k + 1 by omega, BitVec.extractLsb'_append_eq_right] at r2
    rw [← r2.eq_encode]
    exact r1
  · obtain ⟨r, r1, r2⟩ := C19_slice m d (msb := l + 1 + k) (lsb := k + 1) (by omega) (by omega)
    rw [show l + 1 + k - (k + 1) + 1 = l + 1 by omega, BitVec.extractLsb'_append_eq_left] at r2
    rw [← r2.eq_encode]
    exact r1

theorem Cache.Holds.run {m : Mode} (env : HashEnv) (htw : 0 < tw) (hiw : 0 < iw) : ∀ (os : List (MemOp (BitVec (tw + iw)) (BitVec dw)))
    {c : Cache} {T : BitVec iw → BitVec tw} {U D : BitVec iw → BitVec 1} {C : BitVec iw → BitVec dw}
    {B f : BitVec (tw + iw) → BitVec dw}, c.Holds m T U D C B → CacheInv T U D C B f →
    ∃ (c' : Cache) (T' : BitVec iw → BitVec tw) (U' D' : BitVec iw → BitVec 1) (C' : BitVec iw → BitVec dw)
      (B' : BitVec (tw + iw) → BitVec dw), Cache.run m env tw iw c (os.map MemOp.encoded) = ok (c', (memRun f os).map encode) ∧
      c'.Holds m T' U' D' C' B' ∧ CacheInv T' U' D' C' B' (memAfter f os)
  | [], c, T, U, D, C, B, _, h, hv => ⟨c, T, U, D, C, B, rfl, h, hv⟩
  | .read a :: os, c, T, U, D, C, B, f, h, hv => by
    obtain ⟨t, i, rfl⟩ : ∃ (t : BitVec tw) (i : BitVec iw), a = t ++ i := ⟨_, _, BitVec.extractLsb'_append_extractLsb'.symm⟩
    obtain ⟨s1, s2⟩ := cache_slices m htw hiw h.mem.2.index_le t i
    obtain ⟨c', T', U', D', C', B', h1, h2, h3, h4, h5⟩ := h.fetch env htw hiw hv t i
    have e : C' i = f (t ++ i) := by rw [h3.val, if_pos ⟨h4, h5⟩]
    obtain ⟨c₂, T₂, U₂, D₂, C₂, B₂, g1, g2, g3⟩ := h2.run env htw hiw os h3
    refine ⟨c₂, T₂, U₂, D₂, C₂, B₂, ?_, g2, g3⟩
    rw [List.map_cons, MemOp.encoded, Cache.run, Cache.step, s1, ok_bind, s2, ok_bind, h1, ok_bind, h2.data.select_eq, ok_bind, ok_bind]
    dsimp only
    rw [g1, ok_bind, memRun, List.map_cons, e]
    rfl
  | .write a x :: os, c, T, U, D, C, B, f, h, hv => by
    obtain ⟨t, i, rfl⟩ : ∃ (t : BitVec tw) (i : BitVec iw), a = t ++ i := ⟨_, _, BitVec.extractLsb'_append_extractLsb'.symm⟩
    obtain ⟨s1, s2⟩ := cache_slices m htw hiw h.mem.2.index_le t i
    obtain ⟨c', T', U', D', C', B', h1, h2, h3, h4, h5⟩ := h.fetch env htw hiw hv t i
    obtain ⟨d, d1, d2⟩ := h2.data.store_ex m env i x
    obtain ⟨e, e1, e2⟩ := h2.dirty.store_ex m env i 1#1
    have h6 : Cache.Holds m ({ c' with data := d, dirty := e } : Cache) T' U' (update D' i 1#1) (update C' i x) B' :=
      ⟨h2.tags, h2.used, e2, d2, h2.mem⟩
    obtain ⟨c₂, T₂, U₂, D₂, C₂, B₂, g1, g2, g3⟩ := h6.run env htw hiw os (h3.write h4 h5 x)
    refine ⟨c₂, T₂, U₂, D₂, C₂, B₂, ?_, g2, g3⟩
    rw [List.map_cons, MemOp.encoded, Cache.run, Cache.step, s1, ok_bind, s2, ok_bind, h1, ok_bind, d1, ok_bind, tru_encode, ok_bind, e1,
      ok_bind, ok_bind]
    dsimp only
    rw [g1, ok_bind, memRun]
    rfl

theorem CacheInv.back {T : BitVec iw → BitVec tw} {U D : BitVec iw → BitVec 1} {C : BitVec iw → BitVec dw}
    {B f : BitVec (tw + iw) → BitVec dw} (h : CacheInv T U D C B f) (i : BitVec iw) : CacheInv T U D C (backed T U D C B i) f := by
  constructor
  · intro t j
    by_cases e : j = i
    · subst e
      rw [h.backed_same]
      by_cases q : U j ≠ 0#1 ∧ T j = t
      · rw [if_pos q, h.val, if_pos q]
      · rw [if_neg q]
    · rw [CacheInv.backed_other e, h.val]
  · intro j hu hd
    by_cases e : j = i
    · subst e
      rw [h.backed_same, h.val, if_pos ⟨hu, rfl⟩]
    · rw [CacheInv.backed_other e]
      exact h.clean j hu hd

theorem Cache.Holds.flush {m : Mode} (env : HashEnv) (htw : 0 < tw) (hiw : 0 < iw) : ∀ (ks : List Nat), (∀ k ∈ ks, k < 2 ^ iw) →
    ∀ {c : Cache} {T : BitVec iw → BitVec tw} {U D : BitVec iw → BitVec 1} {C : BitVec iw → BitVec dw}
    {B f : BitVec (tw + iw) → BitVec dw}, c.Holds m T U D C B → CacheInv T U D C B f →
    ∃ (c' : Cache) (B' : BitVec (tw + iw) → BitVec dw), Cache.flush m env iw c ks = ok c' ∧ Means m (.arr (tw + iw) dw) c'.mem B' ∧
      ∀ i : BitVec iw, (i.toNat ∈ ks ∨ ∀ t : BitVec tw, B (t ++ i) = f (t ++ i)) → ∀ t : BitVec tw, B' (t ++ i) = f (t ++ i)
  | [], _, c, _, _, _, _, B, _, h, _ => ⟨c, B, rfl, h.mem, fun i q => q.elim (fun p => absurd p (by simp)) id⟩
  | k :: ks, hk, c, T, U, D, C, B, f, h, hv => by
    have h64 := h.mem.2.index_le
    have hk0 := hk k (by simp)
    have hk64 : k < 2 ^ 64 := Nat.lt_of_lt_of_le hk0 (Nat.pow_le_pow_right (by decide) (by omega))
    have e : (BitVec.ofNat 64 k).toNat = k := by rw [BitVec.toNat_ofNat, Nat.mod_eq_of_lt hk64]
    obtain ⟨i, i1, i2⟩ := C01_from_u64 m (w := iw) hiw (by omega) (BitVec.ofNat 64 k) (by rw [e]; exact hk0)
    rw [e] at i2
    obtain ⟨b, b1, b2⟩ := h.writeBack env htw hiw (BitVec.ofNat iw k)
    have h6 : Cache.Holds m ({ c with mem := b } : Cache) T U D C (backed T U D C B (BitVec.ofNat iw k)) :=
      ⟨h.tags, h.used, h.dirty, h.data, b2⟩
    obtain ⟨c', B', g1, g2, g3⟩ := h6.flush env htw hiw ks (fun k q => hk k (List.mem_cons_of_mem _ q)) (hv.back _)
    refine ⟨c', B', ?_, g2, ?_⟩
    · rw [Cache.flush, i1, ok_bind, i2.eq_encode, h.used.select_eq, ok_bind, h.tags.select_eq, ok_bind, b1, ok_bind, g1]
    · intro j q
      refine g3 j ?_
      by_cases p : j = BitVec.ofNat iw k
      · exact .inr fun t => by rw [p, hv.backed_same]
      · rcases q with q | q
        · rcases List.mem_cons.1 q with q | q
          · exact absurd (by rw [← q, BitVec.ofNat_toNat, BitVec.setWidth_eq]) p
          · exact .inl q
        · exact .inr fun t => by rw [CacheInv.backed_other p, q]

/-- Whatever is read and written, in any order: a cache that starts with no line in use gives the answers of the memory behind it. When its
lines are written back afterwards, the memory holds what was written. -/
theorem C154_cache (m : Mode) (env : HashEnv) (htw : 0 < tw) (hiw : 0 < iw) {c : Cache} {T : BitVec iw → BitVec tw} {D : BitVec iw → BitVec 1}
    {C : BitVec iw → BitVec dw} {f : BitVec (tw + iw) → BitVec dw} (ht : Means m (.arr iw tw) c.tags T)
    (hu : Means m (.arr iw 1) c.used fun _ => 0#1) (hd : Means m (.arr iw 1) c.dirty D) (hc : Means m (.arr iw dw) c.data C)
    (hm : Means m (.arr (tw + iw) dw) c.mem f) (os : List (MemOp (BitVec (tw + iw)) (BitVec dw))) :
    ∃ c₁ c₂, Cache.run m env tw iw c (os.map MemOp.encoded) = ok (c₁, (memRun f os).map encode) ∧
      Cache.flush m env iw c₁ (List.range (2 ^ iw)) = ok c₂ ∧ Means m (.arr (tw + iw) dw) c₂.mem (memAfter f os) := by
  obtain ⟨c₁, T₁, U₁, D₁, C₁, B₁, h1, h2, h3⟩ := Cache.Holds.run env htw hiw os (f := f) ⟨ht, hu, hd, hc, hm⟩
    ⟨fun _ _ => (if_neg fun h => h.1 rfl).symm, fun _ h => absurd rfl h⟩
  obtain ⟨c₂, B₂, g1, g2, g3⟩ := h2.flush env htw hiw (List.range (2 ^ iw)) (fun k q => List.mem_range.1 q) h3
  have e : B₂ = memAfter f os := by
    funext a
    obtain ⟨t, i, rfl⟩ : ∃ (t : BitVec tw) (i : BitVec iw), a = t ++ i := ⟨_, _, BitVec.extractLsb'_append_extractLsb'.symm⟩
    exact g3 i (.inl (List.mem_range.2 i.isLt)) t
  exact ⟨c₁, c₂, h1, g1, e ▸ g2⟩

example : (do
      let tags ← ArrayValue.newDense .debug 1 (encode 0#2)
      let used ← ArrayValue.newDense .debug 1 (encode 0#1)
      let data ← ArrayValue.newDense .debug 1 (encode 0#70)
      let mem ← ArrayValue.newSparse 3 (encode 9#70)
      let (c, ds) ← Cache.run .debug listEnv 2 1 ⟨tags, used, used, data, mem⟩
        [.read (encode 5#3), .write (encode 5#3) (encode 1#70), .read (encode 7#3), .write (encode 3#3) (encode 2#70), .read (encode 5#3),
          .read (encode 3#3), .read (encode 4#3), .write (encode 3#3) (encode 3#70)]
      let c ← Cache.flush .debug listEnv 1 c (List.range 2)
      let d ← c.mem.select .debug listEnv (encode 3#3)
      ok (ds, d))
    = ok ([encode 9#70, encode 9#70, encode 1#70, encode 2#70, encode 9#70], encode 3#70) := by
  decide +kernel

end Baa

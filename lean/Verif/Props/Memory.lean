import Verif.Props.ArrayLaws
import Verif.Props.Fields
import Verif.Spec.Memory

/-!
# C141: an array as a memory for values wider than its cells
-/

namespace Baa
open Res

theorem updates_nil {iw dw : Nat} (f : BitVec iw → BitVec dw) (i : BitVec iw) : updates f i [] = f := rfl

theorem updates_cons {iw dw : Nat} (f : BitVec iw → BitVec dw) (i : BitVec iw) (d : BitVec dw) (ds : List (BitVec dw))
    (h : ds.length < 2 ^ iw) (h0 : 0 < iw) : updates f i (d :: ds) = updates (update f i d) (i + BitVec.ofNat iw 1) ds := by
  have hp : 1 < 2 ^ iw := Nat.one_lt_two_pow (by omega)
  funext j
  unfold updates update
  have e1 : (j - (i + BitVec.ofNat iw 1)).toNat = if j = i then 2 ^ iw - 1 else (j - i).toNat - 1 := by
    have hi := i.isLt
    have hj := j.isLt
    rw [BitVec.toNat_sub, BitVec.toNat_add, BitVec.toNat_ofNat, BitVec.toNat_sub, Nat.mod_eq_of_lt hp]
    have ne : j = i ↔ j.toNat = i.toNat := BitVec.toNat_inj.symm
    by_cases g : j.toNat = i.toNat
    · rw [if_pos (ne.mpr g), g]
      by_cases g2 : i.toNat + 1 < 2 ^ iw
      · rw [Nat.mod_eq_of_lt g2, Nat.mod_eq_of_lt (by omega)]
        omega
      · rw [show i.toNat + 1 = 2 ^ iw by omega, Nat.mod_self, Nat.sub_zero, Nat.add_mod_left, Nat.mod_eq_of_lt (by omega)]
        omega
    · rw [if_neg (mt ne.mp g)]
      by_cases g2 : i.toNat + 1 < 2 ^ iw
      · rw [Nat.mod_eq_of_lt g2]
        by_cases g3 : i.toNat < j.toNat
        · rw [show 2 ^ iw - (i.toNat + 1) + j.toNat = 2 ^ iw + (j.toNat - (i.toNat + 1)) by omega, Nat.add_mod_left,
            show 2 ^ iw - i.toNat + j.toNat = 2 ^ iw + (j.toNat - i.toNat) by omega, Nat.add_mod_left, Nat.mod_eq_of_lt (by omega),
            Nat.mod_eq_of_lt (by omega)]
          omega
        · rw [Nat.mod_eq_of_lt (by omega), Nat.mod_eq_of_lt (by omega)]
          omega
      · rw [show i.toNat + 1 = 2 ^ iw by omega, Nat.mod_self, Nat.sub_zero, Nat.add_mod_left, Nat.mod_eq_of_lt hj, Nat.mod_eq_of_lt (by omega)]
        omega
  rw [e1]
  by_cases g : j = i
  · rw [if_pos g, if_pos g, g, BitVec.sub_self]
    show d = _
    rw [List.getD_eq_getElem?_getD, List.getElem?_eq_none (by omega), Option.getD_none]
  · rw [if_neg g, if_neg g]
    have : 0 < (j - i).toNat := by
      apply Nat.pos_of_ne_zero
      intro h0
      have h1 : j - i = 0#iw := BitVec.eq_of_toNat_eq (by rw [h0]; simp)
      have h2 : j - i + i = 0#iw + i := by rw [h1]
      rw [BitVec.sub_add_cancel, BitVec.zero_add] at h2
      exact g h2
    obtain ⟨n, hn⟩ : ∃ n, (j - i).toNat = n + 1 := ⟨(j - i).toNat - 1, by omega⟩
    rw [hn]
    rfl

theorem next_address (m : Mode) {iw : Nat} (h0 : 0 < iw) (hw : iw < 2 ^ 32) (i : BitVec iw) :
    ∃ o, BitVecValue.fromU64 m 1#64 (encode i).width = ok o ∧ BitVecValue.add m (encode i) o = ok (encode (i + BitVec.ofNat iw 1)) := by
  obtain ⟨o, h1, h2⟩ := C01_from_u64 m h0 hw 1#64 (by simpa using Nat.one_lt_two_pow (show iw ≠ 0 by omega))
  obtain ⟨r, h3, h4⟩ := C06_add m h0 (encode_denotes i hw) h2
  exact ⟨o, h1, by rw [h3, h4.eq_encode]; rfl⟩

theorem storeCells_spec (m : Mode) (env : HashEnv) {iw dw : Nat} (h0 : 0 < iw) : ∀ (ds : List (BitVec dw)) (i : BitVec iw) (a : ArrayValue)
    (f : BitVec iw → BitVec dw), Reachable m a f → Usable a iw dw → ds.length ≤ 2 ^ iw →
    ∃ b, storeCells m env a (encode i) (ds.map encode) = ok b ∧ b.isDense = a.isDense ∧ Usable b iw dw ∧ Reachable m b (updates f i ds)
  | [], i, a, f, h, hu, _ => ⟨a, rfl, rfl, hu, h⟩
  | d :: ds, i, a, f, h, hu, hl => by
    rw [List.length_cons] at hl
    obtain ⟨x, hx⟩ := h.arrayInv hu
    obtain ⟨b, h1, h2, h3, -⟩ := hx.store_of m env hu i d
    obtain ⟨c, e1, e2, e3, e4⟩ := storeCells_spec m env h0 ds (i + BitVec.ofNat iw 1) b _ (.store f a b i d h h1) h3 (by omega)
    obtain ⟨o, o1, o2⟩ := next_address m h0 (by have := hu.index_le; omega) i
    refine ⟨c, ?_, e2.trans h2, e3, by rw [updates_cons f i d ds (by omega) h0]; exact e4⟩
    rw [List.map_cons, storeCells, h1, ok_bind, o1, ok_bind, o2, ok_bind, e1]

theorem loadCells_spec (m : Mode) (env : HashEnv) {iw dw : Nat} (h0 : 0 < iw) {a : ArrayValue} {f : BitVec iw → BitVec dw}
    (h : Reachable m a f) (hu : Usable a iw dw) : ∀ (k : Nat) (i : BitVec iw),
    loadCells m env a (encode i) k = ok ((List.range k).map fun n => encode (f (i + BitVec.ofNat iw n)))
  | 0, i => rfl
  | k + 1, i => by
    obtain ⟨x, hx⟩ := h.arrayInv hu
    obtain ⟨o, o1, o2⟩ := next_address m h0 (by have := hu.index_le; omega) i
    rw [loadCells, hx.select_of hu, ok_bind, o1, ok_bind, o2, ok_bind, loadCells_spec m env h0 h hu k, ok_bind, List.range_succ_eq_map, List.map_cons,
      List.map_map]
    congr 2
    · simp
    · apply List.map_congr_left
      intro n _
      show encode (f _) = encode (f _)
      rw [BitVec.add_assoc, ← BitVec.ofNat_add, Nat.add_comm 1 n]

theorem updates_hit {iw dw : Nat} (f : BitVec iw → BitVec dw) (i : BitVec iw) (ds : List (BitVec dw)) (h : ds.length ≤ 2 ^ iw) :
    ((List.range ds.length).map fun n => updates f i ds (i + BitVec.ofNat iw n)) = ds := by
  apply List.ext_getElem (by simp)
  intro n h1 h2
  rw [List.getElem_map, List.getElem_range]
  unfold updates
  rw [BitVec.add_comm, BitVec.add_sub_cancel, BitVec.toNat_ofNat, Nat.mod_eq_of_lt (by omega), List.getD_eq_getElem?_getD,
    List.getElem?_eq_getElem h2, Option.getD_some]

theorem updates_miss {iw dw : Nat} (f : BitVec iw → BitVec dw) (i j : BitVec iw) (ds : List (BitVec dw))
    (h : ∀ n < ds.length, j ≠ i + BitVec.ofNat iw n) : updates f i ds j = f j := by
  unfold updates
  rw [List.getD_eq_getElem?_getD, List.getElem?_eq_none, Option.getD_none]
  apply Nat.le_of_not_lt
  intro g
  refine h _ g ?_
  rw [BitVec.ofNat_toNat, BitVec.setWidth_eq, BitVec.add_comm, BitVec.sub_add_cancel]

/-- **C141** Consecutive cells, written one after the other from any address, are read back; every other cell is unchanged. Addresses
wrap around, and any number of cells up to the size of the array can be written. -/
theorem C141_cells (m : Mode) (e₁ e₂ e₃ : HashEnv) {iw dw : Nat} (h0 : 0 < iw) {a : ArrayValue} {f : BitVec iw → BitVec dw} (h : Reachable m a f)
    (hu : Usable a iw dw) (i : BitVec iw) (ds : List (BitVec dw)) (hl : ds.length ≤ 2 ^ iw) :
    ∃ b, storeCells m e₁ a (encode i) (ds.map encode) = ok b ∧ b.isDense = a.isDense ∧ Reads m e₂ b (updates f i ds) ∧
      loadCells m e₂ b (encode i) ds.length = ok (ds.map encode) ∧
      ∀ (j : BitVec iw) (k : Nat), (∀ p < k, ∀ n < ds.length, j + BitVec.ofNat iw p ≠ i + BitVec.ofNat iw n) →
        loadCells m e₂ b (encode j) k = loadCells m e₃ a (encode j) k := by
  obtain ⟨b, h1, h2, h3, h4⟩ := storeCells_spec m e₁ h0 ds i a f h hu hl
  refine ⟨b, h1, h2, (C72_any_history_partial m e₂ h4 h3).1, ?_, fun j k hd => ?_⟩
  · rw [loadCells_spec m e₂ h0 h4 h3]
    conv => rhs; rw [← updates_hit f i ds hl]
    rw [List.map_map]
    rfl
  · rw [loadCells_spec m e₂ h0 h4 h3, loadCells_spec m e₃ h0 h hu]
    congr 1
    apply List.map_congr_left
    intro p hp
    rw [updates_miss f i _ ds (hd p (List.mem_range.mp hp))]

/-! ## Values that take several cells -/

theorem unpack_canonical (m : Mode) {r : BitVecValue} (hr : Canonical r) : ∀ (ws : List Nat) (top : Nat), (∀ w ∈ ws, 0 < w) → ws.sum ≤ top →
    top ≤ r.width → ∀ fs, unpackFields m r top ws = ok fs → ∀ c ∈ fs, Canonical c
  | [], top, _, _, _, fs, hf, c, hc => by
    cases hf
    simp at hc
  | w :: ws, top, h0, h1, h2, fs, hf, c, hc => by
    have pw := h0 w (by simp)
    rw [List.sum_cons] at h1
    obtain ⟨v, e1, e2⟩ := C19_slice m hr.denotes (msb := top - 1) (lsb := top - w) (by omega) (by omega)
    rw [unpackFields, e1, ok_bind] at hf
    cases hg : unpackFields m r (top - w) ws with
    | panic p => rw [hg] at hf; cases hf
    | ok gs =>
      rw [hg] at hf
      cases hf
      rcases List.mem_cons.mp hc with rfl | hc
      · exact e2.canonical
      · exact unpack_canonical m hr ws (top - w) (fun u hu => h0 u (by simp [hu])) (by omega) (by omega) gs hg c hc

theorem cells_encode {dw : Nat} : ∀ (l : List BitVecValue), (∀ c ∈ l, Canonical c ∧ c.width = dw) → ∃ ds : List (BitVec dw), l = ds.map encode
  | [], _ => ⟨[], rfl⟩
  | c :: l, h => by
    obtain ⟨ds, hd⟩ := cells_encode l fun x hx => h x (by simp [hx])
    obtain ⟨h1, h2⟩ := h c (by simp)
    subst h2
    exact ⟨_ :: ds, by rw [List.map_cons, ← h1.denotes.eq_encode, hd]⟩

theorem arrange_arrange {α : Type} (e : Endian) (l : List α) : e.arrange (e.arrange l) = l := by
  cases e
  · rfl
  · exact List.reverse_reverse l

theorem arrange_length {α : Type} (e : Endian) (l : List α) : (e.arrange l).length = l.length := by
  cases e
  · rfl
  · exact List.length_reverse

theorem arrange_map {α β : Type} (e : Endian) (g : α → β) (l : List α) : e.arrange (l.map g) = (e.arrange l).map g := by
  cases e
  · rfl
  · exact List.map_reverse.symm

/-- **C141** A value that takes `k` cells is read back as written, in either order of its parts. A value at disjoint addresses, of any
size and order, is unchanged. -/
theorem C141_wide (m : Mode) (e₁ e₂ e₃ : HashEnv) {iw dw : Nat} (h0 : 0 < iw) {a : ArrayValue} {f : BitVec iw → BitVec dw} (h : Reachable m a f)
    (hu : Usable a iw dw) (e : Endian) (i : BitVec iw) {v : BitVecValue} (hv : Canonical v) {k : Nat} (hk : 0 < k) (hw : v.width = k * dw)
    (hl : k ≤ 2 ^ iw) :
    ∃ b, storeWide m e₁ e a dw (encode i) v k = ok b ∧ b.isDense = a.isDense ∧ loadWide m e₂ e b (encode i) k = ok v ∧
      ∀ (e' : Endian) (j : BitVec iw) (k' : Nat), (∀ p < k', ∀ n < k, j + BitVec.ofNat iw p ≠ i + BitVec.ofNat iw n) →
        loadWide m e₂ e' b (encode j) k' = loadWide m e₃ e' a (encode j) k' := by
  obtain ⟨k, rfl⟩ : ∃ n, k = n + 1 := ⟨k - 1, by omega⟩
  have hs : (List.replicate (k + 1) dw).sum = v.width := by rw [List.sum_replicate_nat, hw]
  have hp : ∀ u ∈ List.replicate (k + 1) dw, 0 < u := fun u hu' => by rw [List.eq_of_mem_replicate hu']; exact hu.data_pos
  rw [List.replicate_succ] at hs hp
  obtain ⟨p, ps, h1, h2, h3⟩ := C140_pack_unpack m hv hp hs
  have hc := unpack_canonical m hv _ _ hp (by omega) (Nat.le_refl _) _ h1
  obtain ⟨ds, hd⟩ := cells_encode (dw := dw) (p :: ps) fun c hc' => ⟨hc c hc', by
    have : c.width ∈ (p :: ps).map (·.width) := List.mem_map_of_mem hc'
    rw [h2, ← List.replicate_succ] at this
    exact List.eq_of_mem_replicate this⟩
  have hlen : ds.length = k + 1 := by
    have := congrArg List.length h2
    rw [List.length_map, hd, List.length_map, List.length_cons, List.length_replicate] at this
    exact this
  have hlen' : (e.arrange ds).length = k + 1 := by rw [arrange_length, hlen]
  obtain ⟨b, b1, b2, -, b4, b5⟩ := C141_cells m e₁ e₂ e₃ h0 h hu i (e.arrange ds) (by omega)
  refine ⟨b, ?_, b2, ?_, fun e' j k' hd' => ?_⟩
  · rw [storeWide, List.replicate_succ, h1, ok_bind, hd, arrange_map, b1]
  · rw [hlen'] at b4
    rw [loadWide, b4, ok_bind, ← arrange_map, arrange_arrange, ← hd]
    exact h3
  · rw [loadWide, loadWide, b5 j k' (by rw [hlen']; exact hd')]

/-- **C141** What is read does not depend on the kind of the array: two arrays, however they were made, that hold the same elements
give the same value at every address. -/
theorem C141_same_elements (m : Mode) (e₁ e₂ : HashEnv) {iw dw : Nat} (h0 : 0 < iw) {a b : ArrayValue} {f : BitVec iw → BitVec dw}
    (ha : Reachable m a f) (hb : Reachable m b f) (ua : Usable a iw dw) (ub : Usable b iw dw) (e : Endian) (i : BitVec iw) (k : Nat) :
    loadWide m e₁ e a (encode i) k = loadWide m e₂ e b (encode i) k := by
  rw [loadWide, loadWide, loadCells_spec m e₁ h0 ha ua, loadCells_spec m e₂ h0 hb ub]

/-- **C141** Reading with the opposite order of the parts gives them in reverse. -/
theorem C141_other_order (m : Mode) (e₁ e₂ : HashEnv) {iw dw : Nat} (h0 : 0 < iw) {a : ArrayValue} {f : BitVec iw → BitVec dw} (h : Reachable m a f)
    (hu : Usable a iw dw) (i : BitVec iw) {k : Nat} (hk : 0 < k) (hlt : k * dw < 2 ^ 32) :
    ∃ x y parts, loadWide m e₁ .big a (encode i) k = ok x ∧ loadWide m e₂ .little a (encode i) k = ok y ∧
      unpackFields m x x.width (List.replicate k dw) = ok parts ∧ unpackFields m y y.width (List.replicate k dw) = ok parts.reverse := by
  have key : ∀ l : List BitVecValue, l.length = k → (∀ c ∈ l, Canonical c ∧ c.width = dw) → ∃ r,
      joinParts m l = ok r ∧ unpackFields m r r.width (List.replicate k dw) = ok l := fun l hl' hc => by
    have hm : l.map (·.width) = List.replicate k dw := by
      rw [← hl']
      exact List.eq_replicate_of_mem (fun x hx => by
        obtain ⟨c, hc1, rfl⟩ := List.mem_map.mp hx
        exact (hc c hc1).2) |>.trans (by rw [List.length_map])
    match l, hl', hc, hm with
    | [], hl', _, _ => exact absurd hl' (by simp; omega)
    | c :: cs, hl', hc, hm =>
      obtain ⟨r, r1, -, -, r4⟩ := C140_unpack_pack m (v := c) (fs := cs) (fun x hx => ⟨(hc x hx).1, (hc x hx).2 ▸ hu.data_pos⟩)
        (by rw [hm, List.sum_replicate_nat]; exact hlt)
      exact ⟨r, r1, hm ▸ r4⟩
  have hc : ∀ c ∈ (List.range k).map fun n => encode (f (i + BitVec.ofNat iw n)), Canonical c ∧ c.width = dw := fun c hc' => by
    obtain ⟨n, -, rfl⟩ := List.mem_map.mp hc'
    have := encode_denotes (f (i + BitVec.ofNat iw n)) hu.data_lt
    exact ⟨this.canonical, this.width_eq⟩
  obtain ⟨x, x1, x2⟩ := key _ (by simp) hc
  obtain ⟨y, y1, y2⟩ := key ((List.range k).map fun n => encode (f (i + BitVec.ofNat iw n))).reverse (by simp)
    fun c h' => hc c (List.mem_reverse.mp h')
  refine ⟨x, y, _, ?_, ?_, x2, y2⟩
  · rw [loadWide, loadCells_spec m e₁ h0 h hu, ok_bind]
    exact x1
  · rw [loadWide, loadCells_spec m e₂ h0 h hu, ok_bind]
    exact y1

example : ((ArrayValue.newDense .debug 4 (encode 0x11#8)).bind fun a =>
      (storeWide .debug listEnv .little a 8 (encode 14#4) (encode 0xaabbccdd#32) 4).bind fun b =>
      (loadWide .debug listEnv .little b (encode 14#4) 4).bind fun x =>
      (loadWide .debug listEnv .big b (encode 13#4) 3).bind fun y =>
      ok (x, y)) = ok (encode 0xaabbccdd#32, encode 0x11ddcc#24) := by
  decide +kernel

example : ((ArrayValue.newSparse 64 (encode 0x11#8)).bind fun a =>
      (storeWide .debug listEnv .big a 8 (encode (BitVec.allOnes 64)) (encode 0xaabbccdd#32) 4).bind fun b =>
      (loadWide .debug listEnv .big b (encode (BitVec.allOnes 64)) 4).bind fun x =>
      (loadWide .debug listEnv .little b (encode 2#64) 2).bind fun y =>
      ok (x, y)) = ok (encode 0xaabbccdd#32, encode 0x11dd#16) := by
  decide +kernel

end Baa

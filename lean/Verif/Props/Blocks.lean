import Verif.Props.Memory
import Verif.Props.Smt
import Verif.Spec.Blocks

/-!
# C147: ranges of cells can be filled, copied and moved
-/

namespace Baa
open Res

variable {iw dw : Nat}

theorem offsetBy_spec (m : Mode) (h0 : 0 < iw) (hi : iw ≤ 64) {p : BitVecValue} {s : BitVec iw} (hp : Denotes p s) {k : Nat} (hk : k < 2 ^ iw) :
    offsetBy m p k = ok (encode (s + BitVec.ofNat iw k)) := by
  have hk64 : k < 2 ^ 64 := Nat.lt_of_lt_of_le hk (Nat.pow_le_pow_right (by decide) hi)
  have e : (BitVec.ofNat 64 k).toNat = k := by rw [BitVec.toNat_ofNat, Nat.mod_eq_of_lt hk64]
  obtain ⟨i, i1, i2⟩ := C01_from_u64 m (w := iw) h0 (by omega) (BitVec.ofNat 64 k) (by rw [e]; exact hk)
  rw [e] at i2
  obtain ⟨r, r1, r2⟩ := C06_add m h0 hp i2
  rw [offsetBy, hp.width_eq, i1, ok_bind, r1, r2.eq_encode]

/-- The cells at the given offsets replaced. -/
def picked (f g : BitVec iw → BitVec dw) (s d : BitVec iw) (ks : List Nat) : BitVec iw → BitVec dw :=
  fun j => if (j - d).toNat ∈ ks then g (s + (j - d)) else f j

theorem sub_toNat_eq_iff {j d : BitVec iw} {k : Nat} (hk : k < 2 ^ iw) : (j - d).toNat = k ↔ j = d + BitVec.ofNat iw k := by
  constructor
  · intro h
    have : BitVec.ofNat iw k = j - d := by rw [← h, BitVec.ofNat_toNat, BitVec.setWidth_eq]
    rw [this, BitVec.add_comm, BitVec.sub_add_cancel]
  · intro h
    rw [h, BitVec.add_comm, BitVec.add_sub_cancel, BitVec.toNat_ofNat, Nat.mod_eq_of_lt hk]

theorem picked_nil {f g : BitVec iw → BitVec dw} {s d : BitVec iw} : picked f g s d [] = f := by
  funext j
  exact if_neg List.not_mem_nil

theorem picked_cons {f g : BitVec iw → BitVec dw} {s d : BitVec iw} {k : Nat} {ks : List Nat} (hk : k < 2 ^ iw) :
    picked (update f (d + BitVec.ofNat iw k) (g (s + BitVec.ofNat iw k))) g s d ks = picked f g s d (k :: ks) := by
  funext j
  unfold picked update
  have e := sub_toNat_eq_iff (j := j) (d := d) hk
  by_cases h1 : (j - d).toNat ∈ ks
  · rw [if_pos h1, if_pos (List.mem_cons_of_mem _ h1)]
  · rw [if_neg h1]
    by_cases h2 : (j - d).toNat = k
    · have : j - d = BitVec.ofNat iw k := by rw [← h2, BitVec.ofNat_toNat, BitVec.setWidth_eq]
      rw [if_pos (e.mp h2), if_pos (List.mem_cons.mpr (.inl h2)), this]
    · rw [if_neg (fun q => h2 (e.mpr q)), if_neg fun q => (List.mem_cons.mp q).elim h2 h1]

theorem picked_range {f g : BitVec iw → BitVec dw} {s d : BitVec iw} {ks : List Nat} {n : Nat} (h : ∀ k, k ∈ ks ↔ k < n) :
    picked f g s d ks = blockFrom f g s d n := by
  funext j
  unfold picked blockFrom
  by_cases q : (j - d).toNat < n
  · rw [if_pos q, if_pos ((h _).mpr q)]
  · rw [if_neg q, if_neg fun c => q ((h _).mp c)]

theorem Means.store_ex (m : Mode) (env : HashEnv) {a : ArrayValue} {f : BitVec iw → BitVec dw} (ha : Means m (.arr iw dw) a f)
    (i : BitVec iw) (x : BitVec dw) : ∃ b, a.store m env (encode i) (encode x) = ok b ∧ Means m (.arr iw dw) b (update f i x) := by
  obtain ⟨u, hu⟩ := ha.1.arrayInv ha.2
  obtain ⟨r, g1, -, g3, -⟩ := hu.store_of m env ha.2 i x
  exact ⟨r, g1, .store _ _ _ _ _ ha.1 g1, g3⟩

theorem Means.select_eq (m : Mode) (env : HashEnv) {a : ArrayValue} {f : BitVec iw → BitVec dw} (ha : Means m (.arr iw dw) a f)
    (i : BitVec iw) : a.select m env (encode i) = ok (encode (f i)) := by
  obtain ⟨u, hu⟩ := ha.1.arrayInv ha.2
  exact hu.select_of ha.2 i

theorem fillBlock_spec (m : Mode) (env : HashEnv) (h0 : 0 < iw) {p v : BitVecValue} {d : BitVec iw} {x : BitVec dw} (hp : Denotes p d)
    (hv : Denotes v x) : ∀ (ks : List Nat) {a : ArrayValue} {f : BitVec iw → BitVec dw}, Means m (.arr iw dw) a f → (∀ k ∈ ks, k < 2 ^ iw) →
    ∃ r, fillBlock m env p v a ks = ok r ∧ Means m (.arr iw dw) r (picked f (fun _ => x) d d ks)
  | [], a, f, ha, _ => ⟨a, rfl, by rw [picked_nil]; exact ha⟩
  | k :: ks, a, f, ha, h => by
    have hk := h k (by simp)
    obtain ⟨b, b1, b2⟩ := ha.store_ex m env (d + BitVec.ofNat iw k) x
    obtain ⟨r, r1, r2⟩ := fillBlock_spec m env h0 hp hv ks b2 fun k q => h k (List.mem_cons_of_mem _ q)
    refine ⟨r, ?_, ?_⟩
    · rw [fillBlock, offsetBy_spec m h0 ha.2.index_le hp hk, ok_bind, hv.eq_encode, b1, ok_bind, ← hv.eq_encode, r1]
    · rw [← picked_cons hk]; exact r2

theorem copyCells_spec (m : Mode) (env : HashEnv) (h0 : 0 < iw) {p q : BitVecValue} {s d : BitVec iw} (hp : Denotes p s) (hq : Denotes q d)
    {b : ArrayValue} {g : BitVec iw → BitVec dw} (hb : Means m (.arr iw dw) b g) :
    ∀ (ks : List Nat) {a : ArrayValue} {f : BitVec iw → BitVec dw}, Means m (.arr iw dw) a f → (∀ k ∈ ks, k < 2 ^ iw) →
    ∃ r, copyCells m env b p q a ks = ok r ∧ Means m (.arr iw dw) r (picked f g s d ks)
  | [], a, f, ha, _ => ⟨a, rfl, by rw [picked_nil]; exact ha⟩
  | k :: ks, a, f, ha, h => by
    have hk := h k (by simp)
    obtain ⟨c, c1, c2⟩ := ha.store_ex m env (d + BitVec.ofNat iw k) (g (s + BitVec.ofNat iw k))
    obtain ⟨r, r1, r2⟩ := copyCells_spec m env h0 hp hq hb ks c2 fun k q => h k (List.mem_cons_of_mem _ q)
    refine ⟨r, ?_, ?_⟩
    · rw [copyCells, offsetBy_spec m h0 ha.2.index_le hp hk, ok_bind, offsetBy_spec m h0 ha.2.index_le hq hk, ok_bind,
        hb.select_eq, ok_bind, c1, ok_bind, r1]
    · rw [← picked_cons hk]; exact r2

theorem moveCells_spec (m : Mode) (env : HashEnv) (h0 : 0 < iw) {p q : BitVecValue} {s d : BitVec iw} (hp : Denotes p s) (hq : Denotes q d) :
    ∀ (ks : List Nat) {a : ArrayValue} {f : BitVec iw → BitVec dw}, Means m (.arr iw dw) a f → (∀ k ∈ ks, k < 2 ^ iw) →
    ks.Pairwise (fun k l => d + BitVec.ofNat iw k ≠ s + BitVec.ofNat iw l) →
    ∃ r, moveCells m env p q a ks = ok r ∧ Means m (.arr iw dw) r (picked f f s d ks)
  | [], a, f, ha, _, _ => ⟨a, rfl, by rw [picked_nil]; exact ha⟩
  | k :: ks, a, f, ha, h, hc => by
    have hk := h k (by simp)
    obtain ⟨hc1, hc2⟩ := List.pairwise_cons.mp hc
    obtain ⟨c, c1, c2⟩ := ha.store_ex m env (d + BitVec.ofNat iw k) (f (s + BitVec.ofNat iw k))
    obtain ⟨r, r1, r2⟩ := moveCells_spec m env h0 hp hq ks c2 (fun k q => h k (List.mem_cons_of_mem _ q)) hc2
    refine ⟨r, ?_, ?_⟩
    · rw [moveCells, offsetBy_spec m h0 ha.2.index_le hp hk, ok_bind, offsetBy_spec m h0 ha.2.index_le hq hk, ok_bind,
        ha.select_eq, ok_bind, c1, ok_bind, r1]
    · rw [← picked_cons hk]
      have e : picked (update f (d + BitVec.ofNat iw k) (f (s + BitVec.ofNat iw k))) (update f (d + BitVec.ofNat iw k) (f (s + BitVec.ofNat iw k))) s d ks
          = picked (update f (d + BitVec.ofNat iw k) (f (s + BitVec.ofNat iw k))) f s d ks := by
        funext j
        unfold picked
        by_cases h1 : (j - d).toNat ∈ ks
        · rw [if_pos h1, if_pos h1]
          have := hc1 _ h1
          rw [BitVec.ofNat_toNat, BitVec.setWidth_eq] at this
          unfold update
          rw [if_neg fun q => this q.symm]
        · rw [if_neg h1, if_neg h1]
      rw [← e]
      exact r2

/-- A range can be filled. -/
theorem C147_fill (m : Mode) (env : HashEnv) (h0 : 0 < iw) {a : ArrayValue} {f : BitVec iw → BitVec dw} (ha : Means m (.arr iw dw) a f)
    {p v : BitVecValue} {d : BitVec iw} {x : BitVec dw} (hp : Denotes p d) (hv : Denotes v x) {n : Nat} (hn : n ≤ 2 ^ iw) :
    ∃ r, fillBlock m env p v a (List.range n) = ok r ∧
      Means m (.arr iw dw) r (fun j => if (j - d).toNat < n then x else f j) := by
  obtain ⟨r, r1, r2⟩ := fillBlock_spec m env h0 hp hv (List.range n) ha fun k q => by have := List.mem_range.mp q; omega
  rw [picked_range (n := n) fun k => List.mem_range] at r2
  exact ⟨r, r1, r2⟩

/-- A range can be copied from another array. -/
theorem C147_copy (m : Mode) (env : HashEnv) (h0 : 0 < iw) {a b : ArrayValue} {f g : BitVec iw → BitVec dw} (ha : Means m (.arr iw dw) a f)
    (hb : Means m (.arr iw dw) b g) {p q : BitVecValue} {s d : BitVec iw} (hp : Denotes p s) (hq : Denotes q d) {n : Nat} (hn : n ≤ 2 ^ iw) :
    ∃ r, copyCells m env b p q a (List.range n) = ok r ∧ Means m (.arr iw dw) r (blockFrom f g s d n) := by
  obtain ⟨r, r1, r2⟩ := copyCells_spec m env h0 hp hq hb (List.range n) ha fun k q => by have := List.mem_range.mp q; omega
  rw [picked_range (n := n) fun k => List.mem_range] at r2
  exact ⟨r, r1, r2⟩

theorem add_ofNat_eq {s d : BitVec iw} {k l : Nat} (h : d + BitVec.ofNat iw k = s + BitVec.ofNat iw l) (hkl : k ≤ l) (hl : l < 2 ^ iw) :
    (d - s).toNat = l - k := by
  rw [sub_toNat_eq_iff (by omega)]
  have e : BitVec.ofNat iw l = BitVec.ofNat iw (l - k) + BitVec.ofNat iw k := by rw [← BitVec.ofNat_add, Nat.sub_add_cancel hkl]
  rw [e, ← BitVec.add_assoc] at h
  have := congrArg (· - BitVec.ofNat iw k) h
  simpa only [BitVec.add_sub_cancel] using this

/-- Within one array, going upwards: right unless the destination begins inside the source, after its first cell. -/
theorem C147_move_up (m : Mode) (env : HashEnv) (h0 : 0 < iw) {a : ArrayValue} {f : BitVec iw → BitVec dw} (ha : Means m (.arr iw dw) a f)
    {p q : BitVecValue} {s d : BitVec iw} (hp : Denotes p s) (hq : Denotes q d) {n : Nat} (hn : n ≤ 2 ^ iw)
    (hd : d = s ∨ n ≤ (d - s).toNat) :
    ∃ r, moveCells m env p q a (List.range n) = ok r ∧ Means m (.arr iw dw) r (blockFrom f f s d n) := by
  obtain ⟨r, r1, r2⟩ := moveCells_spec m env h0 hp hq (List.range n) ha (fun k q => by have := List.mem_range.mp q; omega) (by
    refine List.Pairwise.imp_of_mem (fun {k l} _ hl hkl c => ?_) List.pairwise_lt_range
    have hl := List.mem_range.mp hl
    have e := add_ofNat_eq c (Nat.le_of_lt hkl) (by omega)
    rcases hd with rfl | hd
    · rw [BitVec.sub_self] at e
      simp at e
      omega
    · omega)
  rw [picked_range (n := n) fun k => List.mem_range] at r2
  exact ⟨r, r1, r2⟩

/-- Going downwards: right unless the source begins inside the destination, after its first cell. -/
theorem C147_move_down (m : Mode) (env : HashEnv) (h0 : 0 < iw) {a : ArrayValue} {f : BitVec iw → BitVec dw} (ha : Means m (.arr iw dw) a f)
    {p q : BitVecValue} {s d : BitVec iw} (hp : Denotes p s) (hq : Denotes q d) {n : Nat} (hn : n ≤ 2 ^ iw)
    (hd : d = s ∨ n ≤ (s - d).toNat) :
    ∃ r, moveCells m env p q a (List.range n).reverse = ok r ∧ Means m (.arr iw dw) r (blockFrom f f s d n) := by
  obtain ⟨r, r1, r2⟩ := moveCells_spec m env h0 hp hq (List.range n).reverse ha
    (fun k q => by have := List.mem_range.mp (List.mem_reverse.mp q); omega) (by
    rw [List.pairwise_reverse]
    refine List.Pairwise.imp_of_mem (fun {k l} _ hl hkl c => ?_) List.pairwise_lt_range
    have hl := List.mem_range.mp hl
    have e := add_ofNat_eq c.symm (Nat.le_of_lt hkl) (by omega)
    rcases hd with rfl | hd
    · rw [BitVec.sub_self] at e
      simp at e
      omega
    · omega)
  rw [picked_range (n := n) fun k => by rw [List.mem_reverse]; exact List.mem_range] at r2
  exact ⟨r, r1, r2⟩

/-- Choosing the direction by comparing the addresses is right however the ranges overlap, if neither runs past the end of the array. -/
theorem C147_move (m : Mode) (env : HashEnv) (h0 : 0 < iw) {a : ArrayValue} {f : BitVec iw → BitVec dw} (ha : Means m (.arr iw dw) a f)
    {p q : BitVecValue} {s d : BitVec iw} (hp : Denotes p s) (hq : Denotes q d) {n : Nat} (hs : s.toNat + n ≤ 2 ^ iw)
    (hd : d.toNat + n ≤ 2 ^ iw) :
    ∃ r, moveBlock m env p q a n = ok r ∧ Means m (.arr iw dw) r (blockFrom f f s d n) := by
  rw [moveBlock, C16_is_less m hq hp, ok_bind]
  by_cases c : d.toNat < s.toNat
  · rw [decide_eq_true c, if_pos rfl]
    refine C147_move_up m env h0 ha hp hq (by omega) (.inr ?_)
    rw [BitVec.toNat_sub_of_lt (BitVec.lt_def.mpr c)]
    omega
  · rw [decide_eq_false c, if_neg (by decide)]
    refine C147_move_down m env h0 ha hp hq (by omega) ?_
    by_cases e : d = s
    · exact .inl e
    · have : s.toNat ≠ d.toNat := fun q => e (BitVec.eq_of_toNat_eq q.symm)
      refine .inr ?_
      rw [BitVec.toNat_sub_of_lt (BitVec.lt_def.mpr (by omega))]
      omega

/-- Overlapping ranges, the destination above and below the source. -/
example : (ArrayValue.newDense .debug 3 (encode 0#8) >>= fun a => storeCells .debug listEnv a (encode 0#3) ([1#8, 2#8, 3#8, 4#8, 5#8, 6#8, 7#8, 8#8].map encode) >>= fun a =>
      moveBlock .debug listEnv (encode 1#3) (encode 3#3) a 4 >>= fun b => moveBlock .debug listEnv (encode 3#3) (encode 1#3) a 4 >>= fun c =>
      loadCells .debug listEnv b (encode 0#3) 8 >>= fun x => loadCells .debug listEnv c (encode 0#3) 8 >>= fun y => ok (x, y))
    = ok ([1#8, 2#8, 3#8, 2#8, 3#8, 4#8, 5#8, 8#8].map encode, [1#8, 4#8, 5#8, 6#8, 7#8, 6#8, 7#8, 8#8].map encode) := by
  decide +kernel

/-- The wrong direction: the first cells are read again after they have been overwritten. -/
example : (ArrayValue.newSparse 3 (encode 0#8) >>= fun a => storeCells .debug listEnv a (encode 0#3) ([1#8, 2#8, 3#8, 4#8, 5#8, 6#8, 7#8, 8#8].map encode) >>= fun a =>
      moveCells .debug listEnv (encode 1#3) (encode 3#3) a (List.range 4) >>= fun b => loadCells .debug listEnv b (encode 0#3) 8)
    = ok ([1#8, 2#8, 3#8, 2#8, 3#8, 2#8, 3#8, 8#8].map encode) := by
  decide +kernel

/-- Copying from a sparse into a dense array, across the end; then filling. -/
example : (ArrayValue.newDense .debug 3 (encode 0#8) >>= fun a => ArrayValue.newSparse 3 (encode 9#8) >>= fun b =>
      storeCells .debug listEnv b (encode 0#3) ([1#8, 2#8, 3#8].map encode) >>= fun b =>
      copyCells .debug listEnv b (encode 1#3) (encode 6#3) a (List.range 4) >>= fun a =>
      loadCells .debug listEnv a (encode 0#3) 8 >>= fun x =>
      fillBlock .debug listEnv (encode 7#3) (encode 5#8) a (List.range 3) >>= fun a => loadCells .debug listEnv a (encode 0#3) 8 >>= fun y => ok (x, y))
    = ok ([9#8, 9#8, 0#8, 0#8, 0#8, 0#8, 2#8, 3#8].map encode, [5#8, 5#8, 0#8, 0#8, 0#8, 0#8, 2#8, 5#8].map encode) := by
  decide +kernel

end Baa

import Verif.Props.AnyWide
import Verif.Spec.LongArrays

/-!
# C115: arrays of either kind with more than 64 index bits, given any values

C110 predicts dense arrays with so many index bits, which only release builds make, as long as they are not converted, and C114 predicts
sparse ones. This file adds the conversion, and so predicts all histories of arrays of both kinds.
-/

namespace Baa
open Res BitVecValue

variable {iw dw : Nat} {m : Mode}

/-! ## The conversion -/

/-- An empty sparse array with a long index. -/
def longEmpty (iw dw : Nat) (u : BitVecValue) : SparseArrayValue := ⟨iw, dw, .bigbig u HMap.empty⟩

theorem storeWords_long (dflt : Word) (u : BitVecValue) (l : List Word) : ∀ k, 
    ((∀ b ∈ l, b = dflt) → DenseArrayValue.storeWords dflt k l (longEmpty iw dw u) = ok (longEmpty iw dw u)) ∧
    ((∃ b ∈ l, b ≠ dflt) → Panics (DenseArrayValue.storeWords dflt k l (longEmpty iw dw u))) := by
  induction l with
  | nil => exact fun k => ⟨fun _ => rfl, fun ⟨b, hb, _⟩ => (by cases hb)⟩
  | cons x l ih =>
    intro k
    unfold DenseArrayValue.storeWords
    refine ⟨fun h => ?_, fun ⟨b, hb, hne⟩ => ?_⟩
    · rw [if_neg (fun hx => hx (h x (by simp))), ok_bind]
      exact (ih (k + 1)).1 fun b hb => h b (by simp [hb])
    · by_cases hx : x = dflt
      · rw [if_neg (fun hh => hh hx), ok_bind]
        refine (ih (k + 1)).2 ⟨b, ?_, hne⟩
        rcases List.mem_cons.mp hb with rfl | hb
        · exact absurd hx hne
        · exact hb
      · rw [if_pos hx]
        exact ⟨_, rfl⟩

theorem storeBigs_long (m : Mode) {dflt : BitVecValue} (u : BitVecValue) (l : List BitVecValue) (hf : ∀ b ∈ l, Fits m b dflt) : ∀ k,
    ((∀ b ∈ l, b = dflt) → DenseArrayValue.storeBigs m dflt k l (longEmpty iw dw u) = ok (longEmpty iw dw u)) ∧
    ((∃ b ∈ l, b ≠ dflt) → Panics (DenseArrayValue.storeBigs m dflt k l (longEmpty iw dw u))) := by
  induction l with
  | nil => exact fun k => ⟨fun _ => rfl, fun ⟨b, hb, _⟩ => (by cases hb)⟩
  | cons x l ih =>
    intro k
    replace ih := ih fun b hb => hf b (by simp [hb])
    unfold DenseArrayValue.storeBigs
    rw [(hf x (by simp)).eqOwned, ok_bind]
    refine ⟨fun h => ?_, fun ⟨b, hb, hne⟩ => ?_⟩
    · rw [if_pos (by simpa using h x (by simp)), ok_bind]
      exact (ih (k + 1)).1 fun b hb => h b (by simp [hb])
    · by_cases hx : x = dflt
      · rw [if_pos (by simpa using hx), ok_bind]
        refine (ih (k + 1)).2 ⟨b, ?_, hne⟩
        rcases List.mem_cons.mp hb with rfl | hb
        · exact absurd hx hne
        · exact hb
      · rw [if_neg (by simpa using hx)]
        exact ⟨_, rfl⟩

theorem storeBits_long {v : BitVecValue} {N W : Nat} (hv : Raw v W N) (b : Bool) (u : BitVecValue) :
    ∀ (n k : Nat), k + n = W →
    ((∀ j, k ≤ j → j < W → N.testBit j = b) → DenseArrayValue.storeBits v b k n (longEmpty iw dw u) = ok (longEmpty iw dw u)) ∧
    ((∃ j, k ≤ j ∧ j < W ∧ N.testBit j ≠ b) → Panics (DenseArrayValue.storeBits v b k n (longEmpty iw dw u))) := by
  intro n
  induction n with
  | zero =>
    intro k hk
    exact ⟨fun _ => rfl, fun ⟨j, h1, h2, _⟩ => (by omega)⟩
  | succ n ih =>
    intro k hk
    have hlt : W < 2 ^ 32 := hv.width_lt
    have hmod : k % U32 = k := Nat.mod_eq_of_lt (by
      show _ < 4294967296
      omega)
    have hcap : k < capacity W := by unfold capacity; omega
    unfold DenseArrayValue.storeBits
    rw [hmod, (C87_bits .debug hv).2, if_pos hcap, ok_bind]
    replace ih := ih (k + 1) (by omega)
    refine ⟨fun h => ?_, fun ⟨j, h1, h2, hne⟩ => ?_⟩
    · rw [if_neg (fun hh => hh (h k (by omega) (by omega))), ok_bind]
      exact ih.1 fun j h1 h2 => h j (by omega) h2
    · by_cases hx : N.testBit k = b
      · rw [if_neg (fun hh => hh hx), ok_bind]
        refine ih.2 ⟨j, ?_, h2, hne⟩
        have : j ≠ k := fun e => hne (e ▸ hx)
        omega
      · rw [if_pos hx]
        exact ⟨_, rfl⟩

theorem new_sparse_long (h64 : 64 < iw) (u : BitVecValue) : SparseArrayValue.new iw u = ok (longEmpty iw u.width u) := by
  unfold SparseArrayValue.new
  have h0 : iw > BITS := h64
  dsimp only
  rw [if_pos h0]
  rfl

/-- The result of a conversion. -/
def LongMade (iw dw : Nat) (s : SparseArrayValue) (d : Shape) : Prop := ∃ u : BitVecValue, s = longEmpty iw dw u ∧ u.shape = d ∧ u.width = dw

theorem emptied_of {mem : Memory} {n : Nat} (hn : elementCount m iw = some n) {c : Nat} (hp : Picked (iw % 64) dw (mem.element dw) c) :
    ((∀ k, k < n → mem.element dw k = c) → mem.emptied m iw dw = (mem.sparsified m iw dw c).map Table.default) ∧
    ((∃ k, k < n ∧ mem.element dw k ≠ c) → mem.emptied m iw dw = none) := by
  have hn2 := elementCount_eq hn
  have hpos : 0 < n := by rw [hn2]; exact Nat.two_pow_pos _
  unfold Memory.emptied
  rw [hn]
  show _ ∧ (_ → (if _ then _ else _) = _)
  refine ⟨fun h => ?_, fun ⟨k, hk, hne⟩ => if_neg ?_⟩
  · show (if _ then _ else _) = _
    rw [if_pos, h 0 hpos]
    refine List.all_eq_true.mpr fun k hk => decide_eq_true ?_
    rw [h k (List.mem_range.mp hk), h 0 hpos]
  · intro hall
    have hall' : ∀ j, j < n → mem.element dw j = mem.element dw 0 := fun j hj =>
      of_decide_eq_true (List.all_eq_true.mp hall j (List.mem_range.mpr hj))
    obtain ⟨j, hj, rfl⟩ := hp.occurs
    rw [← hn2] at hj
    exact hne ((hall' k hk).trans (hall' j hj).symm)

theorem emptied_none {mem : Memory} (h : ∀ c, mem.sparsified m iw dw c = none) : mem.emptied m iw dw = none := by
  unfold Memory.emptied
  cases elementCount m iw with
  | none => rfl
  | some n =>
    show (if _ then _ else _) = _
    rw [h]
    split <;> rfl

/-- Making a dense array with a long index sparse. -/
theorem DenseHolds.toSparse_long (env : HashEnv) {d : DenseArrayValue} {mem : Memory} (h : DenseHolds m iw dw d mem)
    (hw : mem.Whole m iw dw) {n : Nat} (hn : elementCount m iw = some n) (h64 : 64 < iw) :
    Fate (LongMade iw dw) (d.toSparse m env) (mem.emptied m iw dw) := by
  obtain ⟨hiw, hdw, hdl, hrep⟩ := h
  obtain ⟨_, _, data⟩ := d
  dsimp only at hiw hdw hrep
  replace hiw := hiw.symm
  replace hdw := hdw.symm
  subst hiw hdw
  have hnum := numElements_of hn
  have hn2 := elementCount_eq hn
  have h64' : n < 2 ^ 64 := by
    rw [hn2]
    exact Nat.pow_lt_pow_right (by decide) (Nat.mod_lt _ (by decide))
  have hpos : 0 < n := by rw [hn2]; exact Nat.two_pow_pos _
  -- the part after the default has been picked, for data of up to 64 bits
  have words : ∀ (dflt : Word) (l : List Word), dw ≤ 64 → l.length = n → (∀ j b, l[j]? = some b → b.toNat = mem.element dw j) →
      Picked (iw % 64) dw (mem.element dw) dflt.toNat →
      ¬ (mem.count < n * perElement dw ∨ (dw ≠ 1 ∧ dw ≤ 8 ∧ (List.range n).any fun k => decide (8 ≤ mem.cell k))) →
      Fate (LongMade iw dw) (BitVecValue.fromU64 m dflt dw >>= fun bv => SparseArrayValue.new iw bv >>= fun out =>
        DenseArrayValue.storeWords dflt 0 l out) (mem.emptied m iw dw) := by
    intro dflt l hdw hl hval hp hs
    have hun := unfiled_word m hdw dflt (need dw)
    have he := emptied_of hn hp
    rw [sparsified_some hn hs] at he
    cases hu : (⟨dw, need dw, dflt.toNat⟩ : Shape).unfiled m dw with
    | none =>
      rw [hu] at hun he
      refine Fate.none (panics_bind hun _) ?_
      by_cases hall : ∀ k, k < n → mem.element dw k = dflt.toNat
      · exact he.1 hall
      · simp only [Classical.not_forall] at hall
        obtain ⟨k, hk, hne⟩ := hall
        exact he.2 ⟨k, hk, hne⟩
    | some x =>
      rw [hu] at hun he
      obtain ⟨r, hr, -, x', rfl, hr2⟩ := hun
      rw [hr, ok_bind, new_sparse_long h64, ok_bind, hr2.width_eq]
      by_cases hall : ∀ k, k < n → mem.element dw k = dflt.toNat
      · rw [he.1 hall, (storeWords_long dflt r l 0).1 fun b hb => by
          obtain ⟨k, hk, hke⟩ := List.mem_iff_getElem.mp hb
          apply BitVec.eq_of_toNat_eq
          rw [hval k b (by rw [List.getElem?_eq_getElem hk, hke]), hall k (by omega)]]
        exact ⟨_, rfl, r, rfl, hr2.shape_eq, hr2.width_eq⟩
      · simp only [Classical.not_forall] at hall
        obtain ⟨k, hk, hne⟩ := hall
        refine Fate.none ?_ (he.2 ⟨k, hk, hne⟩)
        have hk' : k < l.length := by omega
        refine (storeWords_long dflt r l 0).2 ⟨l[k], List.getElem_mem hk', fun e => hne ?_⟩
        rw [← hval k l[k] (List.getElem?_eq_getElem hk'), e]
  unfold DenseArrayValue.toSparse
  cases data with
  | bit v =>
    obtain ⟨h1, n', N, hn', hN, hc, hf⟩ := hrep
    subst h1
    rw [hn] at hn'
    cases hn'
    dsimp only
    rw [hnum, ok_bind]
    have hmod : n % 2 ^ 32 = 0 ∨ n % 2 ^ 32 = n := by
      rw [hn2]
      by_cases he : iw % 64 < 32
      · exact .inr (Nat.mod_eq_of_lt (Nat.pow_lt_pow_right (by decide) he))
      · left
        rw [show iw % 64 = 32 + (iw % 64 - 32) by omega, Nat.pow_add]
        exact Nat.mul_mod_right _ _
    by_cases hlt : n < 2 ^ 32
    · rw [Nat.mod_eq_of_lt hlt] at hN hc
      have hel : ∀ k, k < n → mem.element 1 k = (N.testBit k).toNat := fun k hk => by
        unfold Memory.element
        rw [if_pos (by decide), hf k (by rw [hc]; unfold capacity; omega)]
      have hp := picked_of_bits (iw := iw % 64) (N := N) (mem := mem.element 1) (by rw [← hn2]; exact hel)
      rw [← hn2] at hp
      have hs := sparsified_some (dw := 1) (mem := mem) hn (by
        rintro (h | h)
        · unfold perElement at h
          rw [if_pos (by decide), hc] at h
          unfold capacity at h
          omega
        · exact h.1 rfl)
      rw [countBits_cells hN _ _ _ (by omega), ok_bind]
      dsimp only
      rw [Nat.zero_add, Nat.zero_add]
      generalize decide ((List.range' 0 n).countP (fun j => N.testBit j) > (List.range' 0 n).countP (fun j => !N.testBit j)) = b at hp ⊢
      obtain ⟨r, hr1, hr2⟩ := raw_from_bool m b
      have hun : (⟨1, need 1, b.toNat⟩ : Shape).unfiled m 1 = some ⟨1, need 1, b.toNat⟩ := by
        unfold Shape.unfiled shownAs
        rw [if_neg (by decide), if_neg (by decide), if_pos (Bool.toNat_lt b)]
        rfl
      have he := emptied_of hn hp
      rw [hs, hun] at he
      rw [hr1, ok_bind, new_sparse_long h64, ok_bind, hr2.width_eq]
      have hsb := storeBits_long (iw := iw) (dw := 1) hN b r n 0 (by omega)
      by_cases hall : ∀ k, k < n → mem.element 1 k = b.toNat
      · rw [he.1 hall, hsb.1 fun j _ hj => by
          have := (hel j hj).symm.trans (hall j hj)
          revert this
          cases N.testBit j <;> cases b <;> simp]
        exact ⟨_, rfl, r, rfl, hr2.shape_eq, hr2.width_eq⟩
      · simp only [Classical.not_forall] at hall
        obtain ⟨k, hk, hne⟩ := hall
        exact Fate.none (hsb.2 ⟨k, by omega, hk, fun e => hne (by rw [hel k hk, e])⟩) (he.2 ⟨k, hk, hne⟩)
    · have h0 : n % 2 ^ 32 = 0 := by
        rcases hmod with h | h
        · exact h
        · have := Nat.mod_lt n (show 0 < 2 ^ 32 by decide)
          omega
      rw [h0] at hN hc
      refine Fate.none ?_ (emptied_none (sparsified_none hn (.inl ?_)))
      · refine panics_bind ?_ _
        obtain ⟨k, rfl⟩ : ∃ k, n = k + 1 := ⟨n - 1, by omega⟩
        unfold DenseArrayValue.countBits
        have : BitVecValue.isBitSet v (0 % U32) = panic .bounds := by
          have := (C87_bits .debug hN).2 (0 % U32)
          rw [if_neg (by show ¬ 0 < capacity 0; decide)] at this
          exact this
        rw [this]
        exact ⟨_, rfl⟩
      · rw [hc]
        unfold perElement
        rw [if_pos (by decide)]
        show 0 < n * 1
        omega
  | u8 l =>
    obtain ⟨h1, h2, h3, hf⟩ := hrep
    have hcnt : mem.count = n := Option.some.inj ((hw h1 (by omega)).symm.trans hn)
    have hval : ∀ k b, l[k]? = some b → b.toNat = mem.cell k := fun k b hb => by
      have hk := (List.getElem?_eq_some_iff.mp hb).1
      obtain ⟨b', hb1, hb2⟩ := hf k (by omega)
      rw [hb] at hb1
      cases hb1
      exact hb2
    have hel : mem.element dw = mem.cell := by
      funext k
      unfold Memory.element
      rw [if_pos (by omega)]
    have hper : perElement dw = 1 := by
      unfold perElement
      rw [if_pos (by omega)]
    dsimp only
    rw [hnum, ok_bind]
    by_cases hbig : (List.range n).any fun k => decide (8 ≤ mem.cell k)
    · refine Fate.none ?_ (emptied_none (sparsified_none hn (.inr ⟨h1, h2, hbig⟩)))
      obtain ⟨k, hk, h8⟩ := List.any_eq_true.mp hbig
      replace hk := List.mem_range.mp hk
      replace h8 := of_decide_eq_true h8
      obtain ⟨b, hb1, hb2⟩ := hf k (by omega)
      exact panics_bind (countU8_panics l n 0 (List.replicate 8 0) (by simp) (by omega) ⟨k, by omega, b, hb1, by omega⟩) _
    · have hb : ∀ b ∈ l, b.toNat < 8 := fun b hb => by
        obtain ⟨k, hk, hke⟩ := List.mem_iff_getElem.mp hb
        apply Classical.byContradiction
        intro h8
        refine hbig (List.any_eq_true.mpr ⟨k, List.mem_range.mpr (by omega), decide_eq_true ?_⟩)
        rw [← hval k b (by rw [List.getElem?_eq_getElem hk, hke])]
        omega
      obtain ⟨c, x, hc, hx, hx8, hp⟩ := picked_of_bytes (iw := iw % 64) h1 h2 (by omega) hval hb
      rw [← hel] at hp
      rw [← hn2] at hc
      have hd : ((BitVec.ofNat 8 x.1).setWidth 64 : Word).toNat = x.1 := by
        rw [setWidth64_toNat (by decide), BitVec.toNat_ofNat]
        omega
      rw [hc, ok_bind, hx]
      rw [← hd] at hp
      exact words ((BitVec.ofNat 8 x.1).setWidth 64) (l.map fun b => b.setWidth 64) (by omega) (by simp; omega) (fun j b hj => by
        rw [List.getElem?_map, Option.map_eq_some_iff] at hj
        obtain ⟨b', hb1, rfl⟩ := hj
        rw [setWidth64_toNat (by decide), hel, hval j b' hb1]) hp (by
        rw [hper, hcnt]
        rintro (h | h)
        · omega
        · exact hbig h.2.2)
  | u64 l =>
    obtain ⟨h1, h2, h3, hf⟩ := hrep
    have hcnt : mem.count = n := Option.some.inj ((hw (by omega) h2).symm.trans hn)
    have hval : ∀ k b, l[k]? = some b → b.toNat = mem.cell k := fun k b hb => by
      have hk := (List.getElem?_eq_some_iff.mp hb).1
      obtain ⟨b', hb1, hb2⟩ := hf k (by omega)
      rw [hb] at hb1
      cases hb1
      exact hb2
    have hel : mem.element dw = mem.cell := by
      funext k
      unfold Memory.element
      rw [if_pos h2]
    have hper : perElement dw = 1 := by
      unfold perElement
      rw [if_pos h2]
    dsimp only
    obtain ⟨x, hx, -, hp⟩ := picked_of_table (iw := iw % 64) (dw := dw) env (l := l) (val := BitVec.toNat) h1 (by omega) hval
      (fun a _ b _ e => BitVec.eq_of_toNat_eq e)
    rw [← hel] at hp
    rw [hx]
    exact words x.1 l h2 (by omega) (fun j b hj => by rw [hel, hval j b hj]) hp (by
      rw [hper, hcnt]
      rintro (h | h)
      · omega
      · have := h.2.1; omega)
  | big l =>
    have h1 := hrep.1
    have hel : ∀ k, mem.element dw k = gather mem.cell (need dw * k) (need dw) := by
      intro k
      unfold Memory.element
      rw [if_neg (by omega)]
    have hper : perElement dw = need dw := by
      unfold perElement
      rw [if_neg (by omega)]
    dsimp only
    rw [hnum, ok_bind]
    have hall := selectAll_table m hdl hrep n 0
    rw [Nat.zero_add] at hall
    by_cases hfit : n * need dw ≤ mem.count
    · obtain ⟨es, he1, he2, he3⟩ := hall.1 hfit
      have he3' : ∀ j b, es[j]? = some b → Raw b dw (mem.element dw j) := fun j b hj => by
        have := he3 j b hj
        rw [Nat.zero_add] at this
        rw [hel]
        exact this
      rw [he1, ok_bind]
      have hraw : ∀ b ∈ es, Raw b dw (wordsVal b.words) := fun b hb => by
        obtain ⟨k, hk, hke⟩ := List.mem_iff_getElem.mp hb
        have := he3' k b (by rw [List.getElem?_eq_getElem hk, hke])
        exact ⟨this.width_lt, this.width_eq, this.length_eq, rfl⟩
      obtain ⟨x, hx, hxm, hp⟩ := picked_of_table (iw := iw % 64) (dw := dw) env (l := es) (mem := mem.element dw)
        (val := fun b => wordsVal b.words) (by omega) (by omega) (fun k b hb => (he3' k b hb).val_eq)
        (fun a ha b hb e => (hraw a ha).unique (by
          have := hraw b hb
          rwa [← e] at this))
      have hun : (⟨dw, need dw, wordsVal x.1.words⟩ : Shape).unfiled m dw = some ⟨dw, need dw, wordsVal x.1.words⟩ := by
        unfold Shape.unfiled
        rw [if_pos h1]
      have he := emptied_of hn hp
      rw [sparsified_some hn (by
        rw [hper]
        rintro (h | h)
        · omega
        · have := h.2.1; omega), hun] at he
      rw [hx]
      show Fate _ (SparseArrayValue.new iw x.1 >>= fun _ => _) _
      have hxr := hraw _ hxm
      rw [new_sparse_long h64, ok_bind, hxr.width_eq]
      have hsb := storeBigs_long (iw := iw) (dw := dw) m x.1 es (fun b hb _ _ => by
        rw [(hraw b hb).length_eq, hxr.length_eq]) 0
      by_cases hall : ∀ k, k < n → mem.element dw k = wordsVal x.1.words
      · rw [he.1 hall, hsb.1 fun b hb => by
          obtain ⟨k, hk, hke⟩ := List.mem_iff_getElem.mp hb
          have := he3' k b (by rw [List.getElem?_eq_getElem hk, hke])
          rw [hall k (by omega)] at this
          exact this.unique hxr]
        exact ⟨_, rfl, x.1, rfl, hxr.shape_eq, hxr.width_eq⟩
      · simp only [Classical.not_forall] at hall
        obtain ⟨k, hk, hne⟩ := hall
        have hk' : k < es.length := by omega
        refine Fate.none (hsb.2 ⟨es[k], List.getElem_mem hk', fun e => hne ?_⟩) (he.2 ⟨k, hk, hne⟩)
        have := he3' k es[k] (List.getElem?_eq_getElem hk')
        rw [← this.val_eq, e]
    · exact Fate.none (panics_bind (hall.2 (by omega) (by omega)) _) (emptied_none (sparsified_none hn (.inl (by rw [hper]; omega))))

/-! ## Histories -/

theorem long_sparse_history (ops : List ConvOp) (t : LongTable) :
    (LongArray.sparse t).history m iw dw ops = .sparse (t.history dw ops) := by
  induction ops generalizing t with
  | nil => rfl
  | cons op ops ih => exact ih _

theorem long_sparse_somewhere {P : LongArray → ConvOp → Prop} {Q : LongTable → ConvOp → Prop} (h : ∀ t op, P (.sparse t) op ↔ Q t op)
    (ops : List ConvOp) (t : LongTable) : (LongArray.sparse t).Somewhere P m iw dw ops ↔ t.Somewhere Q dw ops := by
  induction ops generalizing t with
  | nil => exact Iff.rfl
  | cons op ops ih => exact or_congr (h t op) (ih _)

/-- What a dense array becomes. -/
inductive LongKeeps (m : Mode) (iw dw : Nat) : ArrayValue → LongArray → Prop
  | dense {d mem n} (h : DenseHolds m iw dw d mem) (hw : mem.Whole m iw dw) (hn : elementCount m iw = some n) : LongKeeps m iw dw (.dense d) (.dense mem)
  | sparse {u : BitVecValue} (hu : u.width = dw) (hl : dw < 2 ^ 32) : LongKeeps m iw dw (longArray iw dw u HMap.empty) (.sparse (.create u.shape))

theorem dense_long (env : HashEnv) (h64 : 64 < iw) {d : DenseArrayValue} {mem : Memory} (h : DenseHolds m iw dw d mem)
    (hw : mem.Whole m iw dw) {n : Nat} (hn : elementCount m iw = some n) (op : ConvOp) :
    Fate (LongKeeps m iw dw) (op.run m env (.dense d)) (mem.long m iw dw op) := by
  match op with
  | .base (.store i v) =>
    have h2 := h.store_of i v
    show Fate _ _ ((mem.store m iw dw i.shape v.shape).map LongArray.dense)
    cases hr : mem.store m iw dw i.shape v.shape with
    | none => rw [hr] at h2; exact panics_bind h2 _
    | some mem' =>
      rw [hr] at h2
      obtain ⟨s', hs1, hs2⟩ := h2
      refine ⟨.dense s', ?_, .dense hs2 (fun h1 h2 => by rw [store_count hr]; exact hw h1 h2) hn⟩
      show (d.store m i v >>= fun v => ok (ArrayValue.dense v)) = _
      rw [hs1]
      rfl
  | .base .clear => exact ⟨_, rfl, .dense h.clear_of (fun h1 h2 => hw h1 h2) hn⟩
  | .makeDense => exact ⟨_, rfl, .dense h hw hn⟩
  | .toSparse =>
    refine (h.toSparse_long env hw hn h64).map fun s x hs => ?_
    obtain ⟨u, rfl, rfl, hu⟩ := hs
    exact ⟨_, rfl, .sparse hu h.data_lt⟩

/-- Everything about a history of a dense array. -/
theorem dense_long_runs (h64 : 64 < iw) (ops : List ConvOp) : ∀ {d : DenseArrayValue} {mem : Memory}, DenseHolds m iw dw d mem →
    mem.Whole m iw dw → ∀ {n : Nat}, elementCount m iw = some n →
    ((LongArray.dense mem).Somewhere (fun c => c.Stops m iw dw) m iw dw ops → ∀ env, Panics (runConv m env (.dense d) ops)) ∧
    (¬ (LongArray.dense mem).Somewhere (fun c => c.Stops m iw dw) m iw dw ops → ∃ b, runConv m listEnv (.dense d) ops = ok b) ∧
    ((LongArray.dense mem).Somewhere (fun c => c.Risks m iw dw) m iw dw ops → Panics (runConv m (crowdedEnv 0) (.dense d) ops)) ∧
    (¬ (LongArray.dense mem).Somewhere (fun c => c.Risks m iw dw) m iw dw ops → ∀ env, ∃ b, runConv m env (.dense d) ops = ok b) ∧
    (∀ env b, runConv m env (.dense d) ops = ok b →
      match (LongArray.dense mem).history m iw dw ops with
      | .dense mem' => ∃ d', b = .dense d' ∧ DenseHolds m iw dw d' mem'
      | .sparse t => ∃ u ops', u.width = dw ∧ dw < 2 ^ 32 ∧ (newOf .sparse m iw u >>= fun a => runConv m env a ops') = ok b ∧
          t = (LongTable.create u.shape).history dw ops') := by
  induction ops with
  | nil =>
    intro d mem h hw n hn
    exact ⟨fun hs => hs.elim, fun _ => ⟨_, rfl⟩, fun hs => hs.elim, fun _ _ => ⟨_, rfl⟩, fun env b hb => (by cases hb; exact ⟨_, rfl, h⟩)⟩
  | cons op ops ih =>
    intro d mem h hw n hn
    have hf : ∀ env, Fate (LongKeeps m iw dw) (op.run m env (.dense d)) (mem.long m iw dw op) := fun env => dense_long env h64 h hw hn op
    have hrc : ∀ env, runConv m env (.dense d) (op :: ops) = (op.run m env (.dense d) >>= fun a => runConv m env a ops) := fun _ => rfl
    simp only [hrc]
    cases hr : mem.long m iw dw op with
    | none =>
      rw [hr] at hf
      have hp : ∀ env, Panics (op.run m env (.dense d) >>= fun a => runConv m env a ops) := fun env => panics_bind (hf env) _
      exact ⟨fun _ => hp, fun hs => absurd (.inl hr) hs, fun _ => hp _, fun hs => absurd (.inl hr) hs, fun env b hb =>
        absurd hb fun e => not_panics (hp env) e⟩
    | some c =>
      rw [hr] at hf
      have haft : (LongArray.dense mem).after m iw dw op = c := by
        show (mem.long m iw dw op).getD _ = _
        rw [hr]
        rfl
      have hS : ∀ P : LongArray → ConvOp → Prop, ¬ P (.dense mem) op → ((LongArray.dense mem).Somewhere P m iw dw (op :: ops) ↔
          c.Somewhere P m iw dw ops) := fun P hP => by
        show (_ ∨ LongArray.Somewhere _ _ _ _ (LongArray.after _ _ _ _ _) _) ↔ _
        rw [haft]
        exact or_iff_right hP
      have hH : (LongArray.dense mem).history m iw dw (op :: ops) = c.history m iw dw ops := by
        show LongArray.history _ _ _ (LongArray.after _ _ _ _ _) _ = _
        rw [haft]
      have hns : ¬ (LongArray.dense mem).Stops m iw dw op := by
        show ¬ mem.long m iw dw op = none
        rw [hr]; simp
      have hnr : ¬ (LongArray.dense mem).Risks m iw dw op := hns
      rw [hS (fun c => c.Stops m iw dw) hns, hS (fun c => c.Risks m iw dw) hnr, hH]
      cases c with
      | dense mem' =>
        have hb : ∀ env, ∃ d', op.run m env (.dense d) = ok (.dense d') ∧ DenseHolds m iw dw d' mem' ∧ mem'.Whole m iw dw := by
          intro env
          obtain ⟨a, h1, h2⟩ := hf env
          cases h2 with
          | dense h hw hn => exact ⟨_, h1, h, hw⟩
        refine ⟨fun hs env => ?_, fun hs => ?_, fun hs => ?_, fun hs env => ?_, fun env b => ?_⟩
        · obtain ⟨d', h1, h2, h3⟩ := hb env
          rw [h1]
          exact (ih h2 h3 hn).1 hs env
        · obtain ⟨d', h1, h2, h3⟩ := hb listEnv
          rw [h1]
          exact (ih h2 h3 hn).2.1 hs
        · obtain ⟨d', h1, h2, h3⟩ := hb (crowdedEnv 0)
          rw [h1]
          exact (ih h2 h3 hn).2.2.1 hs
        · obtain ⟨d', h1, h2, h3⟩ := hb env
          rw [h1]
          exact (ih h2 h3 hn).2.2.2.1 hs env
        · obtain ⟨d', h1, h2, h3⟩ := hb env
          rw [h1]
          exact fun hb => (ih h2 h3 hn).2.2.2.2 env b hb
      | sparse t =>
        have hb : ∀ env, ∃ u : BitVecValue, op.run m env (.dense d) = ok (longArray iw dw u HMap.empty) ∧ u.width = dw ∧ dw < 2 ^ 32 ∧
            t = .create u.shape := by
          intro env
          obtain ⟨a, h1, h2⟩ := hf env
          cases h2 with
          | sparse hu hl => exact ⟨_, h1, hu, hl, rfl⟩
        have hgo : ∀ {u : BitVecValue}, u.width = dw → dw < 2 ^ 32 → LongHolds m iw dw u HMap.empty (.create u.shape) := fun hu hl =>
          hu ▸ LongHolds.start (hu ▸ hl)
        rw [long_sparse_somewhere (Q := fun t => t.Stops m iw dw) (fun _ _ => Iff.rfl),
          long_sparse_somewhere (Q := fun t => t.Risks m iw dw) (fun _ _ => Iff.rfl), long_sparse_history]
        refine ⟨fun hs env => ?_, fun hs => ?_, fun hs => ?_, fun hs env => ?_, fun env b hrun => ?_⟩
        · obtain ⟨u, h1, h2, h3, rfl⟩ := hb env
          rw [h1]
          exact (LongHolds.runs ops (hgo h2 h3)).1 hs env
        · obtain ⟨u, h1, h2, h3, rfl⟩ := hb listEnv
          rw [h1]
          exact (LongHolds.runs ops (hgo h2 h3)).2.2.1 hs
        · obtain ⟨u, h1, h2, h3, rfl⟩ := hb (crowdedEnv 0)
          rw [h1]
          exact (LongHolds.runs ops (hgo h2 h3)).2.2.2.1 hs
        · obtain ⟨u, h1, h2, h3, rfl⟩ := hb env
          rw [h1]
          exact (LongHolds.runs ops (hgo h2 h3)).2.2.2.2 hs env
        · obtain ⟨u, h1, h2, h3, rfl⟩ := hb env
          rw [h1] at hrun
          refine ⟨u, ops, h2, h3, ?_, rfl⟩
          rw [wide_new m h64, h2]
          exact hrun

theorem dense_long_new (m : Mode) {v : BitVecValue} (hv : v.width < 2 ^ 32) (hs : Storable .dense m iw v.shape) :
    Fate (fun (a : ArrayValue) c => ∃ d mem n, a = .dense d ∧ c = LongArray.dense mem ∧ DenseHolds m iw v.width d mem ∧ mem.Whole m iw v.width ∧
      elementCount m iw = some n) (newOf .dense m iw v) (LongArray.create .dense m iw v.shape) := by
  have h := dense_new_fate m iw hv hs
  show Fate _ (DenseArrayValue.new m iw v >>= fun d => ok (ArrayValue.dense d)) ((Memory.create m iw v.shape).map LongArray.dense)
  cases hr : Memory.create m iw v.shape with
  | none => rw [hr] at h; exact panics_bind h _
  | some mem =>
    rw [hr] at h
    obtain ⟨d, h1, h2⟩ := h
    obtain ⟨h3, n, h4⟩ := create_whole hr
    rw [h1]
    exact ⟨_, rfl, d, mem, n, rfl, rfl, h2, h3, h4⟩

/-! ## The claims -/

/-- **C115** (histories): create an array of either kind with more than 64 index bits and any default, and then store any data at any indices,
clear it, make it dense and convert it to a sparse array, in any order. This panics whatever indices hash tables compare exactly if it stops
somewhere, and returns whatever they compare exactly if it is nowhere at risk. -/
theorem C115_history (k : Kind) (m : Mode) (h64 : 64 < iw) {v : BitVecValue} (hv : v.width < 2 ^ 32)
    (hs : k = .dense → Storable .dense m iw v.shape) (ops : List ConvOp) :
    match LongArray.create k m iw v.shape with
    | none => Panics (newOf k m iw v)
    | some c =>
      ((∀ env, Panics (newOf k m iw v >>= fun a => runConv m env a ops)) ↔ c.Somewhere (fun c => c.Stops m iw v.width) m iw v.width ops) ∧
      ((∀ env, ∃ b, (newOf k m iw v >>= fun a => runConv m env a ops) = ok b) ↔
        ¬ c.Somewhere (fun c => c.Risks m iw v.width) m iw v.width ops) := by
  cases k with
  | sparse =>
    have h := C114_history m h64 hv ops
    show (_ ↔ _) ∧ (_ ↔ _)
    rw [long_sparse_somewhere (Q := fun t => t.Stops m iw v.width) (fun _ _ => Iff.rfl),
      long_sparse_somewhere (Q := fun t => t.Risks m iw v.width) (fun _ _ => Iff.rfl)]
    exact h
  | dense =>
    have h := dense_long_new m hv (hs rfl)
    cases hr : LongArray.create .dense m iw v.shape with
    | none => rw [hr] at h; exact h
    | some c =>
      rw [hr] at h
      obtain ⟨a, ha, d, mem, n, rfl, rfl, h1, h2, h3⟩ := h
      have h := dense_long_runs h64 ops h1 h2 h3
      rw [ha]
      simp only [ok_bind]
      refine ⟨⟨fun hp => Classical.byContradiction fun hn => ?_, h.1⟩, ⟨fun hb hn => ?_, h.2.2.2.1⟩⟩
      · obtain ⟨b, hb⟩ := h.2.1 hn
        exact not_panics (hp listEnv) hb
      · obtain ⟨b, hb⟩ := hb (crowdedEnv 0)
        exact not_panics (h.2.2.1 hn) hb

theorem long_reached (k : Kind) (m : Mode) (env : HashEnv) (h64 : 64 < iw) {v : BitVecValue} (hv : v.width < 2 ^ 32)
    (hs : k = .dense → Storable .dense m iw v.shape) (ops : List ConvOp) {b : ArrayValue}
    (hb : (newOf k m iw v >>= fun a => runConv m env a ops) = ok b) :
    ∃ c, LongArray.create k m iw v.shape = some c ∧
      match c.history m iw v.width ops with
      | .dense mem => ∃ d, b = .dense d ∧ DenseHolds m iw v.width d mem
      | .sparse t => ∃ u ops', u.width = v.width ∧ (newOf .sparse m iw u >>= fun a => runConv m env a ops') = ok b ∧
          t = (LongTable.create u.shape).history v.width ops' := by
  cases k with
  | sparse =>
    refine ⟨_, rfl, ?_⟩
    rw [long_sparse_history]
    exact ⟨v, ops, rfl, hb, rfl⟩
  | dense =>
    have h := dense_long_new m hv (hs rfl)
    cases hr : LongArray.create .dense m iw v.shape with
    | none =>
      rw [hr] at h
      exact absurd hb fun e => not_panics (panics_bind h _) e
    | some c =>
      rw [hr] at h
      obtain ⟨a, ha, d, mem, n, rfl, rfl, h1, h2, h3⟩ := h
      have h := (dense_long_runs h64 ops h1 h2 h3).2.2.2.2 env b
      rw [ha] at hb
      refine ⟨_, rfl, ?_⟩
      replace h := h hb
      cases hh : (LongArray.dense mem).history m iw v.width ops with
      | dense mem' => rw [hh] at h; exact h
      | sparse t =>
        rw [hh] at h
        obtain ⟨u, ops', h1, -, h2, h3⟩ := h
        exact ⟨u, ops', h1, h2, h3⟩

/-- **C115** (reading): after a history that returned, reading a dense array gives what it holds, and reading a sparse array gives the default or
panics: it panics whatever is compared exactly if something is stored at the index (or a debug build does not accept its width), and returns
whatever is compared exactly if nothing is stored at all. -/
theorem C115_select (k : Kind) (m : Mode) (env : HashEnv) (h64 : 64 < iw) {v : BitVecValue} (hv : v.width < 2 ^ 32)
    (hs : k = .dense → Storable .dense m iw v.shape) (ops : List ConvOp) {b : ArrayValue}
    (hb : (newOf k m iw v >>= fun a => runConv m env a ops) = ok b) (i : BitVecValue) :
    ∃ c, LongArray.create k m iw v.shape = some c ∧
      match c.history m iw v.width ops with
      | .dense mem => b.isDense = true ∧ ∀ env', Makes (b.select m env' i) (mem.select m iw v.width i.shape)
      | .sparse t => b.isSparse = true ∧
        ((∀ env', Panics (b.select m env' i)) ↔ (m = .debug ∧ i.width ≠ iw) ∨ t.stored i.shape ≠ none) ∧
        ((∀ env', ∃ r, b.select m env' i = ok r) ↔ ¬ (m = .debug ∧ i.width ≠ iw) ∧ ¬ t.Used) ∧
        (∀ env' r, b.select m env' i = ok r → r.shape = t.default) := by
  obtain ⟨c, hc, h⟩ := long_reached k m env h64 hv hs ops hb
  refine ⟨c, hc, ?_⟩
  cases hh : c.history m iw v.width ops with
  | dense mem =>
    rw [hh] at h
    obtain ⟨d, rfl, h⟩ := h
    exact ⟨rfl, fun _ => h.select_of i⟩
  | sparse t =>
    rw [hh] at h
    obtain ⟨u, ops', hu, hb', rfl⟩ := h
    have hs := C114_select m env h64 (hu ▸ hv) ops' hb' i
    rw [hu] at hs
    obtain ⟨d, map, rfl, -⟩ := wide_reached m env h64 (hu ▸ hv) ops' hb'
    exact ⟨rfl, hs⟩

/-- **C115** (listing): the default and the entries of a sparse array are as predicted. -/
theorem C115_entries (k : Kind) (m : Mode) (env env' : HashEnv) (h64 : 64 < iw) {v : BitVecValue} (hv : v.width < 2 ^ 32)
    (hs : k = .dense → Storable .dense m iw v.shape) (ops : List ConvOp) {b : ArrayValue}
    (hb : (newOf k m iw v >>= fun a => runConv m env a ops) = ok b) {c : LongArray} (hc : LongArray.create k m iw v.shape = some c) {t : LongTable}
    (ht : c.history m iw v.width ops = .sparse t) :
    ∃ s d l, b = .sparse s ∧ s.default m = ok d ∧ d.shape = t.default ∧ s.nonDefaultEntries m env' = ok l ∧ (l.map Prod.fst).Nodup ∧
      ∀ i x, t.stored i = some x ↔ ∃ e ∈ l, e.1.shape = i ∧ e.2.shape = x := by
  obtain ⟨c', hc', h⟩ := long_reached k m env h64 hv hs ops hb
  rw [hc] at hc'
  cases hc'
  rw [ht] at h
  obtain ⟨u, ops', hu, hb', rfl⟩ := h
  have := C114_entries m env env' h64 (hu ▸ hv) ops' hb'
  rw [hu] at this
  exact this

/-- **C115** (comparing): two dense arrays compare by what they hold, two sparse arrays as in C114, and comparing a dense with a sparse array
panics. -/
theorem C115_equal (k k' : Kind) (m : Mode) (env₁ env₂ : HashEnv) (h64 : 64 < iw) {u v : BitVecValue} (hu : u.width < 2 ^ 32)
    (huv : u.width = v.width) (hsu : k = .dense → Storable .dense m iw u.shape) (hsv : k' = .dense → Storable .dense m iw v.shape)
    (ops ops' : List ConvOp) {a b : ArrayValue} (ha : (newOf k m iw u >>= fun a => runConv m env₁ a ops) = ok a)
    (hb : (newOf k' m iw v >>= fun a => runConv m env₂ a ops') = ok b) :
    ∃ c c', LongArray.create k m iw u.shape = some c ∧ LongArray.create k' m iw v.shape = some c' ∧
      match c.history m iw u.width ops, c'.history m iw v.width ops' with
      | .dense mem, .dense mem' => ∃ r, (∀ env, a.eq m env b = ok r) ∧ (r = true ↔ mem.Same mem')
      | .sparse t, .sparse t' => ((∀ env, Panics (a.eq m env b)) ↔ t.Clash m t') ∧
        ((∀ env, ∃ r, a.eq m env b = ok r) ↔ ¬ t.Clash m t' ∧ ¬ t.MayClash m t') ∧
        (∀ env r, a.eq m env b = ok r → (r = true ↔ t = t'))
      | _, _ => ∀ env, Panics (a.eq m env b) := by
  obtain ⟨c, hc, h⟩ := long_reached k m env₁ h64 hu hsu ops ha
  obtain ⟨c', hc', h'⟩ := long_reached k' m env₂ h64 (huv ▸ hu) hsv ops' hb
  refine ⟨c, c', hc, hc', ?_⟩
  cases hh : c.history m iw u.width ops with
  | dense mem =>
    rw [hh] at h
    obtain ⟨d, rfl, h⟩ := h
    cases hh' : c'.history m iw v.width ops' with
    | dense mem' =>
      rw [hh'] at h'
      obtain ⟨d', rfl, h'⟩ := h'
      obtain ⟨r, h1, h2⟩ := h.isEqual_of (huv ▸ h')
      refine ⟨r, fun env => ?_, h2⟩
      show (DenseArrayValue.isEqual m d d' >>= fun r => ok (r.getD false)) = _
      rw [h1]
      rfl
    | sparse t' =>
      rw [hh'] at h'
      obtain ⟨x, xs, hx, hb', rfl⟩ := h'
      exact fun env => (C114_mixed m env₂ env h64 (by omega) xs hb' (d := d) h.indexWidth (by rw [h.dataWidth, hx, huv])).2
  | sparse t =>
    rw [hh] at h
    obtain ⟨x, xs, hx, ha', rfl⟩ := h
    cases hh' : c'.history m iw v.width ops' with
    | dense mem' =>
      rw [hh'] at h'
      obtain ⟨d', rfl, h'⟩ := h'
      exact fun env => (C114_mixed m env₁ env h64 (by omega) xs ha' (d := d') h'.indexWidth (by rw [h'.dataWidth, hx, huv])).1
    | sparse t' =>
      rw [hh'] at h'
      obtain ⟨y, ys, hy, hb', rfl⟩ := h'
      have := C114_equal m env₁ env₂ h64 (u := x) (v := y) (by omega) (by omega) xs ys ha' hb'
      rw [hx, hy] at this
      exact this

/-! ## Concrete cases -/

/-- In a release build a dense array with 65 index bits has two elements. It can be converted while they are the same, and then it has all
indices. -/
example : Storable .dense .release 65 (encode 3#8).shape ∧ LongArray.create .dense .release 65 (encode 3#8).shape = some (.dense ⟨2, fun _ => 3⟩) ∧
    Memory.emptied .release 65 8 ⟨2, fun _ => 3⟩ = some ⟨8, 1, 3⟩ ∧
    (do let a ← newOf .dense .release 65 (encode 3#8)
        let a ← runConv .release listEnv a [.toSparse, .base (.store (encode 5#65) (encode 7#8))]
        let s ← a.toSparse .release listEnv
        let d ← s.default .release
        let l ← s.nonDefaultEntries .release listEnv
        ok (d, l)) = ok (encode 3#8, [(encode 5#65, encode 7#8)]) :=
  ⟨fun _ _ h => absurd h (by decide), rfl, by decide, by decide +kernel⟩

/-- It can not be converted if the elements differ, or if they are too large to be counted (see C53). -/
example : Memory.emptied .release 65 8 ⟨2, fun k => if k = 1 then 4 else 3⟩ = none ∧ Memory.emptied .release 65 8 ⟨2, fun _ => 9⟩ = none ∧
    Panics (newOf .dense .release 65 (encode 3#8) >>= fun a => runConv .release listEnv a [.base (.store (encode 1#65) (encode 4#8)), .toSparse]) ∧
    Panics (newOf .dense .release 65 (encode 9#8) >>= fun a => runConv .release listEnv a [.toSparse]) :=
  ⟨by decide, by decide, ⟨.explicit, by rfl⟩, ⟨.bounds, by rfl⟩⟩

/-- The predictions for these histories. -/
example : (LongArray.dense ⟨2, fun _ => 3⟩).Somewhere (fun c => c.Stops .release 65 8) .release 65 8
      [.base (.store (encode 1#65) (encode 4#8)), .toSparse] ∧
    ¬ (LongArray.dense ⟨2, fun _ => 3⟩).Somewhere (fun c => c.Risks .release 65 8) .release 65 8
      [.toSparse, .base (.store (encode 5#65) (encode 7#8))] := by
  refine ⟨.inr (.inl ?_), ?_⟩
  · show Memory.long .release 65 8 ⟨2, setCell (fun _ => 3) 1 4⟩ .toSparse = none
    rfl
  · rintro (h | (h | h) | h)
    · cases (show some (LongArray.sparse (.create ⟨8, 1, 3⟩)) = none from h)
    · cases h.1
    · cases h.1
    · exact h

/-- Two dense arrays are compared, a dense one with a sparse one is not. -/
example : (do let a ← newOf .dense .release 65 (encode 3#8)
              let b ← runConv .release listEnv a [.base (.store (encode 1#65) (encode 4#8))]
              a.eq .release listEnv b) = ok false ∧
    Panics (do let a ← newOf .dense .release 65 (encode 3#8)
               let b ← runConv .release listEnv a [.toSparse]
               a.eq .release listEnv b) :=
  ⟨by decide +kernel, ⟨.unreachable, by decide +kernel⟩⟩

end Baa

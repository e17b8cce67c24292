import Verif.Proofs.ArrayConv

/-!
# Counting elements: which default the conversion to a sparse array chooses
-/

namespace Baa
open Res

variable {iw dw : Nat}

theorem length_le_of_subset {α : Type} {a b : List α} (hn : a.Nodup) (hs : ∀ e ∈ a, e ∈ b) : a.length ≤ b.length := by
  rcases Nat.le_total b.length a.length with h | h
  · exact Nat.le_of_eq (perm_of_subset hn hs h).length_eq
  · exact h

/-- The counting loop without early exit. -/
def tally {K : Type} [DecidableEq K] (c : HMap K Nat) (ks : List K) : HMap K Nat := ks.foldl DenseArrayValue.bump c

theorem tally_get {K : Type} [DecidableEq K] (ks : List K) : ∀ (c : HMap K Nat) (k : K),
    (tally c ks).get k = if k ∈ ks then some ((c.get k).getD 0 + ks.count k) else c.get k := by
  induction ks with
  | nil => intro c k; rfl
  | cons a ks ih =>
    intro c k
    show (tally (DenseArrayValue.bump c a) ks).get k = _
    rw [ih]
    unfold DenseArrayValue.bump
    rw [HMap.get_insert]
    by_cases h : k = a
    · subst h
      rw [if_pos rfl, if_pos List.mem_cons_self, List.count_cons_self]
      by_cases h2 : k ∈ ks
      · rw [if_pos h2, Option.getD_some, Nat.add_assoc, Nat.add_comm 1]
      · rw [if_neg h2, List.count_eq_zero_of_not_mem h2]
    · rw [if_neg h]
      by_cases h2 : k ∈ ks
      · rw [if_pos h2, if_pos (List.mem_cons_of_mem _ h2), List.count_cons_of_ne (fun e => h e.symm)]
      · rw [if_neg h2, if_neg (fun e => by rcases List.mem_cons.mp e with e | e; exact h e; exact h2 e)]

theorem tally_nodup {K : Type} [DecidableEq K] (ks : List K) : ∀ (c : HMap K Nat), c.Nodup → (tally c ks).Nodup := by
  induction ks with
  | nil => intro c h; exact h
  | cons a ks ih => intro c h; exact ih _ (HMap.nodup_insert h _ _)

theorem tally_mem {K : Type} [DecidableEq K] (ks : List K) (k : K) (n : Nat) :
    (k, n) ∈ (tally HMap.empty ks).entries ↔ k ∈ ks ∧ n = ks.count k := by
  rw [← HMap.get_eq_some_iff (tally_nodup ks _ HMap.nodup_empty), tally_get, HMap.get_empty]
  by_cases h : k ∈ ks
  · rw [if_pos h]
    simp [h, eq_comm]
  · rw [if_neg h]
    simp [h]

/-- The keys of a tally are the elements counted. -/
theorem tally_len_le {K : Type} [DecidableEq K] (ks L : List K) (h : ∀ k ∈ ks, k ∈ L) :
    (tally HMap.empty ks).len ≤ L.length := by
  have := length_le_of_subset (tally_nodup ks _ HMap.nodup_empty) (b := L) (fun e he => by
    obtain ⟨⟨k, n⟩, h1, rfl⟩ := List.mem_map.mp he
    exact h k ((tally_mem ks k n).mp h1).1)
  rwa [List.length_map] at this

theorem tally_len_nodup {K : Type} [DecidableEq K] (ks : List K) (h : ks.Nodup) : (tally HMap.empty ks).len = ks.length := by
  apply Nat.le_antisymm (tally_len_le ks ks fun _ h => h)
  have := length_le_of_subset h (b := (tally HMap.empty ks).entries.map Prod.fst) (fun k hk =>
    List.mem_map.mpr ⟨(k, ks.count k), (tally_mem ks k _).mpr ⟨hk, rfl⟩, rfl⟩)
  rwa [List.length_map] at this

/-- The counting loop counts a prefix: all of the elements, or up to the one that makes the table too large. -/
theorem countLoop_tally {K : Type} [DecidableEq K] (ks : List K) : ∀ (c : HMap K Nat),
    ∃ n, n ≤ ks.length ∧ DenseArrayValue.countLoop c ks = tally c (ks.take n) ∧
      (n = ks.length ∨ (tally c (ks.take n)).len > DenseArrayValue.maxSearch) ∧
      (ks ≠ [] → 0 < n) ∧
      ∀ j, 0 < j → j < n → (tally c (ks.take j)).len ≤ DenseArrayValue.maxSearch := by
  induction ks with
  | nil => intro c; exact ⟨0, Nat.le_refl _, rfl, .inl rfl, fun h => absurd rfl h, fun j _ h => absurd h (Nat.not_lt_zero j)⟩
  | cons k ks ih =>
    intro c
    unfold DenseArrayValue.countLoop
    dsimp only
    by_cases h : (DenseArrayValue.bump c k).len > DenseArrayValue.maxSearch
    · rw [if_pos h]
      exact ⟨1, by simp, rfl, .inr h, fun _ => by decide, fun j h0 h1 => by omega⟩
    · rw [if_neg h]
      obtain ⟨n, h1, h2, h3, -, h4⟩ := ih (DenseArrayValue.bump c k)
      refine ⟨n + 1, by simpa using h1, h2, ?_, fun _ => by omega, fun j hj0 hj => ?_⟩
      · rcases h3 with h3 | h3
        · exact .inl (by simp [h3])
        · exact .inr h3
      · cases j with
        | zero => omega
        | succ j =>
          by_cases hj' : j = 0
          · subst hj'
            exact Nat.le_of_not_lt h
          · exact h4 j (by omega) (by omega)

/-- The default that is picked is the most frequent one of the counted elements. -/
theorem count_default_prefix {K : Type} [DecidableEq K] (env : HashEnv) (ks : List K) (h : ks ≠ []) :
    ∃ x n, DenseArrayValue.maxByCount (env.order (DenseArrayValue.countLoop HMap.empty ks).entries) = some x ∧ 0 < n ∧
      n ≤ ks.length ∧ x.1 ∈ ks.take n ∧ (∀ y, (ks.take n).count y ≤ (ks.take n).count x.1) ∧
      (n = ks.length ∨ (tally HMap.empty (ks.take n)).len > DenseArrayValue.maxSearch) ∧
      ∀ j, 0 < j → j < n → (tally HMap.empty (ks.take j)).len ≤ DenseArrayValue.maxSearch := by
  obtain ⟨n, h1, h2, h3, h4, h5⟩ := countLoop_tally ks HMap.empty
  have hn := h4 h
  rw [h2]
  have hne : env.order (tally HMap.empty (ks.take n)).entries ≠ [] := by
    intro he
    cases ks with
    | nil => exact absurd rfl h
    | cons k ks =>
      have hk : k ∈ (k :: ks).take n := by
        cases n with
        | zero => omega
        | succ n => simp
      have := (env.order_perm (tally HMap.empty ((k :: ks).take n)).entries).mem_iff.mpr
        ((tally_mem _ k _).mpr ⟨hk, rfl⟩)
      rw [he] at this
      cases this
  obtain ⟨⟨x, c⟩, hx1, hx2, hx3⟩ := maxByCount_mem _ hne
  obtain ⟨hx4, rfl⟩ := (tally_mem _ x c).mp ((env.order_perm _).mem_iff.mp hx2)
  refine ⟨_, n, hx1, hn, h1, hx4, fun y => ?_, h3, h5⟩
  by_cases hy : y ∈ ks.take n
  · exact hx3 (y, (ks.take n).count y) ((env.order_perm _).mem_iff.mpr ((tally_mem _ y _).mpr ⟨hy, rfl⟩))
  · rw [List.count_eq_zero_of_not_mem hy]
    exact Nat.zero_le _

/-- If there are not too many different elements, all of them are counted. -/
theorem count_default_all {K : Type} [DecidableEq K] (env : HashEnv) (ks L : List K) (h : ks ≠ []) (hL : ∀ k ∈ ks, k ∈ L)
    (hlen : L.length ≤ DenseArrayValue.maxSearch) {x : K × Nat}
    (hx : DenseArrayValue.maxByCount (env.order (DenseArrayValue.countLoop HMap.empty ks).entries) = some x) :
    ∀ y, ks.count y ≤ ks.count x.1 := by
  obtain ⟨x', n, h1, h2, h3, h4, h5, h6, -⟩ := count_default_prefix env ks h
  rw [hx] at h1
  cases h1
  rcases h6 with h6 | h6
  · rw [h6, List.take_length] at h5
    exact h5
  · have := tally_len_le (ks.take n) L fun k hk => hL k (List.mem_of_mem_take hk)
    omega

/-- A list that holds the elements of an array in order. -/
theorem eq_map_range {α : Type} {l : List α} {P : BitVec dw → α} {f : BitVec iw → BitVec dw} (hl : l.length = 2 ^ iw)
    (h : ∀ i : BitVec iw, l[i.toNat]? = some (P (f i))) : l = (List.range (2 ^ iw)).map fun k => P (f (BitVec.ofNat iw k)) := by
  apply List.ext_getElem?
  intro k
  by_cases hk : k < 2 ^ iw
  · have := h (BitVec.ofNat iw k)
    rw [BitVec.toNat_ofNat, Nat.mod_eq_of_lt hk] at this
    rw [this, List.getElem?_map, List.getElem?_range hk]
    rfl
  · rw [List.getElem?_eq_none (by omega), List.getElem?_eq_none (by simp; omega)]

theorem count_elements {α : Type} [DecidableEq α] {l : List α} {P : BitVec dw → α} {f : BitVec iw → BitVec dw}
    (hP : ∀ a b, P a = P b → a = b) (hl : l.length = 2 ^ iw)
    (h : ∀ i : BitVec iw, l[i.toNat]? = some (P (f i))) (y : BitVec dw) : l.count (P y) = occurrences f y := by
  rw [eq_map_range hl h, occurrences, List.count_eq_countP, List.countP_map]
  congr 1
  funext k
  simp only [Function.comp_apply]
  by_cases he : f (BitVec.ofNat iw k) = y
  · simp [he]
  · have : P (f (BitVec.ofNat iw k)) ≠ P y := fun e => he (hP _ _ e)
    simp [he, this]

/-- `max_by_key` returns the last one of the maximal elements. -/
theorem maxByCount_last {α : Type} (l : List (α × Nat)) (x : α × Nat) (h : DenseArrayValue.maxByCount l = some x) :
    ∃ s t, l = s ++ x :: t ∧ ∀ y ∈ t, y.2 < x.2 := by
  induction l with
  | nil => cases h
  | cons a l ih =>
    unfold DenseArrayValue.maxByCount at h
    cases hl : DenseArrayValue.maxByCount l with
    | none =>
      rw [hl] at h
      cases h
      cases l with
      | nil => exact ⟨[], [], rfl, fun y hy => by cases hy⟩
      | cons b l =>
        obtain ⟨z, hz, -⟩ := maxByCount_mem (b :: l) (by simp)
        rw [hz] at hl
        cases hl
    | some y =>
      rw [hl] at h
      dsimp only at h
      by_cases hc : a.2 > y.2
      · rw [if_pos hc] at h
        cases h
        obtain ⟨z, hz, -, h3⟩ := maxByCount_mem l (by rintro rfl; cases hl)
        rw [hl] at hz
        cases hz
        exact ⟨[], l, rfl, fun z hz => Nat.lt_of_le_of_lt (h3 z hz) hc⟩
      · rw [if_neg hc] at h
        cases h
        obtain ⟨s, t, h1, h2⟩ := ih hl
        exact ⟨a :: s, t, by rw [h1]; rfl, h2⟩

/-- What the byte counters hold at the end. -/
theorem countU8_count (l : List Byte) : ∀ (n k : Nat) (c : List Nat), c.length = 8 → k + n = l.length →
    (∀ b ∈ l, b.toNat < 8) →
    ∃ c', DenseArrayValue.countU8 l k n c = ok c' ∧ c'.length = 8 ∧
      ∀ j, j < 8 → c'.getD j 0 = c.getD j 0 + (l.drop k).countP fun b => b.toNat = j := by
  intro n
  induction n with
  | zero =>
    intro k c hc hk _
    refine ⟨c, rfl, hc, fun j _ => ?_⟩
    rw [List.drop_eq_nil_of_le (by omega)]
    rfl
  | succ n ih =>
    intro k c hc hk hb
    have hkl : k < l.length := by omega
    have h8 := hb _ (List.getElem_mem hkl)
    unfold DenseArrayValue.countU8
    rw [idx_ok hkl, ok_bind, idx_ok (by omega), ok_bind, setIdx_ok (by omega), ok_bind]
    obtain ⟨c', h1, h2, h3⟩ := ih (k + 1) (c.set l[k].toNat (c[l[k].toNat] + 1)) (by simpa using hc) (by omega) hb
    refine ⟨c', h1, h2, fun j hj => ?_⟩
    rw [h3 j hj, List.drop_eq_getElem_cons hkl, List.countP_cons, List.getD_eq_getElem?_getD, List.getElem?_set,
      List.getD_eq_getElem?_getD]
    by_cases he : l[k].toNat = j
    · subst he
      rw [if_pos rfl, if_pos (by omega), List.getElem?_eq_getElem (by omega), Option.getD_some, Option.getD_some,
        if_pos (by simp)]
      omega
    · rw [if_neg he, if_neg (by simpa using he)]
      omega

/-- What the bit counters hold at the end. -/
theorem countBits_count {v : BitVecValue} {n : Nat} {y : BitVec n} (hy : Denotes v y) :
    ∀ (k b : Nat) (c : Nat × Nat), b + k ≤ n → DenseArrayValue.countBits v b k c =
      ok (c.1 + (List.range' b k).countP (fun j => !y.getLsbD j), c.2 + (List.range' b k).countP (fun j => y.getLsbD j)) := by
  intro k
  induction k with
  | zero => intro b c _; rfl
  | succ k ih =>
    intro b c hb
    have hmod : b % U32 = b := Nat.mod_eq_of_lt (by
      have := hy.width_lt
      show _ < 4294967296
      omega)
    unfold DenseArrayValue.countBits
    rw [hmod, C24_is_bit_set hy (by omega), ok_bind, ih (b + 1) _ (by omega), List.range'_succ, List.countP_cons,
      List.countP_cons]
    cases y.getLsbD b with
    | true => simp; omega
    | false => simp; omega

/-- How the default of a converted array is chosen: it is one of the elements, and a most frequent one if there are at most
2^20 different elements; among equally frequent ones it is the smaller one for 1-bit data and the largest one for up to
8-bit data. For wider data only elements up to the position where more than 2^20 different ones have been seen are considered. -/
structure Chosen (f : BitVec iw → BitVec dw) (x : BitVec dw) : Prop where
  occurs : ∃ i, f i = x
  frequent : (∃ L : List (BitVec dw), L.length ≤ 2 ^ 20 ∧ ∀ i, f i ∈ L) → ∀ y, occurrences f y ≤ occurrences f x
  bit : dw = 1 → ∀ y, occurrences f y = occurrences f x → x.toNat ≤ y.toNat
  byte : dw ≠ 1 → dw ≤ 8 → ∀ y, occurrences f y = occurrences f x → y.toNat ≤ x.toNat
  early : 8 < dw → ∃ k, k < 2 ^ iw ∧ x = f (BitVec.ofNat iw k) ∧ ∀ j, j ≤ k →
    (∀ a b, a < j → b < j → f (BitVec.ofNat iw a) = f (BitVec.ofNat iw b) → a = b) → j ≤ 2 ^ 20

/-- The choice made by the hash table of counters. -/
theorem chosen_of_table {α : Type} [DecidableEq α] (env : HashEnv) {l : List α} {P : BitVec dw → α}
    {f : BitVec iw → BitVec dw} (hdw : 8 < dw) (hP : ∀ a b, P a = P b → a = b) (hl : l.length = 2 ^ iw)
    (h : ∀ i : BitVec iw, l[i.toNat]? = some (P (f i))) :
    ∃ mx x, DenseArrayValue.maxByCount (env.order (DenseArrayValue.countLoop HMap.empty l).entries) = some mx ∧
      mx.1 = P x ∧ Chosen f x := by
  have hne : l ≠ [] := by
    rintro rfl
    have := Nat.two_pow_pos iw
    simp at hl
    omega
  obtain ⟨mx, n, h1, h2, h3, h4, h5, h6, h7⟩ := count_default_prefix env l hne
  have hget : ∀ k, k < 2 ^ iw → l[k]? = some (P (f (BitVec.ofNat iw k))) := fun k hk => by
    have := h (BitVec.ofNat iw k)
    rwa [BitVec.toNat_ofNat, Nat.mod_eq_of_lt hk] at this
  obtain ⟨k, hk1, hk2⟩ := List.mem_iff_getElem.mp h4
  have hkn : k < n := by
    rw [List.length_take] at hk1
    omega
  rw [List.getElem_take] at hk2
  have hx : mx.1 = P (f (BitVec.ofNat iw k)) := by
    have := hget k (by omega)
    rw [List.getElem?_eq_getElem (by omega), hk2] at this
    exact Option.some.inj this
  refine ⟨mx, f (BitVec.ofNat iw k), h1, hx, ⟨_, rfl⟩, ?_, fun h => by omega, fun _ h => by omega, fun _ =>
    ⟨k, by omega, rfl, ?_⟩⟩
  · rintro ⟨L, hL1, hL2⟩ y
    rw [← count_elements hP hl h, ← count_elements hP hl h, ← hx]
    refine count_default_all env l (L.map P) hne ?_ (by rw [List.length_map]; exact hL1) h1 _
    intro a ha
    obtain ⟨q, hq, rfl⟩ := List.mem_iff_getElem.mp ha
    have := hget q (by omega)
    rw [List.getElem?_eq_getElem hq] at this
    rw [Option.some.inj this]
    exact List.mem_map_of_mem (hL2 _)
  · intro j hj hinj
    cases Nat.eq_zero_or_pos j with
    | inl h0 => rw [h0]; exact Nat.zero_le _
    | inr h0 =>
      have hlen := h7 j h0 (by omega)
      rw [tally_len_nodup, List.length_take, Nat.min_eq_left (by omega)] at hlen
      · exact hlen
      · show List.Pairwise _ _
        rw [List.pairwise_iff_getElem]
        intro a b ha hb hab he
        rw [List.length_take] at ha hb
        rw [List.getElem_take, List.getElem_take] at he
        have hga := hget a (by omega)
        have hgb := hget b (by omega)
        rw [List.getElem?_eq_getElem (by omega)] at hga hgb
        rw [Option.some.inj hga, Option.some.inj hgb] at he
        have := hinj a b (by omega) (by omega) (hP _ _ he)
        omega

/-- For data wider than 8 bits, the default is the element whose counter `max_by_key` finds. -/
theorem toSparse_table (m : Mode) {d : DenseArrayValue} {f : BitVec iw → BitVec dw} (h : DenseInv d f) (h8 : 8 < dw) :
    ∃ (α : Type) (_ : DecidableEq α) (l : List α) (P : BitVec dw → α), (∀ a b, P a = P b → a = b) ∧ l.length = 2 ^ iw ∧
      (∀ i : BitVec iw, l[i.toNat]? = some (P (f i))) ∧
      ∀ (env : HashEnv) mx x, DenseArrayValue.maxByCount (env.order (DenseArrayValue.countLoop HMap.empty l).entries) = some mx →
        mx.1 = P x → ∃ s, d.toSparse m env = ok s ∧ SparseInv s f x := by
  have hall := h
  obtain ⟨hiw, hdw, hlt, hpos, hdl, hrep⟩ := h
  have hilt : iw < 2 ^ 32 := by omega
  unfold DenseArrayValue.toSparse
  rw [hiw, hdw]
  cases hdata : d.data with
  | bit v =>
    rw [hdata] at hrep
    have := hrep.1
    omega
  | u8 l =>
    rw [hdata] at hrep
    have := hrep.2.1
    omega
  | u64 l =>
    rw [hdata] at hrep
    obtain ⟨h1, h2, h3, hf⟩ := hrep
    dsimp only
    refine ⟨Word, inferInstance, l, BitVec.setWidth 64, fun a b e => setWidth_inj h2 e, h3, hf, fun env mx x hm1 hm2 => ?_⟩
    rw [hm1]
    show ∃ s, (BitVecValue.fromU64 m mx.1 dw >>= fun _ => _) = ok s ∧ _
    rw [hm2, fromU64_encode m hpos (by omega), ok_bind]
    obtain ⟨s0, hs1, hs2⟩ := sparse_new hilt hdl x
    rw [hs1, ok_bind]
    obtain ⟨s, hs3, hs4⟩ := storeWords_spec (by omega) (by omega) f x l (k := 0) (out := s0) (by omega) (by
        intro j hj
        have := hf (BitVec.ofNat iw j)
        rw [BitVec.toNat_ofNat, Nat.mod_eq_of_lt (by omega)] at this
        rw [this, Nat.zero_add]) (by rw [fillTo_zero]; exact hs2)
    exact ⟨s, hs3, hs4⟩
  | big l =>
    rw [hdata] at hrep
    dsimp only
    obtain ⟨es, he1, he2, he3⟩ := selectAll_spec m hall (2 ^ iw) 0 (by omega)
    refine ⟨BitVecValue, inferInstance, es, encode, fun a b e => encode_inj hdl e, he2, fun i => ?_, fun env mx x hm1 hm2 => ?_⟩
    · have := he3 i.toNat i.isLt
      rwa [Nat.zero_add, BitVec.ofNat_toNat, BitVec.setWidth_eq] at this
    rw [numElements_ok m hlt, ok_bind, he1, ok_bind, hm1]
    show ∃ s, (SparseArrayValue.new iw mx.1 >>= fun _ => _) = ok s ∧ _
    obtain ⟨s0, hs1, hs2⟩ := sparse_new hilt hdl x
    rw [hm2, hs1, ok_bind]
    obtain ⟨s, hs3, hs4⟩ := storeBigs_spec m (by omega) hdl f x es (k := 0) (out := s0) (by omega)
      (by
        intro j hj
        exact he3 j (by omega)) (by rw [fillTo_zero]; exact hs2)
    exact ⟨s, hs3, hs4⟩

/-- The conversion to a sparse array: contents and the choice of the default. -/
theorem toSparse_chosen (m : Mode) (env : HashEnv) {d : DenseArrayValue} {f : BitVec iw → BitVec dw} (h : DenseInv d f)
    (hok : dw = 1 ∨ 8 < dw ∨ ∀ i, (f i).toNat < 8) :
    ∃ s x, d.toSparse m env = ok s ∧ SparseInv s f x ∧ Chosen f x := by
  by_cases h8 : 8 < dw
  · obtain ⟨α, _, l, P, hP, hl, hf, hmk⟩ := toSparse_table m h h8
    obtain ⟨mx, x, hm1, hm2, hm3⟩ := chosen_of_table env h8 hP hl hf
    obtain ⟨s, hs1, hs2⟩ := hmk env mx x hm1 hm2
    exact ⟨s, x, hs1, hs2, hm3⟩
  obtain ⟨hiw, hdw, hlt, hpos, hdl, hrep⟩ := h
  have hilt : iw < 2 ^ 32 := by omega
  have hp0 : 0 < 2 ^ iw := Nat.two_pow_pos iw
  unfold DenseArrayValue.toSparse
  rw [hiw, hdw]
  cases hdata : d.data with
  | bit v =>
    rw [hdata] at hrep
    obtain ⟨h1, h2, y, hy, hf⟩ := hrep
    subst h1
    dsimp only
    rw [numElements_ok m hlt, ok_bind, countBits_count hy _ _ _ (by omega), ok_bind, fromBool_encode, ok_bind]
    have hget : ∀ k, k < 2 ^ iw → y.getLsbD k = (f (BitVec.ofNat iw k)).getLsbD 0 := fun k hk => by
      have := hf (BitVec.ofNat iw k)
      rwa [BitVec.toNat_ofNat, Nat.mod_eq_of_lt hk] at this
    have h1 : (List.range' 0 (2 ^ iw)).countP (fun j => y.getLsbD j) = occurrences f 1#1 := by
      rw [← List.range_eq_range', occurrences]
      refine List.countP_congr fun k hk => ?_
      rw [hget k (List.mem_range.mp hk)]
      generalize f (BitVec.ofNat iw k) = z
      revert z
      decide
    have h0 : (List.range' 0 (2 ^ iw)).countP (fun j => !y.getLsbD j) = occurrences f 0#1 := by
      rw [← List.range_eq_range', occurrences]
      refine List.countP_congr fun k hk => ?_
      rw [hget k (List.mem_range.mp hk)]
      generalize f (BitVec.ofNat iw k) = z
      revert z
      decide
    rw [h0, h1]
    dsimp only
    rw [Nat.zero_add, Nat.zero_add]
    obtain ⟨s0, hs1, hs2⟩ := sparse_new hilt hdl (BitVec.ofBool (decide (occurrences f 1#1 > occurrences f 0#1)))
    rw [hs1, ok_bind]
    obtain ⟨s, hs3, hs4⟩ := storeBits_spec hy (by omega) f hf (decide (occurrences f 1#1 > occurrences f 0#1)) (2 ^ iw) 0
      (by omega) (by rw [fillTo_zero]; exact hs2)
    have hcases : ∀ y : BitVec 1, y = 1#1 ∨ y = 0#1 := by decide
    have hsum : occurrences f 1#1 + occurrences f 0#1 = 2 ^ iw := by
      rw [← h0, ← h1]
      have := List.length_eq_countP_add_countP (l := List.range' 0 (2 ^ iw)) (fun j => y.getLsbD j)
      rw [List.length_range'] at this
      refine Eq.trans ?_ this.symm
      congr 1
      exact List.countP_congr fun k _ => by simp
    have hocc : ∀ z, 0 < occurrences f z → ∃ i, f i = z := fun z hz => by
      obtain ⟨k, -, hk⟩ := List.countP_pos_iff.mp hz
      exact ⟨_, by simpa using hk⟩
    refine ⟨s, _, hs3, hs4, ?_, ?_, ?_, fun h => absurd rfl h, fun h => by omega⟩
    · by_cases hc : occurrences f 1#1 > occurrences f 0#1
      · rw [decide_eq_true hc]
        exact hocc _ (by show 0 < occurrences f 1#1; omega)
      · rw [decide_eq_false hc]
        exact hocc _ (by show 0 < occurrences f 0#1; omega)
    · intro _ y
      by_cases hc : occurrences f 1#1 > occurrences f 0#1
      · rw [decide_eq_true hc]
        show _ ≤ occurrences f 1#1
        rcases hcases y with rfl | rfl <;> omega
      · rw [decide_eq_false hc]
        show _ ≤ occurrences f 0#1
        rcases hcases y with rfl | rfl <;> omega
    · intro _ y
      by_cases hc : occurrences f 1#1 > occurrences f 0#1
      · rw [decide_eq_true hc]
        show _ = occurrences f 1#1 → _
        rcases hcases y with rfl | rfl
        · intro _; decide
        · intro _; omega
      · rw [decide_eq_false hc]
        intro _
        exact Nat.zero_le _
  | u8 l =>
    rw [hdata] at hrep
    obtain ⟨h1, h2, h3, hf⟩ := hrep
    have hsmall : ∀ i, (f i).toNat < 8 := by
      rcases hok with hok | hok | hok
      · exact absurd hok h1
      · omega
      · exact hok
    have hv : ∀ z : BitVec dw, (z.setWidth 8).toNat = z.toNat := fun z => by
      rw [BitVec.toNat_setWidth, Nat.mod_eq_of_lt (Nat.lt_of_lt_of_le z.isLt (Nat.pow_le_pow_right (by decide) h2))]
    have hval := fun i => hv (f i)
    have hb : ∀ b ∈ l, b.toNat < 8 := by
      intro b hb
      obtain ⟨i, rfl⟩ := mem_of_get h3 hf hb
      rw [hval]
      exact hsmall i
    dsimp only
    rw [numElements_ok m hlt, ok_bind]
    obtain ⟨c, hc1, hc2, hc3⟩ := countU8_count l (2 ^ iw) 0 (List.replicate 8 0) (by simp) (by omega) hb
    rw [hc1, ok_bind]
    have hcount : ∀ y : BitVec dw, y.toNat < 8 → c.getD y.toNat 0 = occurrences f y := by
      intro y hy
      have hP : ∀ a b : BitVec dw, a.setWidth 8 = b.setWidth 8 → a = b := fun a b e =>
        BitVec.eq_of_toNat_eq (by rw [← hv a, ← hv b, e])
      rw [hc3 _ hy, ← count_elements hP h3 hf y, List.drop_zero, List.count_eq_countP]
      have : (List.replicate 8 0).getD y.toNat 0 = 0 := by
        rw [List.getD_eq_getElem?_getD, List.getElem?_replicate]
        split <;> rfl
      rw [this, Nat.zero_add]
      refine List.countP_congr fun b _ => ?_
      simp only [decide_eq_true_eq, beq_iff_eq, ← BitVec.toNat_inj, hv]
    have hzero : ∀ y : BitVec dw, 8 ≤ y.toNat → occurrences f y = 0 := by
      intro y hy
      refine List.countP_eq_zero.mpr fun k _ => ?_
      have := hsmall (BitVec.ofNat iw k)
      simp only [decide_eq_true_eq]
      intro he
      rw [he] at this
      omega
    have hzl : ((List.range 8).zip c).length = 8 := by simp [hc2]
    obtain ⟨mx, hm1, hm2, hm3⟩ := maxByCount_mem ((List.range 8).zip c) (by
      intro he
      rw [he] at hzl
      cases hzl)
    obtain ⟨s', t', hst, hlast⟩ := maxByCount_last _ _ hm1
    rw [hm1]
    -- the chosen value occurs
    have hmem : ∀ q (hq : q < 8), (q, c[q]) ∈ (List.range 8).zip c := fun q hq => by
      rw [List.mem_iff_getElem]
      exact ⟨q, by rw [hzl]; exact hq, by simp⟩
    have hgz : ∀ q (hq : q < 8), ((List.range 8).zip c)[q]? = some (q, c[q]) := fun q hq => by
      rw [List.getElem?_eq_getElem (by omega)]
      simp
    have hmq : ((List.range 8).zip c)[s'.length]? = some mx := by
      rw [hst, List.getElem?_append_right (Nat.le_refl _), Nat.sub_self]
      rfl
    have hq8 : s'.length < 8 := by
      have := (List.getElem?_eq_some_iff.mp hmq).1
      omega
    have hmx : mx = (s'.length, c[s'.length]) := by
      have := hgz _ hq8
      rw [hmq] at this
      exact Option.some.inj this
    have hlater : ∀ q (hq : q < 8), s'.length < q → c[q] < c[s'.length] := by
      intro q hq hsq
      have h := hgz q hq
      rw [hst, List.getElem?_append_right (by omega), show q - s'.length = (q - s'.length - 1) + 1 by omega,
        List.getElem?_cons_succ] at h
      have := hlast _ (List.mem_of_getElem? h)
      rwa [hmx] at this
    have hmax : ∀ q (hq : q < 8), c[q] ≤ c[s'.length] := by
      intro q hq
      have := hm3 _ (hmem q hq)
      rwa [hmx] at this
    have hgetD : ∀ q (hq : q < 8), c.getD q 0 = c[q] := fun q hq => by
      rw [List.getD_eq_getElem?_getD, List.getElem?_eq_getElem (by omega)]
      rfl
    -- some value occurs, so the chosen one does
    have hf0 := hcount (f 0#iw) (hsmall _)
    have hocc0 : 0 < occurrences f (f 0#iw) :=
      List.countP_pos_iff.mpr ⟨0, List.mem_range.mpr hp0, by simp⟩
    have hpos' : 0 < c[s'.length] := by
      have := hmax _ (hsmall 0#iw)
      rw [hgetD _ (hsmall _)] at hf0
      omega
    have hcq := hc3 _ hq8
    rw [hgetD _ hq8] at hcq
    have hrep0 : (List.replicate 8 0).getD s'.length 0 = 0 := by
      rw [List.getD_eq_getElem?_getD, List.getElem?_replicate]
      split <;> rfl
    rw [hrep0, Nat.zero_add, List.drop_zero] at hcq
    obtain ⟨b, hbm, hbq⟩ := List.countP_pos_iff.mp (hcq ▸ hpos')
    have hbq : b.toNat = s'.length := by simpa using hbq
    obtain ⟨i0, hi0⟩ := mem_of_get h3 hf hbm
    have hxq : (f i0).toNat = s'.length := by rw [← hbq, hi0, hval]
    show ∃ s x, (BitVecValue.fromU64 m ((BitVec.ofNat 8 mx.1).setWidth 64) dw >>= fun _ => _) = ok s ∧ _
    have hdflt : (BitVec.ofNat 8 mx.1).setWidth 64 = (f i0).setWidth 64 := by
      apply BitVec.eq_of_toNat_eq
      rw [setWidth64_toNat (by decide), setWidth64_toNat (by omega), hxq, hmx, BitVec.toNat_ofNat]
      dsimp only
      omega
    rw [hdflt, fromU64_encode m hpos (by omega), ok_bind]
    obtain ⟨s0, hs1, hs2⟩ := sparse_new hilt hdl (f i0)
    rw [hs1, ok_bind]
    obtain ⟨s, hs3, hs4⟩ := storeWords_spec (by omega) (by omega) f (f i0) (l.map fun b => b.setWidth 64) (k := 0)
      (out := s0) (by simp [h3]) (by
        intro j hj
        rw [List.length_map, h3] at hj
        have := hf (BitVec.ofNat iw j)
        rw [BitVec.toNat_ofNat, Nat.mod_eq_of_lt hj] at this
        rw [List.getElem?_map, this, Nat.zero_add, Option.map_some]
        congr 1
        apply BitVec.eq_of_toNat_eq
        rw [setWidth64_toNat (by decide), setWidth64_toNat (by omega), hval]) (by rw [fillTo_zero]; exact hs2)
    have hox : occurrences f (f i0) = c[s'.length] := by
      rw [← hcount _ (by omega), hxq, hgetD _ hq8]
    have hfreq : ∀ y, occurrences f y ≤ occurrences f (f i0) := by
      intro y
      by_cases hy : y.toNat < 8
      · rw [← hcount y hy, hgetD _ hy, hox]
        exact hmax _ hy
      · rw [hzero y (by omega)]
        exact Nat.zero_le _
    refine ⟨s, _, hs3, hs4, ⟨i0, rfl⟩, fun _ => hfreq, fun h => absurd h h1, fun _ _ y hy => ?_, fun h => by omega⟩
    apply Classical.byContradiction
    intro hgt
    by_cases hy8 : y.toNat < 8
    · have := hlater y.toNat hy8 (by omega)
      rw [← hcount y hy8, hgetD _ hy8, hox] at hy
      omega
    · rw [hzero y (by omega), hox] at hy
      omega
  | u64 l =>
    rw [hdata] at hrep
    exact absurd hrep.1 h8
  | big l =>
    rw [hdata] at hrep
    have := hrep.1
    omega

end Baa

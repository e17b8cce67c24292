import Verif.Props.DocumentsConv

/-!
# C118: conversions of arrays from documents are predictable: from dense to sparse
-/

namespace Baa
open Res BitVecValue Serde

variable {m : Mode}

/-! ## Electing a default -/

section
variable {lay : CellLayout} {N : Nat}

theorem cellsUpTo_pos {mem : Nat → Nat} {n : Nat} (h : n < N) : 0 < cellsUpTo N mem (mem n) := by
  unfold cellsUpTo
  rw [List.countP_pos_iff]
  exact ⟨n, List.mem_range.mpr h, by simp⟩

/-- The number of cells that are counted is determined. -/
theorem Tallied.unique {mem : Nat → Nat} {n n' : Nat} (h : Tallied lay N mem n) (h' : Tallied lay N mem n') : n = n' := by
  rcases Nat.lt_trichotomy n n' with hlt | heq | hgt
  · rcases h.stop with he | ⟨h8, hf⟩
    · have := h'.le; omega
    · exact absurd (h'.few h8 n hlt) hf
  · exact heq
  · rcases h'.stop with he | ⟨h8, hf⟩
    · have := h.le; omega
    · exact absurd (h.few h8 n' hgt) hf

theorem tallied_all {mem : Nat → Nat} (h8 : ¬ (lay = .words ∨ lay = .wide)) : Tallied lay N mem (N) := ⟨Nat.le_refl _, fun h => absurd h h8, .inl rfl⟩

/-- What the hash table of counters counts. -/
theorem tallied_of_table {α : Type} [DecidableEq α] {l : List α} {mem : Nat → Nat} {val : α → Nat} (h8 : lay = .words ∨ lay = .wide) {n : Nat}
    (hl : l.length = N) (hval : ∀ n b, l[n]? = some b → val b = mem n) (hinj : ∀ a ∈ l, ∀ b ∈ l, val a = val b → a = b)
    (hn : n ≤ l.length) (hstop : n = l.length ∨ (tally HMap.empty (l.take n)).len > DenseArrayValue.maxSearch)
    (hbefore : ∀ j, 0 < j → j < n → (tally HMap.empty (l.take j)).len ≤ DenseArrayValue.maxSearch) : Tallied lay N mem n := by
  refine ⟨by omega, fun _ k hk => ?_, hstop.imp (fun h => h.trans hl) fun h => ⟨h8, ?_⟩⟩
  · by_cases h0 : k = 0
    · subst h0
      exact ⟨[], by simp, fun k hk => absurd hk (Nat.not_lt_zero k)⟩
    · refine ⟨(tally HMap.empty (l.take k)).entries.map fun e => val e.1, ?_, fun j hj => ?_⟩
      · rw [List.length_map]
        exact hbefore k (by omega) hk
      · have hjl : j < l.length := by omega
        refine List.mem_map.mpr ⟨(l[j], (l.take k).count l[j]), (tally_mem _ _ _).mpr ⟨?_, rfl⟩, hval j _ (List.getElem?_eq_getElem hjl)⟩
        exact List.mem_iff_getElem.mpr ⟨j, by rw [List.length_take]; omega, by rw [List.getElem_take]⟩
  · rintro ⟨L, hL1, hL2⟩
    have hle := tally_len_le (l.take n) (L.filterMap fun c => l.find? fun a => decide (val a = c)) fun a ha => by
      obtain ⟨j, hj, hje⟩ := List.mem_iff_getElem.mp ha
      rw [List.length_take] at hj
      rw [List.getElem_take] at hje
      have hjl : j < l.length := by omega
      have hv := hval j _ (List.getElem?_eq_getElem hjl)
      rw [hje] at hv
      refine List.mem_filterMap.mpr ⟨mem j, hL2 j (by omega), ?_⟩
      cases hf : l.find? fun a => decide (val a = mem j) with
      | none => exact absurd hv (by simpa using List.find?_eq_none.mp hf a (List.mem_of_mem_take ha))
      | some b =>
        have hb := List.find?_some hf
        rw [hinj b (List.mem_of_find?_eq_some hf) a (List.mem_of_mem_take ha) (by rw [hv]; simpa using hb)]
    have := List.length_filterMap_le (fun c => l.find? fun a => decide (val a = c)) L
    have h3 : DenseArrayValue.maxSearch = 2 ^ 20 := rfl
    omega

/-- The choice made by the hash table of counters. -/
theorem elected_of_table {α : Type} [DecidableEq α] (env : HashEnv) {l : List α} {mem : Nat → Nat} {val : α → Nat} (h8 : lay = .words ∨ lay = .wide)
    (hN : 0 < N)
    (hl : l.length = N) (hval : ∀ n b, l[n]? = some b → val b = mem n) (hinj : ∀ a ∈ l, ∀ b ∈ l, val a = val b → a = b) :
    ∃ x, DenseArrayValue.maxByCount (env.order (DenseArrayValue.countLoop HMap.empty l).entries) = some x ∧ x.1 ∈ l ∧
      Elected lay N mem (val x.1) := by
  have hne : l ≠ [] := by
    intro he
    rw [he] at hl
    simp at hl
    omega
  obtain ⟨x, n, h1, h2, h3, h4, h5, h6, h7⟩ := count_default_prefix env l hne
  have hx := List.mem_of_mem_take h4
  refine ⟨x, h1, hx, ?_, ⟨n, tallied_of_table h8 hl hval hinj h3 h6 h7, fun y => ?_⟩, fun h => (by rw [h] at h8; rcases h8 with h8 | h8 <;> cases h8),
    fun h => (by rw [h] at h8; rcases h8 with h8 | h8 <;> cases h8)⟩
  · obtain ⟨k, hk, hke⟩ := List.mem_iff_getElem.mp hx
    exact ⟨k, by omega, (hval k _ (by rw [List.getElem?_eq_getElem hk, hke])).symm⟩
  · by_cases hy : ∃ j, j < n ∧ mem j = y
    · obtain ⟨j, hj, rfl⟩ := hy
      have hjl : j < l.length := by omega
      have hrj := hval j l[j] (List.getElem?_eq_getElem hjl)
      rw [← hrj, ← count_take hval hinj h3 (List.getElem_mem hjl), ← count_take hval hinj h3 hx]
      exact h5 _
    · rw [cellsUpTo_none fun n hn e => hy ⟨n, hn, e⟩]
      exact Nat.zero_le _

/-- The choice made by the byte counters: the last of the largest. -/
theorem elected_of_bytes {l : List Byte} {mem : Nat → Nat} (hp0 : 0 < N) (hl : l.length = N)
    (hval : ∀ n b, l[n]? = some b → b.toNat = mem n) (hb : ∀ b ∈ l, b.toNat < 8) :
    ∃ c x, DenseArrayValue.countU8 l 0 (N) (List.replicate 8 0) = ok c ∧
      DenseArrayValue.maxByCount ((List.range 8).zip c) = some x ∧ x.1 < 8 ∧ Elected .bytes N mem x.1 := by
  obtain ⟨c, hc1, hc2, hc3⟩ := countU8_count l (N) 0 (List.replicate 8 0) (by simp) (by omega) hb
  have hzl : ((List.range 8).zip c).length = 8 := by simp [hc2]
  have hne : (List.range 8).zip c ≠ [] := by
    intro he
    rw [he] at hzl
    cases hzl
  obtain ⟨x, hx1, hx2, hx3⟩ := maxByCount_mem _ hne
  obtain ⟨s, t, hst, hlast⟩ := maxByCount_last _ x hx1
  have hcount : ∀ j, j < 8 → c.getD j 0 = cellsUpTo N mem j := by
    intro j hj
    rw [hc3 j hj, List.drop_zero]
    have h0 : (List.replicate 8 0).getD j 0 = 0 := by
      rw [List.getD_eq_getElem?_getD, List.getElem?_replicate]
      split <;> rfl
    rw [h0, Nat.zero_add, cellsUpTo]
    have hmap : l = (List.range (N)).map fun n => l[n]?.getD 0#8 := by
      apply List.ext_getElem?
      intro k
      by_cases hk : k < N
      · rw [List.getElem?_map, List.getElem?_range hk, Option.map_some, List.getElem?_eq_getElem (by omega)]
        rfl
      · rw [List.getElem?_eq_none (by omega), List.getElem?_eq_none (by simp; omega)]
    have hcc : l.countP (fun b => decide (b.toNat = j)) =
        ((List.range (N)).map fun n => l[n]?.getD 0#8).countP (fun b => decide (b.toNat = j)) :=
      congrArg (List.countP fun b => decide (b.toNat = j)) hmap
    rw [hcc, List.countP_map]
    apply List.countP_congr
    intro k hk
    have hk' : k < l.length := by rw [hl]; exact List.mem_range.mp hk
    simp only [Function.comp_apply, List.getElem?_eq_getElem hk', Option.getD_some, decide_eq_true_eq]
    rw [hval k l[k] (List.getElem?_eq_getElem hk')]
  have hentry : ∀ q (hq : q < ((List.range 8).zip c).length), ((List.range 8).zip c)[q] = (q, cellsUpTo N mem q) := by
    intro q hq
    rw [hzl] at hq
    rw [← hcount q hq, List.getD_eq_getElem?_getD, List.getElem?_eq_getElem (by omega)]
    simp
  obtain ⟨q, hq, hqe⟩ := List.mem_iff_getElem.mp hx2
  rw [hentry q hq] at hqe
  rw [hzl] at hq
  have hmax : ∀ y, cellsUpTo N mem y ≤ cellsUpTo N mem q := by
    intro y
    by_cases hy : y < 8
    · have := hx3 (y, cellsUpTo N mem y) (List.mem_iff_getElem.mpr ⟨y, by omega, hentry y (by omega)⟩)
      rw [← hqe] at this
      exact this
    · rw [cellsUpTo_none]
      · exact Nat.zero_le _
      · intro n hn e
        have hn' : n < l.length := by omega
        have := hb _ (List.getElem_mem hn')
        rw [hval n l[n] (List.getElem?_eq_getElem hn')] at this
        omega
  refine ⟨c, x, hc1, hx1, by rw [← hqe]; exact hq, ?_⟩
  rw [← hqe]
  dsimp only
  refine ⟨?_, ⟨_, tallied_all (by simp), hmax⟩, fun h => (nomatch h), fun _ y hy => ?_⟩
  · apply Classical.byContradiction
    intro hno
    have h0 := cellsUpTo_none (N := N) (mem := mem) (y := q) fun n hn e => hno ⟨n, hn, e⟩
    have h2 := hmax (mem 0)
    have h3 := cellsUpTo_pos (mem := mem) hp0
    omega
  · apply Classical.byContradiction
    intro hgt
    by_cases hy8 : y < 8
    · -- the entry of `y` comes after the one of `q`
      have hs : s.length = q := by
        have hqs : s.length < ((List.range 8).zip c).length := by rw [hst]; simp
        have := hentry s.length hqs
        have h2 : ((List.range 8).zip c)[s.length]? = some x := by rw [hst]; simp
        rw [List.getElem?_eq_getElem hqs, this, ← hqe] at h2
        have := congrArg Prod.fst (Option.some.inj h2)
        exact this
      have hyt : (y, cellsUpTo N mem y) ∈ t := by
        have h2 : ((List.range 8).zip c)[y]? = some (y, cellsUpTo N mem y) := by
          rw [List.getElem?_eq_getElem (by omega), hentry y (by omega)]
        rw [hst, List.getElem?_append_right (by omega)] at h2
        have h3 : y - s.length = (y - s.length - 1) + 1 := by omega
        rw [h3, List.getElem?_cons_succ] at h2
        exact List.mem_of_getElem? h2
      have := hlast _ hyt
      rw [← hqe] at this
      dsimp only at this
      omega
    · have h2 : cellsUpTo N mem y = 0 := cellsUpTo_none fun n hn e => by
        have hn' : n < l.length := by omega
        have := hb _ (List.getElem_mem hn')
        rw [hval n l[n] (List.getElem?_eq_getElem hn')] at this
        omega
      have h3 := hmax (mem 0)
      have h4 := cellsUpTo_pos (mem := mem) hp0
      omega

/-- The choice made by the bit counters: one only if there are more ones than zeros. -/
theorem elected_of_bits {f : Nat → Bool} {mem : Nat → Nat} (hp0 : 0 < N) (hf : ∀ n, n < N → mem n = (f n).toNat) :
    Elected .bits N mem (decide ((List.range' 0 (N)).countP (fun j => f j) >
      (List.range' 0 (N)).countP (fun j => !f j))).toNat := by
  have h1 : (List.range' 0 (N)).countP (fun j => f j) = cellsUpTo N mem 1 := by
    rw [← List.range_eq_range', cellsUpTo]
    refine List.countP_congr fun k hk => ?_
    rw [hf k (List.mem_range.mp hk)]
    cases f k <;> simp
  have h0 : (List.range' 0 (N)).countP (fun j => !f j) = cellsUpTo N mem 0 := by
    rw [← List.range_eq_range', cellsUpTo]
    refine List.countP_congr fun k hk => ?_
    rw [hf k (List.mem_range.mp hk)]
    cases f k <;> simp
  rw [h0, h1]
  have hother : ∀ y, y ≠ 0 → y ≠ 1 → cellsUpTo N mem y = 0 := fun y hy0 hy1 => cellsUpTo_none fun n hn e => by
    rw [hf n hn] at e
    cases hb : f n
    · rw [hb] at e; exact hy0 e.symm
    · rw [hb] at e; exact hy1 e.symm
  have hpos : 0 < cellsUpTo N mem 0 ∨ 0 < cellsUpTo N mem 1 := by
    have := cellsUpTo_pos (mem := mem) hp0
    rw [hf 0 hp0] at this
    cases hb : f 0
    · rw [hb] at this; exact .inl this
    · rw [hb] at this; exact .inr this
  have hocc : ∀ z, 0 < cellsUpTo N mem z → ∃ n, n < N ∧ mem n = z := fun z hz => by
    apply Classical.byContradiction
    intro hno
    rw [cellsUpTo_none fun n hn e => hno ⟨n, hn, e⟩] at hz
    omega
  by_cases hgt : cellsUpTo N mem 1 > cellsUpTo N mem 0
  · rw [decide_eq_true hgt]
    refine ⟨hocc 1 (by omega), ⟨_, tallied_all (by simp), fun y => ?_⟩, fun _ y hy => ?_, fun h => (nomatch h)⟩
    · show cellsUpTo N mem y ≤ cellsUpTo N mem 1
      by_cases hy0 : y = 0
      · subst hy0; omega
      · by_cases hy1 : y = 1
        · subst hy1; omega
        · rw [hother y hy0 hy1]; exact Nat.zero_le _
    · show 1 ≤ y
      replace hy : cellsUpTo N mem y = cellsUpTo N mem 1 := hy
      by_cases hy0 : y = 0
      · subst hy0; omega
      · omega
  · rw [decide_eq_false hgt]
    refine ⟨hocc 0 (by omega), ⟨_, tallied_all (by simp), fun y => ?_⟩, fun _ y hy => Nat.zero_le _, fun h => (nomatch h)⟩
    show cellsUpTo N mem y ≤ cellsUpTo N mem 0
    by_cases hy0 : y = 0
    · subst hy0; omega
    · by_cases hy1 : y = 1
      · subst hy1; omega
      · rw [hother y hy0 hy1]; exact Nat.zero_le _

/-- The default that is picked for data of up to 8 bits is determined. -/
theorem Elected.unique {mem : Nat → Nat} {c c' : Nat} (h : Elected lay N mem c) (h' : Elected lay N mem c') (h8 : lay = .bits ∨ lay = .bytes) : c = c' := by
  obtain ⟨n, hn, hmax⟩ := h.frequent
  obtain ⟨n', hn', hmax'⟩ := h'.frequent
  have h9 : ¬ (lay = .words ∨ lay = .wide) := by rcases h8 with rfl | rfl <;> simp
  rw [hn.unique (tallied_all h9)] at hmax
  rw [hn'.unique (tallied_all h9)] at hmax'
  have he : cellsUpTo N mem c = cellsUpTo N mem c' := Nat.le_antisymm (hmax' c) (hmax c')
  rcases h8 with h1 | h1
  · exact Nat.le_antisymm (h.bit h1 c' he.symm) (h'.bit h1 c he)
  · exact Nat.le_antisymm (h'.byte h1 c he) (h.byte h1 c' he.symm)

/-- Every choice that is allowed is made by some hash table of counters. -/
theorem elected_any {α : Type} [DecidableEq α] {l : List α} {mem : Nat → Nat} {val : α → Nat} (h8 : lay = .words ∨ lay = .wide)
    (hl : l.length = N) (hval : ∀ n b, l[n]? = some b → val b = mem n) (hinj : ∀ a ∈ l, ∀ b ∈ l, val a = val b → a = b) {c : Nat}
    (hN : 0 < N) (hp : Elected lay N mem c) :
    ∃ env x, DenseArrayValue.maxByCount (HashEnv.order env (DenseArrayValue.countLoop HMap.empty l).entries) = some x ∧ x.1 ∈ l ∧
      val x.1 = c := by
  obtain ⟨n, h1, h2, h3, -, h5⟩ := countLoop_tally l HMap.empty
  obtain ⟨n', hn', hmax⟩ := hp.frequent
  have hcounted := tallied_of_table (lay := lay) h8 hl hval hinj h1 h3 h5
  rw [hn'.unique hcounted] at hmax
  have hpos : 0 < n := by
    rcases hcounted.stop with he | ⟨-, hf⟩
    · rw [he]; exact hN
    · cases n with
      | zero => exact absurd ⟨[], by simp, fun k hk => absurd hk (Nat.not_lt_zero k)⟩ hf
      | succ n => omega
  -- it is among the counted elements
  have hin : ∃ j, j < n ∧ mem j = c := by
    apply Classical.byContradiction
    intro hno
    have h0 := hmax (mem 0)
    rw [cellsUpTo_none (y := c) fun k hk e => hno ⟨k, hk, e⟩] at h0
    have : 0 < cellsUpTo n mem (mem 0) := by
      unfold cellsUpTo
      rw [List.countP_pos_iff]
      exact ⟨0, List.mem_range.mpr hpos, by simp⟩
    omega
  obtain ⟨j, hj, rfl⟩ := hin
  have hjl : j < l.length := by omega
  have hv := hval j _ (List.getElem?_eq_getElem hjl)
  have hmem : (l[j], (l.take n).count l[j]) ∈ (tally HMap.empty (l.take n)).entries :=
    (tally_mem _ _ _).mpr ⟨List.mem_iff_getElem.mpr ⟨j, by rw [List.length_take]; omega, by rw [List.getElem_take]⟩, rfl⟩
  obtain ⟨u, w, huw⟩ := List.append_of_mem hmem
  refine ⟨crowdedEnv (u.length + 1), (l[j], (l.take n).count l[j]), ?_, List.getElem_mem hjl, hv⟩
  have hord : (crowdedEnv (u.length + 1)).order (DenseArrayValue.countLoop HMap.empty l).entries =
      (w ++ u) ++ [(l[j], (l.take n).count l[j])] := by
    show List.drop _ _ ++ List.take _ _ = _
    rw [h2, huw, List.append_cons, List.drop_left' (by simp), List.take_left' (by simp), List.append_assoc]
  rw [hord]
  refine maxByCount_ends _ _ fun y hy => ?_
  have hy' : y ∈ (tally HMap.empty (l.take n)).entries := by
    rw [huw]
    rcases List.mem_append.mp hy with hy | hy <;> simp [hy]
  obtain ⟨hy1, hy2⟩ := (tally_mem _ y.1 y.2).mp hy'
  rw [hy2, count_take hval hinj h1 (List.mem_of_mem_take hy1), count_take hval hinj h1 (List.getElem_mem hjl), hv]
  exact hmax _


end

/-! ## Filling a sparse array -/

section
variable {el : Nat → Nat} {c : Nat}

/-- The entries after the first `N` elements, where numbers are kept. -/
def strewn (el : Nat → Nat) (c e N : Nat) : Nat → Option Nat := fun k => if k < N ∧ el k ≠ c ∧ el k ≠ e then some (el k) else none

theorem strewn_zero (e : Nat) : strewn el c e 0 = fun _ => none := by
  funext k
  unfold strewn
  rw [if_neg (by omega)]

theorem strewn_skip (e : Nat) {N : Nat} (h : el N = c) : strewn el c e (N + 1) = strewn el c e N := by
  funext k
  unfold strewn
  by_cases hk : k = N
  · subst hk
    rw [if_neg fun hh => hh.2.1 h, if_neg fun hh => hh.2.1 h]
  · by_cases hk' : k < N
    · simp only [hk', show k < N + 1 by omega]
    · simp only [hk', show ¬ k < N + 1 by omega]

theorem strewn_put (e : Nat) {N : Nat} (h : el N ≠ c) :
    strewn el c e (N + 1) = fun k => if k = N then (if el N = e then none else some (el N)) else strewn el c e N k := by
  funext k
  unfold strewn
  by_cases hk : k = N
  · subst hk
    rw [if_pos rfl]
    by_cases he : el k = e
    · rw [if_pos he, if_neg fun hh => hh.2.2 he]
    · rw [if_neg he, if_pos ⟨by omega, h, he⟩]
  · rw [if_neg hk]
    by_cases hk' : k < N
    · simp only [hk', show k < N + 1 by omega]
    · simp only [hk', show ¬ k < N + 1 by omega]

/-- One number is stored. -/
theorem strewn_store {iw dw N : Nat} {d x : Word} {map : HMap Word Word} (h : Tabled BitVec.toNat BitVec.toNat map (strewn el c d.toNat N))
    (hN : N < 2 ^ 64) (hx : x.toNat = el N) (hne : el N ≠ c) :
    ∃ map', (if x = d then ok (⟨iw, dw, .u64u64 d (map.remove (BitVec.ofNat 64 N))⟩ : SparseArrayValue)
      else ok ⟨iw, dw, .u64u64 d (map.insert (BitVec.ofNat 64 N) x)⟩) = ok ⟨iw, dw, .u64u64 d map'⟩ ∧
      Tabled BitVec.toNat BitVec.toNat map' (strewn el c d.toNat (N + 1)) := by
  rw [strewn_put _ hne]
  by_cases he : x = d
  · rw [if_pos he, if_pos (by rw [← hx, he])]
    have := h.remove word_inj (BitVec.ofNat 64 N)
    rw [ofNat64_toNat hN] at this
    exact ⟨_, rfl, this⟩
  · rw [if_neg he, if_neg (by rw [← hx]; exact fun hh => he (word_inj hh)), ← hx]
    have := h.insert word_inj (BitVec.ofNat 64 N) x
    rw [ofNat64_toNat hN] at this
    exact ⟨_, rfl, this⟩

/-- Numbers are stored where numbers are kept. -/
theorem storeWords_narrow {iw dw : Nat} {d cw : Word} (hc : cw.toNat = c) : ∀ (ds : List Word) (k : Nat) {map : HMap Word Word},
    k + ds.length ≤ 2 ^ 64 → (∀ j w, ds[j]? = some w → w.toNat = el (k + j)) → Tabled BitVec.toNat BitVec.toNat map (strewn el c d.toNat k) →
    ∃ map', DenseArrayValue.storeWords cw k ds ⟨iw, dw, .u64u64 d map⟩ = ok ⟨iw, dw, .u64u64 d map'⟩ ∧
      Tabled BitVec.toNat BitVec.toNat map' (strewn el c d.toNat (k + ds.length)) := by
  intro ds
  induction ds with
  | nil => intro k map _ _ h; exact ⟨map, rfl, h⟩
  | cons x ds ih =>
    intro k map hk hds h
    rw [List.length_cons] at hk ⊢
    have hx : x.toNat = el k := hds 0 x rfl
    have hds' : ∀ j w, ds[j]? = some w → w.toNat = el (k + 1 + j) := fun j w hj => by
      rw [hds (j + 1) w (by rw [List.getElem?_cons_succ]; exact hj)]
      congr 1
      omega
    rw [show k + (ds.length + 1) = k + 1 + ds.length by omega]
    unfold DenseArrayValue.storeWords
    by_cases he : x = cw
    · rw [if_neg (fun hh => hh he), ok_bind]
      refine ih (k + 1) (by omega) hds' ?_
      rw [strewn_skip _ (by rw [← hx, he, hc])]
      exact h
    · rw [if_pos he]
      obtain ⟨map', h1, h2⟩ := strewn_store (iw := iw) (dw := dw) h (by omega) hx (by rw [← hx, ← hc]; exact fun hh => he (word_inj hh))
      show ∃ _, (((if x = d then _ else _) : Res SparseArrayValue) >>= _) = _ ∧ _
      rw [h1, ok_bind]
      exact ih (k + 1) (by omega) hds' h2

/-- Numbers are stored where no numbers are kept. -/
theorem storeWords_other {s : SparseArrayValue} {cw : Word} (hc : cw.toNat = c) (hs : ∀ i x, Panics (s.storeU64U64 i x)) :
    ∀ (ds : List Word) (k : Nat), (∀ j w, ds[j]? = some w → w.toNat = el (k + j)) →
    ((∀ j, j < ds.length → el (k + j) = c) → DenseArrayValue.storeWords cw k ds s = ok s) ∧ (¬ (∀ j, j < ds.length → el (k + j) = c) → Panics (DenseArrayValue.storeWords cw k ds s)) := by
  intro ds
  induction ds with
  | nil =>
    intro k _
    exact ⟨fun _ => rfl, fun h => absurd (fun j hj => absurd hj (Nat.not_lt_zero j)) h⟩
  | cons x ds ih =>
    intro k hds
    have hx : x.toNat = el k := hds 0 x rfl
    have ih := ih (k + 1) fun j w hj => by
      rw [hds (j + 1) w (by rw [List.getElem?_cons_succ]; exact hj)]
      congr 1
      omega
    unfold DenseArrayValue.storeWords
    by_cases he : x = cw
    · rw [if_neg (fun hh => hh he), ok_bind]
      have hiff : (∀ j, j < (x :: ds).length → el (k + j) = c) ↔ ∀ j, j < ds.length → el (k + 1 + j) = c := by
        constructor
        · intro h j hj
          have := h (j + 1) (by rw [List.length_cons]; omega)
          rwa [show k + (j + 1) = k + 1 + j by omega] at this
        · intro h j hj
          rw [List.length_cons] at hj
          cases j with
          | zero => rw [Nat.add_zero, ← hx, he, hc]
          | succ j =>
            have := h j (by omega)
            rwa [show k + 1 + j = k + (j + 1) by omega] at this
      rw [hiff]
      exact ih
    · rw [if_pos he]
      exact ⟨fun hh => absurd (word_inj (by rw [hx, hc]; exact hh 0 (by simp))) he, fun _ => panics_bind (hs _ _) _⟩

/-- A new sparse array is filled with numbers. -/
theorem gathered_words {lay : CellLayout} (hlay : lay ≠ .wide) {iw N : Nat} (hiw : iw < 2 ^ 32) {v : BitVecValue} (hv : v.width < 2 ^ 32)
    (hv64 : v.shape.number < 2 ^ 64) {cw : Word}
    {ds : List Word} (hN : ds.length = N) (hN64 : N ≤ 2 ^ 64) (hds : ∀ j w, ds[j]? = some w → w.toNat = el j) (dw : Nat) :
    Fate (fun s h => Known118 (.sparse s) ⟨iw, v.width, h⟩) (SparseArrayValue.new iw v >>= fun out => DenseArrayValue.storeWords cw 0 ds out)
      (gathered lay iw dw N el cw.toNat v.shape) := by
  have hds0 : ∀ j w, ds[j]? = some w → w.toNat = el (0 + j) := by
    intro j w hj
    rw [Nat.zero_add]
    exact hds j w hj
  unfold gathered SparseArrayValue.new
  dsimp only
  by_cases hi : 64 < iw
  · rw [if_pos hi, if_pos (show iw > BITS from hi)]
    show Fate _ (DenseArrayValue.storeWords cw 0 ds ⟨iw, v.width, .bigbig v HMap.empty⟩) _
    have h := storeWords_other (el := el) (c := cw.toNat) rfl (s := ⟨iw, v.width, .bigbig v HMap.empty⟩) (fun i x => ⟨_, rfl⟩) ds 0 hds0
    rw [hN] at h
    simp only [Nat.zero_add] at h
    by_cases hall : ∀ k, k < N → el k = cw.toNat
    · rw [if_pos hall]
      refine ⟨_, h.1 hall, ?_, ⟨hiw, hv, hv, HMap.nodup_empty, fun e he => by cases he⟩, trivial⟩
      show (⟨iw, v.width, .long ⟨v.shape, _⟩⟩ : Account) = _
      rw [(valuesOf_tabled HMap.nodup_empty).unique Tabled.empty]
      rfl
    · rw [if_neg hall]
      exact h.2 hall
  · rw [if_neg hi, if_neg (show ¬ iw > BITS from hi)]
    by_cases hd : 64 < v.shape.width
    · rw [if_pos hd, if_pos (show v.width > BITS from hd)]
      show Fate _ (DenseArrayValue.storeWords cw 0 ds ⟨iw, v.width, .u64big v HMap.empty⟩) _
      have h := storeWords_other (el := el) (c := cw.toNat) rfl (s := ⟨iw, v.width, .u64big v HMap.empty⟩) (fun i x => ⟨_, rfl⟩) ds 0 hds0
      rw [hN] at h
      simp only [Nat.zero_add] at h
      by_cases hall : ∀ k, k < N → el k = cw.toNat
      · rw [if_pos (.inr hall)]
        refine ⟨_, h.1 hall, ?_, ⟨hiw, hv, hv, HMap.nodup_empty, fun e he => by cases he⟩, trivial⟩
        show (⟨iw, v.width, .broad ⟨v.shape, _⟩⟩ : Account) = _
        rw [(entriesOf_tabled BitVecValue.shape HMap.nodup_empty).unique Tabled.empty]
        congr 3
        funext k
        rw [if_neg fun hh => hh.2 (hall k hh.1)]
      · rw [if_neg fun hh => hh.elim hlay hall]
        exact h.2 hall
    · rw [if_neg hd, if_neg (show ¬ v.width > BITS from hd)]
      have hu := toU64_fate v
      rw [if_neg (by omega)] at hu
      obtain ⟨w, hw1, hw2⟩ := hu
      rw [hw1]
      show Fate _ (DenseArrayValue.storeWords cw 0 ds ⟨iw, v.width, .u64u64 w HMap.empty⟩) _
      obtain ⟨map', h1, h2⟩ := storeWords_narrow (el := el) (iw := iw) (dw := v.width) (d := w) (cw := cw) rfl ds 0 (by omega) hds0
        (map := HMap.empty) (by rw [strewn_zero]; exact Tabled.empty)
      rw [Nat.zero_add, hN] at h2
      refine ⟨_, h1, ?_, ⟨hiw, hv, h2.nodup⟩, trivial⟩
      show (⟨iw, v.width, .narrow ⟨w.toNat, _⟩⟩ : Account) = _
      rw [(entriesOf_tabled BitVec.toNat h2.nodup).unique h2, hw2]
      rfl

/-- The entries after the first `N` elements, where values are kept. -/
def strewnWide (dw : Nat) (el : Nat → Nat) (c N : Nat) : Nat → Option Shape := fun k => if k < N ∧ el k ≠ c then some ⟨dw, need dw, el k⟩ else none

theorem strewnWide_zero (dw : Nat) : strewnWide dw el c 0 = fun _ => none := by
  funext k
  unfold strewnWide
  rw [if_neg (by omega)]

theorem strewnWide_skip (dw : Nat) {N : Nat} (h : el N = c) : strewnWide dw el c (N + 1) = strewnWide dw el c N := by
  funext k
  unfold strewnWide
  by_cases hk : k = N
  · subst hk
    rw [if_neg fun hh => hh.2 h, if_neg fun hh => hh.2 h]
  · by_cases hk' : k < N
    · simp only [hk', show k < N + 1 by omega]
    · simp only [hk', show ¬ k < N + 1 by omega]

theorem strewnWide_put (dw : Nat) {N : Nat} (h : el N ≠ c) :
    strewnWide dw el c (N + 1) = fun k => if k = N then some ⟨dw, need dw, el N⟩ else strewnWide dw el c N k := by
  funext k
  unfold strewnWide
  by_cases hk : k = N
  · subst hk
    rw [if_pos rfl, if_pos ⟨by omega, h⟩]
  · rw [if_neg hk]
    by_cases hk' : k < N
    · simp only [hk', show k < N + 1 by omega]
    · simp only [hk', show ¬ k < N + 1 by omega]

section
variable {dw : Nat} {v : BitVecValue}

theorem same_shape_eq (m : Mode) (hv : v.shape = ⟨dw, need dw, c⟩) {x : BitVecValue} {y : Nat} (hx : x.shape = ⟨dw, need dw, y⟩) :
    BitVecValue.eqOwned m x v = ok (decide (y = c)) := by
  have hf : Fits m x v := fun _ _ => by
    have h1 : x.words.length = need dw := congrArg Shape.words hx
    have h2 : v.words.length = need dw := congrArg Shape.words hv
    rw [h1, h2]
  rw [hf.eqOwned]
  congr 1
  rw [decide_eq_decide]
  constructor
  · rintro rfl
    rw [hx] at hv
    exact (Shape.mk.inj hv).2.2
  · rintro rfl
    exact shape_inj (hx.trans hv.symm)

theorem same_shape_isEqual (m : Mode) (hv : v.shape = ⟨dw, need dw, c⟩) {x : BitVecValue} {y : Nat} (hx : x.shape = ⟨dw, need dw, y⟩) :
    BitVecValue.isEqual m x v = ok (decide (y = c)) := by
  have hc : Answers (BitVecValue.isEqual m x v) (if m = .debug ∧ (x.shape.width ≠ v.shape.width ∨ x.shape.words ≠ v.shape.words) then none
    else some (x.shape.equal v.shape)) := C105_comparison (a := x) (b := v) m .equal
  rw [if_neg (by rw [hx, hv]; simp)] at hc
  replace hc : BitVecValue.isEqual m x v = ok (x.shape.equal v.shape) := hc
  rw [hc]
  congr 1
  have hx1 : x.words.length = need dw := congrArg Shape.words hx
  have hx2 : wordsVal x.words = y := congrArg Shape.number hx
  have hv1 : v.words.length = need dw := congrArg Shape.words hv
  have hv2 : wordsVal v.words = c := congrArg Shape.number hv
  have hy : y < 2 ^ (64 * need dw) := by
    have := wordsVal_lt x.words
    rwa [hx1, hx2] at this
  have hcc : c < 2 ^ (64 * need dw) := by
    have := wordsVal_lt v.words
    rwa [hv1, hv2] at this
  rw [hx, hv]
  unfold Shape.equal
  dsimp only
  rw [Nat.min_self, Nat.mod_eq_of_lt hy, Nat.mod_eq_of_lt hcc]

/-- Values are stored where numbers are kept. -/
theorem storeBigs_narrow {iw vw : Nat} {d : Word} (hdw : dw ≤ 64) (hv : v.shape = ⟨dw, need dw, c⟩) :
    ∀ (ds : List BitVecValue) (k : Nat) {map : HMap Word Word},
    k + ds.length ≤ 2 ^ 64 → (∀ j (x : BitVecValue), ds[j]? = some x → x.shape = ⟨dw, need dw, el (k + j)⟩) →
    Tabled BitVec.toNat BitVec.toNat map (strewn el c d.toNat k) →
    ∃ map', DenseArrayValue.storeBigs m v k ds ⟨iw, vw, .u64u64 d map⟩ = ok ⟨iw, vw, .u64u64 d map'⟩ ∧
      Tabled BitVec.toNat BitVec.toNat map' (strewn el c d.toNat (k + ds.length)) := by
  intro ds
  induction ds with
  | nil => intro k map _ _ h; exact ⟨map, rfl, h⟩
  | cons x ds ih =>
    intro k map hk hds h
    rw [List.length_cons] at hk ⊢
    have hx : x.shape = ⟨dw, need dw, el k⟩ := hds 0 x rfl
    have hds' : ∀ j (y : BitVecValue), ds[j]? = some y → y.shape = ⟨dw, need dw, el (k + 1 + j)⟩ := fun j y hj => by
      rw [hds (j + 1) y (by rw [List.getElem?_cons_succ]; exact hj), show k + (j + 1) = k + 1 + j by omega]
    rw [show k + (ds.length + 1) = k + 1 + ds.length by omega]
    unfold DenseArrayValue.storeBigs
    rw [same_shape_eq m hv hx, ok_bind]
    by_cases he : el k = c
    · rw [decide_eq_true he, if_pos rfl, ok_bind]
      refine ih (k + 1) (by omega) hds' ?_
      rw [strewn_skip _ he]
      exact h
    · rw [decide_eq_false he, if_neg (by simp)]
      have hu := toU64_fate x
      have hlt : x.shape.number < 2 ^ 64 := by
        have h1 : x.words.length = need dw := congrArg Shape.words hx
        have h2 := wordsVal_lt x.words
        have h3 : 2 ^ (64 * x.words.length) ≤ 2 ^ 64 := Nat.pow_le_pow_right (by decide) (by rw [h1]; unfold need; omega)
        exact Nat.lt_of_lt_of_le h2 h3
      rw [if_neg (by omega)] at hu
      obtain ⟨w, hw1, hw2⟩ := hu
      obtain ⟨map', h1, h2⟩ := strewn_store (iw := iw) (dw := vw) (x := w) h (by omega) (by rw [hw2, hx]) he
      show ∃ _, ((unwrap x.toU64 >>= fun data => if data = d then _ else _) >>= _) = _ ∧ _
      rw [hw1, ok_bind]
      show ∃ _, (((if w = d then _ else _) : Res SparseArrayValue) >>= _) = _ ∧ _
      rw [h1, ok_bind]
      exact ih (k + 1) (by omega) hds' h2

/-- Values are stored where values are kept. -/
theorem storeBigs_broad {iw vw : Nat} (hv : v.shape = ⟨dw, need dw, c⟩) :
    ∀ (ds : List BitVecValue) (k : Nat) {map : HMap Word BitVecValue},
    k + ds.length ≤ 2 ^ 64 → (∀ j (x : BitVecValue), ds[j]? = some x → x.shape = ⟨dw, need dw, el (k + j)⟩) →
    Tabled BitVec.toNat BitVecValue.shape map (strewnWide dw el c k) →
    ∃ map', DenseArrayValue.storeBigs m v k ds ⟨iw, vw, .u64big v map⟩ = ok ⟨iw, vw, .u64big v map'⟩ ∧
      Tabled BitVec.toNat BitVecValue.shape map' (strewnWide dw el c (k + ds.length)) := by
  intro ds
  induction ds with
  | nil => intro k map _ _ h; exact ⟨map, rfl, h⟩
  | cons x ds ih =>
    intro k map hk hds h
    rw [List.length_cons] at hk ⊢
    have hx : x.shape = ⟨dw, need dw, el k⟩ := hds 0 x rfl
    have hds' : ∀ j (y : BitVecValue), ds[j]? = some y → y.shape = ⟨dw, need dw, el (k + 1 + j)⟩ := fun j y hj => by
      rw [hds (j + 1) y (by rw [List.getElem?_cons_succ]; exact hj), show k + (j + 1) = k + 1 + j by omega]
    rw [show k + (ds.length + 1) = k + 1 + ds.length by omega]
    unfold DenseArrayValue.storeBigs
    rw [same_shape_eq m hv hx, ok_bind]
    by_cases he : el k = c
    · rw [decide_eq_true he, if_pos rfl, ok_bind]
      refine ih (k + 1) (by omega) hds' ?_
      rw [strewnWide_skip _ he]
      exact h
    · rw [decide_eq_false he, if_neg (by simp)]
      show ∃ _, ((BitVecValue.isEqual m x v >>= fun e => if e then ok _ else ok _) >>= _) = _ ∧ _
      rw [same_shape_isEqual m hv hx, ok_bind, decide_eq_false he]
      refine ih (k + 1) (by omega) hds' ?_
      rw [strewnWide_put _ he, ← hx]
      have := h.insert word_inj (BitVec.ofNat 64 k) x
      rw [ofNat64_toNat (by omega)] at this
      exact this

/-- Values are stored where the index is long. -/
theorem storeBigs_other {s : SparseArrayValue} (hv : v.shape = ⟨dw, need dw, c⟩) (hs : ∀ i x, Panics (s.storeU64Big m i x)) :
    ∀ (ds : List BitVecValue) (k : Nat), (∀ j (x : BitVecValue), ds[j]? = some x → x.shape = ⟨dw, need dw, el (k + j)⟩) →
    ((∀ j, j < ds.length → el (k + j) = c) → DenseArrayValue.storeBigs m v k ds s = ok s) ∧ (¬ (∀ j, j < ds.length → el (k + j) = c) → Panics (DenseArrayValue.storeBigs m v k ds s)) := by
  intro ds
  induction ds with
  | nil =>
    intro k _
    exact ⟨fun _ => rfl, fun h => absurd (fun j hj => absurd hj (Nat.not_lt_zero j)) h⟩
  | cons x ds ih =>
    intro k hds
    have hx : x.shape = ⟨dw, need dw, el k⟩ := hds 0 x rfl
    have ih := ih (k + 1) fun j y hj => by
      rw [hds (j + 1) y (by rw [List.getElem?_cons_succ]; exact hj), show k + (j + 1) = k + 1 + j by omega]
    unfold DenseArrayValue.storeBigs
    rw [same_shape_eq m hv hx, ok_bind]
    by_cases he : el k = c
    · rw [decide_eq_true he, if_pos rfl, ok_bind]
      have hiff : (∀ j, j < (x :: ds).length → el (k + j) = c) ↔ ∀ j, j < ds.length → el (k + 1 + j) = c := by
        constructor
        · intro h j hj
          have := h (j + 1) (by rw [List.length_cons]; omega)
          rwa [show k + (j + 1) = k + 1 + j by omega] at this
        · intro h j hj
          rw [List.length_cons] at hj
          cases j with
          | zero => exact he
          | succ j =>
            have := h j (by omega)
            rwa [show k + 1 + j = k + (j + 1) by omega] at this
      rw [hiff]
      exact ih
    · rw [decide_eq_false he, if_neg (by simp)]
      exact ⟨fun hh => absurd (hh 0 (by simp)) he, fun _ => panics_bind (hs _ _) _⟩

/-- A new sparse array is filled with values. -/
theorem gathered_wide {iw N : Nat} (hiw : iw < 2 ^ 32) (hdl : dw < 2 ^ 32) (hv : v.shape = ⟨dw, need dw, c⟩)
    {ds : List BitVecValue} (hN : ds.length = N) (hN64 : N ≤ 2 ^ 64) (hds : ∀ j (x : BitVecValue), ds[j]? = some x → x.shape = ⟨dw, need dw, el j⟩) :
    Fate (fun s h => Known118 (.sparse s) ⟨iw, dw, h⟩) (SparseArrayValue.new iw v >>= fun out => DenseArrayValue.storeBigs m v 0 ds out)
      (gathered .wide iw dw N el c ⟨dw, need dw, c⟩) := by
  have hds0 : ∀ j (x : BitVecValue), ds[j]? = some x → x.shape = ⟨dw, need dw, el (0 + j)⟩ := by
    intro j w hj
    rw [Nat.zero_add]
    exact hds j w hj
  have hw : v.width = dw := congrArg Shape.width hv
  unfold gathered SparseArrayValue.new
  dsimp only
  rw [hw]
  by_cases hi : 64 < iw
  · rw [if_pos hi, if_pos (show iw > BITS from hi)]
    show Fate _ (DenseArrayValue.storeBigs m v 0 ds ⟨iw, dw, .bigbig v HMap.empty⟩) _
    have h := storeBigs_other (m := m) (el := el) hv (s := ⟨iw, dw, .bigbig v HMap.empty⟩) (fun i x => ⟨_, rfl⟩) ds 0 hds0
    rw [hN] at h
    simp only [Nat.zero_add] at h
    by_cases hall : ∀ k, k < N → el k = c
    · rw [if_pos hall]
      refine ⟨_, h.1 hall, ?_, ⟨hiw, hdl, by rw [hw]; exact hdl, HMap.nodup_empty, fun e he => by cases he⟩, trivial⟩
      show (⟨iw, dw, .long ⟨v.shape, _⟩⟩ : Account) = _
      rw [(valuesOf_tabled HMap.nodup_empty).unique Tabled.empty, hv]
      rfl
    · rw [if_neg hall]
      exact h.2 hall
  · rw [if_neg hi, if_neg (show ¬ iw > BITS from hi)]
    by_cases hd : 64 < dw
    · rw [if_pos hd, if_pos (show dw > BITS from hd), if_pos (.inl rfl)]
      show Fate _ (DenseArrayValue.storeBigs m v 0 ds ⟨iw, dw, .u64big v HMap.empty⟩) _
      obtain ⟨map', h1, h2⟩ := storeBigs_broad (m := m) (el := el) (iw := iw) (vw := dw) hv ds 0 (by omega) hds0
        (map := HMap.empty) (by rw [strewnWide_zero]; exact Tabled.empty)
      rw [Nat.zero_add, hN] at h2
      refine ⟨_, h1, ?_, ⟨hiw, hdl, by rw [hw]; exact hdl, h2.nodup, fun e he => ?_⟩, trivial⟩
      · show (⟨iw, dw, .broad ⟨v.shape, _⟩⟩ : Account) = _
        rw [(entriesOf_tabled BitVecValue.shape h2.nodup).unique h2, hv]
        rfl
      · have hg := h2.get e.1
        rw [(HMap.get_eq_some_iff h2.nodup _ _).mpr he] at hg
        unfold strewnWide at hg
        split at hg
        · have : e.2.width = dw := (congrArg Shape.width (Option.some.inj hg)).symm
          omega
        · cases hg
    · rw [if_neg hd, if_neg (show ¬ dw > BITS from hd)]
      have hlt : v.shape.number < 2 ^ 64 := by
        have h1 : v.words.length = need dw := congrArg Shape.words hv
        have h2 := wordsVal_lt v.words
        have h3 : 2 ^ (64 * v.words.length) ≤ 2 ^ 64 := Nat.pow_le_pow_right (by decide) (by rw [h1]; unfold need; omega)
        exact Nat.lt_of_lt_of_le h2 h3
      have hu := toU64_fate v
      rw [if_neg (by omega), hv] at hu
      obtain ⟨w, hw1, hw2⟩ := hu
      rw [hw1]
      show Fate _ (DenseArrayValue.storeBigs m v 0 ds ⟨iw, dw, .u64u64 w HMap.empty⟩) _
      obtain ⟨map', h1, h2⟩ := storeBigs_narrow (m := m) (el := el) (iw := iw) (vw := dw) (d := w) (by omega) hv ds 0 (by omega) hds0
        (map := HMap.empty) (by rw [strewn_zero]; exact Tabled.empty)
      rw [Nat.zero_add, hN] at h2
      refine ⟨_, h1, ?_, ⟨hiw, hdl, h2.nodup⟩, trivial⟩
      show (⟨iw, dw, .narrow ⟨w.toNat, _⟩⟩ : Account) = _
      rw [(entriesOf_tabled BitVec.toNat h2.nodup).unique h2, hw2]
      rfl

end
end

/-! ## The four layouts -/

section
variable {iw dw : Nat}

/-- An array that is always refused. -/
theorem sparse_refused {l : CellLayout} {span : Nat} {mem : Memory} {run : HashEnv → Res ArrayValue} (hp : ∀ env, Panics (run env))
    (h : ∀ n, l.elements m iw mem.count = some n → ¬ l.Legible dw n mem) :
    Exactly Known118 run (Account.MakesSparse m ⟨iw, dw, .dense l span mem⟩) := by
  refine Exactly.of none (fun r => ⟨?_, fun hr => .inl ⟨hr, h⟩⟩) hp
  rintro (⟨hr, -⟩ | ⟨n, c, hn, hl, -⟩)
  · exact hr
  · exact absurd hl (h n hn)

/-- An array that is converted. -/
theorem sparse_converted {l : CellLayout} {span : Nat} {mem : Memory} {run : HashEnv → Res ArrayValue} {n : Nat}
    (hn : l.elements m iw mem.count = some n) (hleg : l.Legible dw n mem)
    (hs : ∀ env, ∃ c, Elected l n (l.element dw mem.cell ·) c ∧ Fate Known118 (run env) ((l.standard m dw c).bind fun d =>
      (gathered l iw dw (l.copied n mem.count) (l.element dw mem.cell ·) c d).map fun h => ⟨iw, d.width, h⟩))
    (he : ∀ c, Elected l n (l.element dw mem.cell ·) c → ∃ env, Fate Known118 (run env) ((l.standard m dw c).bind fun d =>
      (gathered l iw dw (l.copied n mem.count) (l.element dw mem.cell ·) c d).map fun h => ⟨iw, d.width, h⟩)) :
    Exactly Known118 run (Account.MakesSparse m ⟨iw, dw, .dense l span mem⟩) := by
  constructor
  · intro env
    obtain ⟨c, h1, h2⟩ := hs env
    exact ⟨_, .inr ⟨n, c, hn, hleg, h1, rfl⟩, h2⟩
  · rintro r (⟨-, hr⟩ | ⟨n', c, hn', -, hc, rfl⟩)
    · exact absurd hleg (hr n hn)
    · rw [show l.elements m iw mem.count = some n' from hn'] at hn
      cases hn
      exact he c hc

theorem elementCount_pos {n : Nat} (h : elementCount m iw = some n) : 0 < n ∧ n < 2 ^ 64 := by
  have hp : iw % 64 < 64 := Nat.mod_lt _ (by decide)
  rw [elementCount_eq h]
  exact ⟨Nat.two_pow_pos _, Nat.pow_lt_pow_right (by decide) hp⟩

theorem numElements_refused (h : elementCount m iw = none) : Panics (numElements m iw) := by
  have := numElements_fate m iw
  rwa [h] at this

theorem numberAs_shape {w v : Nat} (hv : v < 2 ^ 64) {s : Shape} (h : numberAs m w v = some s) : s.width = w ∧ s.number < 2 ^ 64 := by
  unfold numberAs at h
  split at h
  · cases h
  · split at h
    · cases h; exact ⟨rfl, hv⟩
    · split at h
      · cases h
      · cases h
        exact ⟨rfl, Nat.lt_of_le_of_lt (Nat.mod_le _ _) hv⟩

theorem known_of_fate {x : Res SparseArrayValue} {o : Option Hoard} {w : Nat}
    (h : Fate (fun s h => Known118 (.sparse s) ⟨iw, w, h⟩) x o) :
    Fate Known118 (x >>= fun s => ok (ArrayValue.sparse s)) (o.map fun h => ⟨iw, w, h⟩) := by
  cases o with
  | none => exact panics_bind h _
  | some y =>
    obtain ⟨s, h1, h2⟩ := h
    rw [h1]
    exact ⟨_, rfl, h2⟩

/-- Words or bytes are stored, once the default is picked. -/
theorem words_fate {lay : CellLayout} (hlay : lay ≠ .wide) (hst : ∀ c, lay.standard m dw c = numberAs m dw c) (hiw : iw < 2 ^ 32) (hdl : dw < 2 ^ 32)
    {el : Nat → Nat} {N : Nat} {cw : Word} {ds : List Word} (hN : ds.length = N) (hN64 : N ≤ 2 ^ 64) (hds : ∀ j w, ds[j]? = some w → w.toNat = el j) :
    Fate Known118 ((BitVecValue.fromU64 m cw dw >>= fun bv => SparseArrayValue.new iw bv >>= fun out => DenseArrayValue.storeWords cw 0 ds out) >>=
        fun s => ok (ArrayValue.sparse s))
      ((lay.standard m dw cw.toNat).bind fun d => (gathered lay iw dw N el cw.toNat d).map fun h => ⟨iw, d.width, h⟩) := by
  rw [hst, res_bind_assoc]
  have h := numberAs_fate m hdl cw
  cases hn : numberAs m dw cw.toNat with
  | none =>
    rw [hn] at h
    exact panics_bind h _
  | some s =>
    rw [hn] at h
    obtain ⟨h1, h2⟩ := numberAs_shape cw.isLt hn
    obtain ⟨v, hv1, rfl, hv3⟩ := h
    rw [hv1, ok_bind, Option.bind_some]
    exact known_of_fate (gathered_words hlay hiw hv3 h2 hN hN64 hds dw)

/-! ### Bits -/

/-- A bit as a word. -/
def bitWord (b : Bool) : Word := if b then 1#64 else 0#64

theorem bitWord_toNat (b : Bool) : (bitWord b).toNat = b.toNat := by cases b <;> rfl

theorem isBitSet_fate (v : BitVecValue) (k : Nat) :
    (k % 2 ^ 32 < 64 * v.words.length → v.isBitSet (k % U32) = ok ((wordsVal v.words).testBit (k % 2 ^ 32))) ∧
    (¬ k % 2 ^ 32 < 64 * v.words.length → Panics (v.isBitSet (k % U32))) := by
  have h : Answers (v.isBitSet (k % 2 ^ 32)) (if k % 2 ^ 32 < 64 * v.words.length then some ((wordsVal v.words).testBit (k % 2 ^ 32)) else none) :=
    C105_test (a := v) .release (.bit (k % 2 ^ 32))
  constructor
  · intro hk
    rw [if_pos hk] at h
    exact h
  · intro hk
    rw [if_neg hk] at h
    exact h

theorem countBits_fate (v : BitVecValue) : ∀ (n k : Nat) (c : Nat × Nat),
    ((∀ j, k ≤ j → j < k + n → j % 2 ^ 32 < 64 * v.words.length) → DenseArrayValue.countBits v k n c =
      ok (c.1 + (List.range' k n).countP (fun j => !(wordsVal v.words).testBit (j % 2 ^ 32)),
        c.2 + (List.range' k n).countP (fun j => (wordsVal v.words).testBit (j % 2 ^ 32)))) ∧
    (¬ (∀ j, k ≤ j → j < k + n → j % 2 ^ 32 < 64 * v.words.length) → Panics (DenseArrayValue.countBits v k n c)) := by
  intro n
  induction n with
  | zero => exact fun k c => ⟨fun _ => rfl, fun h => absurd (fun j h1 h2 => by omega) h⟩
  | succ n ih =>
    intro k c
    unfold DenseArrayValue.countBits
    obtain ⟨hb1, hb2⟩ := isBitSet_fate v k
    by_cases hk : k % 2 ^ 32 < 64 * v.words.length
    · rw [hb1 hk, ok_bind]
      have hiff : (∀ j, k ≤ j → j < k + (n + 1) → j % 2 ^ 32 < 64 * v.words.length) ↔
          ∀ j, k + 1 ≤ j → j < k + 1 + n → j % 2 ^ 32 < 64 * v.words.length := by
        constructor
        · exact fun h j h1 h2 => h j (by omega) (by omega)
        · intro h j h1 h2
          by_cases hj : j = k
          · rw [hj]; exact hk
          · exact h j (by omega) (by omega)
      rw [hiff]
      refine ⟨fun h => ?_, fun h => (ih (k + 1) _).2 h⟩
      rw [(ih (k + 1) _).1 h, List.range'_succ, List.countP_cons, List.countP_cons]
      cases (wordsVal v.words).testBit (k % 2 ^ 32) with
      | true => simp; omega
      | false => simp; omega
    · exact ⟨fun h => absurd (h k (by omega) (by omega)) hk, fun _ => panics_bind (hb2 hk) _⟩

theorem storeBits_eq (v : BitVecValue) (b : Bool) : ∀ (n k : Nat) (out : SparseArrayValue),
    (∀ j, k ≤ j → j < k + n → j % 2 ^ 32 < 64 * v.words.length) → DenseArrayValue.storeBits v b k n out =
      DenseArrayValue.storeWords (bitWord b) k ((List.range' k n).map fun j => bitWord ((wordsVal v.words).testBit (j % 2 ^ 32))) out := by
  intro n
  induction n with
  | zero => exact fun k out _ => rfl
  | succ n ih =>
    intro k out h
    rw [List.range'_succ, List.map_cons]
    unfold DenseArrayValue.storeBits DenseArrayValue.storeWords
    rw [(isBitSet_fate v k).1 (h k (by omega) (by omega)), ok_bind]
    simp only [ih (k + 1) _ fun j h1 h2 => h j (by omega) (by omega)]
    congr 1
    cases (wordsVal v.words).testBit (k % 2 ^ 32) <;> cases b <;> rfl

theorem doc_sparse_bits {v : BitVecValue} (ha : Acceptable (.dense ⟨iw, dw, .bit v⟩)) :
    Exactly Known118 (fun env => ConvOp.toSparse.run m env (.dense ⟨iw, dw, .bit v⟩)) (Account.MakesSparse m ⟨iw, dw, .dense .bits v.width (bitsOf v)⟩) := by
  obtain ⟨hiw, hdl, hv⟩ := ha
  have hrun : ∀ env, ConvOp.toSparse.run m env (.dense ⟨iw, dw, .bit v⟩) = ((numElements m iw >>= fun n => DenseArrayValue.countBits v 0 n (0, 0) >>= fun c =>
      BitVecValue.fromBool m (decide (c.2 > c.1)) >>= fun bv => SparseArrayValue.new iw bv >>= fun out =>
      DenseArrayValue.storeBits v (decide (c.2 > c.1)) 0 n out) >>= fun s => ok (.sparse s)) := fun _ => rfl
  cases hn : elementCount m iw with
  | none =>
    refine sparse_refused (fun env => ?_) fun n hh => ?_
    · rw [hrun]
      exact panics_bind (panics_bind (numElements_refused hn) _) _
    · rw [show CellLayout.elements m iw _ .bits = elementCount m iw from rfl, hn] at hh
      cases hh
  | some n =>
    have hne := numElements_of hn
    by_cases hleg : ∀ k, k < n → k % 2 ^ 32 < 64 * v.words.length
    · have hleg' : ∀ j, 0 ≤ j → j < 0 + n → j % 2 ^ 32 < 64 * v.words.length := fun j _ hj => hleg j (by omega)
      have hel := elected_of_bits (N := n) (f := fun j => (wordsVal v.words).testBit (j % 2 ^ 32))
        (mem := fun k => CellLayout.element dw (bitsOf v).cell k .bits) (elementCount_pos hn).1 fun _ _ => rfl
      generalize hb : decide ((List.range' 0 n).countP (fun j => (wordsVal v.words).testBit (j % 2 ^ 32)) >
        (List.range' 0 n).countP (fun j => !(wordsVal v.words).testBit (j % 2 ^ 32))) = b at hel
      have hfate : ∀ env, Fate Known118 (ConvOp.toSparse.run m env (.dense ⟨iw, dw, .bit v⟩))
          ((CellLayout.standard m dw b.toNat .bits).bind fun d => (gathered .bits iw dw (CellLayout.copied n (bitsOf v).count .bits)
            (fun k => CellLayout.element dw (bitsOf v).cell k .bits) b.toNat d).map fun h => ⟨iw, d.width, h⟩) := by
        intro env
        rw [hrun, hne, ok_bind, (countBits_fate v n 0 (0, 0)).1 hleg', ok_bind]
        dsimp only
        rw [Nat.zero_add, Nat.zero_add, hb]
        obtain ⟨r, hr1, hr2⟩ := raw_from_bool m b
        rw [hr1, ok_bind]
        simp only [storeBits_eq v b n 0 _ hleg']
        have hs : r.shape = ⟨1, 1, b.toNat⟩ := hr2.shape_eq
        have hw : r.width = 1 := hr2.width_eq
        have h := gathered_words (lay := .bits) (by decide) hiw (v := r) (by rw [hw]; decide)
          (by rw [hs]; cases b <;> decide) (cw := bitWord b) (N := n)
          (ds := (List.range' 0 n).map fun j => bitWord ((wordsVal v.words).testBit (j % 2 ^ 32)))
          (by rw [List.length_map, List.length_range']) (Nat.le_of_lt (elementCount_pos hn).2)
          (el := fun k => CellLayout.element dw (bitsOf v).cell k .bits) (fun j w hj => by
            rw [List.getElem?_map] at hj
            by_cases hjn : j < n
            · rw [List.getElem?_range' hjn] at hj
              have := Option.some.inj hj
              rw [← this, bitWord_toNat, Nat.one_mul, Nat.zero_add]
              rfl
            · rw [List.getElem?_eq_none (by simp; omega)] at hj
              cases hj) dw
        rw [bitWord_toNat, hs, hw] at h
        exact known_of_fate h
      refine sparse_converted hn hleg (fun env => ⟨_, hel, hfate env⟩) fun c hc => ⟨listEnv, ?_⟩
      rw [hc.unique hel (.inl rfl)]
      exact hfate _
    · refine sparse_refused (fun env => ?_) fun n' hh => ?_
      · rw [hrun, hne, ok_bind]
        exact panics_bind (panics_bind ((countBits_fate v n 0 (0, 0)).2 fun hh => hleg fun k hk => hh k (Nat.zero_le k) (by omega)) _) _
      · rw [show CellLayout.elements m iw _ .bits = elementCount m iw from rfl, hn] at hh
        cases hh
        exact hleg

/-! ### Bytes -/

theorem countU8_take (l : List Byte) (N : Nat) : ∀ (n k : Nat) (c : List Nat), k + n ≤ N →
    DenseArrayValue.countU8 l k n c = DenseArrayValue.countU8 (l.take N) k n c := by
  intro n
  induction n with
  | zero => exact fun k c _ => rfl
  | succ n ih =>
    intro k c hk
    unfold DenseArrayValue.countU8
    have : idx l k = idx (l.take N) k := by
      unfold idx
      rw [List.getElem?_take_of_lt (by omega)]
    rw [this]
    simp only [ih (k + 1) _ (show k + 1 + n ≤ N by omega)]

theorem countU8_short (l : List Byte) : ∀ (n k : Nat) (c : List Nat), l.length < k + n → Panics (DenseArrayValue.countU8 l k n c) ∨ l.length < k := by
  intro n
  induction n with
  | zero => exact fun k c h => .inr (by omega)
  | succ n ih =>
    intro k c hk
    unfold DenseArrayValue.countU8
    by_cases h : k < l.length
    · left
      refine panics_bind_of _ fun d _ => panics_bind_of _ fun x _ => panics_bind_of _ fun c' _ => ?_
      exact (ih (k + 1) c' (by omega)).resolve_right (by omega)
    · left
      rw [idx_none (by omega)]
      exact ⟨_, rfl⟩

theorem doc_sparse_bytes {l : List Byte} (ha : Acceptable (.dense ⟨iw, dw, .u8 l⟩)) (hm : l.length < 2 ^ 64) :
    Exactly Known118 (fun env => ConvOp.toSparse.run m env (.dense ⟨iw, dw, .u8 l⟩)) (Account.MakesSparse m ⟨iw, dw, .dense .bytes 0 (cellsOf l)⟩) := by
  obtain ⟨hiw, hdl, -⟩ := ha
  dsimp only at hiw hdl
  have hrun : ∀ env, ConvOp.toSparse.run m env (.dense ⟨iw, dw, .u8 l⟩) = ((numElements m iw >>= fun n =>
      DenseArrayValue.countU8 l 0 n (List.replicate 8 0) >>= fun count => unwrap (DenseArrayValue.maxByCount ((List.range 8).zip count)) >>= fun mx =>
      BitVecValue.fromU64 m ((BitVec.ofNat 8 mx.1).setWidth 64) dw >>= fun bv => SparseArrayValue.new iw bv >>= fun out =>
      DenseArrayValue.storeWords ((BitVec.ofNat 8 mx.1).setWidth 64) 0 (l.map fun b => b.setWidth 64) out) >>= fun s => ok (.sparse s)) := fun _ => rfl
  cases hn : elementCount m iw with
  | none =>
    refine sparse_refused (fun env => ?_) fun n hh => ?_
    · rw [hrun]
      exact panics_bind (panics_bind (numElements_refused hn) _) _
    · rw [show CellLayout.elements m iw _ .bytes = elementCount m iw from rfl, hn] at hh
      cases hh
  | some n =>
    have hne := numElements_of hn
    by_cases hleg : CellLayout.Legible dw n (cellsOf l) .bytes
    · obtain ⟨hle, h8⟩ := hleg
      replace hle : n ≤ l.length := hle
      have hcell : ∀ j b, l[j]? = some b → b.toNat = (cellsOf l).cell j := by
        intro j b hj
        show _ = ((l[j]?).map BitVec.toNat).getD 0
        rw [hj]
        rfl
      have htake : ∀ j b, (l.take n)[j]? = some b → j < n ∧ l[j]? = some b := by
        intro j b hj
        by_cases h : j < n
        · rw [List.getElem?_take_of_lt h] at hj
          exact ⟨h, hj⟩
        · rw [List.getElem?_eq_none (by rw [List.length_take]; omega)] at hj
          cases hj
      obtain ⟨c, x, hc1, hc2, hc3, hc4⟩ := elected_of_bytes (N := n) (l := l.take n) (mem := (cellsOf l).cell) (elementCount_pos hn).1
        (by rw [List.length_take]; omega) (fun j b hj => hcell j b (htake j b hj).2) (fun b hb => by
          obtain ⟨j, hj⟩ := List.mem_iff_getElem?.mp hb
          rw [hcell j b (htake j b hj).2]
          exact h8 j (htake j b hj).1)
      have hx : ((BitVec.ofNat 8 x.1).setWidth 64).toNat = x.1 := by
        rw [setWidth64_toNat (by decide), BitVec.toNat_ofNat, Nat.mod_eq_of_lt (by omega)]
      have hfate : ∀ env, Fate Known118 (ConvOp.toSparse.run m env (.dense ⟨iw, dw, .u8 l⟩))
          ((CellLayout.standard m dw x.1 .bytes).bind fun d => (gathered .bytes iw dw (CellLayout.copied n (cellsOf l).count .bytes)
            (fun k => CellLayout.element dw (cellsOf l).cell k .bytes) x.1 d).map fun h => ⟨iw, d.width, h⟩) := by
        intro env
        rw [hrun, hne, ok_bind, countU8_take l n n 0 _ (by omega), hc1, ok_bind, hc2]
        show Fate _ ((BitVecValue.fromU64 m ((BitVec.ofNat 8 x.1).setWidth 64) dw >>= _) >>= _) _
        have h := words_fate (m := m) (lay := .bytes) (iw := iw) (by decide) (fun _ => rfl) hiw hdl (cw := (BitVec.ofNat 8 x.1).setWidth 64)
          (ds := l.map fun b => b.setWidth 64) (N := l.length) (by rw [List.length_map]) (Nat.le_of_lt hm)
          (el := fun k => CellLayout.element dw (cellsOf l).cell k .bytes) fun j w hj => by
            rw [List.getElem?_map] at hj
            cases hl : l[j]? with
            | none => rw [hl] at hj; cases hj
            | some b =>
              rw [hl] at hj
              rw [← Option.some.inj hj, setWidth64_toNat (by decide)]
              exact hcell j b hl
        rw [hx] at h
        exact h
      refine sparse_converted hn ⟨hle, h8⟩ (fun env => ⟨_, hc4, hfate env⟩) fun c hc => ⟨listEnv, ?_⟩
      rw [hc.unique hc4 (.inr rfl)]
      exact hfate _
    · refine sparse_refused (fun env => ?_) fun n' hh => ?_
      · rw [hrun, hne, ok_bind]
        refine panics_bind (panics_bind ?_ _) _
        by_cases hle : n ≤ l.length
        · rw [countU8_take l n n 0 _ (by omega)]
          refine countU8_panics _ n 0 _ (by simp) (by rw [List.length_take]; omega) ?_
          apply Classical.byContradiction
          intro hno
          refine hleg ⟨hle, fun k hk => ?_⟩
          obtain ⟨b, hb1, hb2⟩ := cellsOf_get (l := l) (i := k) (show k < l.length by omega)
          rw [← hb2]
          apply Classical.byContradiction
          intro h8
          exact hno ⟨k, Nat.zero_le k, b, by rw [List.getElem?_take_of_lt hk]; exact hb1, by omega⟩
        · exact (countU8_short l n 0 _ (by omega)).resolve_right (by omega)
      · rw [show CellLayout.elements m iw _ .bytes = elementCount m iw from rfl, hn] at hh
        cases hh
        exact hleg

/-! ### Words -/

theorem doc_sparse_words {l : List Word} (ha : Acceptable (.dense ⟨iw, dw, .u64 l⟩)) (hm : l.length < 2 ^ 64) :
    Exactly Known118 (fun env => ConvOp.toSparse.run m env (.dense ⟨iw, dw, .u64 l⟩)) (Account.MakesSparse m ⟨iw, dw, .dense .words 0 (cellsOf l)⟩) := by
  obtain ⟨hiw, hdl, -⟩ := ha
  dsimp only at hiw hdl
  have hrun : ∀ env : HashEnv, ConvOp.toSparse.run m env (.dense ⟨iw, dw, .u64 l⟩) = ((
      unwrap (DenseArrayValue.maxByCount (env.order (DenseArrayValue.countLoop HMap.empty l).entries)) >>= fun mx =>
      BitVecValue.fromU64 m mx.1 dw >>= fun bv => SparseArrayValue.new iw bv >>= fun out =>
      DenseArrayValue.storeWords mx.1 0 l out) >>= fun s => ok (.sparse s)) := fun _ => rfl
  have hcell : ∀ j b, l[j]? = some b → b.toNat = (cellsOf l).cell j := by
    intro j b hj
    show _ = ((l[j]?).map BitVec.toNat).getD 0
    rw [hj]
    rfl
  by_cases hpos : 0 < l.length
  · have hfate : ∀ (env : HashEnv) x, DenseArrayValue.maxByCount (env.order (DenseArrayValue.countLoop HMap.empty l).entries) = some x →
        Fate Known118 (ConvOp.toSparse.run m env (.dense ⟨iw, dw, .u64 l⟩))
          ((CellLayout.standard m dw x.1.toNat .words).bind fun d => (gathered .words iw dw (CellLayout.copied l.length (cellsOf l).count .words)
            (fun k => CellLayout.element dw (cellsOf l).cell k .words) x.1.toNat d).map fun h => ⟨iw, d.width, h⟩) := by
      intro env x hx
      rw [hrun, hx]
      show Fate _ ((BitVecValue.fromU64 m x.1 dw >>= _) >>= _) _
      exact words_fate (m := m) (lay := .words) (iw := iw) (by decide) (fun _ => rfl) hiw hdl (cw := x.1)
        (ds := l) (N := l.length) rfl (Nat.le_of_lt hm) (el := fun k => CellLayout.element dw (cellsOf l).cell k .words) hcell
    refine sparse_converted (n := l.length) rfl hpos (fun env => ?_) fun c hc => ?_
    · obtain ⟨x, hx1, -, hx3⟩ := elected_of_table (lay := .words) env (l := l) (val := BitVec.toNat) (.inl rfl) hpos rfl hcell fun a _ b _ h => word_inj h
      exact ⟨_, hx3, hfate env x hx1⟩
    · obtain ⟨env, x, hx1, -, rfl⟩ := elected_any (lay := .words) (l := l) (val := BitVec.toNat) (.inl rfl) rfl hcell (fun a _ b _ h => word_inj h) hpos hc
      exact ⟨env, hfate env x hx1⟩
  · have hl : l = [] := List.eq_nil_of_length_eq_zero (by omega)
    subst hl
    refine sparse_refused (fun env => ?_) fun n hh => ?_
    · rw [hrun]
      refine panics_bind (panics_bind ?_ _) _
      have : env.order (DenseArrayValue.countLoop HMap.empty ([] : List Word)).entries = [] :=
        List.Perm.eq_nil (env.order_perm _)
      rw [this]
      exact ⟨_, rfl⟩
    · cases hh
      exact hpos

/-! ### Wide data -/

theorem selectAll_doc (m : Mode) {l : List Word} (hm : l.length < 2 ^ 60) (hdl : dw < 2 ^ 32) :
    ∀ (n k : Nat), ((k + n) * need dw ≤ l.length → ∃ es, DenseArrayValue.selectAll m ⟨iw, dw, .big l⟩ k n = ok es ∧ es.length = n ∧
      ∀ j (b : BitVecValue), es[j]? = some b → b.shape = ⟨dw, need dw, gather (cellsOf l).cell (need dw * (k + j)) (need dw)⟩) ∧
      (k * need dw ≤ l.length → l.length < (k + n) * need dw → Panics (DenseArrayValue.selectAll m ⟨iw, dw, .big l⟩ k n)) := by
  have hf := cellsOf_holds l
  intro n
  induction n with
  | zero => intro k; exact ⟨fun _ => ⟨[], rfl, rfl, fun j b hj => by cases hj⟩, fun a b => by rw [Nat.add_zero] at b; omega⟩
  | succ n ih =>
    intro k
    have hneed : need dw < 2 ^ 32 := by unfold need; omega
    have hmul : (k + 1) * need dw = k * need dw + need dw := Nat.succ_mul _ _
    have hmul2 : (k + (n + 1)) * need dw = (k + 1 + n) * need dw := by rw [show k + (n + 1) = k + 1 + n by omega]
    have hmono : (k + 1) * need dw ≤ (k + 1 + n) * need dw := Nat.mul_le_mul_right _ (by omega)
    have hcomm : need dw * k = k * need dw := Nat.mul_comm _ _
    have hun : DenseArrayValue.selectUsize m ⟨iw, dw, .big l⟩ k = (mulC m U64 (need dw) k >>= fun start =>
        addC m U64 start (need dw) >>= fun end_ => sliceR l start end_ >>= fun ws => ok ⟨dw, ws⟩) := rfl
    by_cases hk : (k + 1) * need dw ≤ l.length
    · have hs : DenseArrayValue.selectUsize m ⟨iw, dw, .big l⟩ k = ok ⟨dw, (l.drop (need dw * k)).take (need dw)⟩ := by
        rw [hun, mulC_ok (by show _ < 18446744073709551616; omega), ok_bind,
          addC_ok (by show _ < 18446744073709551616; omega), ok_bind, sliceR_ok (by omega) (by omega), ok_bind,
          Nat.add_sub_cancel_left]
      have ih' := ih (k + 1)
      unfold DenseArrayValue.selectAll
      rw [hs, ok_bind]
      refine ⟨fun hle => ?_, fun _ hlt => panics_bind (ih'.2 hk (by omega)) _⟩
      obtain ⟨es, he1, he2, he3⟩ := ih'.1 (by omega)
      rw [he1, ok_bind]
      refine ⟨_, rfl, by simp [he2], fun j b hj => ?_⟩
      cases j with
      | zero =>
        cases hj
        show (⟨dw, _, wordsVal _⟩ : Shape) = _
        rw [gather_eq hf _ _ (by omega)]
        congr 1
        simp
        omega
      | succ j =>
        rw [List.getElem?_cons_succ] at hj
        have := he3 j b hj
        rwa [Nat.add_assoc, Nat.add_comm 1 j] at this
    · refine ⟨fun hle => by omega, fun hge _ => ?_⟩
      have hs : Panics (DenseArrayValue.selectUsize m ⟨iw, dw, .big l⟩ k) := by
        rw [hun, mulC_ok (by show _ < 18446744073709551616; omega), ok_bind,
          addC_ok (by show _ < 18446744073709551616; omega), ok_bind]
        exact panics_bind ⟨.bounds, by rw [sliceR, if_neg (by omega)]⟩ _
      unfold DenseArrayValue.selectAll
      exact panics_bind hs _

theorem doc_sparse_wide {l : List Word} (ha : Acceptable (.dense ⟨iw, dw, .big l⟩)) (hm : l.length < 2 ^ 60) :
    Exactly Known118 (fun env => ConvOp.toSparse.run m env (.dense ⟨iw, dw, .big l⟩)) (Account.MakesSparse m ⟨iw, dw, .dense .wide 0 (cellsOf l)⟩) := by
  obtain ⟨hiw, hdl, -⟩ := ha
  dsimp only at hiw hdl
  have hrun : ∀ env : HashEnv, ConvOp.toSparse.run m env (.dense ⟨iw, dw, .big l⟩) = ((numElements m iw >>= fun n =>
      DenseArrayValue.selectAll m ⟨iw, dw, .big l⟩ 0 n >>= fun es =>
      unwrap (DenseArrayValue.maxByCount (env.order (DenseArrayValue.countLoop HMap.empty es).entries)) >>= fun mx =>
      SparseArrayValue.new iw mx.1 >>= fun out =>
      DenseArrayValue.storeBigs m mx.1 0 es out) >>= fun s => ok (.sparse s)) := fun _ => rfl
  cases hn : elementCount m iw with
  | none =>
    refine sparse_refused (fun env => ?_) fun n hh => ?_
    · rw [hrun]
      exact panics_bind (panics_bind (numElements_refused hn) _) _
    · rw [show CellLayout.elements m iw _ .wide = elementCount m iw from rfl, hn] at hh
      cases hh
  | some n =>
    have hne := numElements_of hn
    obtain ⟨hs1, hs2⟩ := selectAll_doc (iw := iw) m hm hdl n 0
    rw [Nat.zero_add] at hs1 hs2
    by_cases hleg : n * need dw ≤ l.length
    · obtain ⟨es, he1, he2, he3⟩ := hs1 hleg
      replace he3 : ∀ j (b : BitVecValue), es[j]? = some b → b.shape = ⟨dw, need dw, CellLayout.element dw (cellsOf l).cell j .wide⟩ := by
        intro j b hj
        have := he3 j b hj
        rwa [Nat.zero_add] at this
      have hval : ∀ j (b : BitVecValue), es[j]? = some b → b.shape.number = CellLayout.element dw (cellsOf l).cell j .wide :=
        fun j b hj => by rw [he3 j b hj]
      have hmem : ∀ b ∈ es, b.shape = ⟨dw, need dw, b.shape.number⟩ := fun b hb => by
        obtain ⟨j, hj⟩ := List.mem_iff_getElem?.mp hb
        rw [he3 j b hj]
      have hinj : ∀ a ∈ es, ∀ b ∈ es, a.shape.number = b.shape.number → a = b := fun a ha b hb h => by
        apply shape_inj
        rw [hmem a ha, hmem b hb, h]
      have hfate : ∀ (env : HashEnv) x, DenseArrayValue.maxByCount (env.order (DenseArrayValue.countLoop HMap.empty es).entries) = some x →
          x.1 ∈ es → Fate Known118 (ConvOp.toSparse.run m env (.dense ⟨iw, dw, .big l⟩))
          ((CellLayout.standard m dw x.1.shape.number .wide).bind fun d => (gathered .wide iw dw (CellLayout.copied n (cellsOf l).count .wide)
            (fun k => CellLayout.element dw (cellsOf l).cell k .wide) x.1.shape.number d).map fun h => ⟨iw, d.width, h⟩) := by
        intro env x hx hxm
        rw [hrun, hne, ok_bind, he1, ok_bind, hx]
        exact known_of_fate (gathered_wide (m := m) hiw hdl (hmem _ hxm) he2 (Nat.le_of_lt (elementCount_pos hn).2) he3)
      refine sparse_converted hn hleg (fun env => ?_) fun c hc => ?_
      · obtain ⟨x, hx1, hx2, hx3⟩ := elected_of_table (lay := .wide) env (l := es) (val := fun b => b.shape.number) (.inr rfl) (elementCount_pos hn).1 he2 hval hinj
        exact ⟨_, hx3, hfate env x hx1 hx2⟩
      · obtain ⟨env, x, hx1, hx2, rfl⟩ := elected_any (lay := .wide) (l := es) (val := fun b => b.shape.number) (.inr rfl) he2 hval hinj (elementCount_pos hn).1 hc
        exact ⟨env, hfate env x hx1 hx2⟩
    · refine sparse_refused (fun env => ?_) fun n' hh => ?_
      · rw [hrun, hne, ok_bind]
        exact panics_bind (panics_bind (hs2 (by omega) (by omega)) _) _
      · rw [show CellLayout.elements m iw _ .wide = elementCount m iw from rfl, hn] at hh
        cases hh
        exact hleg

end

theorem doc_toSparse {a : ArrayValue} (ha : Acceptable a) (hm : a.account.InMemory) :
    Exactly Known118 (fun env => ConvOp.toSparse.run m env a) (a.account.MakesSparse m) := by
  cases a with
  | sparse s =>
    refine Exactly.of (some (ArrayValue.sparse s).account) (fun r => ?_) fun env => ⟨_, rfl, rfl, ha, ?_⟩
    · obtain ⟨iw, dw, data⟩ := s
      cases data <;> exact Iff.rfl
    · obtain ⟨iw, dw, data⟩ := s
      cases data <;> exact trivial
  | dense d =>
    obtain ⟨iw, dw, data⟩ := d
    cases data with
    | bit v => exact doc_sparse_bits ha
    | u8 l => exact doc_sparse_bytes ha hm
    | u64 l => exact doc_sparse_words ha hm
    | big l => exact doc_sparse_wide ha hm

end Baa

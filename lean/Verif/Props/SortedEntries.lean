import Verif.Props.Order
import Verif.Props.ArrayExact
import Verif.Props.HashOrder

/-!
# C130: sorting the entries of a sparse array
-/

namespace Baa
open Res

theorem compareEntries_eq_iff (a b : BitVecValue × BitVecValue) : compareEntries a b = .eq ↔ a = b := by
  unfold compareEntries
  rw [Ordering.then_eq_eq, C60_ord_total.1, C60_ord_total.1, Prod.ext_iff]

theorem compareEntries_swap (a b : BitVecValue × BitVecValue) : compareEntries b a = (compareEntries a b).swap := by
  unfold compareEntries
  rw [C60_ord_total.2.1 a.1 b.1, C60_ord_total.2.1 a.2 b.2, Ordering.swap_then]

theorem compareEntries_trans {a b c : BitVecValue × BitVecValue} (h1 : compareEntries a b = .lt) (h2 : compareEntries b c = .lt) :
    compareEntries a c = .lt := by
  unfold compareEntries at *
  rw [Ordering.then_eq_lt] at *
  rcases h1 with h1 | ⟨h1, h1'⟩ <;> rcases h2 with h2 | ⟨h2, h2'⟩
  · exact .inl (C60_ord_total.2.2 _ _ _ h1 h2)
  · rw [C60_ord_total.1] at h2
    exact .inl (h2 ▸ h1)
  · rw [C60_ord_total.1] at h1
    exact .inl (h1 ▸ h2)
  · rw [C60_ord_total.1] at h1 h2
    exact .inr ⟨(C60_ord_total.1 _ _).2 (h1.trans h2), C60_ord_total.2.2 _ _ _ h1' h2'⟩

theorem compareEntries_le_trans {a b c : BitVecValue × BitVecValue} (h1 : compareEntries a b ≠ .gt) (h2 : compareEntries b c ≠ .gt) :
    compareEntries a c ≠ .gt := by
  cases e1 : compareEntries a b with
  | gt => exact absurd e1 h1
  | eq => rwa [(compareEntries_eq_iff _ _).1 e1]
  | lt =>
    cases e2 : compareEntries b c with
    | gt => exact absurd e2 h2
    | eq => rwa [← (compareEntries_eq_iff _ _).1 e2]
    | lt => rw [compareEntries_trans e1 e2]; decide

theorem sortedEntries_unique {l l' : List (BitVecValue × BitVecValue)} (h : l.Perm l') (hl : SortedEntries l) (hl' : SortedEntries l') :
    l = l' := by
  refine List.Perm.eq_of_pairwise (le := fun a b => compareEntries a b ≠ .gt) ?_ hl hl' h
  intro a b _ _ h1 h2
  have hs := compareEntries_swap a b
  rw [← compareEntries_eq_iff]
  cases hc : compareEntries a b with
  | eq => rfl
  | gt => exact absurd hc h1
  | lt => rw [hc] at hs; exact absurd hs h2

/-- **C130** (sorting): every sequence of entries can be sorted in exactly one way. -/
theorem C130_sorting (l : List (BitVecValue × BitVecValue)) :
    ∃ k, l.Perm k ∧ SortedEntries k ∧ ∀ k', l.Perm k' → SortedEntries k' → k' = k := by
  have hp := List.mergeSort_perm l fun a b => compareEntries a b != .gt
  have hs : SortedEntries (l.mergeSort fun a b => compareEntries a b != .gt) := by
    have h := List.pairwise_mergeSort (le := fun a b => compareEntries a b != .gt) (fun a b c h1 h2 => by
      simp only [bne_iff_ne] at *
      exact compareEntries_le_trans h1 h2) (fun a b => by
      rw [compareEntries_swap a b]
      cases compareEntries a b <;> rfl) l
    exact h.imp fun h => by simpa using h
  exact ⟨_, hp.symm, hs, fun k' h1 h2 => sortedEntries_unique (h1.symm.trans hp.symm) h2 hs⟩

/-- **C130** (one array): the entries of a sparse array, sorted, are the same in every hash order. -/
theorem C130_predictable (m : Mode) (env env' : HashEnv) (s : SparseArrayValue) {l l' k k' : List (BitVecValue × BitVecValue)}
    (h : s.nonDefaultEntries m env = ok l) (h' : s.nonDefaultEntries m env' = ok l') (hk : l.Perm k) (hs : SortedEntries k)
    (hk' : l'.Perm k') (hs' : SortedEntries k') : k = k' := by
  obtain ⟨l'', h1, h2⟩ := C79_entries m env env' s h
  rw [h'] at h1
  cases h1
  exact sortedEntries_unique (hk.symm.trans (h2.trans hk')) hs hs'

/-- The listing of a legal array, where there is one, has the entries in some order. -/
theorem entries_listed {m : Mode} {env : HashEnv} {iw dw : Nat} {s : SparseArrayValue} {f : BitVec iw → BitVec dw} {x : BitVec dw}
    (hiw : iw < 2 ^ 32) (hdw : dw < 2 ^ 32) (hr : Reachable m (.sparse s) f) (hx : s.default m = ok (encode x))
    {l : List (BitVecValue × BitVecValue)} (h : s.nonDefaultEntries m env = ok l) : ListsEntries l f x := by
  rcases Nat.eq_zero_or_pos iw with rfl | hpos
  · obtain ⟨h1, h2⟩ := C57_no_index m env hdw hr hx
    by_cases hf : f 0#0 = x
    · rw [h1 hf] at h
      cases h
      refine ⟨.nil, fun k v => ⟨(fun h => nomatch h), fun ⟨i, hi, _⟩ => absurd ?_ hi⟩⟩
      rw [show i = 0#0 from BitVec.eq_of_getLsbD_eq fun j hj => absurd hj (by omega)]
      exact hf
    · obtain ⟨p, hp⟩ := h2 hf
      rw [h] at hp
      cases hp
  · obtain ⟨l', h1, h2⟩ := C57_entries_partial m env hpos hiw hdw hr hx
    rw [h] at h1
    cases h1
    exact h2

theorem ListsEntries.nodup {iw dw : Nat} {l : List (BitVecValue × BitVecValue)} {f : BitVec iw → BitVec dw} {x : BitVec dw}
    (h : ListsEntries l f x) : l.Nodup := by
  refine (List.pairwise_map.1 h.1).imp fun h e => h ?_
  rw [e]

theorem ListsEntries.mem_iff {iw dw : Nat} {l : List (BitVecValue × BitVecValue)} {f : BitVec iw → BitVec dw} {x : BitVec dw}
    (h : ListsEntries l f x) (hiw : iw < 2 ^ 32) (hdw : dw < 2 ^ 32) (e : BitVecValue × BitVecValue) :
    e ∈ l ↔ ∃ i, f i ≠ x ∧ e = (encode i, encode (f i)) := by
  obtain ⟨k, v⟩ := e
  rw [h.2]
  refine exists_congr fun i => and_congr_right fun _ => ?_
  constructor
  · rintro ⟨h1, h2⟩
    rw [h1.eq_encode, h2.eq_encode]
  · intro h
    cases h
    exact ⟨encode_denotes _ hiw, encode_denotes _ hdw⟩

theorem ListsEntries.perm {iw dw : Nat} {l l' : List (BitVecValue × BitVecValue)} {f : BitVec iw → BitVec dw} {x : BitVec dw}
    (h : ListsEntries l f x) (h' : ListsEntries l' f x) (hiw : iw < 2 ^ 32) (hdw : dw < 2 ^ 32) : l.Perm l' :=
  (List.perm_ext_iff_of_nodup h.nodup h'.nodup).2 fun e => by rw [h.mem_iff hiw hdw, h'.mem_iff hiw hdw]

/-- **C130** (two arrays): two sparse arrays with the same default, however they were made, have the same sorted entries exactly if
they have the same contents. -/
theorem C130_contents {m m' : Mode} {env env' : HashEnv} {iw dw : Nat} {s s' : SparseArrayValue} {f f' : BitVec iw → BitVec dw}
    {x : BitVec dw} (hiw : iw < 2 ^ 32) (hdw : dw < 2 ^ 32) (hr : Reachable m (.sparse s) f) (hr' : Reachable m' (.sparse s') f')
    (hx : s.default m = ok (encode x)) (hx' : s'.default m' = ok (encode x)) {l l' k k' : List (BitVecValue × BitVecValue)}
    (h : s.nonDefaultEntries m env = ok l) (h' : s'.nonDefaultEntries m' env' = ok l') (hk : l.Perm k) (hs : SortedEntries k)
    (hk' : l'.Perm k') (hs' : SortedEntries k') : k = k' ↔ f = f' := by
  have e := entries_listed hiw hdw hr hx h
  have e' := entries_listed hiw hdw hr' hx' h'
  constructor
  · rintro rfl
    have hm : ∀ e, e ∈ l ↔ e ∈ l' := fun e => (hk.trans hk'.symm).mem_iff
    funext i
    by_cases hi : f i = x
    · by_cases hi' : f' i = x
      · rw [hi, hi']
      · obtain ⟨j, h1, h2⟩ := (e.mem_iff hiw hdw _).1 ((hm _).2 ((e'.mem_iff hiw hdw _).2 ⟨i, hi', rfl⟩))
        cases encode_inj hiw (Prod.mk.inj h2).1
        exact absurd hi h1
    · obtain ⟨j, -, h2⟩ := (e'.mem_iff hiw hdw _).1 ((hm _).1 ((e.mem_iff hiw hdw _).2 ⟨i, hi, rfl⟩))
      cases encode_inj hiw (Prod.mk.inj h2).1
      exact encode_inj hdw (Prod.mk.inj h2).2
  · rintro rfl
    exact sortedEntries_unique (hk.symm.trans ((e.perm e' hiw hdw).trans hk')) hs hs'

/-- **C130** (order): the sorted entries of an array are in the order of C128 of their indices, each strictly before the next; the
elements play no role. -/
theorem C130_order {m : Mode} {env : HashEnv} {iw dw : Nat} {s : SparseArrayValue} {f : BitVec iw → BitVec dw} {x : BitVec dw}
    (hiw : iw < 2 ^ 32) (hdw : dw < 2 ^ 32) (hr : Reachable m (.sparse s) f) (hx : s.default m = ok (encode x))
    {l k : List (BitVecValue × BitVecValue)} (h : s.nonDefaultEntries m env = ok l) (hk : l.Perm k) (hs : SortedEntries k) :
    ∃ is : List (BitVec iw), k = is.map (fun i => (encode i, encode (f i))) ∧ (∀ i, i ∈ is ↔ f i ≠ x) ∧
      is.Pairwise fun i j => flipWords ((iw + 63) / 64) i.toNat < flipWords ((iw + 63) / 64) j.toNat := by
  have e := entries_listed hiw hdw hr hx h
  have hmem : ∀ e, e ∈ k ↔ ∃ i, f i ≠ x ∧ e = (encode i, encode (f i)) := fun y => by
    rw [← hk.mem_iff, e.mem_iff hiw hdw]
  have hnd : k.Nodup := hk.nodup_iff.1 e.nodup
  have key : ∀ k' : List (BitVecValue × BitVecValue), (∀ e ∈ k', ∃ i, f i ≠ x ∧ e = (encode i, encode (f i))) →
      ∃ is : List (BitVec iw), k' = is.map (fun i => (encode i, encode (f i))) := by
    intro k'
    induction k' with
    | nil => exact fun _ => ⟨[], rfl⟩
    | cons y k' ih =>
      intro hy
      obtain ⟨is, rfl⟩ := ih fun e he => hy e (.tail _ he)
      obtain ⟨i, -, rfl⟩ := hy y (.head _)
      exact ⟨i :: is, rfl⟩
  obtain ⟨is, rfl⟩ := key k fun y hy => (hmem y).1 hy
  refine ⟨is, rfl, fun i => ?_, ?_⟩
  · constructor
    · intro hi
      obtain ⟨j, h1, h2⟩ := (hmem _).1 (List.mem_map_of_mem (f := fun i => (encode i, encode (f i))) hi)
      cases encode_inj hiw (Prod.mk.inj h2).1
      exact h1
    · intro hi
      obtain ⟨j, h1, h2⟩ := List.mem_map.1 ((hmem _).2 ⟨i, hi, rfl⟩)
      cases encode_inj hiw (Prod.mk.inj h2).1
      exact h1
  · have h1 := (List.pairwise_map.1 hs).and (List.pairwise_map.1 hnd)
    refine h1.imp fun {i j} hij => ?_
    obtain ⟨hle, hne⟩ := hij
    have hc := C128_same_width (encode_denotes i hiw) (encode_denotes j hiw)
    have hij : i ≠ j := fun h => hne (by rw [h])
    unfold compareEntries at hle
    dsimp only at hle
    rw [← Nat.compare_eq_lt, ← hc]
    cases hcmp : (encode i).cmp (encode j) with
    | lt => rfl
    | eq => exact absurd (encode_inj hiw ((C60_ord_total.1 _ _).1 hcmp)) hij
    | gt => rw [hcmp] at hle; exact absurd rfl hle

/-- **C130** (narrow indices): with indices of up to 64 bits, sorting gives the entries in the order 0, 1, 2 and so on of the indices. -/
theorem C130_narrow {m : Mode} {env : HashEnv} {iw dw : Nat} {s : SparseArrayValue} {f : BitVec iw → BitVec dw} {x : BitVec dw}
    (hiw : iw ≤ 64) (hdw : dw < 2 ^ 32) (hr : Reachable m (.sparse s) f) (hx : s.default m = ok (encode x))
    {l k : List (BitVecValue × BitVecValue)} (h : s.nonDefaultEntries m env = ok l) (hk : l.Perm k) (hs : SortedEntries k) :
    k = entriesInTurn f x := by
  have hiw' : iw < 2 ^ 32 := by omega
  have e := entries_listed hiw' hdw hr hx h
  have hin : ListsEntries (entriesInTurn f x) f x := by
    have hlt : ∀ k, k ∈ List.range (2 ^ iw) → (BitVec.ofNat iw k).toNat = k := fun k hk => by
      rw [BitVec.toNat_ofNat, Nat.mod_eq_of_lt (List.mem_range.1 hk)]
    constructor
    · unfold entriesInTurn
      rw [List.map_map]
      refine List.pairwise_map.2 ?_
      refine (List.Pairwise.and_mem.1 (List.nodup_range.filter _)).imp fun {a b} h heq => ?_
      obtain ⟨ha, hb, hne⟩ := h
      have h1 := congrArg BitVec.toNat (encode_inj hiw' heq)
      rw [hlt a (List.mem_filter.1 ha).1, hlt b (List.mem_filter.1 hb).1] at h1
      exact hne h1
    · intro k v
      unfold entriesInTurn
      constructor
      · intro hm
        obtain ⟨n, hn, heq⟩ := List.mem_map.1 hm
        cases heq
        exact ⟨BitVec.ofNat iw n, by simpa using (List.mem_filter.1 hn).2, encode_denotes _ hiw', encode_denotes _ hdw⟩
      · rintro ⟨i, hi, h1, h2⟩
        have hi' : BitVec.ofNat iw i.toNat = i := by rw [BitVec.ofNat_toNat, BitVec.setWidth_eq]
        refine List.mem_map.2 ⟨i.toNat, List.mem_filter.2 ⟨List.mem_range.2 i.isLt, ?_⟩, ?_⟩
        · rw [hi']
          simpa using hi
        · rw [hi', h1.eq_encode, h2.eq_encode]
  refine sortedEntries_unique (hk.symm.trans (e.perm hin hiw' hdw)) hs ?_
  unfold SortedEntries entriesInTurn
  refine List.pairwise_map.2 ?_
  refine (List.Pairwise.and_mem.1 (List.pairwise_lt_range.filter _)).imp fun {a b} h => ?_
  obtain ⟨ha, hb, hab⟩ := h
  have hc := (C128_by_number iw hiw').2 hiw _ _ _ _ (encode_denotes (BitVec.ofNat iw a) hiw') (encode_denotes (BitVec.ofNat iw b) hiw')
  rw [BitVec.toNat_ofNat, BitVec.toNat_ofNat, Nat.mod_eq_of_lt (List.mem_range.1 (List.mem_filter.1 ha).1),
    Nat.mod_eq_of_lt (List.mem_range.1 (List.mem_filter.1 hb).1), Nat.compare_eq_lt.2 hab] at hc
  unfold compareEntries
  dsimp only
  rw [hc]
  exact fun h => nomatch h

/-- **C130** (increasing): the sorted entries have increasing indices for every array with indices of `iw` bits (and elements of at least
one bit) exactly if `iw` is at most 64. -/
theorem C130_increasing (m : Mode) (iw : Nat) (hiw : iw < 2 ^ 32) :
    (∀ (env : HashEnv) (dw : Nat) (s : SparseArrayValue) (f : BitVec iw → BitVec dw) (l k : List (BitVecValue × BitVecValue)),
      0 < dw → dw < 2 ^ 32 → Reachable m (.sparse s) f → s.nonDefaultEntries m env = ok l → l.Perm k → SortedEntries k → IncreasingEntries k) ↔
    iw ≤ 64 := by
  constructor
  · intro h
    apply Decidable.byContradiction
    intro hn
    have hst : ∀ {s s' : SparseArrayValue} {i v}, s.store m listEnv i v = ok s' →
        (ArrayValue.sparse s).store m listEnv i v = ok (.sparse s') := fun h => by
      unfold ArrayValue.store; dsimp only; rw [h]; rfl
    obtain ⟨s, h1, h2⟩ := sparse_new (iw := iw) (dw := 1) hiw (by decide) 0#1
    have hnew : ArrayValue.newSparse iw (encode 0#1) = ok (.sparse s) := by unfold ArrayValue.newSparse; rw [h1]; rfl
    have hr0 : Reachable m (.sparse s) (fun _ : BitVec iw => 0#1) := .newSparse _ _ hnew
    have hd0 := h2.default_of m (by decide)
    obtain ⟨x, e1, e2, -⟩ := C50_wide_store m listEnv (by omega) hiw (by decide) hr0 1#iw 1#1
    rw [hd0] at e1
    cases encode_inj (by decide) (Res.ok.inj e1)
    obtain ⟨s1, h3⟩ := e2 (by decide)
    have hr1 := Reachable.store _ _ _ 1#iw 1#1 hr0 (hst h3)
    have hd1 := (h2.store_sound m listEnv _ _ h3).default_of m (by decide)
    obtain ⟨x, e1, e2, -⟩ := C50_wide_store m listEnv (by omega) hiw (by decide) hr1 (BitVec.ofNat iw (2 ^ 64)) 1#1
    rw [hd1] at e1
    cases encode_inj (by decide) (Res.ok.inj e1)
    obtain ⟨s2, h4⟩ := e2 (by decide)
    have hr2 := Reachable.store _ _ _ (BitVec.ofNat iw (2 ^ 64)) 1#1 hr1 (hst h4)
    have hd2 := ((h2.store_sound m listEnv _ _ h3).store_sound m listEnv _ _ h4).default_of m (by decide)
    obtain ⟨l, h5, h6⟩ := C57_entries_partial m listEnv (by omega) hiw (by decide) hr2 hd2
    obtain ⟨k, hk, hs, -⟩ := C130_sorting l
    have hinc := h listEnv 1 s2 _ l k (by decide) (by decide) hr2 h5 hk hs
    obtain ⟨is, rfl, hmem, hord⟩ := C130_order hiw (by decide) hr2 hd2 h5 hk hs
    have hbig : 2 ^ 64 < 2 ^ iw := Nat.pow_lt_pow_right (by decide) (by omega)
    have n1 : (1#iw).toNat = 1 := by rw [BitVec.toNat_ofNat]; exact Nat.mod_eq_of_lt (by omega)
    have n2 : (BitVec.ofNat iw (2 ^ 64)).toNat = 2 ^ 64 := by rw [BitVec.toNat_ofNat]; exact Nat.mod_eq_of_lt hbig
    have hne : (1#iw) ≠ BitVec.ofNat iw (2 ^ 64) := fun he => by
      have := congrArg BitVec.toNat he
      rw [n1, n2] at this
      exact absurd this (by decide)
    have m1 : 1#iw ∈ is := (hmem _).2 (by unfold update; simp [hne])
    have m2 : BitVec.ofNat iw (2 ^ 64) ∈ is := (hmem _).2 (by unfold update; simp)
    have hboth := (List.pairwise_map.1 hinc).and hord
    have hsym := (hboth.imp (S := fun i j => ¬ (i = 1#iw ∧ j = BitVec.ofNat iw (2 ^ 64)) ∧ ¬ (j = 1#iw ∧ i = BitVec.ofNat iw (2 ^ 64)))
      fun {i j} hij => ⟨fun ⟨e1, e2⟩ => by
        subst e1 e2
        have hf := hij.2
        rw [n1, n2] at hf
        obtain ⟨n, hn'⟩ : ∃ n, (iw + 63) / 64 = n + 1 := ⟨(iw + 63) / 64 - 1, by omega⟩
        rw [hn'] at hf
        rw [flipWords, flipWords, ← Nat.compare_eq_lt, compare_digits (flipWords_lt _ _) (flipWords_lt _ _),
          show compare (1 % 2 ^ 64) (2 ^ 64 % 2 ^ 64) = .gt by decide] at hf
        exact absurd hf (fun h => nomatch h), fun ⟨e1, e2⟩ => by
        subst e1 e2
        have hf := hij.1 iw _ _ (encode_denotes _ hiw) (encode_denotes _ hiw)
        rw [n1, n2] at hf
        exact absurd hf (by decide)⟩)
    rw [List.pairwise_iff_getElem] at hsym
    obtain ⟨a, ha, e1⟩ := List.getElem_of_mem m1
    obtain ⟨b, hb, e2⟩ := List.getElem_of_mem m2
    rcases Nat.lt_trichotomy a b with hab | rfl | hab
    · exact (hsym a b ha hb hab).1 ⟨e1, e2⟩
    · exact hne (e1.symm.trans e2)
    · exact (hsym b a hb ha hab).2 ⟨e1, e2⟩
  · intro h64 env dw s f l k hpos hdw hr h hk hs
    rcases hr.inv hiw hdw with ⟨d', h', -⟩ | ⟨s', x, h', hinv⟩
    · cases h'
    · cases h'
      rw [C130_narrow h64 hdw hr (hinv.default_of m hpos) h hk hs]
      unfold IncreasingEntries entriesInTurn
      refine List.pairwise_map.2 ((List.Pairwise.and_mem.1 (List.pairwise_lt_range.filter _)).imp fun {a b} h w i j h1 h2 => ?_)
      obtain ⟨ha, hb, hab⟩ := h
      cases h1.width_eq
      rw [← h1.val_eq, ← h2.val_eq, (encode_denotes (BitVec.ofNat iw a) hiw).val_eq, (encode_denotes (BitVec.ofNat iw b) hiw).val_eq,
        BitVec.toNat_ofNat, BitVec.toNat_ofNat, Nat.mod_eq_of_lt (List.mem_range.1 (List.mem_filter.1 ha).1),
        Nat.mod_eq_of_lt (List.mem_range.1 (List.mem_filter.1 hb).1)]
      exact hab

/-- Two arrays with the same contents, made in different ways and listed in different orders: sorting gives the same entries. -/
example : ∃ s s' : SparseArrayValue,
    runOps .release listEnv (.sparse ⟨4, 8, .u64u64 5#64 HMap.empty⟩) [.store 9#4 1#8, .store 2#4 7#8, .store 3#4 7#8] = ok (.sparse s) ∧
    runOps .release listEnv (.sparse ⟨4, 8, .u64u64 5#64 HMap.empty⟩)
      [.store 9#4 1#8, .store 1#4 6#8, .store 2#4 7#8, .store 1#4 5#8, .store 3#4 7#8] = ok (.sparse s') ∧
    s.nonDefaultEntries .release listEnv ≠ s'.nonDefaultEntries .release reverseEnv ∧
    ∃ l l' k, s.nonDefaultEntries .release listEnv = ok l ∧ s'.nonDefaultEntries .release reverseEnv = ok l' ∧ l.Perm k ∧ l'.Perm k ∧
      SortedEntries k ∧ k = [(encode 2#4, encode 7#8), (encode 3#4, encode 7#8), (encode 9#4, encode 1#8)] := by
  refine ⟨_, _, rfl, rfl, ?_, _, _, [(encode 2#4, encode 7#8), (encode 3#4, encode 7#8), (encode 9#4, encode 1#8)], rfl, rfl, ?_, ?_, ?_, rfl⟩
  · intro h
    have h := congrArg (fun r : Res (List (BitVecValue × BitVecValue)) => match r with | .ok l => l | .panic _ => []) h
    exact absurd h (by decide +kernel)
  · decide +kernel
  · decide +kernel
  · unfold SortedEntries
    decide +kernel

end Baa

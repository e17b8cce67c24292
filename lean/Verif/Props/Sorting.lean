import Verif.Props.Blocks
import Verif.Props.Cache
import Verif.Props.Compare
import Verif.Spec.Sorting

/-!
# C156: a range of cells can be sorted and searched
-/

namespace Baa
open Res

variable {iw dw : Nat}

theorem getElem?_cellsFrom (f : BitVec iw → BitVec dw) (d : BitVec iw) (n k : Nat) :
    (cellsFrom f d n)[k]? = if k < n then some (f (d + BitVec.ofNat iw k)) else none := by
  unfold cellsFrom
  rw [List.getElem?_map]
  by_cases h : k < n
  · rw [if_pos h, List.getElem?_range h]; rfl
  · rw [if_neg h, List.getElem?_eq_none (by simpa using h)]; rfl

theorem length_cellsFrom (f : BitVec iw → BitVec dw) (d : BitVec iw) (n : Nat) : (cellsFrom f d n).length = n := by
  simp [cellsFrom]

theorem offset_inj {d : BitVec iw} {j k : Nat} (hj : j < 2 ^ iw) (hk : k < 2 ^ iw) (h : d + BitVec.ofNat iw j = d + BitVec.ofNat iw k) :
    j = k := by
  have := (BitVec.add_right_inj d).1 h
  have := congrArg BitVec.toNat this
  rwa [BitVec.toNat_ofNat, BitVec.toNat_ofNat, Nat.mod_eq_of_lt hj, Nat.mod_eq_of_lt hk] at this

/-- The cells outside a range of `n` cells from `d` on agree. -/
def SameOutside (f g : BitVec iw → BitVec dw) (d : BitVec iw) (n : Nat) : Prop := ∀ j, ¬ (j - d).toNat < n → g j = f j

theorem SameOutside.trans {f g h : BitVec iw → BitVec dw} {d : BitVec iw} {n : Nat} (a : SameOutside f g d n) (b : SameOutside g h d n) :
    SameOutside f h d n := fun j q => (b j q).trans (a j q)

theorem exchange_spec (m : Mode) (env : HashEnv) (h0 : 0 < iw) {p : BitVecValue} {d : BitVec iw} (hp : Denotes p d) {n : Nat} (hn : n ≤ 2 ^ iw)
    {a : ArrayValue} {f : BitVec iw → BitVec dw} (ha : Means m (.arr iw dw) a f) {pre post : List (BitVec dw)} {x y : BitVec dw}
    (hc : cellsFrom f d n = pre ++ x :: y :: post) :
    ∃ b g u v, exchange m env p a pre.length = ok b ∧ Means m (.arr iw dw) b g ∧ cellsFrom g d n = pre ++ u :: v :: post ∧
      SameOutside f g d n ∧ ((u = x ∧ v = y) ∨ (u = y ∧ v = x)) ∧ u.toNat ≤ v.toNat := by
  have hl : n = pre.length + 2 + post.length := by
    have := congrArg List.length hc
    rw [length_cellsFrom] at this
    simp at this
    omega
  have hx : f (d + BitVec.ofNat iw pre.length) = x := by
    have := congrArg (fun l => l[pre.length]?) hc
    simpa [getElem?_cellsFrom, show pre.length < n by omega] using this
  have hy : f (d + BitVec.ofNat iw (pre.length + 1)) = y := by
    have := congrArg (fun l => l[pre.length + 1]?) hc
    simpa [getElem?_cellsFrom, show pre.length + 1 < n by omega, List.getElem?_append] using this
  have hd : dw < 2 ^ 32 := ha.2.data_lt
  have hi := ha.2.index_le
  have e0 : exchange m env p a pre.length =
      (if decide (x.toNat > y.toNat) then do
        let a ← a.store m env (encode (d + BitVec.ofNat iw pre.length)) (encode y)
        a.store m env (encode (d + BitVec.ofNat iw (pre.length + 1))) (encode x)
      else ok a) := by
    rw [exchange, offsetBy_spec m h0 hi hp (by omega), ok_bind, offsetBy_spec m h0 hi hp (by omega), ok_bind, ha.select_eq, ok_bind,
      ha.select_eq, ok_bind, hx, hy, C16_is_greater m (encode_denotes x hd) (encode_denotes y hd), ok_bind]
  by_cases c : x.toNat > y.toNat
  · obtain ⟨b, b1, b2⟩ := ha.store_ex m env (d + BitVec.ofNat iw pre.length) y
    obtain ⟨b', b3, b4⟩ := b2.store_ex m env (d + BitVec.ofNat iw (pre.length + 1)) x
    refine ⟨b', _, y, x, ?_, b4, ?_, ?_, .inr ⟨rfl, rfl⟩, by omega⟩
    · rw [e0, if_pos (by simpa using c), b1, ok_bind, b3]
    · apply List.ext_getElem?
      intro t
      rw [getElem?_cellsFrom]
      have ht := congrArg (fun l => l[t]?) hc
      simp only [getElem?_cellsFrom] at ht
      by_cases q : t < n
      · rw [if_pos q] at ht ⊢
        by_cases q1 : t = pre.length + 1
        · subst q1
          rw [update_at]
          simp
        · rw [update_away fun e => q1 (offset_inj (by omega) (by omega) e)]
          by_cases q2 : t = pre.length
          · subst q2
            rw [update_at]
            simp
          · rw [update_away fun e => q2 (offset_inj (by omega) (by omega) e), ht]
            by_cases q3 : t < pre.length
            · rw [List.getElem?_append_left q3, List.getElem?_append_left q3]
            · obtain ⟨r, rfl⟩ : ∃ r, t = pre.length + (r + 2) := ⟨t - pre.length - 2, by omega⟩
              rw [List.getElem?_append_right (by omega), List.getElem?_append_right (by omega)]
              simp
      · rw [if_neg q, List.getElem?_eq_none (by simp; omega)]
    · intro j q
      rw [update_away, update_away]
      · rintro rfl
        exact q (by rw [(sub_toNat_eq_iff (k := pre.length) (by omega)).2 rfl]; omega)
      · rintro rfl
        exact q (by rw [(sub_toNat_eq_iff (k := pre.length + 1) (by omega)).2 rfl]; omega)
  · exact ⟨a, f, x, y, by rw [e0, if_neg (by simpa using c)], ha, hc, fun _ _ => rfl, .inl ⟨rfl, rfl⟩, by omega⟩

/-- A cell sinks to its place in the sorted cells below. -/
theorem exchanges_spec (m : Mode) (env : HashEnv) (h0 : 0 < iw) {p : BitVecValue} {d : BitVec iw} (hp : Denotes p d) {n : Nat}
    (hn : n ≤ 2 ^ iw) (k : Nat) : ∀ {a : ArrayValue} {f : BitVec iw → BitVec dw} (_ : Means m (.arr iw dw) a f) {s post : List (BitVec dw)}
    {x : BitVec dw} (_ : s.length = k) (_ : cellsFrom f d n = s ++ x :: post) (_ : s.Pairwise fun u v => u.toNat ≤ v.toNat),
    ∃ b g t, exchanges m env p a (List.range k).reverse = ok b ∧ Means m (.arr iw dw) b g ∧ cellsFrom g d n = t ++ post ∧
      SameOutside f g d n ∧ t.Perm (s ++ [x]) ∧ t.Pairwise fun u v => u.toNat ≤ v.toNat := by
  induction k with
  | zero =>
    intro a f ha s post x hs hc _
    obtain rfl := List.length_eq_zero_iff.1 hs
    exact ⟨a, f, [x], rfl, ha, hc, fun _ _ => rfl, .refl _, List.pairwise_singleton _ _⟩
  | succ k ih =>
    intro a f ha s post x hs hc ho
    obtain ⟨s', y, rfl⟩ : ∃ s' y, s = s' ++ [y] := ⟨s.dropLast, s.getLast (by rintro rfl; simp at hs), (List.dropLast_concat_getLast _).symm⟩
    have hs' : s'.length = k := by simpa using hs
    obtain ⟨ho1, -, ho2⟩ := List.pairwise_append.1 ho
    obtain ⟨b, g, u, v, e1, e2, e3, e4, e5, e6⟩ := exchange_spec m env h0 hp hn ha (pre := s') (x := y) (y := x) (post := post) (by simpa using hc)
    obtain ⟨b', g', t, i1, i2, i3, i4, i5, i6⟩ := ih e2 (s := s') (post := v :: post) (x := u) hs' e3 ho1
    refine ⟨b', g', t ++ [v], ?_, i2, by simpa using i3, e4.trans i4, ?_, ?_⟩
    · rw [List.range_succ, List.reverse_append, List.reverse_singleton, List.singleton_append, exchanges, ← hs', e1, ok_bind, hs', i1]
    · have h1 : (t ++ [v]).Perm (s' ++ [u] ++ [v]) := i5.append_right _
      refine h1.trans ?_
      rw [List.append_assoc, List.append_assoc]
      apply List.Perm.append_left
      rcases e5 with ⟨rfl, rfl⟩ | ⟨rfl, rfl⟩
      · exact .refl _
      · exact .swap _ _ _
    · refine List.pairwise_append.2 ⟨i6, List.pairwise_singleton _ _, ?_⟩
      intro z hz w hw
      obtain rfl := List.mem_singleton.1 hw
      rcases List.mem_append.1 (i5.subset hz) with q | q
      · have := ho2 z q y (by simp)
        rcases e5 with ⟨rfl, rfl⟩ | ⟨rfl, rfl⟩ <;> omega
      · obtain rfl := List.mem_singleton.1 q
        exact e6

theorem sortCells_spec (m : Mode) (env : HashEnv) (h0 : 0 < iw) {p : BitVecValue} {d : BitVec iw} (hp : Denotes p d) {n : Nat}
    (hn : n ≤ 2 ^ iw) (post : List (BitVec dw)) : ∀ {a : ArrayValue} {f : BitVec iw → BitVec dw} (_ : Means m (.arr iw dw) a f)
    {s : List (BitVec dw)} (_ : cellsFrom f d n = s ++ post) (_ : s.Pairwise fun u v => u.toNat ≤ v.toNat),
    ∃ b g, sortCells m env p a (List.range' s.length post.length) = ok b ∧ Means m (.arr iw dw) b g ∧ SameOutside f g d n ∧
      (cellsFrom g d n).Perm (s ++ post) ∧ (cellsFrom g d n).Pairwise fun u v => u.toNat ≤ v.toNat := by
  induction post with
  | nil =>
    intro a f ha s hc ho
    rw [List.append_nil] at hc
    exact ⟨a, f, rfl, ha, fun _ _ => rfl, by rw [hc, List.append_nil], hc ▸ ho⟩
  | cons x post ih =>
    intro a f ha s hc ho
    obtain ⟨b, g, t, i1, i2, i3, i4, i5, i6⟩ := exchanges_spec m env h0 hp hn s.length ha rfl hc ho
    obtain ⟨b', g', j1, j2, j3, j4, j5⟩ := ih i2 i3 i6
    refine ⟨b', g', ?_, j2, i4.trans j3, j4.trans ?_, j5⟩
    · rw [List.length_cons, List.range'_succ, sortCells, i1, ok_bind, ← j1, i5.length_eq]
      simp
    · have := i5.append_right post
      simpa using this

/-- **C156** Sorting orders a range of cells, keeps its contents and leaves the other cells alone. -/
theorem C156_sort (m : Mode) (env : HashEnv) (h0 : 0 < iw) {a : ArrayValue} {f : BitVec iw → BitVec dw} (ha : Means m (.arr iw dw) a f)
    {p : BitVecValue} {d : BitVec iw} (hp : Denotes p d) {n : Nat} (hn : n ≤ 2 ^ iw) :
    ∃ b g, sortBlock m env p a n = ok b ∧ Means m (.arr iw dw) b g ∧
      (cellsFrom g d n).Pairwise (fun x y => x.toNat ≤ y.toNat) ∧ (cellsFrom g d n).Perm (cellsFrom f d n) ∧
      ∀ j, ¬ (j - d).toNat < n → g j = f j := by
  obtain ⟨b, g, h1, h2, h3, h4, h5⟩ := sortCells_spec m env h0 hp hn (cellsFrom f d n) ha (s := []) rfl .nil
  refine ⟨b, g, ?_, h2, h5, h4, h3⟩
  rw [sortBlock, List.range_eq_range', ← h1, length_cellsFrom]
  rfl

theorem bisect_spec (m : Mode) (env : HashEnv) (h0 : 0 < iw) {a : ArrayValue} {f : BitVec iw → BitVec dw} (ha : Means m (.arr iw dw) a f)
    {p v : BitVecValue} {d : BitVec iw} {x : BitVec dw} (hp : Denotes p d) (hv : Denotes v x) {n : Nat} (hn : n ≤ 2 ^ iw)
    (hs : ∀ j k, j < k → k < n → (f (d + BitVec.ofNat iw j)).toNat ≤ (f (d + BitVec.ofNat iw k)).toNat) (fuel : Nat) :
    ∀ {lo hi : Nat}, hi ≤ lo + fuel → lo ≤ hi → hi ≤ n → (∀ k, k < lo → (f (d + BitVec.ofNat iw k)).toNat < x.toNat) →
      (∀ k, hi ≤ k → k < n → x.toNat ≤ (f (d + BitVec.ofNat iw k)).toNat) →
      ∃ r, bisect m env p v a fuel lo hi = ok r ∧ r ≤ n ∧ (∀ k, k < r → (f (d + BitVec.ofNat iw k)).toNat < x.toNat) ∧
        ∀ k, r ≤ k → k < n → x.toNat ≤ (f (d + BitVec.ofNat iw k)).toNat := by
  induction fuel with
  | zero =>
    intro lo hi h1 h2 h3 h4 h5
    obtain rfl : lo = hi := by omega
    exact ⟨lo, rfl, h3, h4, h5⟩
  | succ fuel ih =>
    intro lo hi h1 h2 h3 h4 h5
    rw [bisect]
    by_cases c : lo < hi
    · rw [if_pos c, offsetBy_spec m h0 ha.2.index_le hp (by omega), ok_bind, ha.select_eq, ok_bind,
        C16_is_less m (encode_denotes _ ha.2.data_lt) hv, ok_bind]
      by_cases q : (f (d + BitVec.ofNat iw ((lo + hi) / 2))).toNat < x.toNat
      · rw [if_pos (by simpa using q)]
        refine ih (by omega) (by omega) h3 (fun k hk => ?_) h5
        by_cases e : k = (lo + hi) / 2
        · exact e ▸ q
        · exact Nat.lt_of_le_of_lt (hs k _ (by omega) (by omega)) q
      · rw [if_neg (by simpa using q)]
        refine ih (by omega) (by omega) (by omega) h4 (fun k hk hkn => ?_)
        by_cases e : k = (lo + hi) / 2
        · exact e ▸ Nat.le_of_not_lt q
        · exact Nat.le_trans (Nat.le_of_not_lt q) (hs _ k (by omega) hkn)
    · rw [if_neg c]
      obtain rfl : lo = hi := by omega
      exact ⟨lo, rfl, h3, h4, h5⟩

/-- **C156** Binary search in sorted cells finds where the cells that are less than a value end. -/
theorem C156_search (m : Mode) (env : HashEnv) (h0 : 0 < iw) {a : ArrayValue} {f : BitVec iw → BitVec dw} (ha : Means m (.arr iw dw) a f)
    {p v : BitVecValue} {d : BitVec iw} {x : BitVec dw} (hp : Denotes p d) (hv : Denotes v x) {n : Nat} (hn : n ≤ 2 ^ iw)
    (hs : (cellsFrom f d n).Pairwise fun x y => x.toNat ≤ y.toNat) :
    ∃ r, lowerBound m env p v a n = ok r ∧ r ≤ n ∧ (∀ y ∈ (cellsFrom f d n).take r, y.toNat < x.toNat) ∧
      ∀ y ∈ (cellsFrom f d n).drop r, x.toNat ≤ y.toNat := by
  have get : ∀ k (hk : k < (cellsFrom f d n).length), (cellsFrom f d n)[k] = f (d + BitVec.ofNat iw k) := by
    intro k hk
    simp [cellsFrom]
  have hs' : ∀ j k, j < k → k < n → (f (d + BitVec.ofNat iw j)).toNat ≤ (f (d + BitVec.ofNat iw k)).toNat := by
    intro j k hjk hk
    have := List.pairwise_iff_getElem.1 hs j k (by rw [length_cellsFrom]; omega) (by rw [length_cellsFrom]; omega) hjk
    rwa [get, get] at this
  obtain ⟨r, h1, h2, h3, h4⟩ := bisect_spec m env h0 ha hp hv hn hs' n (lo := 0) (hi := n) (by omega) (by omega) (by omega)
    (fun k hk => absurd hk (by omega)) (fun k hk hk' => absurd hk' (by omega))
  refine ⟨r, h1, h2, ?_, ?_⟩
  · intro y hy
    obtain ⟨k, hk, rfl⟩ := List.mem_iff_getElem.1 hy
    rw [List.length_take, length_cellsFrom] at hk
    rw [List.getElem_take, get]
    exact h3 k (by omega)
  · intro y hy
    obtain ⟨k, hk, rfl⟩ := List.mem_iff_getElem.1 hy
    rw [List.length_drop, length_cellsFrom] at hk
    rw [List.getElem_drop, get]
    exact h4 _ (by omega) (by omega)

/-- Six of eight cells sorted, across the end; then two searches. -/
example : (ArrayValue.newDense .debug 3 (encode 0#8) >>= fun a =>
      storeCells .debug listEnv a (encode 5#3) ([7#8, 200#8, 3#8, 7#8, 0#8, 5#8, 1#8, 2#8].map encode) >>= fun a =>
      sortBlock .debug listEnv (encode 5#3) a 6 >>= fun a => loadCells .debug listEnv a (encode 5#3) 8 >>= fun x =>
      lowerBound .debug listEnv (encode 5#3) (encode 7#8) a 6 >>= fun r => lowerBound .debug listEnv (encode 5#3) (encode 201#8) a 6 >>= fun r' =>
      ok (x, r, r'))
    = ok ([0#8, 3#8, 5#8, 7#8, 7#8, 200#8, 1#8, 2#8].map encode, 3, 6) := by
  decide +kernel

/-- Words of 70 bits in a sparse array. -/
example : (ArrayValue.newSparse 40 (encode 9#70) >>= fun a =>
      storeCells .release listEnv a (encode 1#40) ([0x1_0000_0000_0000_0000#70, 3#70].map encode) >>= fun a =>
      sortBlock .release listEnv (encode 0#40) a 4 >>= fun a => loadCells .release listEnv a (encode 0#40) 4)
    = ok ([3#70, 9#70, 9#70, 0x1_0000_0000_0000_0000#70].map encode) := by
  decide +kernel

end Baa

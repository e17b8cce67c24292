import Verif.Props.Cache
import Verif.Proofs.Counting
import Verif.Spec.Links

/-!
# C165: linked lists in an array
-/

namespace Baa
open Res

variable {w : Nat}

/-! ## On functions -/

theorem Chain.unique {f : BitVec w → BitVec w} : ∀ {p : BitVec w} {xs ys : List (BitVec w)}, Chain f p xs → Chain f p ys → xs = ys
  | _, [], [], _, _ => rfl
  | _, [], _ :: _, h, k => absurd (k.1.symm.trans h) k.2.1
  | _, _ :: _, [], h, k => absurd (h.1.symm.trans k) h.2.1
  | p, x :: xs, y :: ys, h, k => by
    obtain rfl : x = y := h.1.symm.trans k.1
    rw [Chain.unique h.2.2 k.2.2]

theorem Chain.suffix {f : BitVec w → BitVec w} : ∀ {p x : BitVec w} {xs : List (BitVec w)}, Chain f p xs → x ∈ xs →
    ∃ ys, Chain f x ys ∧ ys.length ≤ xs.length
  | p, x, y :: xs, h, k => by
    by_cases e : x = y
    · subst e
      exact ⟨x :: xs, ⟨rfl, h.2⟩, Nat.le_refl _⟩
    · obtain ⟨ys, q1, q2⟩ := Chain.suffix h.2.2 ((List.mem_cons.1 k).resolve_left e)
      exact ⟨ys, q1, by rw [List.length_cons]; omega⟩

theorem Chain.head_not_mem {f : BitVec w → BitVec w} {p x : BitVec w} {xs : List (BitVec w)} (h : Chain f p (x :: xs)) : x ∉ xs := by
  intro k
  obtain ⟨ys, q1, q2⟩ := h.2.2.suffix k
  have e := Chain.unique (show Chain f x (x :: xs) from ⟨rfl, h.2⟩) q1
  rw [← e, List.length_cons] at q2
  omega

theorem Chain.update_other {f : BitVec w → BitVec w} {x d : BitVec w} : ∀ {p : BitVec w} {xs : List (BitVec w)}, Chain f p xs → x ∉ xs →
    Chain (update f x d) p xs
  | _, [], h, _ => h
  | p, y :: ys, h, k => by
    obtain ⟨k1, k2⟩ := not_or.1 (mt List.mem_cons.2 k)
    refine ⟨h.1, h.2.1, ?_⟩
    rw [update_away (Ne.symm k1)]
    exact h.2.2.update_other k2

theorem Chain.zero_not_mem {f : BitVec w → BitVec w} : ∀ {p : BitVec w} {xs : List (BitVec w)}, Chain f p xs → 0#w ∉ xs
  | _, [], _ => List.not_mem_nil
  | _, _ :: _, h => mt List.mem_cons.1 (not_or.2 ⟨Ne.symm h.2.1, h.2.2.zero_not_mem⟩)

theorem Chain.agree {f g : BitVec w → BitVec w} : ∀ {p : BitVec w} {xs : List (BitVec w)}, Chain f p xs → Chain g p xs →
    ∀ x, x ∈ xs → g x = f x
  | p, [y], h, k, x, hx => by
    rw [List.mem_singleton.1 hx]
    exact k.2.2.trans h.2.2.symm
  | p, y :: z :: zs, h, k, x, hx => by
    have e : g y = f y := k.2.2.1.trans h.2.2.1.symm
    by_cases q : x = y
    · rw [q, e]
    · have k' := k.2.2
      rw [e] at k'
      exact Chain.agree h.2.2 k' x ((List.mem_cons.1 hx).resolve_left q)

/-- **C165** The cells of a list are different from each other: a list that ends does not come back to a cell. -/
theorem C165_distinct {f : BitVec w → BitVec w} : ∀ {p : BitVec w} {xs : List (BitVec w)}, Chain f p xs → xs.Nodup
  | _, [], _ => List.nodup_nil
  | _, _ :: _, h => List.nodup_cons.2 ⟨h.head_not_mem, C165_distinct h.2.2⟩

/-! ## Programs -/

theorem isEnd_eq (m : Mode) (hw : w < 2 ^ 32) (p : BitVec w) : isEnd m (encode p) = ok (decide (p = 0#w)) :=
  C15_is_equal m (encode_denotes p hw) (C01_zero hw)

theorem reverseLinks_spec (m : Mode) (env : HashEnv) : ∀ {xs ys : List (BitVec w)} {n : Nat} {a : ArrayValue} {f : BitVec w → BitVec w}
    {p q : BitVec w}, Means m (.arr w w) a f → Chain f p xs → Chain f q ys → (∀ x, x ∈ xs → x ∉ ys) → xs.length < n →
    ∃ (r : ArrayValue) (g : BitVec w → BitVec w) (s : BitVec w),
      reverseLinks m env n a (encode p) (encode q) = ok (some (r, encode s)) ∧ Means m (.arr w w) r g ∧ Chain g s (xs.reverse ++ ys) ∧
      ∀ j, j ∉ xs → g j = f j
  | [], ys, n + 1, a, f, p, q, ha, hp, hq, _, _ => by
    refine ⟨a, f, q, ?_, ha, hq, fun _ _ => rfl⟩
    rw [reverseLinks, isEnd_eq m ha.2.data_lt, ok_bind, decide_eq_true (show p = 0#w from hp), if_pos rfl]
  | x :: xs, ys, n + 1, a, f, p, q, ha, hp, hq, hd, hn => by
    obtain rfl : p = x := hp.1
    have hx := hp.head_not_mem
    have hy := hd p List.mem_cons_self
    obtain ⟨a', a1, a2⟩ := ha.store_ex m env p q
    obtain ⟨r, g, s, r1, r2, r3, r4⟩ := reverseLinks_spec m env (ys := p :: ys) (n := n) (q := p) a2 (hp.2.2.update_other hx)
      ⟨rfl, hp.2.1, by rw [update_at]; exact hq.update_other hy⟩
      (fun y k1 k2 => by
        rcases List.mem_cons.1 k2 with e | e
        · exact hx (e ▸ k1)
        · exact hd y (List.mem_cons_of_mem _ k1) e)
      (by rw [List.length_cons] at hn; omega)
    refine ⟨r, g, s, ?_, r2, ?_, fun j k => ?_⟩
    · rw [reverseLinks, isEnd_eq m ha.2.data_lt, ok_bind, decide_eq_false hp.2.1, if_neg Bool.false_ne_true, ha.select_eq, ok_bind,
        a1, ok_bind, r1]
    · rw [List.reverse_cons, List.append_assoc]
      exact r3
    · obtain ⟨k1, k2⟩ := not_or.1 (mt List.mem_cons.2 k)
      rw [r4 j k2, update_away k1]

/-- **C165** Reversing a list in place. -/
theorem C165_reverse (m : Mode) (env : HashEnv) {a : ArrayValue} {f : BitVec w → BitVec w} (ha : Means m (.arr w w) a f) {c : BitVecValue}
    {p : BitVec w} (hc : Denotes c p) {xs : List (BitVec w)} (hx : Chain f p xs) {n : Nat} (hn : xs.length < n) :
    ∃ (r : ArrayValue) (g : BitVec w → BitVec w) (v : BitVecValue) (s : BitVec w),
      reverseLinks m env n a c (BitVecValue.zero w) = ok (some (r, v)) ∧ Means m (.arr w w) r g ∧ Denotes v s ∧ Chain g s xs.reverse ∧
      ∀ j, j ∉ xs → g j = f j := by
  have hw : w < 2 ^ 32 := ha.2.data_lt
  obtain ⟨r, g, s, r1, r2, r3, r4⟩ := reverseLinks_spec m env (ys := []) (q := 0#w) ha hx rfl (fun _ _ => List.not_mem_nil) hn
  rw [List.append_nil] at r3
  exact ⟨r, g, encode s, s, by rw [hc.eq_encode, (C01_zero (w := w) hw).eq_encode, r1], r2, encode_denotes s hw, r3, r4⟩

/-- **C165** Reversing a list twice gives back every cell and the start of the list. -/
theorem C165_reverse_twice (m : Mode) (env : HashEnv) {a : ArrayValue} {f : BitVec w → BitVec w} (ha : Means m (.arr w w) a f)
    {c : BitVecValue} {p : BitVec w} (hc : Denotes c p) {xs : List (BitVec w)} (hx : Chain f p xs) {n : Nat} (hn : xs.length < n) :
    ∃ (r r' : ArrayValue) (v : BitVecValue), reverseLinks m env n a c (BitVecValue.zero w) = ok (some (r, v)) ∧
      reverseLinks m env n r v (BitVecValue.zero w) = ok (some (r', c)) ∧ Means m (.arr w w) r' f := by
  obtain ⟨r, g, v, s, r1, r2, r3, r4, r5⟩ := C165_reverse m env ha hc hx hn
  obtain ⟨r', g', v', s', t1, t2, t3, t4, t5⟩ := C165_reverse m env r2 r3 r4 (n := n) (by rw [List.length_reverse]; exact hn)
  rw [List.reverse_reverse] at t4
  have hs : s' = p := by
    cases xs with
    | nil => exact t4.trans hx.symm
    | cons x xs => exact t4.1.trans hx.1.symm
  subst hs
  have hg : g' = f := by
    funext j
    by_cases k : j ∈ xs
    · exact Chain.agree hx t4 j k
    · rw [t5 j (fun e => k (List.mem_reverse.1 e)), r5 j k]
  subst hg
  exact ⟨r, r', v, r1, by rw [t1, t3.repr_unique hc], t2⟩

theorem linkLast_spec (m : Mode) (env : HashEnv) : ∀ {xs ys : List (BitVec w)} {x : BitVec w} {n : Nat} {a : ArrayValue}
    {f : BitVec w → BitVec w} {q : BitVec w}, Means m (.arr w w) a f → Chain f x (x :: xs) → Chain f q ys →
    (∀ y, y ∈ x :: xs → y ∉ ys) → xs.length < n →
    ∃ (r : ArrayValue) (g : BitVec w → BitVec w), linkLast m env a (encode q) n (encode x) = ok (some r) ∧ Means m (.arr w w) r g ∧
      Chain g x (x :: xs ++ ys) ∧ ∀ j, some j ≠ (x :: xs).getLast? → g j = f j
  | [], ys, x, n + 1, a, f, q, ha, hp, hq, hd, _ => by
    obtain ⟨a', a1, a2⟩ := ha.store_ex m env x q
    refine ⟨a', _, ?_, a2, ⟨rfl, hp.2.1, by rw [update_at]; exact hq.update_other (hd x List.mem_cons_self)⟩, fun j k => ?_⟩
    · rw [linkLast, ha.select_eq, ok_bind, isEnd_eq m ha.2.data_lt, ok_bind, decide_eq_true (show f x = 0#w from hp.2.2), if_pos rfl, a1, ok_bind]
    · exact update_away fun e => k (by rw [e]; rfl)
  | z :: zs, ys, x, n + 1, a, f, q, ha, hp, hq, hd, hn => by
    have hz : f x = z := hp.2.2.1
    have hp' := hp.2.2
    rw [hz] at hp'
    obtain ⟨r, g, r1, r2, r3, r4⟩ := linkLast_spec m env (n := n) ha hp' hq (fun y k => hd y (List.mem_cons_of_mem _ k))
      (by rw [List.length_cons] at hn; omega)
    have hx : g x = z := by
      rw [r4 x, hz]
      intro e
      exact hp.head_not_mem (List.mem_of_getLast? e.symm)
    refine ⟨r, g, ?_, r2, ⟨rfl, hp.2.1, by rw [hx]; exact r3⟩, fun j k => r4 j ?_⟩
    · rw [linkLast, ha.select_eq, ok_bind, isEnd_eq m ha.2.data_lt, ok_bind, hz, decide_eq_false hp'.2.1, if_neg Bool.false_ne_true, r1]
    · rw [List.getLast?_cons_cons] at k
      exact k

/-- **C165** Putting one list after another changes one cell only, the last one of the first list. -/
theorem C165_append (m : Mode) (env : HashEnv) {a : ArrayValue} {f : BitVec w → BitVec w} (ha : Means m (.arr w w) a f) {c e : BitVecValue}
    {p q : BitVec w} (hc : Denotes c p) (he : Denotes e q) {xs ys : List (BitVec w)} (hx : Chain f p xs) (hy : Chain f q ys)
    (hd : ∀ x, x ∈ xs → x ∉ ys) {n : Nat} (hn : xs.length ≤ n) :
    ∃ (r : ArrayValue) (g : BitVec w → BitVec w) (v : BitVecValue) (s : BitVec w), appendLinks m env n a c e = ok (some (r, v)) ∧
      Means m (.arr w w) r g ∧ Denotes v s ∧ Chain g s (xs ++ ys) ∧ ∀ j, some j ≠ xs.getLast? → g j = f j := by
  have hw : w < 2 ^ 32 := ha.2.data_lt
  rw [hc.eq_encode, he.eq_encode]
  cases xs with
  | nil =>
    refine ⟨a, f, encode q, q, ?_, ha, encode_denotes q hw, hy, fun _ _ => rfl⟩
    rw [appendLinks, isEnd_eq m hw, ok_bind, decide_eq_true (show p = 0#w from hx), if_pos rfl]
  | cons x xs =>
    obtain rfl : p = x := hx.1
    obtain ⟨r, g, r1, r2, r3, r4⟩ := linkLast_spec m env (n := n) ha hx hy hd (by rw [List.length_cons] at hn; omega)
    refine ⟨r, g, encode p, p, ?_, r2, encode_denotes p hw, r3, r4⟩
    rw [appendLinks, isEnd_eq m hw, ok_bind, decide_eq_false hx.2.1, if_neg Bool.false_ne_true, r1, ok_bind]
    rfl

theorem countLinks_some (m : Mode) (env : HashEnv) {a : ArrayValue} {f : BitVec w → BitVec w} (ha : Means m (.arr w w) a f) :
    ∀ {xs : List (BitVec w)} {n : Nat} {p : BitVec w}, Chain f p xs → xs.length < n → countLinks m env a n (encode p) = ok (some xs.length)
  | [], n + 1, p, hp, _ => by
    rw [countLinks, isEnd_eq m ha.2.data_lt, ok_bind, decide_eq_true (show p = 0#w from hp), if_pos rfl]
    rfl
  | x :: xs, n + 1, p, hp, hn => by
    obtain rfl : p = x := hp.1
    rw [countLinks, isEnd_eq m ha.2.data_lt, ok_bind, decide_eq_false hp.2.1, if_neg Bool.false_ne_true, ha.select_eq, ok_bind,
      countLinks_some m env ha hp.2.2 (by rw [List.length_cons] at hn; omega), ok_bind]
    rfl

theorem countLinks_chain (m : Mode) (env : HashEnv) {a : ArrayValue} {f : BitVec w → BitVec w} (ha : Means m (.arr w w) a f) :
    ∀ (n : Nat) (p : BitVec w), countLinks m env a n (encode p) = ok none ∨
      ∃ xs, Chain f p xs ∧ xs.length < n ∧ countLinks m env a n (encode p) = ok (some xs.length)
  | 0, p => .inl rfl
  | n + 1, p => by
    by_cases hp : p = 0#w
    · exact .inr ⟨[], hp, by simp, countLinks_some m env ha (xs := []) hp (by simp)⟩
    rw [countLinks, isEnd_eq m ha.2.data_lt, ok_bind, decide_eq_false hp, if_neg Bool.false_ne_true, ha.select_eq, ok_bind]
    rcases countLinks_chain m env ha n (f p) with h | ⟨xs, h1, h2, h3⟩
    · exact .inl (by rw [h, ok_bind]; rfl)
    · exact .inr ⟨p :: xs, ⟨rfl, hp, h1⟩, by rw [List.length_cons]; omega, by rw [h3, ok_bind]; rfl⟩

/-- **C165** Counting the cells of a list gives its length, and there is an answer only if the list ends. -/
theorem C165_count (m : Mode) (env : HashEnv) {a : ArrayValue} {f : BitVec w → BitVec w} (ha : Means m (.arr w w) a f) {c : BitVecValue}
    {p : BitVec w} (hc : Denotes c p) (n : Nat) :
    (∀ xs, Chain f p xs → xs.length < n → countLinks m env a n c = ok (some xs.length)) ∧
    ((¬ ∃ xs, Chain f p xs ∧ xs.length < n) → countLinks m env a n c = ok none) := by
  rw [hc.eq_encode]
  refine ⟨fun xs h1 h2 => countLinks_some m env ha h1 h2, fun h => ?_⟩
  rcases countLinks_chain m env ha n p with k | ⟨xs, k1, k2, -⟩
  · exact k
  · exact absurd ⟨xs, k1, k2⟩ h

theorem Chain.length_lt {f : BitVec w → BitVec w} {p : BitVec w} {xs : List (BitVec w)} (h : Chain f p xs) : xs.length < 2 ^ w := by
  have k := length_le_of_subset (a := 0#w :: xs) (b := (List.range (2 ^ w)).map (BitVec.ofNat w))
    (List.nodup_cons.2 ⟨h.zero_not_mem, C165_distinct h⟩)
    (fun x _ => List.mem_map.2 ⟨x.toNat, List.mem_range.2 x.isLt, by rw [BitVec.ofNat_toNat, BitVec.setWidth_eq]⟩)
  rw [List.length_map, List.length_range, List.length_cons] at k
  omega

/-- **C165** As many turns as there are cells tell whether a list ends at all: without an answer by then, it runs in a circle. -/
theorem C165_circle (m : Mode) (env : HashEnv) {a : ArrayValue} {f : BitVec w → BitVec w} (ha : Means m (.arr w w) a f) {c : BitVecValue}
    {p : BitVec w} (hc : Denotes c p) : countLinks m env a (2 ^ w) c = ok none ↔ ¬ ∃ xs, Chain f p xs := by
  obtain ⟨h1, h2⟩ := C165_count m env ha hc (2 ^ w)
  refine ⟨fun h ⟨xs, k⟩ => ?_, fun h => h2 fun ⟨xs, k, _⟩ => h ⟨xs, k⟩⟩
  rw [h1 xs k k.length_lt] at h
  cases h

/-- The cells 1 and 2 point to each other. -/
example : (ArrayValue.newSparse 2 (encode 2#2) >>= fun a => a.store .debug listEnv (encode 2#2) (encode 1#2) >>= fun a =>
    countLinks .debug listEnv a 4 (encode 1#2)) = ok none := by
  decide +kernel

/-- The list 2, 5, 3 reversed: 3, 5, 2. -/
example : (ArrayValue.newSparse 3 (encode 0#3) >>= fun a => a.store .debug listEnv (encode 2#3) (encode 5#3) >>= fun a =>
      a.store .debug listEnv (encode 5#3) (encode 3#3) >>= fun a =>
      reverseLinks .debug listEnv 4 a (encode 2#3) (encode 0#3) >>= fun r =>
      match r with
      | none => ok []
      | some (b, p) => do
        let x ← b.select .debug listEnv (encode 3#3)
        let y ← b.select .debug listEnv (encode 5#3)
        let z ← b.select .debug listEnv (encode 2#3)
        ok [p, x, y, z])
    = ok ([3#3, 5#3, 2#3, 0#3].map encode) := by
  decide +kernel

/-- Such a list. -/
example : Chain (update (update (fun _ => 0#3) 2#3 5#3) 5#3 3#3) 2#3 [2#3, 5#3, 3#3] :=
  ⟨rfl, by decide, by decide, by decide, by decide, by decide, rfl⟩

end Baa

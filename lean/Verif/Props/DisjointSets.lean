import Verif.Props.Links
import Verif.Spec.DisjointSets

/-!
# C172: joining sets of cells
-/

namespace Baa
open Res

variable {w : Nat}

/-- From `x`, at most `n` steps lead to `r`, which stands for its set. -/
inductive LeadsTo (f : BitVec w → BitVec w) : Nat → BitVec w → BitVec w → Prop where
  | here {n x} : f x = x → LeadsTo f n x x
  | step {n x r} : f x ≠ x → LeadsTo f n (f x) r → LeadsTo f (n + 1) x r

theorem LeadsTo.root {f : BitVec w → BitVec w} {n : Nat} {x r : BitVec w} (h : LeadsTo f n x r) : f r = r := by
  induction h with
  | here e => exact e
  | step _ _ ih => exact ih

theorem LeadsTo.more {f : BitVec w → BitVec w} {n : Nat} {x r : BitVec w} (h : LeadsTo f n x r) : LeadsTo f (n + 1) x r := by
  induction h with
  | here e => exact .here e
  | step e _ ih => exact .step e ih

theorem LeadsTo.other {f : BitVec w → BitVec w} {n : Nat} {x r a b : BitVec w} (ha : f a = a) (h : LeadsTo f n x r) (ne : r ≠ a) :
    LeadsTo (update f a b) n x r := by
  induction h with
  | here e => exact .here (by rw [update_away ne, e])
  | @step n x r e _ ih =>
    have xa : x ≠ a := fun z => e (by rw [z, ha])
    exact .step (by rw [update_away xa]; exact e) (by rw [update_away xa]; exact ih ne)

theorem LeadsTo.joined {f : BitVec w → BitVec w} {n : Nat} {x r b : BitVec w} (hb : f b = b) (h : LeadsTo f n x r) (ne : b ≠ r) :
    LeadsTo (update f r b) (n + 1) x b := by
  induction h with
  | @here n x e => exact .step (by rw [update_at]; exact ne) (by rw [update_at]; exact .here (by rw [update_away ne, hb]))
  | @step n x r e h ih =>
    have xr : x ≠ r := fun z => e (by rw [z, h.root])
    exact .step (by rw [update_away xr]; exact e) (by rw [update_away xr]; exact ih ne)

/-- `R` gives the cell that stands for the set; two cells have the same one if they are joined by the pairs. -/
structure Sets (f : BitVec w → BitVec w) (n : Nat) (l : List (BitVec w × BitVec w)) (R : BitVec w → BitVec w) : Prop where
  leads : ∀ x, LeadsTo f n x (R x)
  joined : ∀ x y, Joined l x y ↔ R x = R y

theorem Joined.mono {l l' : List (BitVec w × BitVec w)} (h : ∀ e, e ∈ l → e ∈ l') {x y : BitVec w} (j : Joined l x y) : Joined l' x y := by
  induction j with
  | pair e => exact .pair (h _ e)
  | same p => exact .same p
  | swap _ ih => exact .swap ih
  | chain _ _ i1 i2 => exact .chain i1 i2

theorem Joined.by_map {α : Type} {l : List (BitVec w × BitVec w)} {R : BitVec w → α} (h : ∀ p q, (p, q) ∈ l → R p = R q) {x y : BitVec w}
    (j : Joined l x y) : R x = R y := by
  induction j with
  | pair e => exact h _ _ e
  | same p => rfl
  | swap _ ih => exact ih.symm
  | chain _ _ i1 i2 => exact i1.trans i2

theorem Sets.join {f R : BitVec w → BitVec w} {n : Nat} {l : List (BitVec w × BitVec w)} (h : Sets f n l R) (p q : BitVec w) :
    Sets (update f (R p) (R q)) (n + 1) (l ++ [(p, q)]) (fun x => if R x = R p then R q else R x) := by
  have inl : ∀ e, e ∈ l → e ∈ l ++ [(p, q)] := fun _ he => List.mem_append_left _ he
  have pq : Joined (l ++ [(p, q)]) p q := .pair (List.mem_append_right _ List.mem_cons_self)
  have old : ∀ {x y}, R x = R y → Joined (l ++ [(p, q)]) x y := fun e => ((h.joined _ _).2 e).mono inl
  refine ⟨fun x => ?_, fun x y => ⟨fun j => ?_, fun e => ?_⟩⟩
  · by_cases e : R q = R p
    · have : update f (R p) (R q) = f := by
        funext j
        by_cases z : j = R p
        · rw [z, update_at, e, (h.leads p).root]
        · rw [update_away z]
      rw [this, e]
      by_cases c : R x = R p
      · simp only [c, if_true]
        exact c ▸ (h.leads x).more
      · simp only [c, if_false]
        exact (h.leads x).more
    · by_cases c : R x = R p
      · simp only [c, if_true]
        have := (h.leads x).joined (h.leads q).root (by rw [c]; exact e)
        rw [c] at this
        exact this
      · simp only [c, if_false]
        exact ((h.leads x).other (h.leads p).root c).more
  · refine j.by_map (R := fun x => if R x = R p then R q else R x) fun a b m => ?_
    rcases List.mem_append.1 m with m | m
    · have := (h.joined a b).1 (.pair m)
      simp only [this]
    · cases List.mem_singleton.1 m
      simp only [if_true]
      by_cases c : R q = R p
      · simp only [c, if_true]
      · simp only [c, if_false]
  · replace e : (if R x = R p then R q else R x) = (if R y = R p then R q else R y) := e
    by_cases c : R x = R p
    · by_cases d : R y = R p
      · exact old (c.trans d.symm)
      · rw [if_pos c, if_neg d] at e
        exact (old c).chain (pq.chain (old e))
    · by_cases d : R y = R p
      · rw [if_neg c, if_pos d] at e
        exact ((old e).chain pq.swap).chain (old d.symm)
      · rw [if_neg c, if_neg d] at e
        exact old e

/-! ## Programs -/

theorem setOf_spec (m : Mode) (env : HashEnv) {a : ArrayValue} {f : BitVec w → BitVec w} (ha : Means m (.arr w w) a f) {n : Nat}
    {x r : BitVec w} (h : LeadsTo f n x r) : ∀ k, n < k → setOf m env a k (encode x) = ok (some (encode r)) := by
  have hw : w < 2 ^ 32 := ha.2.data_lt
  induction h with
  | @here n x e =>
    intro k hk
    obtain ⟨k, rfl⟩ : ∃ k', k = k' + 1 := ⟨k - 1, by omega⟩
    rw [setOf, ha.select_eq, ok_bind, C15_is_equal m (encode_denotes _ hw) (encode_denotes _ hw), ok_bind, decide_eq_true e, if_pos rfl]
  | @step n x r e _ ih =>
    intro k hk
    obtain ⟨k, rfl⟩ : ∃ k', k = k' + 1 := ⟨k - 1, by omega⟩
    rw [setOf, ha.select_eq, ok_bind, C15_is_equal m (encode_denotes _ hw) (encode_denotes _ hw), ok_bind, decide_eq_false e,
      if_neg Bool.false_ne_true, ih k (by omega)]

theorem joinAll_spec (m : Mode) (env : HashEnv) (k : Nat) : ∀ (l : List (BitVec w × BitVec w)) {a : ArrayValue} {f R : BitVec w → BitVec w}
    {n : Nat} {d : List (BitVec w × BitVec w)}, Means m (.arr w w) a f → Sets f n d R → n + l.length < k →
    ∃ (r : ArrayValue) (g S : BitVec w → BitVec w) (n' : Nat), joinAll m env k l a = ok (some r) ∧ Means m (.arr w w) r g ∧
      Sets g n' (d ++ l) S ∧ n' < k
  | [], a, f, R, n, d, ha, h, hn => ⟨a, f, R, n, rfl, ha, by rw [List.append_nil]; exact h, hn⟩
  | (p, q) :: l, a, f, R, n, d, ha, h, hn => by
    rw [List.length_cons] at hn
    obtain ⟨b, b1, b2⟩ := ha.store_ex m env (R p) (R q)
    obtain ⟨r, g, S, n', r1, r2, r3, r4⟩ := joinAll_spec m env k l b2 (h.join p q) (by omega)
    refine ⟨r, g, S, n', ?_, r2, by rw [List.append_assoc] at r3; exact r3, r4⟩
    rw [joinAll, joinSets, setOf_spec m env ha (h.leads p) k (by omega), ok_bind]
    simp only [setOf_spec m env ha (h.leads q) k (by omega), ok_bind, b1]
    exact r1

theorem singleSets_spec (m : Mode) (env : HashEnv) (h0 : 0 < w) : ∀ (ks : List Nat) {a : ArrayValue} {f : BitVec w → BitVec w},
    (∀ k, k ∈ ks → k < 2 ^ w) → Means m (.arr w w) a f →
    ∃ (r : ArrayValue) (g : BitVec w → BitVec w), singleSets m env w ks a = ok r ∧ Means m (.arr w w) r g ∧
      (∀ k, k ∈ ks → g (BitVec.ofNat w k) = BitVec.ofNat w k) ∧ ∀ j, f j = j → g j = j
  | [], a, f, _, ha => ⟨a, f, rfl, ha, fun _ h => absurd h List.not_mem_nil, fun _ h => h⟩
  | k :: ks, a, f, hk, ha => by
    have hi : w ≤ 64 := ha.2.index_le
    have lt := hk k List.mem_cons_self
    have e : (BitVec.ofNat 64 k).toNat = k := by
      rw [BitVec.toNat_ofNat, Nat.mod_eq_of_lt (Nat.lt_of_lt_of_le lt (Nat.pow_le_pow_right (by decide) hi))]
    obtain ⟨p, p1, p2⟩ := C01_from_u64 m (w := w) h0 (by omega) (BitVec.ofNat 64 k) (by rw [e]; exact lt)
    rw [e] at p2
    obtain ⟨a', s1, s2⟩ := ha.store_ex m env (BitVec.ofNat w k) (BitVec.ofNat w k)
    obtain ⟨r, g, r1, r2, r3, r4⟩ := singleSets_spec m env h0 ks (fun k q => hk k (List.mem_cons_of_mem _ q)) s2
    refine ⟨r, g, ?_, r2, fun l hl => ?_, fun j hj => r4 j ?_⟩
    · rw [singleSets, p1, ok_bind, p2.eq_encode, s1, ok_bind, r1]
    · rcases List.mem_cons.1 hl with q | q
      · exact r4 _ (by rw [q, update_at])
      · exact r3 l q
    · by_cases q : j = BitVec.ofNat w k
      · rw [q, update_at]
      · rw [update_away q, hj]

/-- **C172** Joining sets. -/
theorem C172_sets (m : Mode) (env : HashEnv) (h0 : 0 < w) {a : ArrayValue} {f : BitVec w → BitVec w} (ha : Means m (.arr w w) a f)
    (l : List (BitVec w × BitVec w)) {n : Nat} (hn : l.length < n) :
    ∃ b r, singleSets m env w (List.range (2 ^ w)) a = ok b ∧ joinAll m env n l b = ok (some r) ∧
      ∀ {u v : BitVecValue} {p q : BitVec w}, Denotes u p → Denotes v q →
        ∃ e, sameSet m env n r u v = ok (some e) ∧ (e = true ↔ Joined l p q) := by
  obtain ⟨b, g, b1, b2, b3, -⟩ := singleSets_spec m env h0 (List.range (2 ^ w)) (fun k h => List.mem_range.1 h) ha
  have hg : ∀ j, g j = j := fun j => by
    have k := b3 j.toNat (List.mem_range.2 j.isLt)
    rw [BitVec.ofNat_toNat, BitVec.setWidth_eq] at k
    exact k
  have start : Sets g 0 [] id := ⟨fun x => .here (hg x), fun x y =>
    ⟨fun j => j.by_map fun _ _ h => absurd h List.not_mem_nil, fun e => (show x = y from e) ▸ .same x⟩⟩
  obtain ⟨r, g', S, n', r1, r2, r3, r4⟩ := joinAll_spec m env n l b2 start (by omega)
  rw [List.nil_append] at r3
  refine ⟨b, r, b1, r1, fun {u v p q} hu hv => ⟨decide (S p = S q), ?_, ?_⟩⟩
  · rw [hu.eq_encode, hv.eq_encode, sameSet, setOf_spec m env r2 (r3.leads p) n r4, ok_bind]
    simp only [setOf_spec m env r2 (r3.leads q) n r4, ok_bind,
      C15_is_equal m (encode_denotes (S p) r2.2.data_lt) (encode_denotes (S q) r2.2.data_lt)]
  · rw [decide_eq_true_iff]
    exact (r3.joined p q).symm

/-! ## Not empty -/

example : Joined [(1#2, 2#2), (3#2, 2#2)] 1#2 3#2 :=
  .chain (q := 2#2) (.pair (by simp)) (.swap (.pair (by simp)))

example : ¬ Joined [(1#2, 2#2), (3#2, 2#2)] 0#2 3#2 := fun j => by
  have := j.by_map (R := fun x => decide (x = 0#2)) fun p q h => by
    rcases List.mem_cons.1 h with h | h
    · cases h; rfl
    · cases List.mem_singleton.1 h; rfl
  simp at this

example : (do
    let a ← ArrayValue.newSparse 2 (encode 0#2)
    let a ← singleSets .debug listEnv 2 (List.range 4) a
    match ← joinAll .debug listEnv 3 [(1#2, 2#2), (3#2, 2#2)] a with
    | none => ok none
    | some a => do
      let x ← sameSet .debug listEnv 3 a (encode 1#2) (encode 3#2)
      let y ← sameSet .debug listEnv 3 a (encode 0#2) (encode 3#2)
      ok (some (x, y))) = ok (some (some true, some false)) := by decide +kernel

end Baa

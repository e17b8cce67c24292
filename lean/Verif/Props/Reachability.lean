import Verif.Props.Cache
import Verif.Spec.Reachability

/-!
# C166: searching the states of a system
-/

namespace Baa
open Res

variable {w v : Nat}

/-! ## On functions -/

/-- How many of the states are not marked. -/
def unmarked (V : BitVec w → BitVec 1) (l : List (BitVec w)) : Nat := l.countP fun j => decide (¬ V j = 1#1)

theorem unmarked_update_le (V : BitVec w → BitVec 1) (p : BitVec w) : ∀ l : List (BitVec w), unmarked (update V p 1#1) l ≤ unmarked V l
  | [] => Nat.le_refl _
  | y :: l => by
    have ih := unmarked_update_le V p l
    unfold unmarked at ih ⊢
    rw [List.countP_cons, List.countP_cons]
    by_cases e : y = p
    · rw [e, update_at]
      simp only [not_true, decide_false, Bool.false_eq_true, if_false]
      omega
    · rw [update_away e]
      omega

theorem unmarked_update_lt {V : BitVec w → BitVec 1} {p : BitVec w} (hp : V p ≠ 1#1) : ∀ {l : List (BitVec w)}, p ∈ l →
    unmarked (update V p 1#1) l < unmarked V l
  | y :: l, hl => by
    by_cases e : y = p
    · have k := unmarked_update_le V p l
      unfold unmarked at k ⊢
      rw [List.countP_cons, List.countP_cons, e, update_at, decide_eq_true hp]
      simp only [not_true, decide_false, Bool.false_eq_true, if_false, if_true]
      omega
    · have k := unmarked_update_lt hp ((List.mem_cons.1 hl).resolve_left (Ne.symm e))
      unfold unmarked at k ⊢
      rw [List.countP_cons, List.countP_cons, update_away e]
      omega

/-- All states. -/
def allStates (w : Nat) : List (BitVec w) := (List.range (2 ^ w)).map (BitVec.ofNat w)

theorem mem_allStates (p : BitVec w) : p ∈ allStates w :=
  List.mem_map.2 ⟨p.toNat, List.mem_range.2 p.isLt, by rw [BitVec.ofNat_toNat, BitVec.setWidth_eq]⟩

theorem unmarked_le (V : BitVec w → BitVec 1) : unmarked V (allStates w) ≤ 2 ^ w := by
  refine Nat.le_trans (List.countP_le_length) ?_
  rw [allStates, List.length_map, List.length_range]
  exact Nat.le_refl _

/-! ## Programs -/

theorem nextStates_eq (m : Mode) (env : HashEnv) (hw : 0 < w) (hv : 0 < v) {t : ArrayValue} {f : BitVec (w + v) → BitVec w}
    (ht : Means m (.arr (w + v) w) t f) (p : BitVec w) : ∀ (ks : List Nat), (∀ k, k ∈ ks → k < 2 ^ v) →
    nextStates m env t v (encode p) ks = ok (ks.map fun k => encode (f (p ++ BitVec.ofNat v k)))
  | [], _ => rfl
  | k :: ks, h => by
    have hi : w + v ≤ 64 := ht.2.index_le
    have ih := nextStates_eq m env hw hv ht p ks fun k q => h k (List.mem_cons_of_mem _ q)
    have hk := h k List.mem_cons_self
    have e : (BitVec.ofNat 64 k).toNat = k := by
      rw [BitVec.toNat_ofNat, Nat.mod_eq_of_lt (Nat.lt_of_lt_of_le hk (Nat.pow_le_pow_right (by decide) (by omega)))]
    obtain ⟨i, i1, i2⟩ := C01_from_u64 m (w := v) hv (by omega) (BitVec.ofNat 64 k) (by rw [e]; exact hk)
    rw [e] at i2
    obtain ⟨c, c1, c2⟩ := C21_concat_partial m (encode_denotes p (by omega)) i2 (by omega) (.inl ⟨hw, hv⟩)
    rw [nextStates, i1, ok_bind, c1, ok_bind, c2.eq_encode, ht.select_eq, ok_bind, ih, ok_bind]
    rfl

theorem searchStates_spec (m : Mode) (env : HashEnv) (hw : 0 < w) (hv : 0 < v) {t : ArrayValue} {f : BitVec (w + v) → BitVec w}
    (ht : Means m (.arr (w + v) w) t f) {S : List (BitVec w)} : ∀ {n : Nat} {seen : ArrayValue} {V : BitVec w → BitVec 1}
    {todo : List (BitVec w)}, Means m (.arr w 1) seen V → todo.length + 2 ^ v * unmarked V (allStates w) < n →
    (∀ p, V p = 1#1 → Reaches f S p) → (∀ p, p ∈ todo → Reaches f S p) → (∀ p, p ∈ S → V p = 1#1 ∨ p ∈ todo) →
    (∀ p (i : BitVec v), V p = 1#1 → V (f (p ++ i)) = 1#1 ∨ f (p ++ i) ∈ todo) →
    ∃ (r : ArrayValue) (U : BitVec w → BitVec 1), searchStates m env t v n seen (todo.map encode) = ok (some r) ∧ Means m (.arr w 1) r U ∧
      ∀ p, U p = 1#1 ↔ Reaches f S p
  | n + 1, seen, V, [], hs, _, h1, _, h3, h4 => by
    refine ⟨seen, V, rfl, hs, fun p => ⟨h1 p, fun h => ?_⟩⟩
    induction h with
    | start h => exact (h3 _ h).resolve_right List.not_mem_nil
    | step i _ ih => exact (h4 _ i ih).resolve_right List.not_mem_nil
  | n + 1, seen, V, p :: todo, hs, hn, h1, h2, h3, h4 => by
    rw [List.length_cons] at hn
    have eq := C15_is_equal m (encode_denotes (V p) (by decide)) (encode_denotes 1#1 (by decide))
    by_cases hp : V p = 1#1
    · obtain ⟨r, U, r1, r2, r3⟩ := searchStates_spec m env hw hv ht (n := n) (todo := todo) (S := S) hs (by omega) h1
        (fun q k => h2 q (List.mem_cons_of_mem _ k))
        (fun q k => (h3 q k).elim .inl fun e => (List.mem_cons.1 e).elim (fun e => .inl (e ▸ hp)) .inr)
        (fun q i k => (h4 q i k).elim .inl fun e => (List.mem_cons.1 e).elim (fun e => .inl (e ▸ hp)) .inr)
      refine ⟨r, U, ?_, r2, r3⟩
      rw [List.map_cons, searchStates, hs.select_eq, ok_bind, tru_encode, ok_bind, eq, ok_bind, decide_eq_true hp, if_pos rfl, r1]
    · obtain ⟨seen', s1, s2⟩ := hs.store_ex m env p 1#1
      have less := unmarked_update_lt hp (mem_allStates p)
      have mark : ∀ q, V q = 1#1 → update V p 1#1 q = 1#1 := fun q k => by
        by_cases e : q = p
        · rw [e, update_at]
        · rw [update_away e, k]
      have succ : ∀ i : BitVec v, f (p ++ i) ∈ (List.range (2 ^ v)).map fun k => f (p ++ BitVec.ofNat v k) := fun i =>
        List.mem_map.2 ⟨i.toNat, List.mem_range.2 i.isLt, by rw [BitVec.ofNat_toNat, BitVec.setWidth_eq]⟩
      have later : ∀ q, q ∈ p :: todo → update V p 1#1 q = 1#1 ∨
          q ∈ ((List.range (2 ^ v)).map fun k => f (p ++ BitVec.ofNat v k)) ++ todo := fun q k =>
        (List.mem_cons.1 k).elim (fun e => .inl (by rw [e, update_at])) fun e => .inr (List.mem_append_right _ e)
      obtain ⟨r, U, r1, r2, r3⟩ := searchStates_spec m env hw hv ht (n := n) (S := S)
        (todo := ((List.range (2 ^ v)).map fun k => f (p ++ BitVec.ofNat v k)) ++ todo) s2
        (by
          rw [List.length_append, List.length_map, List.length_range]
          have k := Nat.mul_le_mul_left (2 ^ v) (show unmarked (update V p 1#1) (allStates w) + 1 ≤ unmarked V (allStates w) from less)
          rw [Nat.mul_add] at k
          omega)
        (fun q k => by
          by_cases e : q = p
          · rw [e]; exact h2 p List.mem_cons_self
          · rw [update_away e] at k; exact h1 q k)
        (fun q k => by
          rcases List.mem_append.1 k with k | k
          · obtain ⟨i, -, rfl⟩ := List.mem_map.1 k
            exact .step _ (h2 p List.mem_cons_self)
          · exact h2 q (List.mem_cons_of_mem _ k))
        (fun q k => (h3 q k).elim (fun e => .inl (mark q e)) (later q))
        (fun q i k => by
          by_cases e : q = p
          · rw [e]; exact .inr (List.mem_append_left _ (succ i))
          · rw [update_away e] at k
            exact (h4 q i k).elim (fun e => .inl (mark _ e)) (later _))
      refine ⟨r, U, ?_, r2, r3⟩
      rw [List.map_cons, searchStates, hs.select_eq, ok_bind, tru_encode, ok_bind, eq, ok_bind, decide_eq_false hp,
        if_neg Bool.false_ne_true, s1, ok_bind, nextStates_eq m env hw hv ht p _ (fun k q => List.mem_range.1 q), ok_bind]
      rw [List.map_append, List.map_map] at r1
      exact r1

/-- **C166** The search ends, after at most one turn for every start and every transition and one more, and marks exactly the states
that can be reached. -/
theorem C166_search (m : Mode) (env : HashEnv) (hw : 0 < w) (hv : 0 < v) {t seen : ArrayValue} {f : BitVec (w + v) → BitVec w}
    (ht : Means m (.arr (w + v) w) t f) (hs : Means m (.arr w 1) seen fun _ => 0#1) (S : List (BitVec w)) {n : Nat}
    (hn : S.length + 2 ^ (w + v) < n) :
    ∃ (r : ArrayValue) (U : BitVec w → BitVec 1), searchStates m env t v n seen (S.map encode) = ok (some r) ∧ Means m (.arr w 1) r U ∧
      ∀ p, U p = 1#1 ↔ Reaches f S p := by
  have k := Nat.mul_le_mul_left (2 ^ v) (unmarked_le fun _ : BitVec w => 0#1)
  rw [← Nat.pow_add, Nat.add_comm v] at k
  exact searchStates_spec m env hw hv ht hs (by omega) (fun p h => absurd h (by decide)) (fun p h => .start h) (fun p h => .inr h)
    (fun p i h => absurd h (by decide))

/-- **C166** A set of states that holds the starts and is kept by all transitions holds every marked state, and the marked states are
the smallest such set. -/
theorem C166_invariant {f : BitVec (w + v) → BitVec w} {S : List (BitVec w)} {p : BitVec w} :
    Reaches f S p ↔ ∀ P : BitVec w → Prop, (∀ q, q ∈ S → P q) → (∀ q (i : BitVec v), P q → P (f (q ++ i))) → P p := by
  constructor
  · intro h P h1 h2
    induction h with
    | start h => exact h1 _ h
    | step i _ ih => exact h2 _ i ih
  · intro h
    exact h (Reaches f S) (fun _ => .start) (fun _ i => .step i)

/-- A counter that goes on from 0 to 1, to 2 and to 0 again with the input zero, and to 0 with the input one: 3 is not reached. -/
example : (ArrayValue.newSparse 3 (encode 0#2) >>= fun t => t.store .debug listEnv (encode 0#3) (encode 1#2) >>= fun t =>
      t.store .debug listEnv (encode 2#3) (encode 2#2) >>= fun t => t.store .debug listEnv (encode 6#3) (encode 3#2) >>= fun t =>
      ArrayValue.newDense .debug 2 (encode 0#1) >>= fun seen => searchStates .debug listEnv t 1 10 seen [encode 0#2] >>= fun r =>
      match r with
      | none => ok []
      | some r => [0#2, 1#2, 2#2, 3#2].mapM fun p => r.select .debug listEnv (encode p))
    = ok ([1#1, 1#1, 1#1, 0#1].map encode) := by
  decide +kernel

end Baa

import Verif.Props.Links
import Verif.Spec.Allocator

/-!
# C167: a memory allocator in an array
-/

namespace Baa
open Res

variable {w : Nat}

/-! ## Lists -/

theorem map_fst_set {α β : Type} {c : α × β} {d : β} : ∀ {l : List (α × β)} {i : Nat}, l[i]? = some c →
    (l.set i (c.1, d)).map Prod.fst = l.map Prod.fst
  | e :: l, 0, h => by
    obtain rfl : e = c := by simpa using h
    rfl
  | e :: l, i + 1, h => by
    rw [List.set_cons_succ, List.map_cons, map_fst_set (by simpa using h), List.map_cons]

theorem mem_of_set {α : Type} {e x : α} : ∀ {l : List α} {i : Nat}, x ∈ l.set i e → x = e ∨ x ∈ l.eraseIdx i
  | y :: l, 0, h => by simpa using h
  | y :: l, i + 1, h => by
    rw [List.set_cons_succ] at h
    rw [List.eraseIdx_cons_succ]
    rcases List.mem_cons.1 h with h | h
    · exact .inr (h ▸ List.mem_cons_self)
    · exact (mem_of_set h).imp id (List.mem_cons_of_mem _)

theorem mem_eraseIdx_of_ne {α : Type} {p q : α} : ∀ {l : List α} {i : Nat}, l[i]? = some p → q ∈ l → q ≠ p → q ∈ l.eraseIdx i
  | y :: l, 0, h, hq, n => by
    obtain rfl : y = p := by simpa using h
    exact (List.mem_cons.1 hq).resolve_left n
  | y :: l, i + 1, h, hq, n => by
    rw [List.eraseIdx_cons_succ]
    rcases List.mem_cons.1 hq with e | e
    · exact e ▸ List.mem_cons_self
    · exact List.mem_cons_of_mem _ (mem_eraseIdx_of_ne (by simpa using h) e n)

theorem not_mem_eraseIdx {α : Type} {p : α} : ∀ {l : List α} {i : Nat}, l.Nodup → l[i]? = some p → p ∉ l.eraseIdx i
  | y :: l, 0, n, h => by
    obtain rfl : y = p := by simpa using h
    exact (List.nodup_cons.1 n).1
  | y :: l, i + 1, n, h => by
    rw [List.eraseIdx_cons_succ]
    obtain ⟨n1, n2⟩ := List.nodup_cons.1 n
    have h' : l[i]? = some p := by simpa using h
    intro k
    rcases List.mem_cons.1 k with e | e
    · exact n1 (e ▸ List.mem_of_getElem? h')
    · exact not_mem_eraseIdx n2 h' e

theorem map_erased {α β : Type} (g : α → β) : ∀ (l : List α) (i : Nat), (l.eraseIdx i).map g = (l.map g).eraseIdx i
  | [], _ => rfl
  | _ :: _, 0 => rfl
  | _ :: l, i + 1 => by rw [List.eraseIdx_cons_succ, List.map_cons, List.map_cons, List.eraseIdx_cons_succ, map_erased g l i]

/-! ## The invariant -/

/-- The free cells form a list, and the client has the others. -/
structure PoolInv (m : Mode) (pool : List (BitVec w)) (a : ArrayValue) (f : BitVec w → BitVec w) (h : BitVec w) (xs : List (BitVec w))
    (live : List (BitVec w × BitVec w)) : Prop where
  means : Means m (.arr w w) a f
  chain : Chain f h xs
  nodup : (live.map Prod.fst).Nodup
  apart : ∀ p, p ∈ xs → p ∉ live.map Prod.fst
  cover : ∀ p, p ∈ pool ↔ p ∈ xs ∨ p ∈ live.map Prod.fst
  inside : 0#w ∉ pool
  content : ∀ c, c ∈ live → f c.1 = c.2

theorem runAllocator_fair (m : Mode) (env : HashEnv) {pool : List (BitVec w)} : ∀ (rs : List (CellRequest w)) {a : ArrayValue}
    {f : BitVec w → BitVec w} {h : BitVec w} {xs : List (BitVec w)} {live : List (BitVec w × BitVec w)}, PoolInv m pool a f h xs live →
    ∃ as : List (Option (BitVec w)), runAllocator m env rs a (encode h) (live.map fun c => encode c.1) = ok (as.map (·.map encode)) ∧
      FairAnswers pool live rs as
  | [], a, f, h, xs, live, _ => ⟨[], rfl, rfl⟩
  | .take :: rs, a, f, h, xs, live, I => by
    have hw : w < 2 ^ 32 := I.means.2.data_lt
    cases xs with
    | nil =>
      obtain ⟨as, r1, r2⟩ := runAllocator_fair m env rs I
      refine ⟨none :: as, ?_, fun p hp => ((I.cover p).1 hp).resolve_left List.not_mem_nil, r2⟩
      rw [runAllocator, isEnd_eq m hw, ok_bind, decide_eq_true (show h = 0#w from I.chain), if_pos rfl, r1, ok_bind]
      rfl
    | cons x xs =>
      obtain rfl : h = x := I.chain.1
      have hx := I.chain.head_not_mem
      have hl := I.apart h List.mem_cons_self
      have I' : PoolInv m pool a f (f h) xs ((h, f h) :: live) :=
        { means := I.means
          chain := I.chain.2.2
          nodup := List.nodup_cons.2 ⟨hl, I.nodup⟩
          apart := fun p hp k => by
            rcases List.mem_cons.1 k with e | e
            · exact hx ((show p = h from e) ▸ hp)
            · exact I.apart p (List.mem_cons_of_mem _ hp) e
          cover := fun p => by
            rw [I.cover p, List.map_cons, List.mem_cons, List.mem_cons]
            constructor
            · rintro ((e | e) | e)
              · exact .inr (.inl e)
              · exact .inl e
              · exact .inr (.inr e)
            · rintro (e | e | e)
              · exact .inl (.inr e)
              · exact .inl (.inl e)
              · exact .inr e
          inside := I.inside
          content := fun c hc => by
            rcases List.mem_cons.1 hc with e | e
            · rw [e]
            · exact I.content c e }
      obtain ⟨as, r1, r2⟩ := runAllocator_fair m env rs I'
      refine ⟨some h :: as, ?_, (I.cover h).2 (.inl List.mem_cons_self), hl, f h, r2⟩
      rw [List.map_cons] at r1
      rw [runAllocator, isEnd_eq m hw, ok_bind, decide_eq_false I.chain.2.1, if_neg Bool.false_ne_true, I.means.select_eq, ok_bind, r1,
        ok_bind]
      rfl
  | .giveBack i :: rs, a, f, h, xs, live, I => by
    cases hi : live[i]? with
    | none =>
      obtain ⟨as, r1, r2⟩ := runAllocator_fair m env rs I
      refine ⟨as, ?_, ?_⟩
      · rw [runAllocator, List.getElem?_map, hi]
        exact r1
      · rw [FairAnswers, List.eraseIdx_of_length_le (List.getElem?_eq_none_iff.1 hi)]
        exact r2
    | some c =>
      obtain ⟨p, d⟩ := c
      have hp : (live.map Prod.fst)[i]? = some p := by rw [List.getElem?_map, hi]; rfl
      have mem := List.mem_of_getElem? hp
      have gone := not_mem_eraseIdx I.nodup hp
      have notx : p ∉ xs := fun k => I.apart p k mem
      have pos : p ≠ 0#w := fun e => I.inside (e ▸ (I.cover p).2 (.inr mem))
      obtain ⟨a', s1, s2⟩ := I.means.store_ex m env p h
      have I' : PoolInv m pool a' (update f p h) p (p :: xs) (live.eraseIdx i) :=
        { means := s2
          chain := ⟨rfl, pos, by rw [update_at]; exact I.chain.update_other notx⟩
          nodup := by rw [map_erased]; exact I.nodup.sublist (List.eraseIdx_sublist _ _)
          apart := fun q hq k => by
            rw [map_erased] at k
            rcases List.mem_cons.1 hq with e | e
            · exact gone (e ▸ k)
            · exact I.apart q e ((List.eraseIdx_sublist _ _).mem k)
          cover := fun q => by
            rw [I.cover q, map_erased, List.mem_cons]
            constructor
            · rintro (e | e)
              · exact .inl (.inr e)
              · by_cases n : q = p
                · exact .inl (.inl n)
                · exact .inr (mem_eraseIdx_of_ne hp e n)
            · rintro ((e | e) | e)
              · exact .inr (e ▸ mem)
              · exact .inl e
              · exact .inr ((List.eraseIdx_sublist _ _).mem e)
          inside := I.inside
          content := fun c hc => by
            have n : c.1 ≠ p := fun e => gone (by rw [← map_erased, ← e]; exact List.mem_map_of_mem hc)
            rw [update_away n]
            exact I.content c ((List.eraseIdx_sublist _ _).mem hc) }
      obtain ⟨as, r1, r2⟩ := runAllocator_fair m env rs I'
      refine ⟨as, ?_, r2⟩
      rw [runAllocator, List.getElem?_map, hi]
      dsimp only [Option.map]
      rw [s1, ok_bind]
      rw [map_erased] at r1
      exact r1
  | .write i d :: rs, a, f, h, xs, live, I => by
    cases hi : live[i]? with
    | none =>
      obtain ⟨as, r1, r2⟩ := runAllocator_fair m env rs I
      refine ⟨as, ?_, ?_⟩
      · rw [runAllocator, List.getElem?_map, hi]
        exact r1
      · rw [FairAnswers, hi]
        exact r2
    | some c =>
      have hp : (live.map Prod.fst)[i]? = some c.1 := by rw [List.getElem?_map, hi]; rfl
      have mem := List.mem_of_getElem? hp
      have gone := not_mem_eraseIdx I.nodup hp
      have notx : c.1 ∉ xs := fun k => I.apart _ k mem
      obtain ⟨a', s1, s2⟩ := I.means.store_ex m env c.1 d
      have same := map_fst_set (d := d) hi
      have I' : PoolInv m pool a' (update f c.1 d) h xs (live.set i (c.1, d)) :=
        { means := s2
          chain := I.chain.update_other notx
          nodup := by rw [same]; exact I.nodup
          apart := by rw [same]; exact I.apart
          cover := by rw [same]; exact I.cover
          inside := I.inside
          content := fun e he => by
            rcases mem_of_set he with k | k
            · rw [k, update_at]
            · have n : e.1 ≠ c.1 := fun q => gone (by rw [← map_erased, ← q]; exact List.mem_map_of_mem k)
              rw [update_away n]
              exact I.content e ((List.eraseIdx_sublist _ _).mem k) }
      obtain ⟨as, r1, r2⟩ := runAllocator_fair m env rs I'
      refine ⟨as, ?_, ?_⟩
      · rw [runAllocator, List.getElem?_map, hi]
        dsimp only [Option.map]
        rw [s1, ok_bind]
        have k : ((live.set i (c.1, d)).map fun c => encode c.1) = live.map fun c => encode c.1 := by
          have k' := congrArg (List.map encode) same
          rw [List.map_map, List.map_map] at k'
          exact k'
        rw [k] at r1
        exact r1
      · rw [FairAnswers, hi]
        exact r2
  | .read i :: rs, a, f, h, xs, live, I => by
    obtain ⟨as, r1, r2⟩ := runAllocator_fair m env rs I
    cases hi : live[i]? with
    | none =>
      refine ⟨as, ?_, ?_⟩
      · rw [runAllocator, List.getElem?_map, hi]
        exact r1
      · rw [FairAnswers, hi]
        exact r2
    | some c =>
      refine ⟨some c.2 :: as, ?_, ?_⟩
      · rw [runAllocator, List.getElem?_map, hi]
        dsimp only [Option.map]
        rw [I.means.select_eq, ok_bind, r1, ok_bind, I.content c (List.mem_of_getElem? hi)]
        rfl
      · rw [FairAnswers, hi]
        exact ⟨as, rfl, r2⟩

/-- **C167** Whatever a client does, it gets cells that it does not have, as long as there are any, and its cells keep what it has
written. -/
theorem C167_allocator (m : Mode) (env : HashEnv) {a : ArrayValue} {f : BitVec w → BitVec w} (ha : Means m (.arr w w) a f) {c : BitVecValue}
    {p : BitVec w} (hc : Denotes c p) {pool : List (BitVec w)} (hp : Chain f p pool) (rs : List (CellRequest w)) :
    ∃ as : List (Option (BitVec w)), runAllocator m env rs a c [] = ok (as.map (·.map encode)) ∧ FairAnswers pool [] rs as := by
  rw [hc.eq_encode]
  exact runAllocator_fair m env rs (live := [])
    { means := ha
      chain := hp
      nodup := List.nodup_nil
      apart := fun _ _ => List.not_mem_nil
      cover := fun p => by rw [List.map_nil]; exact ⟨.inl, fun h => h.resolve_right List.not_mem_nil⟩
      inside := hp.zero_not_mem
      content := fun _ h => absurd h List.not_mem_nil }

theorem linkAll_spec (m : Mode) (env : HashEnv) (h0 : 0 < w) : ∀ (ks : List Nat) {a : ArrayValue} {f : BitVec w → BitVec w},
    (∀ k, k ∈ ks → k < 2 ^ w) → Means m (.arr w w) a f →
    ∃ (r : ArrayValue) (g : BitVec w → BitVec w), linkAll m env w ks a = ok r ∧ Means m (.arr w w) r g ∧
      (∀ k, k ∈ ks → g (BitVec.ofNat w k) = BitVec.ofNat w k + 1#w) ∧ ∀ j, (f j = j + 1#w → g j = j + 1#w)
  | [], a, f, _, ha => ⟨a, f, rfl, ha, fun _ h => absurd h List.not_mem_nil, fun _ h => h⟩
  | k :: ks, a, f, hk, ha => by
    have hi : w ≤ 64 := ha.2.index_le
    have lt := hk k List.mem_cons_self
    have e : (BitVec.ofNat 64 k).toNat = k := by
      rw [BitVec.toNat_ofNat, Nat.mod_eq_of_lt (Nat.lt_of_lt_of_le lt (Nat.pow_le_pow_right (by decide) hi))]
    obtain ⟨p, p1, p2⟩ := C01_from_u64 m (w := w) h0 (by omega) (BitVec.ofNat 64 k) (by rw [e]; exact lt)
    rw [e] at p2
    obtain ⟨a', s1, s2⟩ := ha.store_ex m env (BitVec.ofNat w k) (BitVec.ofNat w k + 1#w)
    obtain ⟨r, g, r1, r2, r3, r4⟩ := linkAll_spec m env h0 ks (fun k q => hk k (List.mem_cons_of_mem _ q)) s2
    have keep : ∀ j, update f (BitVec.ofNat w k) (BitVec.ofNat w k + 1#w) j = j + 1#w ∨ j ≠ BitVec.ofNat w k := fun j => by
      by_cases q : j = BitVec.ofNat w k
      · rw [q, update_at]; exact .inl rfl
      · exact .inr q
    refine ⟨r, g, ?_, r2, fun l hl => ?_, fun j hj => r4 j ((keep j).elim id fun q => by rw [update_away q, hj])⟩
    · rw [linkAll, p1, ok_bind, offsetBy_spec m h0 hi p2 (Nat.one_lt_two_pow (by omega)), ok_bind, p2.eq_encode, s1, ok_bind, r1]
    · rcases List.mem_cons.1 hl with q | q
      · exact r4 _ (by rw [q, update_at])
      · exact r3 l q

theorem chain_next {g : BitVec w → BitVec w} (hg : ∀ j, g j = j + 1#w) : ∀ (n k : Nat), 0 < k → k + n = 2 ^ w →
    Chain g (BitVec.ofNat w k) ((List.range' k n).map (BitVec.ofNat w))
  | 0, k, _, h => by
    obtain rfl : k = 2 ^ w := by omega
    exact BitVec.eq_of_toNat_eq (by rw [BitVec.toNat_ofNat, Nat.mod_self]; simp)
  | n + 1, k, h0, h => by
    rw [List.range'_succ, List.map_cons]
    refine ⟨rfl, fun e => ?_, ?_⟩
    · have e' := congrArg BitVec.toNat e
      rw [BitVec.toNat_ofNat, Nat.mod_eq_of_lt (by omega)] at e'
      simp at e'
      omega
    · rw [hg, ← BitVec.ofNat_add]
      exact chain_next hg n (k + 1) (by omega) (by omega)

/-- **C167** Linking all cells makes a list of all of them but the cell zero. -/
theorem C167_all_cells (m : Mode) (env : HashEnv) (h0 : 0 < w) {a : ArrayValue} {f : BitVec w → BitVec w} (ha : Means m (.arr w w) a f) :
    ∃ (r : ArrayValue) (g : BitVec w → BitVec w) (pool : List (BitVec w)), linkAll m env w (List.range (2 ^ w)) a = ok r ∧
      Means m (.arr w w) r g ∧ Chain g 1#w pool ∧ ∀ p, p ∈ pool ↔ p ≠ 0#w := by
  obtain ⟨r, g, r1, r2, r3, -⟩ := linkAll_spec m env h0 (List.range (2 ^ w)) (fun k h => List.mem_range.1 h) ha
  have hg : ∀ j, g j = j + 1#w := fun j => by
    have k := r3 j.toNat (List.mem_range.2 j.isLt)
    rw [BitVec.ofNat_toNat, BitVec.setWidth_eq] at k
    exact k
  have pos := Nat.two_pow_pos w
  have c := chain_next hg (2 ^ w - 1) 1 (by decide) (by omega)
  refine ⟨r, g, _, r1, r2, c, fun p => ⟨fun h e => c.zero_not_mem (e ▸ h), fun h => ?_⟩⟩
  refine List.mem_map.2 ⟨p.toNat, List.mem_range'_1.2 ⟨?_, ?_⟩, by rw [BitVec.ofNat_toNat, BitVec.setWidth_eq]⟩
  · exact Nat.pos_of_ne_zero fun e => h (BitVec.eq_of_toNat_eq (by simpa using e))
  · have := p.isLt
    omega

/-- The cells 1, 2, 3: three are taken, there is no fourth one; one is given back and taken again. -/
example : (ArrayValue.newSparse 2 (encode 0#2) >>= fun a => linkAll .debug listEnv 2 (List.range 4) a >>= fun a =>
      runAllocator (w := 2) .debug listEnv [.take, .take, .take, .take, .write 0 1#2, .write 2 2#2, .giveBack 1, .read 0, .take, .read 2]
        a (encode 1#2) [])
    = ok ([some 1#2, some 2#2, some 3#2, none, some 1#2, some 2#2, some 2#2].map (·.map encode)) := by
  decide +kernel

end Baa

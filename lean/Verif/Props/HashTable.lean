import Verif.Props.Cache
import Verif.Spec.HashTable

/-!
# C161: a hash table with linear probing is a map
-/

namespace Baa
open Res

variable {iw kw dw : Nat}

/-! ## On functions -/

/-- The offset at which a probe stops. -/
def findCell (U : BitVec iw → BitVec 1) (K : BitVec iw → BitVec kw) (h : BitVec iw) (key : BitVec kw) : List Nat → Option (Nat × Bool)
  | [] => none
  | k :: ks => if U (h + BitVec.ofNat iw k) = 0#1 then some (k, false)
    else if K (h + BitVec.ofNat iw k) = key then some (k, true) else findCell U K h key ks

theorem findCell_none {U : BitVec iw → BitVec 1} {K : BitVec iw → BitVec kw} {h : BitVec iw} {key : BitVec kw} :
    ∀ (n s : Nat), findCell U K h key (List.range' s n) = none → ∀ l, s ≤ l → l < s + n →
      U (h + BitVec.ofNat iw l) ≠ 0#1 ∧ K (h + BitVec.ofNat iw l) ≠ key
  | 0, s, _, l, h1, h2 => by omega
  | n + 1, s, e, l, h1, h2 => by
    rw [List.range'_succ, findCell] at e
    by_cases hu : U (h + BitVec.ofNat iw s) = 0#1
    · rw [if_pos hu] at e; cases e
    rw [if_neg hu] at e
    by_cases hk : K (h + BitVec.ofNat iw s) = key
    · rw [if_pos hk] at e; cases e
    rw [if_neg hk] at e
    by_cases q : l = s
    · subst q; exact ⟨hu, hk⟩
    · exact findCell_none n (s + 1) e l (by omega) (by omega)

theorem findCell_some {U : BitVec iw → BitVec 1} {K : BitVec iw → BitVec kw} {h : BitVec iw} {key : BitVec kw} {k : Nat} {b : Bool} :
    ∀ (n s : Nat), findCell U K h key (List.range' s n) = some (k, b) → k < s + n ∧
      (∀ l, s ≤ l → l < k → U (h + BitVec.ofNat iw l) ≠ 0#1 ∧ K (h + BitVec.ofNat iw l) ≠ key) ∧
      ((b = true ∧ U (h + BitVec.ofNat iw k) ≠ 0#1 ∧ K (h + BitVec.ofNat iw k) = key) ∨ (b = false ∧ U (h + BitVec.ofNat iw k) = 0#1))
  | 0, s, e => by cases e
  | n + 1, s, e => by
    rw [List.range'_succ, findCell] at e
    by_cases hu : U (h + BitVec.ofNat iw s) = 0#1
    · rw [if_pos hu] at e
      cases e
      exact ⟨by omega, fun l _ _ => by omega, .inr ⟨rfl, hu⟩⟩
    rw [if_neg hu] at e
    by_cases hk : K (h + BitVec.ofNat iw s) = key
    · rw [if_pos hk] at e
      cases e
      exact ⟨by omega, fun l _ _ => by omega, .inl ⟨rfl, hu, hk⟩⟩
    rw [if_neg hk] at e
    obtain ⟨h1, h2, h3⟩ := findCell_some n (s + 1) e
    refine ⟨by omega, fun l p q => ?_, h3⟩
    by_cases c : l = s
    · subst c; exact ⟨hu, hk⟩
    · exact h2 l (by omega) q

/-- How many cells are free. -/
def freeCells (U : BitVec iw → BitVec 1) : Nat := (List.range (2 ^ iw)).countP fun k => decide (U (BitVec.ofNat iw k) = 0#1)

theorem countP_flip {p q : Nat → Bool} {i : Nat} (hp : p i = true) (hq : q i = false) (h : ∀ k, k ≠ i → p k = q k) :
    ∀ (l : List Nat), l.Nodup → l.countP p = l.countP q + if i ∈ l then 1 else 0
  | [], _ => rfl
  | k :: l, hn => by
    have ih := countP_flip hp hq h l (List.nodup_cons.1 hn).2
    rw [List.countP_cons, List.countP_cons, ih]
    by_cases e : k = i
    · subst e
      rw [if_neg (List.nodup_cons.1 hn).1, hp, hq, if_pos List.mem_cons_self]
      simp
    · rw [h k e]
      have : i ∈ k :: l ↔ i ∈ l := by simp [List.mem_cons, Ne.symm e]
      simp only [this]
      omega

theorem freeCells_fill {U : BitVec iw → BitVec 1} {i : BitVec iw} (h : U i = 0#1) : freeCells U = freeCells (update U i 1#1) + 1 := by
  have hi : BitVec.ofNat iw i.toNat = i := by rw [BitVec.ofNat_toNat, BitVec.setWidth_eq]
  unfold freeCells
  have key : ∀ (l : List Nat), (∀ k ∈ l, k < 2 ^ iw) → l.countP (fun k => decide (U (BitVec.ofNat iw k) = 0#1)) =
      l.countP (fun k => decide (k < 2 ^ iw ∧ U (BitVec.ofNat iw k) = 0#1)) := fun l hl =>
    List.countP_congr fun k hk => by simp [hl k hk]
  have key' : ∀ (l : List Nat), (∀ k ∈ l, k < 2 ^ iw) → l.countP (fun k => decide (update U i 1#1 (BitVec.ofNat iw k) = 0#1)) =
      l.countP (fun k => decide (k < 2 ^ iw ∧ update U i 1#1 (BitVec.ofNat iw k) = 0#1)) := fun l hl =>
    List.countP_congr fun k hk => by simp [hl k hk]
  have hm : ∀ k ∈ List.range (2 ^ iw), k < 2 ^ iw := fun k => List.mem_range.1
  rw [key _ hm, key' _ hm]
  rw [countP_flip (i := i.toNat) (p := fun k => decide (k < 2 ^ iw ∧ U (BitVec.ofNat iw k) = 0#1))
    (q := fun k => decide (k < 2 ^ iw ∧ update U i 1#1 (BitVec.ofNat iw k) = 0#1)) ?_ ?_ ?_ _ List.nodup_range, if_pos (List.mem_range.2 i.isLt)]
  · simp [hi, h, i.isLt]
  · simp [hi, update_at]
  · intro k hk
    by_cases c : k < 2 ^ iw
    · have : BitVec.ofNat iw k ≠ i := fun q => hk (by rw [← q, BitVec.toNat_ofNat, Nat.mod_eq_of_lt c])
      simp [update_away this]
    · simp [c]

theorem freeCells_pos {U : BitVec iw → BitVec 1} {i : BitVec iw} (h : U i = 0#1) : 0 < freeCells U := by
  rw [freeCells_fill h]; omega

theorem freeCells_full {U : BitVec iw → BitVec 1} (h : ∀ i, U i ≠ 0#1) : freeCells U = 0 := by
  unfold freeCells
  rw [List.countP_eq_zero]
  intro k _
  simp [h]

theorem freeCells_empty : freeCells (fun _ : BitVec iw => 0#1) = 2 ^ iw := by
  unfold freeCells
  rw [List.countP_eq_length.2 (by simp), List.length_range]

/-- The used cells are the map `f`, and each can be reached from the hash of its key. -/
structure TableInv (H : BitVec kw → BitVec iw) (U : BitVec iw → BitVec 1) (K : BitVec iw → BitVec kw) (V : BitVec iw → BitVec dw)
    (f : BitVec kw → Option (BitVec dw)) : Prop where
  reach : ∀ j, U j ≠ 0#1 → ∀ l, l < (j - H (K j)).toNat → U (H (K j) + BitVec.ofNat iw l) ≠ 0#1
  uniq : ∀ i j, U i ≠ 0#1 → U j ≠ 0#1 → K i = K j → i = j
  val : ∀ j, U j ≠ 0#1 → f (K j) = some (V j)
  cover : ∀ key, (f key).isSome → ∃ j, U j ≠ 0#1 ∧ K j = key

theorem add_sub_ofNat (h j : BitVec iw) : h + BitVec.ofNat iw (j - h).toNat = j :=
  ((sub_toNat_eq_iff (j - h).isLt).1 rfl).symm

section
variable {H : BitVec kw → BitVec iw} {U : BitVec iw → BitVec 1} {K : BitVec iw → BitVec kw} {V : BitVec iw → BitVec dw}
  {f : BitVec kw → Option (BitVec dw)} {key : BitVec kw} {k : Nat}

theorem TableInv.hit (hi : TableInv H U K V f) (h : findCell U K (H key) key (List.range (2 ^ iw)) = some (k, true)) :
    U (H key + BitVec.ofNat iw k) ≠ 0#1 ∧ K (H key + BitVec.ofNat iw k) = key ∧ f key = some (V (H key + BitVec.ofNat iw k)) := by
  rw [List.range_eq_range'] at h
  obtain ⟨-, -, h3⟩ := findCell_some _ _ h
  rcases h3 with ⟨-, h3, h4⟩ | ⟨h3, -⟩
  · exact ⟨h3, h4, by rw [← hi.val _ h3, h4]⟩
  · cases h3

theorem TableInv.miss (hi : TableInv H U K V f) (h : findCell U K (H key) key (List.range (2 ^ iw)) = some (k, false)) :
    k < 2 ^ iw ∧ U (H key + BitVec.ofNat iw k) = 0#1 ∧ (∀ l, l < k → U (H key + BitVec.ofNat iw l) ≠ 0#1) ∧ f key = none := by
  rw [List.range_eq_range'] at h
  obtain ⟨h1, h2, h3⟩ := findCell_some _ _ h
  rcases h3 with ⟨h3, -⟩ | ⟨-, h3⟩
  · cases h3
  refine ⟨by omega, h3, fun l q => (h2 l (by omega) q).1, ?_⟩
  cases e : f key with
  | none => rfl
  | some v =>
    exfalso
    obtain ⟨j, j1, j2⟩ := hi.cover key (by rw [e]; rfl)
    have r := hi.reach j j1
    rw [j2] at r
    have ej := add_sub_ofNat (H key) j
    rcases Nat.lt_trichotomy (j - H key).toNat k with q | q | q
    · exact (h2 _ (by omega) q).2 (by rw [ej, j2])
    · rw [q] at ej
      rw [ej] at h3
      exact j1 h3
    · exact r k q h3

theorem TableInv.full (hi : TableInv H U K V f) (h : findCell U K (H key) key (List.range (2 ^ iw)) = none) :
    freeCells U = 0 ∧ f key = none := by
  rw [List.range_eq_range'] at h
  have g := findCell_none _ _ h
  have all : ∀ j, U j ≠ 0#1 ∧ K j ≠ key := fun j => by
    have := g (j - H key).toNat (by omega) (by have := (j - H key).isLt; omega)
    rwa [add_sub_ofNat] at this
  refine ⟨freeCells_full fun j => (all j).1, ?_⟩
  cases e : f key with
  | none => rfl
  | some v =>
    obtain ⟨j, j1, j2⟩ := hi.cover key (by rw [e]; rfl)
    exact absurd j2 (all j).2

theorem TableInv.replace (hi : TableInv H U K V f) {i : BitVec iw} (hu : U i ≠ 0#1) (hk : K i = key) (v : BitVec dw) :
    TableInv H (update U i 1#1) (update K i key) (update V i v) (fun k => if k = key then some v else f k) := by
  have e1 : update K i key = K := by
    funext j
    by_cases e : j = i
    · rw [e, update_at, hk]
    · rw [update_away e]
  have e2 : update U i 1#1 = U := by
    funext j
    by_cases e : j = i
    · rw [e, update_at]
      generalize U i = u at hu
      revert hu; revert u; decide
    · rw [update_away e]
  rw [e1, e2]
  refine ⟨hi.reach, hi.uniq, fun j hj => ?_, fun key' h => ?_⟩
  · by_cases e : j = i
    · rw [e, if_pos hk, update_at]
    · rw [if_neg fun q => e (hi.uniq j i hj hu (q.trans hk.symm)), update_away e, hi.val j hj]
  · by_cases e : key' = key
    · exact ⟨i, hu, hk.trans e.symm⟩
    · rw [if_neg e] at h
      exact hi.cover key' h

theorem TableInv.insert (hi : TableInv H U K V f) (hk : k < 2 ^ iw) (hu : U (H key + BitVec.ofNat iw k) = 0#1)
    (hl : ∀ l, l < k → U (H key + BitVec.ofNat iw l) ≠ 0#1) (hf : f key = none) (v : BitVec dw) :
    TableInv H (update U (H key + BitVec.ofNat iw k) 1#1) (update K (H key + BitVec.ofNat iw k) key)
      (update V (H key + BitVec.ofNat iw k) v) (fun k => if k = key then some v else f k) := by
  have grow : ∀ j, U j ≠ 0#1 → update U (H key + BitVec.ofNat iw k) 1#1 j ≠ 0#1 := fun j hj => by
    by_cases e : j = H key + BitVec.ofNat iw k
    · rw [e, update_at]; decide
    · rw [update_away e]; exact hj
  have off : (H key + BitVec.ofNat iw k - H key).toNat = k := (sub_toNat_eq_iff hk).2 rfl
  have new : ∀ j, U j ≠ 0#1 → K j ≠ key := fun j hj e => by
    have := hi.val j hj
    rw [e, hf] at this
    cases this
  generalize hc : H key + BitVec.ofNat iw k = i at *
  refine ⟨fun j hj l h => ?_, fun a b ha hb hab => ?_, fun j hj => ?_, fun key' h => ?_⟩
  · by_cases e : j = i
    · subst e
      rw [update_at] at h ⊢
      exact grow _ (hl l (by omega))
    · rw [update_away e] at hj h ⊢
      exact grow _ (hi.reach j hj l h)
  · by_cases e : a = i
    · by_cases e' : b = i
      · rw [e, e']
      · rw [update_away e'] at hb hab
        rw [e, update_at] at hab
        exact absurd hab.symm (new b hb)
    · rw [update_away e] at ha hab
      by_cases e' : b = i
      · rw [e', update_at] at hab
        exact absurd hab (new a ha)
      · rw [update_away e'] at hb hab
        exact hi.uniq a b ha hb hab
  · by_cases e : j = i
    · rw [e, update_at, update_at, if_pos rfl]
    · rw [update_away e] at hj
      rw [update_away e, update_away e, if_neg (new j hj), hi.val j hj]
  · by_cases e : key' = key
    · exact ⟨i, by rw [update_at]; decide, by rw [update_at, e]⟩
    · rw [if_neg e] at h
      obtain ⟨j, j1, j2⟩ := hi.cover key' h
      have : j ≠ i := fun q => j1 (q ▸ hu)
      exact ⟨j, grow j j1, by rw [update_away this, j2]⟩
end

/-! ## On arrays -/

/-- The arrays of the table hold these functions. -/
structure HashTable.Holds (m : Mode) (t : HashTable) (U : BitVec iw → BitVec 1) (K : BitVec iw → BitVec kw) (V : BitVec iw → BitVec dw) :
    Prop where
  used : Means m (.arr iw 1) t.used U
  keys : Means m (.arr iw kw) t.keys K
  vals : Means m (.arr iw dw) t.vals V

section
variable {m : Mode} {U : BitVec iw → BitVec 1} {K : BitVec iw → BitVec kw} {V : BitVec iw → BitVec dw} {t : HashTable}

theorem HashTable.Holds.probe (env : HashEnv) (h0 : 0 < iw) (ht : t.Holds m U K V) (hkw : kw < 2 ^ 32) (h : BitVec iw) (key : BitVec kw) :
    ∀ (ks : List Nat), (∀ k ∈ ks, k < 2 ^ iw) → t.probe m env (encode h) (encode key) ks =
      ok ((findCell U K h key ks).map fun p => (encode (h + BitVec.ofNat iw p.1), p.2))
  | [], _ => rfl
  | k :: ks, hk => by
    have h64 := ht.used.2.index_le
    have ih := ht.probe env h0 hkw h key ks fun k q => hk k (List.mem_cons_of_mem _ q)
    rw [HashTable.probe, offsetBy_spec m h0 h64 (encode_denotes h (by omega)) (hk k (by simp)), ok_bind, ht.used.select_eq, ok_bind,
      C25_is_zero (encode_denotes _ (by decide)), findCell]
    by_cases hu : U (h + BitVec.ofNat iw k) = 0#1
    · rw [if_pos (by simpa using hu), if_pos hu]
      rfl
    rw [if_neg (by simpa using hu), if_neg hu, ht.keys.select_eq, ok_bind,
      C15_is_equal m (encode_denotes _ hkw) (encode_denotes _ hkw), ok_bind]
    by_cases he : K (h + BitVec.ofNat iw k) = key
    · rw [if_pos (by simpa using he), if_pos he]
      rfl
    · rw [if_neg (by simpa using he), if_neg he, ih]

theorem HashTable.Holds.fill (env : HashEnv) (ht : t.Holds m U K V) (i : BitVec iw) (key : BitVec kw) (v : BitVec dw) :
    ∃ t', t.fill m env (encode i) (encode key) (encode v) = ok t' ∧ t'.Holds m (update U i 1#1) (update K i key) (update V i v) := by
  obtain ⟨a, a1, a2⟩ := ht.used.store_ex m env i 1#1
  obtain ⟨b, b1, b2⟩ := ht.keys.store_ex m env i key
  obtain ⟨c, c1, c2⟩ := ht.vals.store_ex m env i v
  exact ⟨⟨a, b, c⟩, by rw [HashTable.fill, tru_encode, ok_bind, a1, ok_bind, b1, ok_bind, c1, ok_bind], ⟨a2, b2, c2⟩⟩
end

theorem mapAnswers_known {f : BitVec kw → Option (BitVec dw)} {key : BitVec kw} (room : Nat) (v : BitVec dw) (rs : List (MapRequest kw dw))
    (h : (f key).isSome) :
    mapAnswers room f (.put key v :: rs) = .stored true :: mapAnswers room (fun k => if k = key then some v else f k) rs := by
  rw [mapAnswers.eq_def]
  dsimp only
  rw [if_pos h]

theorem mapAnswers_full {f : BitVec kw → Option (BitVec dw)} {key : BitVec kw} (v : BitVec dw) (rs : List (MapRequest kw dw))
    (h : f key = none) : mapAnswers 0 f (.put key v :: rs) = .stored false :: mapAnswers 0 f rs := by
  rw [mapAnswers.eq_def]
  dsimp only
  rw [h, if_neg (by simp)]

theorem mapAnswers_new {f : BitVec kw → Option (BitVec dw)} {key : BitVec kw} (room : Nat) (v : BitVec dw) (rs : List (MapRequest kw dw))
    (h : f key = none) :
    mapAnswers (room + 1) f (.put key v :: rs) = .stored true :: mapAnswers room (fun k => if k = key then some v else f k) rs := by
  rw [mapAnswers.eq_def]
  dsimp only
  rw [h, if_neg (by simp)]

theorem HashTable.Holds.run {m : Mode} (env : HashEnv) (h0 : 0 < iw) (hkw : kw < 2 ^ 32) {hash : BitVecValue → Res BitVecValue}
    {H : BitVec kw → BitVec iw} (hash_eq : ∀ key, hash (encode key) = ok (encode (H key))) : ∀ (rs : List (MapRequest kw dw))
    {t : HashTable} {U : BitVec iw → BitVec 1} {K : BitVec iw → BitVec kw} {V : BitVec iw → BitVec dw} {f : BitVec kw → Option (BitVec dw)},
    t.Holds m U K V → TableInv H U K V f →
    HashTable.run m env iw hash t (rs.map MapRequest.encoded) = ok (mapAnswers (freeCells U) f rs)
  | [], t, U, K, V, f, ht, hi => rfl
  | .get key :: rs, t, U, K, V, f, ht, hi => by
    have ih := HashTable.Holds.run env h0 hkw hash_eq rs ht hi
    rw [List.map_cons, MapRequest.encoded, HashTable.run, HashTable.serve, hash_eq, ok_bind,
      ht.probe env h0 hkw _ _ _ fun k => List.mem_range.1, ok_bind]
    cases e : findCell U K (H key) key (List.range (2 ^ iw)) with
    | none =>
      dsimp only [Option.map_none]
      rw [ok_bind, mapAnswers, (hi.full e).2]
      dsimp only
      rw [ih]; rfl
    | some p =>
      obtain ⟨k, b⟩ := p
      cases b with
      | false =>
        dsimp only [Option.map_some]
        rw [ok_bind, mapAnswers, (hi.miss e).2.2.2]
        dsimp only
        rw [ih]; rfl
      | true =>
        dsimp only [Option.map_some]
        rw [ht.vals.select_eq, ok_bind, ok_bind, mapAnswers, (hi.hit e).2.2]
        dsimp only
        rw [ih]; rfl
  | .put key v :: rs, t, U, K, V, f, ht, hi => by
    rw [List.map_cons, MapRequest.encoded, HashTable.run, HashTable.serve, hash_eq, ok_bind,
      ht.probe env h0 hkw _ _ _ fun k => List.mem_range.1, ok_bind]
    cases e : findCell U K (H key) key (List.range (2 ^ iw)) with
    | none =>
      have ih := HashTable.Holds.run env h0 hkw hash_eq rs ht hi
      obtain ⟨g1, g2⟩ := hi.full e
      rw [g1] at ih
      dsimp only [Option.map_none]
      rw [ok_bind, g1, mapAnswers_full v _ g2]
      dsimp only
      rw [ih]; rfl
    | some p =>
      obtain ⟨k, b⟩ := p
      obtain ⟨t', t1, t2⟩ := ht.fill env (H key + BitVec.ofNat iw k) key v
      dsimp only [Option.map_some]
      rw [t1, ok_bind, ok_bind]
      cases b with
      | true =>
        obtain ⟨g1, g2, g3⟩ := hi.hit e
        have ih := HashTable.Holds.run env h0 hkw hash_eq rs t2 (hi.replace g1 g2 v)
        have e2 : update U (H key + BitVec.ofNat iw k) 1#1 = U := by
          funext j
          by_cases c : j = H key + BitVec.ofNat iw k
          · rw [c, update_at]
            generalize U (H key + BitVec.ofNat iw k) = u at g1
            revert g1; revert u; decide
          · rw [update_away c]
        rw [e2] at ih
        rw [mapAnswers_known _ v _ (by rw [g3]; rfl)]
        dsimp only
        rw [ih]; rfl
      | false =>
        obtain ⟨g1, g2, g3, g4⟩ := hi.miss e
        have ih := HashTable.Holds.run env h0 hkw hash_eq rs t2 (hi.insert g1 g2 g3 g4 v)
        rw [freeCells_fill g2, mapAnswers_new _ v _ g4]
        dsimp only
        rw [ih]; rfl

/-- **C161** A hash table with linear probing, made of three arrays of the library and empty at first, gives the answers of a map
with room for as many keys as it has cells, whatever the hash function and whatever is stored and looked up, in any order. -/
theorem C161_hash_table (m : Mode) (env : HashEnv) (h0 : 0 < iw) (hkw : kw < 2 ^ 32) {hash : BitVecValue → Res BitVecValue}
    {H : BitVec kw → BitVec iw} (hash_eq : ∀ key, hash (encode key) = ok (encode (H key))) {t : HashTable}
    {K : BitVec iw → BitVec kw} {V : BitVec iw → BitVec dw} (hu : Means m (.arr iw 1) t.used fun _ => 0#1)
    (hk : Means m (.arr iw kw) t.keys K) (hv : Means m (.arr iw dw) t.vals V) (rs : List (MapRequest kw dw)) :
    HashTable.run m env iw hash t (rs.map MapRequest.encoded) = ok (mapAnswers (2 ^ iw) (fun _ => none) rs) := by
  rw [← freeCells_empty (iw := iw)]
  exact HashTable.Holds.run env h0 hkw hash_eq rs ⟨hu, hk, hv⟩
    ⟨fun _ h => absurd rfl h, fun _ _ h => absurd rfl h, fun _ h => absurd rfl h, fun _ h => by cases h⟩

/-- **C161** The lowest bits of the key are such a hash function. -/
theorem C161_low_bits (m : Mode) (h0 : 0 < iw) (h : iw ≤ kw) (hkw : kw < 2 ^ 32) (key : BitVec kw) :
    BitVecValue.slice m (encode key) (iw - 1) 0 = ok (encode (key.extractLsb' 0 iw)) := by
  obtain ⟨k, rfl⟩ : ∃ k, iw = k + 1 := ⟨iw - 1, by omega⟩
  obtain ⟨r, r1, r2⟩ := C19_slice m (encode_denotes key hkw) (msb := k) (lsb := 0) (by omega) (by omega)
  rw [show k - 0 + 1 = k + 1 by omega] at r2
  rw [← r2.eq_encode]
  exact r1

example : (do
      let used ← ArrayValue.newDense .debug 1 (encode 0#1)
      let keys ← ArrayValue.newDense .debug 1 (encode 0#4)
      let vals ← ArrayValue.newSparse 1 (encode 9#70)
      HashTable.run .debug listEnv 1 (fun k => BitVecValue.slice .debug k 0 0) ⟨used, keys, vals⟩
        [.get (encode 5#4), .put (encode 5#4) (encode 1#70), .put (encode 7#4) (encode 2#70), .get (encode 7#4),
          .put (encode 5#4) (encode 3#70), .get (encode 5#4), .put (encode 6#4) (encode 4#70), .get (encode 6#4), .get (encode 7#4)])
    = ok [.found none, .stored true, .stored true, .found (some (encode 2#70)), .stored true, .found (some (encode 3#70)),
        .stored false, .found none, .found (some (encode 2#70))] := by
  decide +kernel

end Baa

import Verif.Model.HMap

/-!
# Properties of the hash-map model
-/

namespace Baa

theorem nodup_of_map {α β : Type} {f : α → β} {l : List α} (h : (l.map f).Nodup) : l.Nodup :=
  List.Pairwise.of_map f (fun _ _ hne he => hne (he ▸ rfl)) h

theorem perm_of_subset {α : Type} {a b : List α} (hn : a.Nodup) (hs : ∀ e ∈ a, e ∈ b) (hl : b.length ≤ a.length) :
    a.Perm b := by
  induction a generalizing b with
  | nil =>
    rw [List.eq_nil_of_length_eq_zero (Nat.le_zero.mp hl)]
  | cons x a ih =>
    obtain ⟨s, t, rfl⟩ := List.append_of_mem (hs x (by simp))
    rw [List.nodup_cons] at hn
    have h1 : a.Perm (s ++ t) := by
      refine ih hn.2 ?_ ?_
      · intro e he
        have h2 := hs e (by simp [he])
        have h3 : e ≠ x := fun h => hn.1 (h ▸ he)
        simpa [h3] using h2
      · simp at hl ⊢
        omega
    exact (h1.cons x).trans List.perm_middle.symm

namespace HMap
variable {K V : Type} [DecidableEq K]

theorem find?_filter_ne (l : List (K × V)) {k k' : K} (h : k' ≠ k) :
    (l.filter fun e => e.1 ≠ k).find? (fun e => e.1 = k') = l.find? fun e => e.1 = k' := by
  induction l with
  | nil => rfl
  | cons e l ih =>
    by_cases h1 : e.1 = k
    · rw [List.filter_cons_of_neg (by simpa using h1), ih, List.find?_cons_of_neg]
      simpa using fun (h2 : e.1 = k') => h (h2.symm.trans h1)
    · rw [List.filter_cons_of_pos (by simpa using h1)]
      by_cases h2 : e.1 = k'
      · rw [List.find?_cons_of_pos (by simpa using h2), List.find?_cons_of_pos (by simpa using h2)]
      · rw [List.find?_cons_of_neg (by simpa using h2), List.find?_cons_of_neg (by simpa using h2), ih]

theorem get_empty (k : K) : (empty : HMap K V).get k = none := rfl

theorem get_insert_self (m : HMap K V) (k : K) (v : V) : (m.insert k v).get k = some v := by
  simp [get, insert]

theorem get_insert_ne (m : HMap K V) {k k' : K} (v : V) (h : k' ≠ k) : (m.insert k v).get k' = m.get k' := by
  unfold get insert
  rw [List.find?_cons_of_neg (by simpa using fun e => h e.symm), find?_filter_ne _ h]

theorem get_insert (m : HMap K V) (k k' : K) (v : V) :
    (m.insert k v).get k' = if k' = k then some v else m.get k' := by
  by_cases h : k' = k
  · rw [if_pos h, h, get_insert_self]
  · rw [if_neg h, get_insert_ne _ _ h]

theorem get_remove_self (m : HMap K V) (k : K) : (m.remove k).get k = none := by
  unfold get remove
  rw [List.find?_eq_none.mpr]
  · rfl
  · intro e he
    simpa using (List.mem_filter.mp he).2

theorem get_remove_ne (m : HMap K V) {k k' : K} (h : k' ≠ k) : (m.remove k).get k' = m.get k' := by
  unfold get remove
  rw [find?_filter_ne _ h]

theorem get_remove (m : HMap K V) (k k' : K) :
    (m.remove k).get k' = if k' = k then none else m.get k' := by
  by_cases h : k' = k
  · rw [if_pos h, h, get_remove_self]
  · rw [if_neg h, get_remove_ne _ h]

omit [DecidableEq K] in
theorem nodup_empty : (empty : HMap K V).Nodup := List.nodup_nil

omit [DecidableEq K] in
theorem nodup_filter (m : HMap K V) (h : m.Nodup) (p : K × V → Bool) : ((m.entries.filter p).map Prod.fst).Nodup :=
  List.Nodup.sublist (List.Sublist.map _ List.filter_sublist) h

theorem nodup_remove {m : HMap K V} (h : m.Nodup) (k : K) : (m.remove k).Nodup := nodup_filter m h _

theorem nodup_insert {m : HMap K V} (h : m.Nodup) (k : K) (v : V) : (m.insert k v).Nodup := by
  unfold Nodup insert
  rw [List.map_cons, List.nodup_cons]
  refine ⟨?_, nodup_filter m h _⟩
  intro hm
  obtain ⟨e, he, hk⟩ := List.mem_map.mp hm
  have := (List.mem_filter.mp he).2
  simp [hk] at this

theorem get_eq_some_iff {m : HMap K V} (h : m.Nodup) (k : K) (v : V) : m.get k = some v ↔ (k, v) ∈ m.entries := by
  obtain ⟨l⟩ := m
  unfold get Nodup at *
  simp only at h ⊢
  induction l with
  | nil => simp
  | cons e l ih =>
    rw [List.map_cons, List.nodup_cons] at h
    by_cases h1 : e.1 = k
    · rw [List.find?_cons_of_pos (by simpa using h1), Option.map_some, Option.some.injEq, List.mem_cons]
      constructor
      · intro h2
        left
        rw [← h1, ← h2]
      · rintro (h2 | h2)
        · rw [← h2]
        · exact absurd (List.mem_map.mpr ⟨(k, v), h2, rfl⟩) (h1 ▸ h.1)
    · rw [List.find?_cons_of_neg (by simpa using h1), ih h.2, List.mem_cons]
      constructor
      · exact .inr
      · rintro (h2 | h2)
        · exact absurd (by rw [← h2]) h1
        · exact h2

theorem get_eq_none_iff (m : HMap K V) (k : K) : m.get k = none ↔ k ∉ m.entries.map Prod.fst := by
  unfold get
  rw [Option.map_eq_none_iff, List.find?_eq_none]
  simp only [decide_eq_true_eq, List.mem_map, not_exists, not_and]

/-- `PartialEq` of hash maps compares the functions they represent. -/
theorem beq_iff [DecidableEq V] {a b : HMap K V} (ha : a.Nodup) (hb : b.Nodup) :
    a.beq b = true ↔ ∀ k, a.get k = b.get k := by
  unfold beq len
  rw [Bool.and_eq_true, beq_iff_eq, List.all_eq_true]
  constructor
  · rintro ⟨h1, h2⟩ k
    have hsub : ∀ e ∈ a.entries, e ∈ b.entries := fun e he =>
      (get_eq_some_iff hb e.1 e.2).mp (by simpa using h2 e he)
    have hna : a.entries.Nodup := nodup_of_map ha
    have hnb : b.entries.Nodup := nodup_of_map hb
    have hp : a.entries.Perm b.entries :=
      perm_of_subset hna hsub (by omega)
    cases hk : b.get k with
    | some v => exact (get_eq_some_iff ha k v).mpr (hp.mem_iff.mpr ((get_eq_some_iff hb k v).mp hk))
    | none =>
      rw [get_eq_none_iff] at hk ⊢
      intro hm
      exact hk ((hp.map Prod.fst).mem_iff.mp hm)
  · intro h
    have hmem : ∀ e, e ∈ a.entries ↔ e ∈ b.entries := fun e => by
      rw [← get_eq_some_iff ha e.1 e.2, ← get_eq_some_iff hb e.1 e.2, h]
    refine ⟨?_, ?_⟩
    · have hna : a.entries.Nodup := nodup_of_map ha
      have hnb : b.entries.Nodup := nodup_of_map hb
      exact ((List.perm_ext_iff_of_nodup hna hnb).mpr hmem).length_eq
    · intro e he
      rw [decide_eq_true_eq]
      exact (get_eq_some_iff hb e.1 e.2).mpr ((hmem e).mp he)

end HMap
end Baa

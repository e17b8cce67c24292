import Verif.Props.Indexed
import Verif.Spec.Interner

/-!
# C46, C47, C48: the value interner

A history is a list of `get_index` calls on a fresh interner.
-/

namespace Baa
open Res

/-- Where a value has been put. -/
def lookup (s : ValueInterner) (v : BitVecValue) : Option Nat :=
  match v.words with
  | [word] => if word.toNat < 8 then some word.toNat else s.small.get word
  | words => s.large.get words

/-- The state invariant. -/
structure Inv (s : ValueInterner) : Prop where
  pre : ∀ k, k < 8 → s.words[k]? = some (BitVec.ofNat 64 k)
  small : ∀ w i, s.small.get w = some i → 8 ≤ i ∧ s.words[i]? = some w
  large : ∀ ws i, s.large.get ws = some i → 8 ≤ i ∧ ∀ k, k < ws.length → s.words[i + k]? = ws[k]?

theorem inv_new : Inv ValueInterner.new where
  pre := by decide
  small := fun w i h => by cases h
  large := fun ws i h => by cases h

theorem Inv.len {s : ValueInterner} (h : Inv s) : 8 ≤ s.words.length := by
  have := h.pre 7 (by decide)
  have := (List.getElem?_eq_some_iff.mp this).1
  omega

theorem lookup_one (s : ValueInterner) {v : BitVecValue} {word : Word} (h : v.words = [word]) :
    lookup s v = if word.toNat < 8 then some word.toNat else s.small.get word := by
  rw [lookup, h]

theorem lookup_wide (s : ValueInterner) {v : BitVecValue} (h : v.words.length ≠ 1) : lookup s v = s.large.get v.words := by
  rw [lookup]
  split
  · rename_i hw
    rw [hw] at h
    exact absurd rfl h
  · rfl

theorem getElem?_append_of_some {α : Type} {l t : List α} {k : Nat} {x : α} (h : l[k]? = some x) :
    (l ++ t)[k]? = some x := by
  rw [List.getElem?_append_left (List.getElem?_eq_some_iff.mp h).1, h]

theorem Inv.grow {s s' : ValueInterner} (h : Inv s) {t : List Word} (hw : s'.words = s.words ++ t)
    (hs : ∀ w i, s'.small.get w = some i → s.small.get w = some i ∨ (8 ≤ i ∧ s'.words[i]? = some w))
    (hl : ∀ ws i, s'.large.get ws = some i → s.large.get ws = some i ∨
      (8 ≤ i ∧ ∀ k, k < ws.length → s'.words[i + k]? = ws[k]?)) : Inv s' where
  pre := fun k hk => by rw [hw]; exact getElem?_append_of_some (h.pre k hk)
  small := fun w i hg => by
    rcases hs w i hg with h1 | h1
    · obtain ⟨h2, h3⟩ := h.small w i h1
      exact ⟨h2, by rw [hw]; exact getElem?_append_of_some h3⟩
    · exact h1
  large := fun ws i hg => by
    rcases hl ws i hg with h1 | h1
    · obtain ⟨h2, h3⟩ := h.large ws i h1
      refine ⟨h2, fun k hk => ?_⟩
      have h4 := h3 k hk
      rw [List.getElem?_eq_getElem hk] at h4 ⊢
      rw [hw]
      exact getElem?_append_of_some h4
    · exact h1

/-- One call. -/
theorem getIndex_spec (m : Mode) {s : ValueInterner} (hs : Inv s) {v : BitVecValue} (hc : Canonical v) (h0 : 0 < v.width)
    (hf : s.words.length + (v.width + 63) / 64 ≤ 2 ^ 32) :
    ∃ s' i, s.getIndex m v = ok (s', i) ∧ Inv s' ∧ i.width = v.width ∧ lookup s' v = some i.index ∧
      s'.words.length ≤ s.words.length + (v.width + 63) / 64 ∧
      (∀ u j, lookup s u = some j → lookup s' u = some j) := by
  have hlen := hc.length_eq
  have h8 := hs.len
  by_cases h1 : v.words.length = 1
  · obtain ⟨word, hword⟩ := List.length_eq_one_iff.mp h1
    have hw64 : v.width ≤ 64 := by omega
    have hstep : s.getIndex m v = (if word.toNat < 8 then ok (s, ⟨word.toNat, v.width⟩)
      else match s.small.get word with
      | some index => ok (s, ⟨index, v.width⟩)
      | none => ok ({ s with words := s.words ++ [word], small := s.small.insert word (s.words.length % U32) },
          ⟨s.words.length % U32, v.width⟩)) := by
      unfold ValueInterner.getIndex
      rw [hword]
      dsimp only
      rw [debugAssert_decide_of hw64, ok_bind]
      rfl
    rw [hstep]
    by_cases h2 : word.toNat < 8
    · rw [if_pos h2]
      exact ⟨s, _, rfl, hs, rfl, by rw [lookup_one s hword, if_pos h2], by omega, fun _ _ h => h⟩
    · rw [if_neg h2]
      cases hg : s.small.get word with
      | some index =>
        exact ⟨s, _, rfl, hs, rfl, by rw [lookup_one s hword, if_neg h2, hg], by omega, fun _ _ h => h⟩
      | none =>
        have hmod : s.words.length % U32 = s.words.length := Nat.mod_eq_of_lt (by
          show _ < 4294967296
          omega)
        refine ⟨_, _, rfl, ?_, rfl, ?_, ?_, ?_⟩
        · refine hs.grow (t := [word]) rfl ?_ ?_
          · intro w i hi
            dsimp only at hi
            rw [HMap.get_insert, hmod] at hi
            by_cases hww : w = word
            · rw [if_pos hww] at hi
              cases hi
              right
              exact ⟨h8, by rw [hww]; simp⟩
            · rw [if_neg hww] at hi
              exact .inl hi
          · intro ws i hi
            exact .inl hi
        · rw [lookup_one _ hword, if_neg h2, HMap.get_insert_self]
        · simp only [List.length_append, List.length_cons, List.length_nil]
          omega
        · intro u j hu
          by_cases hu1 : u.words.length = 1
          · obtain ⟨uw, huw⟩ := List.length_eq_one_iff.mp hu1
            rw [lookup_one _ huw] at hu ⊢
            by_cases hu8 : uw.toNat < 8
            · rw [if_pos hu8] at hu ⊢
              exact hu
            · rw [if_neg hu8] at hu ⊢
              rw [HMap.get_insert_ne]
              · exact hu
              · intro e
                rw [e, hg] at hu
                cases hu
          · rw [lookup_wide _ hu1] at hu ⊢
            exact hu
  · have hw64 : v.width > 64 := by omega
    have hstep : s.getIndex m v = (match s.large.get v.words with
      | some index => ok (s, ⟨index, v.width⟩)
      | none => ok ({ s with words := s.words ++ v.words, large := s.large.insert v.words (s.words.length % U32) },
          ⟨s.words.length % U32, v.width⟩)) := by
      unfold ValueInterner.getIndex
      split
      · rename_i hw
        rw [hw] at h1
        exact absurd rfl h1
      · rw [debugAssert_decide_of hw64, ok_bind]
        rfl
    rw [hstep]
    cases hg : s.large.get v.words with
    | some index =>
      exact ⟨s, _, rfl, hs, rfl, by rw [lookup_wide s h1, hg], by omega, fun _ _ h => h⟩
    | none =>
      have hmod : s.words.length % U32 = s.words.length := Nat.mod_eq_of_lt (by
        show _ < 4294967296
        omega)
      refine ⟨_, _, rfl, ?_, rfl, ?_, ?_, ?_⟩
      · refine hs.grow (t := v.words) rfl ?_ ?_
        · intro w i hi
          exact .inl hi
        · intro ws i hi
          dsimp only at hi
          rw [HMap.get_insert, hmod] at hi
          by_cases hww : ws = v.words
          · rw [if_pos hww] at hi
            cases hi
            right
            refine ⟨h8, fun k hk => ?_⟩
            show (s.words ++ v.words)[s.words.length + k]? = ws[k]?
            rw [hww, List.getElem?_append_right (by omega), Nat.add_sub_cancel_left]
          · rw [if_neg hww] at hi
            exact .inl hi
      · rw [lookup_wide _ h1, HMap.get_insert_self]
      · simp only [List.length_append]
        omega
      · intro u j hu
        by_cases hu1 : u.words.length = 1
        · obtain ⟨uw, huw⟩ := List.length_eq_one_iff.mp hu1
          rw [lookup_one _ huw] at hu ⊢
          exact hu
        · rw [lookup_wide _ hu1] at hu ⊢
          rw [HMap.get_insert_ne]
          · exact hu
          · intro e
            rw [e, hg] at hu
            cases hu

theorem Inv.read {s : ValueInterner} (hs : Inv s) {v : BitVecValue} (hc : Canonical v) (h0 : 0 < v.width) {j : Nat}
    (h : lookup s v = some j) : Indexed.getRef s.words ⟨j, v.width⟩ = ok v := by
  have hlen := hc.length_eq
  have hst : StoredAt s.words ⟨j, v.width⟩ v := by
    refine ⟨rfl, hlen, fun k hk => ?_⟩
    dsimp only at hk ⊢
    by_cases h1 : v.words.length = 1
    · obtain ⟨word, hword⟩ := List.length_eq_one_iff.mp h1
      rw [lookup_one s hword] at h
      have hk0 : k = 0 := by omega
      subst hk0
      rw [hword, Nat.add_zero]
      by_cases h2 : word.toNat < 8
      · rw [if_pos h2] at h
        cases h
        rw [hs.pre _ h2]
        simp
      · rw [if_neg h2] at h
        rw [(hs.small _ _ h).2]
        simp
    · rw [lookup_wide s h1] at h
      rw [(hs.large _ _ h).2 k (by omega)]
  have hb : InBounds s.words ⟨j, v.width⟩ := by
    unfold InBounds pastEnd
    dsimp only
    have h4 := hst.word_eq ((v.width + 63) / 64 - 1) (by dsimp only; omega)
    dsimp only at h4
    rw [List.getElem?_eq_getElem (l := v.words) (by omega)] at h4
    have := (List.getElem?_eq_some_iff.mp h4.symm).1
    omega
  obtain ⟨u, hu1, hu2⟩ := (C44_get_ref s.words ⟨j, v.width⟩).1 hb
  rw [hu1, hu2.unique hst]

/-- A whole history. -/
theorem internAll_spec (m : Mode) (vs : List BitVecValue) : ∀ (s : ValueInterner), Inv s →
    (∀ v ∈ vs, Canonical v ∧ 0 < v.width) → s.words.length + totalWords vs ≤ 2 ^ 32 →
    ∃ s' is, internAll m s vs = ok (s', is) ∧ Inv s' ∧ is.length = vs.length ∧
      (∀ (k : Nat) (v : BitVecValue) (i : BitVecValueIndex), vs[k]? = some v → is[k]? = some i → i.width = v.width ∧ lookup s' v = some i.index) ∧
      (∀ u j, lookup s u = some j → lookup s' u = some j) := by
  induction vs with
  | nil =>
    intro s hs _ _
    exact ⟨s, [], rfl, hs, rfl, fun k v i h => by simp at h, fun _ _ h => h⟩
  | cons v vs ih =>
    intro s hs hc hf
    have ht : totalWords (v :: vs) = (v.width + 63) / 64 + totalWords vs := by
      simp [totalWords]
    rw [ht] at hf
    obtain ⟨hv, hv0⟩ := hc v (by simp)
    obtain ⟨s1, i, h1, hs1, hi, hl1, hw1, hm1⟩ := getIndex_spec m hs hv hv0 (by omega)
    obtain ⟨s2, is, h2, hs2, hlen, hl2, hm2⟩ := ih s1 hs1 (fun u hu => hc u (by simp [hu])) (by omega)
    refine ⟨s2, i :: is, ?_, hs2, by simp [hlen], ?_, fun u j h => hm2 u j (hm1 u j h)⟩
    · rw [internAll, h1, ok_bind]
      dsimp only
      rw [h2, ok_bind]
    · intro k u j hu hj
      cases k with
      | zero =>
        simp only [List.getElem?_cons_zero, Option.some.injEq] at hu hj
        subst hu hj
        exact ⟨hi, hm2 _ _ hl1⟩
      | succ k =>
        simp only [List.getElem?_cons_succ] at hu hj
        exact hl2 k u j hu hj

theorem History.run {vs : List BitVecValue} (h : History vs) (m : Mode) :
    ∃ s is, internAll m .new vs = ok (s, is) ∧ Inv s ∧ is.length = vs.length ∧
      (∀ (k : Nat) (v : BitVecValue) (i : BitVecValueIndex), vs[k]? = some v → is[k]? = some i → i.width = v.width ∧ lookup s v = some i.index) := by
  obtain ⟨s, is, h1, h2, h3, h4, _⟩ := internAll_spec m vs .new inv_new h.canonical h.fits
  exact ⟨s, is, h1, h2, h3, h4⟩

/-- **C46** Interning any history succeeds and, at the end of it, every index that was handed out along the way still reads
back exactly the value it was handed out for. -/
theorem C46_read_back (m : Mode) (vs : List BitVecValue) (h : History vs) :
    ∃ s is, internAll m .new vs = ok (s, is) ∧ is.length = vs.length ∧
      ∀ (k : Nat) (v : BitVecValue) (i : BitVecValueIndex), vs[k]? = some v → is[k]? = some i → Indexed.getRef s.words i = ok v := by
  obtain ⟨s, is, h1, h2, h3, h4⟩ := h.run m
  refine ⟨s, is, h1, h3, fun k v i hv hi => ?_⟩
  obtain ⟨h5, h6⟩ := h4 k v i hv hi
  obtain ⟨hc, h0⟩ := h.canonical v (List.mem_of_getElem? hv)
  have := h2.read hc h0 h6
  rw [← h5] at this
  exact this

/-- **C47** Two calls in a history return the same index exactly when they were given values of the same width and the same
number. -/
theorem C47_unique (m : Mode) (vs : List BitVecValue) (h : History vs) {s : ValueInterner} {is : List BitVecValueIndex}
    (hrun : internAll m .new vs = ok (s, is)) (j k : Nat) (u v : BitVecValue) (hj : vs[j]? = some u) (hk : vs[k]? = some v) :
    ∃ a b, is[j]? = some a ∧ is[k]? = some b ∧
      (a = b ↔ u.width = v.width ∧ wordsVal u.words = wordsVal v.words) := by
  obtain ⟨s', is', h1, h2, h3, h4⟩ := h.run m
  rw [hrun] at h1
  cases h1
  have hjl : j < is.length := by rw [h3]; exact (List.getElem?_eq_some_iff.mp hj).1
  have hkl : k < is.length := by rw [h3]; exact (List.getElem?_eq_some_iff.mp hk).1
  refine ⟨is[j], is[k], List.getElem?_eq_getElem hjl, List.getElem?_eq_getElem hkl, ?_⟩
  obtain ⟨ha1, ha2⟩ := h4 j u _ hj (List.getElem?_eq_getElem hjl)
  obtain ⟨hb1, hb2⟩ := h4 k v _ hk (List.getElem?_eq_getElem hkl)
  obtain ⟨hu, hu0⟩ := h.canonical u (List.mem_of_getElem? hj)
  obtain ⟨hv, hv0⟩ := h.canonical v (List.mem_of_getElem? hk)
  constructor
  · intro e
    have hru := h2.read hu hu0 ha2
    have hrv := h2.read hv hv0 hb2
    have hw : u.width = v.width := by rw [← ha1, ← hb1, e]
    rw [← hw, ← e, hru] at hrv
    cases hrv
    exact ⟨rfl, rfl⟩
  · rintro ⟨hw, hval⟩
    have hwords : u.words = v.words := wordsVal_inj (by rw [hu.length_eq, hv.length_eq, hw]) hval
    have hlk : lookup s u = lookup s v := by rw [lookup, lookup, hwords]
    rw [ha2, hb2] at hlk
    rcases hx : is[j] with ⟨ix, wx⟩
    rcases hy : is[k] with ⟨iy, wy⟩
    rw [hx] at ha1 hlk
    rw [hy] at hb1 hlk
    dsimp only at ha1 hb1 hlk
    cases hlk
    rw [ha1, hb1, hw]

/-- An index that belongs to a value is below 8 exactly when the value is a small number of at most 64 bits. -/
theorem Inv.lookup_small {s : ValueInterner} (h : Inv s) {v : BitVecValue} (hc : Canonical v) (h0 : 0 < v.width) {j : Nat}
    (hl : lookup s v = some j) (n : Nat) (hn : n < 8) : j = n ↔ v.width ≤ 64 ∧ wordsVal v.words = n := by
  have hlen := hc.length_eq
  by_cases h1 : v.words.length = 1
  · obtain ⟨word, hword⟩ := List.length_eq_one_iff.mp h1
    have hval : wordsVal v.words = word.toNat := by rw [hword]; simp [wordsVal]
    rw [lookup_one s hword] at hl
    by_cases h2 : word.toNat < 8
    · rw [if_pos h2] at hl
      cases hl
      rw [hval]
      exact ⟨fun e => ⟨by omega, e⟩, fun e => e.2⟩
    · rw [if_neg h2] at hl
      have := (h.small _ _ hl).1
      rw [hval]
      exact ⟨fun e => by omega, fun e => by omega⟩
  · rw [lookup_wide s h1] at hl
    have := (h.large _ _ hl).1
    exact ⟨fun e => by omega, fun e => by omega⟩

/-- The full claim of C48: `is_zero` and `is_one` on a handed-out index tell whether the value is 0 or 1. -/
def C48_statement : Prop :=
  ∀ (m : Mode) (vs : List BitVecValue), History vs → ∀ (s : ValueInterner) (is : List BitVecValueIndex),
    internAll m .new vs = ok (s, is) → ∀ (k : Nat) (v : BitVecValue) (i : BitVecValueIndex), vs[k]? = some v → is[k]? = some i →
      (ValueInterner.isZero i = true ↔ wordsVal v.words = 0) ∧ (ValueInterner.isOne i = true ↔ wordsVal v.words = 1)

/-- **C48 (partial)** For values of at most 64 bits. Missing: wider values, where both always answer `false`
(`C48_wide`). -/
theorem C48_is_zero_one_partial (m : Mode) (vs : List BitVecValue) (h : History vs) {s : ValueInterner}
    {is : List BitVecValueIndex} (hrun : internAll m .new vs = ok (s, is)) (k : Nat) (v : BitVecValue)
    (i : BitVecValueIndex) (hv : vs[k]? = some v) (hi : is[k]? = some i) (hw : v.width ≤ 64) :
    (ValueInterner.isZero i = true ↔ wordsVal v.words = 0) ∧ (ValueInterner.isOne i = true ↔ wordsVal v.words = 1) := by
  obtain ⟨s', is', h1, h2, h3, h4⟩ := h.run m
  rw [hrun] at h1
  cases h1
  obtain ⟨hc, h0⟩ := h.canonical v (List.mem_of_getElem? hv)
  obtain ⟨h5, h6⟩ := h4 k v i hv hi
  have hz := h2.lookup_small hc h0 h6 0 (by decide)
  have ho := h2.lookup_small hc h0 h6 1 (by decide)
  unfold ValueInterner.isZero ValueInterner.isOne
  rw [beq_iff_eq, beq_iff_eq, hz, ho]
  exact ⟨⟨fun e => e.2, fun e => ⟨hw, e⟩⟩, ⟨fun e => e.2, fun e => ⟨hw, e⟩⟩⟩

/-- What happens above 64 bits: no index is ever reported as zero or one. -/
theorem C48_wide (m : Mode) (vs : List BitVecValue) (h : History vs) {s : ValueInterner}
    {is : List BitVecValueIndex} (hrun : internAll m .new vs = ok (s, is)) (k : Nat) (v : BitVecValue)
    (i : BitVecValueIndex) (hv : vs[k]? = some v) (hi : is[k]? = some i) (hw : 64 < v.width) :
    ValueInterner.isZero i = false ∧ ValueInterner.isOne i = false := by
  obtain ⟨s', is', h1, h2, h3, h4⟩ := h.run m
  rw [hrun] at h1
  cases h1
  obtain ⟨hc, h0⟩ := h.canonical v (List.mem_of_getElem? hv)
  obtain ⟨h5, h6⟩ := h4 k v i hv hi
  have hz := h2.lookup_small hc h0 h6 0 (by decide)
  have ho := h2.lookup_small hc h0 h6 1 (by decide)
  unfold ValueInterner.isZero ValueInterner.isOne
  constructor
  · rw [beq_eq_false_iff_ne]; intro e; have := hz.mp e; omega
  · rw [beq_eq_false_iff_ne]; intro e; have := ho.mp e; omega

/-- The interned values of the examples: 3, 300 and 2^70 + 5 (twice), all of different widths. -/
def exampleHistory : List BitVecValue :=
  [encode (3 : BitVec 4), encode (300 : BitVec 16), encode (0x400000000000000005 : BitVec 71), encode (300 : BitVec 12),
    encode (0x400000000000000005 : BitVec 71)]

theorem exampleHistory_ok : History exampleHistory where
  canonical := by
    intro v hv
    simp only [exampleHistory, List.mem_cons, List.not_mem_nil, or_false] at hv
    rcases hv with rfl | rfl | rfl | rfl | rfl
    all_goals exact ⟨(encode_denotes _ (by decide)).canonical, by decide⟩
  fits := by decide

/-- The 65-bit zero is not recognised as zero. -/
theorem C48_refuted : ¬ C48_statement := by
  intro h
  have hh : History [encode (0 : BitVec 65)] := ⟨by
    intro v hv
    simp only [List.mem_cons, List.not_mem_nil, or_false] at hv
    subst hv
    exact ⟨(encode_denotes _ (by decide)).canonical, by decide⟩, by decide⟩
  obtain ⟨s, is, h1, h2, h3, h4⟩ := hh.run .debug
  have hl : 0 < is.length := by rw [h3]; decide
  have h5 := C48_wide .debug _ hh h1 0 _ is[0] rfl (List.getElem?_eq_getElem hl) (by decide)
  have h6 := (h .debug _ hh s is h1 0 _ is[0] rfl (List.getElem?_eq_getElem hl)).1.mpr (by decide)
  rw [h5.1] at h6
  cases h6

example : internAll .debug .new exampleHistory =
    ok (⟨[0, 1, 2, 3, 4, 5, 6, 7, 300, 5, 64], ⟨[(300, 8)]⟩, ⟨[([5, 64], 9)]⟩⟩, [⟨3, 4⟩, ⟨8, 16⟩, ⟨9, 71⟩, ⟨8, 12⟩, ⟨9, 71⟩]) := by
  rfl
example : ∃ s is, internAll .release .new exampleHistory = ok (s, is) ∧ is.length = 5 ∧
    ∀ (k : Nat) (v : BitVecValue) (i : BitVecValueIndex), exampleHistory[k]? = some v → is[k]? = some i → Indexed.getRef s.words i = ok v :=
  C46_read_back .release _ exampleHistory_ok

end Baa

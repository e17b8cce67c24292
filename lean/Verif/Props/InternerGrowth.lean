import Verif.Props.Interner
import Verif.Proofs.Strings
import Verif.Proofs.ArrayInv
import Verif.Spec.Interner

/-!
# C80, C81: what the interner stores, and how far it can grow
-/

namespace Baa
open Res

/-! ## Lists -/

theorem filter_eraseDups {α : Type} [BEq α] [LawfulBEq α] (p : α → Bool) (l : List α) (x : α) :
    x ∈ (l.filter p).eraseDups ↔ x ∈ l ∧ p x = true := by
  rw [List.mem_eraseDups, List.mem_filter]

theorem distinctWords_nil : distinctWords [] = [] := rfl

theorem mem_distinctWords {vs : List BitVecValue} {ws : List Word} :
    ws ∈ distinctWords vs ↔ (∃ v ∈ vs, v.words = ws) ∧ ¬ Preloaded ws := by
  unfold distinctWords
  rw [filter_eraseDups]
  simp

theorem distinctWords_snoc (vs : List BitVecValue) (v : BitVecValue) :
    distinctWords (vs ++ [v]) =
      if Preloaded v.words ∨ v.words ∈ distinctWords vs then distinctWords vs else distinctWords vs ++ [v.words] := by
  unfold distinctWords
  rw [List.map_append, List.filter_append, List.eraseDups_append]
  by_cases hp : Preloaded v.words
  · rw [if_pos (.inl hp)]
    simp [hp]
  · have hf : (List.map (fun v => v.words) [v]).filter (fun ws => decide (¬ Preloaded ws)) = [v.words] := by simp [hp]
    rw [hf]
    generalize List.filter (fun ws => decide (¬ Preloaded ws)) (vs.map fun v => v.words) = l
    by_cases hm : v.words ∈ l
    · rw [if_pos (.inr (List.mem_eraseDups.mpr hm)), List.cons_removeAll]
      simp [hm]
    · rw [if_neg (by simp [hp, hm]), List.cons_removeAll]
      simp [hm, List.eraseDups_cons]

theorem wordsBefore_append_mem {x : List Word} {l : List (List Word)} (h : x ∈ l) (t : List (List Word)) :
    wordsBefore x (l ++ t) = wordsBefore x l := by
  unfold wordsBefore
  rw [List.takeWhile_append]
  split
  · rename_i he
    exfalso
    have : l.takeWhile (fun y => decide (y ≠ x)) = l :=
      (List.takeWhile_prefix _).eq_of_length he
    have hx : x ∈ l.takeWhile (fun y => decide (y ≠ x)) := by rw [this]; exact h
    have := List.all_eq_true.mp (List.all_takeWhile (p := fun y => decide (y ≠ x)) (l := l)) x hx
    simp at this
  · rfl

theorem wordsBefore_append_self {x : List Word} {l : List (List Word)} (h : x ∉ l) :
    wordsBefore x (l ++ [x]) = l.flatten.length := by
  unfold wordsBefore
  rw [List.takeWhile_append_of_pos (by intro y hy; simp; rintro rfl; exact h hy)]
  simp

theorem getElem?_wordsBefore {x : List Word} {l : List (List Word)} (h : x ∈ l) {k : Nat} (hk : k < x.length) :
    l.flatten[wordsBefore x l + k]? = x[k]? := by
  induction l with
  | nil => cases h
  | cons y l ih =>
    unfold wordsBefore at ih ⊢
    rw [List.takeWhile_cons, List.flatten_cons]
    by_cases hy : y = x
    · subst hy
      rw [if_neg (by simp)]
      simp only [List.flatten_nil, List.length_nil, Nat.zero_add]
      rw [List.getElem?_append_left hk]
    · rw [if_pos (by simp [hy])]
      rw [List.flatten_cons, List.length_append, List.getElem?_append_right (by omega)]
      have : x ∈ l := by
        rcases List.mem_cons.mp h with h | h
        · exact absurd h.symm hy
        · exact h
      rw [← ih this]
      congr 1
      omega

theorem HMap.len_insert {K V : Type} [DecidableEq K] (m : HMap K V) {k : K} (v : V) (h : m.get k = none) :
    (m.insert k v).len = m.len + 1 := by
  have h1 := (HMap.get_eq_none_iff m k).mp h
  unfold HMap.insert HMap.len
  rw [List.length_cons, List.filter_eq_self.mpr]
  intro e he
  have : e.1 ≠ k := fun e' => h1 (List.mem_map.mpr ⟨e, he, e'⟩)
  simp [this]

theorem preloaded_single {w : Word} : Preloaded [w] ↔ w.toNat < 8 := by
  constructor
  · rintro ⟨k, hk, h⟩
    cases h
    rw [BitVec.toNat_ofNat, Nat.mod_eq_of_lt (by omega)]
    exact hk
  · intro h
    exact ⟨w.toNat, h, by simp⟩

theorem not_preloaded {ws : List Word} (h : ws.length ≠ 1) : ¬ Preloaded ws := by
  rintro ⟨k, -, rfl⟩
  exact h rfl

/-! ## The state after a history, without any bound on its length -/

/-- What the state is after interning the values `us`. -/
structure After (s : ValueInterner) (us : List BitVecValue) : Prop where
  words : s.words = internedStore us
  small : ∀ w, s.small.get w = if [w] ∈ distinctWords us then some ((8 + wordsBefore [w] (distinctWords us)) % 2 ^ 32) else none
  large : ∀ ws, ws.length ≠ 1 →
    s.large.get ws = if ws ∈ distinctWords us then some ((8 + wordsBefore ws (distinctWords us)) % 2 ^ 32) else none
  small_len : s.small.len = (distinctWords us).countP fun ws => ws.length = 1
  large_len : s.large.len = (distinctWords us).countP fun ws => ws.length ≠ 1

theorem after_new : After .new [] where
  words := rfl
  small := fun w => by rw [distinctWords_nil, if_neg (by simp)]; rfl
  large := fun ws _ => by rw [distinctWords_nil, if_neg (by simp)]; rfl
  small_len := rfl
  large_len := rfl

theorem After.length {s : ValueInterner} {us : List BitVecValue} (h : After s us) :
    s.words.length = 8 + (distinctWords us).flatten.length := by
  rw [h.words, internedStore, List.length_append, List.length_map, List.length_range]

/-- A value whose words are already there. -/
theorem After.old {s : ValueInterner} {us : List BitVecValue} (h : After s us) {v : BitVecValue}
    (hv : Preloaded v.words ∨ v.words ∈ distinctWords us) : After s (us ++ [v]) := by
  have hd : distinctWords (us ++ [v]) = distinctWords us := by rw [distinctWords_snoc, if_pos hv]
  obtain ⟨h1, h2, h3, h4, h5⟩ := h
  unfold internedStore at h1
  exact ⟨by rw [internedStore, hd, h1], by rw [hd]; exact h2, by rw [hd]; exact h3, by rw [hd]; exact h4, by rw [hd]; exact h5⟩

theorem mem_snoc_iff {x y : List Word} (l : List (List Word)) : x ∈ l ++ [y] ↔ x ∈ l ∨ x = y := by simp

theorem table_snoc {x y : List Word} {l : List (List Word)} (hy : y ∉ l) :
    (if x ∈ l ++ [y] then some ((8 + wordsBefore x (l ++ [y])) % 2 ^ 32) else none) =
      if x = y then some ((8 + l.flatten.length) % 2 ^ 32)
      else if x ∈ l then some ((8 + wordsBefore x l) % 2 ^ 32) else none := by
  by_cases hxy : x = y
  · subst hxy
    rw [if_pos (by simp), if_pos rfl, wordsBefore_append_self hy]
  · rw [if_neg hxy]
    by_cases hx : x ∈ l
    · rw [if_pos (by simp [hx]), if_pos hx, wordsBefore_append_mem hx]
    · rw [if_neg (by simp [hx, hxy]), if_neg hx]

theorem Internable.one {m : Mode} {v : BitVecValue} (h : Internable m v) (h1 : v.words.length = 1) :
    debugAssert m (decide (v.width ≤ BITS)) = ok () := by
  cases m
  · exact debugAssert_decide_of ((h rfl).mp h1)
  · rfl

theorem Internable.many {m : Mode} {v : BitVecValue} (h : Internable m v) (h1 : v.words.length ≠ 1) :
    debugAssert m (decide (v.width > BITS)) = ok () := by
  cases m
  · exact debugAssert_decide_of (Nat.lt_of_not_le fun e => h1 ((h rfl).mpr e))
  · rfl

theorem Canonical.internable {m : Mode} {v : BitVecValue} (hc : Canonical v) (h0 : 0 < v.width) : Internable m v := by
  intro _
  have := hc.length_eq
  omega

/-- One call, with any value that is accepted and without any bound. -/
theorem After.stepAny (m : Mode) {s : ValueInterner} {us : List BitVecValue} (h : After s us) {v : BitVecValue}
    (hi : Internable m v) :
    ∃ s' i, s.getIndex m v = ok (s', i) ∧ After s' (us ++ [v]) ∧ i.width = v.width ∧
      i.index = internedAt (us ++ [v]) v % 2 ^ 32 := by
  have hU : U32 = 2 ^ 32 := rfl
  by_cases h1 : v.words.length = 1
  · obtain ⟨word, hword⟩ := List.length_eq_one_iff.mp h1
    have hval : wordsVal v.words = word.toNat := by rw [hword]; simp [wordsVal]
    unfold ValueInterner.getIndex
    rw [hword]
    dsimp only
    rw [hi.one h1, ok_bind]
    by_cases h2 : word.toNat < 8
    · rw [if_pos h2]
      have hp : Preloaded v.words := by rw [hword]; exact preloaded_single.mpr h2
      refine ⟨s, _, rfl, h.old (.inl hp), rfl, ?_⟩
      rw [internedAt, if_pos hp, hval, Nat.mod_eq_of_lt (by omega)]
    · rw [if_neg h2]
      have hp : ¬ Preloaded v.words := by rw [hword]; exact fun e => h2 (preloaded_single.mp e)
      have hg := h.small word
      rw [← hword] at hg
      by_cases hm : v.words ∈ distinctWords us
      · rw [if_pos hm] at hg
        rw [hg]
        refine ⟨s, _, rfl, h.old (.inr hm), rfl, ?_⟩
        rw [internedAt, if_neg hp, distinctWords_snoc, if_pos (.inr hm)]
      · rw [if_neg hm] at hg
        rw [hg]
        have hd : distinctWords (us ++ [v]) = distinctWords us ++ [v.words] := by
          rw [distinctWords_snoc, if_neg (by simp [hp, hm])]
        refine ⟨_, _, rfl, ?_, rfl, ?_⟩
        · constructor
          · dsimp only
            rw [h.words, internedStore, internedStore, hd, List.flatten_append, hword]
            simp
          · intro w
            dsimp only
            rw [HMap.get_insert, hd, table_snoc hm, h.small w, h.length, hU, hword]
            by_cases hw : w = word
            · rw [if_pos hw, if_pos (by rw [hw])]
            · rw [if_neg hw, if_neg (c := [w] = [word]) (by simpa using hw)]
          · intro ws hws
            dsimp only
            rw [hd, table_snoc hm, h.large ws hws, if_neg (c := ws = v.words) (by rintro rfl; exact hws h1)]
          · dsimp only
            rw [HMap.len_insert _ _ hg, hd, List.countP_append, h.small_len]
            simp [h1]
          · dsimp only
            rw [hd, List.countP_append, h.large_len]
            simp [h1]
        · dsimp only
          rw [internedAt, if_neg hp, hd, wordsBefore_append_self hm, h.length, hU]
  · have hp : ¬ Preloaded v.words := not_preloaded h1
    have hstep : s.getIndex m v = (match s.large.get v.words with
      | some index => ok (s, ⟨index, v.width⟩)
      | none => ok ({ s with words := s.words ++ v.words, large := s.large.insert v.words (s.words.length % U32) },
          ⟨s.words.length % U32, v.width⟩)) := by
      unfold ValueInterner.getIndex
      split
      · rename_i hw
        rw [hw] at h1
        exact absurd rfl h1
      · rw [hi.many h1, ok_bind]
        rfl
    rw [hstep]
    have hg := h.large v.words h1
    by_cases hm : v.words ∈ distinctWords us
    · rw [if_pos hm] at hg
      rw [hg]
      refine ⟨s, _, rfl, h.old (.inr hm), rfl, ?_⟩
      rw [internedAt, if_neg hp, distinctWords_snoc, if_pos (.inr hm)]
    · rw [if_neg hm] at hg
      rw [hg]
      have hd : distinctWords (us ++ [v]) = distinctWords us ++ [v.words] := by
        rw [distinctWords_snoc, if_neg (by simp [hp, hm])]
      refine ⟨_, _, rfl, ?_, rfl, ?_⟩
      · constructor
        · dsimp only
          rw [h.words, internedStore, internedStore, hd, List.flatten_append]
          simp
        · intro w
          dsimp only
          rw [hd, table_snoc hm, h.small w, if_neg (c := [w] = v.words) (by intro e; rw [← e] at h1; exact h1 rfl)]
        · intro ws hws
          dsimp only
          rw [HMap.get_insert, hd, table_snoc hm, h.large ws hws, h.length, hU]
        · dsimp only
          rw [hd, List.countP_append, h.small_len]
          simp [h1]
        · dsimp only
          rw [HMap.len_insert _ _ hg, hd, List.countP_append, h.large_len]
          simp [h1]
      · dsimp only
        rw [internedAt, if_neg hp, hd, wordsBefore_append_self hm, h.length, hU]

/-- One call with a value in normal form. -/
theorem After.step (m : Mode) {s : ValueInterner} {us : List BitVecValue} (h : After s us) {v : BitVecValue}
    (hc : Canonical v) (h0 : 0 < v.width) :
    ∃ s' i, s.getIndex m v = ok (s', i) ∧ After s' (us ++ [v]) ∧ i.width = v.width ∧
      i.index = internedAt (us ++ [v]) v % 2 ^ 32 := h.stepAny m (hc.internable h0)

/-- The position of a value does not change when more values are interned. -/
theorem internedAt_snoc {us : List BitVecValue} {v : BitVecValue} (h : v ∈ us) (u : BitVecValue) :
    internedAt (us ++ [u]) v = internedAt us v := by
  unfold internedAt
  by_cases hp : Preloaded v.words
  · rw [if_pos hp, if_pos hp]
  · rw [if_neg hp, if_neg hp, distinctWords_snoc]
    split
    · rfl
    · rw [wordsBefore_append_mem (mem_distinctWords.mpr ⟨⟨v, h, rfl⟩, hp⟩)]

theorem internedAt_append {us : List BitVecValue} {v : BitVecValue} (h : v ∈ us) (vs : List BitVecValue) :
    internedAt (us ++ vs) v = internedAt us v := by
  induction vs generalizing us with
  | nil => rw [List.append_nil]
  | cons u vs ih =>
    rw [List.append_cons, ih (by simp [h]), internedAt_snoc h]

theorem distinctWords_prefix (us vs : List BitVecValue) : distinctWords us <+: distinctWords (us ++ vs) := by
  induction vs generalizing us with
  | nil => rw [List.append_nil]; exact List.prefix_refl _
  | cons u vs ih =>
    rw [List.append_cons]
    refine List.IsPrefix.trans ?_ (ih (us ++ [u]))
    rw [distinctWords_snoc]
    split
    · exact List.prefix_refl _
    · exact List.prefix_append _ _

theorem After.runAny (m : Mode) (vs : List BitVecValue) : ∀ {s : ValueInterner} {us : List BitVecValue}, After s us →
    (∀ v ∈ vs, Internable m v) →
    ∃ s' is, internAll m s vs = ok (s', is) ∧ After s' (us ++ vs) ∧
      is = vs.map fun v => ⟨internedAt (us ++ vs) v % 2 ^ 32, v.width⟩ := by
  induction vs with
  | nil =>
    intro s us h _
    exact ⟨s, [], rfl, by rw [List.append_nil]; exact h, rfl⟩
  | cons v vs ih =>
    intro s us h hc
    obtain ⟨s1, i, h1, h2, h3, h4⟩ := h.stepAny m (hc v (by simp))
    obtain ⟨s2, is, h5, h6, h7⟩ := ih h2 (fun u hu => hc u (by simp [hu]))
    refine ⟨s2, i :: is, ?_, by rw [List.append_cons]; exact h6, ?_⟩
    · rw [internAll, h1, ok_bind]
      dsimp only
      rw [h5, ok_bind]
    · rw [List.append_cons, List.map_cons, h7]
      congr 1
      rw [internedAt_append (by simp)]
      obtain ⟨ii, iw⟩ := i
      dsimp only at h3 h4
      rw [h3, h4]

theorem After.run (m : Mode) (vs : List BitVecValue) {s : ValueInterner} {us : List BitVecValue} (h : After s us)
    (hc : ∀ v ∈ vs, Canonical v ∧ 0 < v.width) :
    ∃ s' is, internAll m s vs = ok (s', is) ∧ After s' (us ++ vs) ∧
      is = vs.map fun v => ⟨internedAt (us ++ vs) v % 2 ^ 32, v.width⟩ :=
  h.runAny m vs fun v hv => (hc v hv).1.internable (hc v hv).2

/-! ## C80 -/

/-- **C80** After any history the word store consists of the numbers 0 to 7 and then, in the order in which they were first
interned, the different word sequences: nothing is stored twice and nothing is ever moved or dropped. -/
theorem C80_store (m : Mode) (vs : List BitVecValue) (h : AnyHistory vs) :
    ∃ s is, internAll m .new vs = ok (s, is) ∧ s.words = internedStore vs := by
  obtain ⟨s, is, h1, h2, -⟩ := after_new.run m vs h
  exact ⟨s, is, h1, by rw [List.nil_append] at h2; exact h2.words⟩

/-- **C80** Interning more values only appends to the word store. -/
theorem C80_grows (m : Mode) (vs more : List BitVecValue) (h : AnyHistory (vs ++ more)) :
    ∃ s is s' js, internAll m .new vs = ok (s, is) ∧ internAll m s more = ok (s', js) ∧ s.words <+: s'.words := by
  obtain ⟨s, is, h1, h2, -⟩ := after_new.run m vs (fun v hv => h v (by simp [hv]))
  obtain ⟨s', js, h3, h4, -⟩ := h2.run m more (fun v hv => h v (by simp [hv]))
  refine ⟨s, is, s', js, h1, h3, ?_⟩
  rw [h2.words, h4.words, internedStore, internedStore, List.prefix_append_right_inj]
  obtain ⟨t, ht⟩ := distinctWords_prefix ([] ++ vs) more
  rw [← ht, List.flatten_append]
  exact List.prefix_append _ _

/-- **C80** Interning a value again — or a value of another width with the same words — leaves the interner as it is. -/
theorem C80_again (m : Mode) (vs : List BitVecValue) (v : BitVecValue) (h : AnyHistory (vs ++ [v]))
    (hv : Preloaded v.words ∨ ∃ u ∈ vs, u.words = v.words) :
    ∃ s is i, internAll m .new vs = ok (s, is) ∧ s.getIndex m v = ok (s, i) ∧ i.width = v.width ∧
      ∀ (k : Nat) u (j : BitVecValueIndex), vs[k]? = some u → is[k]? = some j → u.words = v.words → j.index = i.index := by
  obtain ⟨s, is, h1, h2, h3⟩ := after_new.run m vs (fun v hv => h v (by simp [hv]))
  rw [List.nil_append] at h2 h3
  obtain ⟨s', i, h4, h5, h6, h7⟩ := h2.step m (h v (by simp)).1 (h v (by simp)).2
  have hmem : Preloaded v.words ∨ v.words ∈ distinctWords vs := by
    by_cases hp : Preloaded v.words
    · exact .inl hp
    · rcases hv with hv | hv
      · exact .inl hv
      · exact .inr (mem_distinctWords.mpr ⟨hv, hp⟩)
  have hss : s' = s := by
    obtain ⟨hc, h0⟩ := h v (by simp)
    have hlen := hc.length_eq
    by_cases hl : v.words.length = 1
    · obtain ⟨word, hword⟩ := List.length_eq_one_iff.mp hl
      have hw64 : v.width ≤ 64 := by omega
      unfold ValueInterner.getIndex at h4
      rw [hword] at h4
      dsimp only at h4
      rw [debugAssert_decide_of hw64, ok_bind] at h4
      by_cases h8 : word.toNat < 8
      · rw [if_pos h8] at h4
        cases h4
        rfl
      · rw [if_neg h8, h2.small word, if_pos] at h4
        · cases h4
          rfl
        · rw [← hword]
          rcases hmem with hmem | hmem
          · rw [hword] at hmem
            exact absurd (preloaded_single.mp hmem) h8
          · exact hmem
    · unfold ValueInterner.getIndex at h4
      split at h4
      · rename_i hw
        rw [hw] at hl
        exact absurd rfl hl
      · obtain ⟨_, -, h4⟩ := of_bind_ok h4
        rw [h2.large _ hl, if_pos] at h4
        · cases h4
          rfl
        · rcases hmem with hmem | hmem
          · exact absurd hmem (not_preloaded hl)
          · exact hmem
  subst hss
  refine ⟨s', is, i, h1, h4, h6, ?_⟩
  intro k u j hu hj hw
  rw [h3, List.getElem?_map, hu] at hj
  cases hj
  dsimp only
  rw [h7]
  unfold internedAt
  rw [hw, distinctWords_snoc, if_pos hmem]

/-- **C80** The debug text tells how many different one-word numbers above 7 and how many different wider word sequences are
stored. -/
theorem C80_debug_text (m : Mode) (vs : List BitVecValue) (h : AnyHistory vs) :
    ∃ s is, internAll m .new vs = ok (s, is) ∧
      s.debugText = "ValueInterner(".toList.map ch ++ decimal ((distinctWords vs).countP fun ws => ws.length = 1) ++
        " small, ".toList.map ch ++ decimal ((distinctWords vs).countP fun ws => ws.length ≠ 1) ++ " large)".toList.map ch := by
  obtain ⟨s, is, h1, h2, -⟩ := after_new.run m vs h
  rw [List.nil_append] at h2
  refine ⟨s, is, h1, ?_⟩
  unfold ValueInterner.debugText
  rw [h2.small_len, h2.large_len]

/-! ## C81: histories of any length -/

/-- The full claim: after any history, however long, every index that was handed out reads back its value. -/
def C81_statement : Prop :=
  ∀ (m : Mode) (vs : List BitVecValue), AnyHistory vs → ∃ s is, internAll m .new vs = ok (s, is) ∧
    ∀ (k : Nat) (v : BitVecValue) (i : BitVecValueIndex), vs[k]? = some v → is[k]? = some i → Indexed.getRef s.words i = ok v

/-- The exact behaviour, for histories of any length: the words of the value are in the store, but the index is its position
there *modulo 2^32*. -/
theorem C81_index (m : Mode) (vs : List BitVecValue) (h : AnyHistory vs) :
    ∃ s is, internAll m .new vs = ok (s, is) ∧ is.length = vs.length ∧
      ∀ (k : Nat) (v : BitVecValue), vs[k]? = some v → is[k]? = some ⟨internedAt vs v % 2 ^ 32, v.width⟩ ∧
        StoredAt s.words ⟨internedAt vs v, v.width⟩ v := by
  obtain ⟨s, is, h1, h2, h3⟩ := after_new.run m vs h
  rw [List.nil_append] at h2 h3
  refine ⟨s, is, h1, by rw [h3, List.length_map], fun k v hv => ⟨by rw [h3, List.getElem?_map, hv]; rfl, ?_⟩⟩
  have hmem := List.mem_of_getElem? hv
  obtain ⟨hc, h0⟩ := h v hmem
  refine ⟨rfl, hc.length_eq, fun j hj => ?_⟩
  dsimp only at hj ⊢
  rw [← hc.length_eq] at hj
  rw [h2.words, internedStore, internedAt]
  by_cases hp : Preloaded v.words
  · rw [if_pos hp]
    obtain ⟨n, hn, he⟩ := hp
    rw [he] at hj ⊢
    have hj0 : j = 0 := by simpa using hj
    subst hj0
    have hwv : wordsVal [BitVec.ofNat 64 n] = n := by
      simp only [wordsVal, BitVec.toNat_ofNat]
      omega
    rw [hwv, Nat.add_zero, List.getElem?_append_left (by simp [hn])]
    simp [List.getElem?_range hn]
  · rw [if_neg hp, List.getElem?_append_right (by simp; omega)]
    have := getElem?_wordsBefore (mem_distinctWords.mpr ⟨⟨v, hmem, rfl⟩, hp⟩) hj
    rw [← this]
    congr 1
    simp
    omega

theorem After.internedAt_le {s : ValueInterner} {vs : List BitVecValue} {v : BitVecValue}
    (h : StoredAt s.words ⟨internedAt vs v, v.width⟩ v) (h0 : 0 < v.width) :
    InBounds s.words ⟨internedAt vs v, v.width⟩ := by
  unfold InBounds pastEnd
  dsimp only
  have hl := h.length_eq
  dsimp only at hl
  have h4 := h.word_eq ((v.width + 63) / 64 - 1) (by dsimp only; omega)
  dsimp only at h4
  rw [List.getElem?_eq_getElem (l := v.words) (by omega)] at h4
  have := (List.getElem?_eq_some_iff.mp h4.symm).1
  omega

/-- **C81 (partial)** As long as the *different* interned words (and the 8 preloaded ones) are at most 2^32; values that are
interned repeatedly count once. Missing: longer histories, where indices wrap around (`C81_index`, `C81_wrong`). -/
theorem C81_read_back_partial (m : Mode) (vs : List BitVecValue) (h : AnyHistory vs)
    (hfit : 8 + (distinctWords vs).flatten.length ≤ 2 ^ 32) :
    ∃ s is, internAll m .new vs = ok (s, is) ∧ is.length = vs.length ∧
      ∀ (k : Nat) (v : BitVecValue) (i : BitVecValueIndex), vs[k]? = some v → is[k]? = some i →
        Indexed.getRef s.words i = ok v := by
  obtain ⟨s, is, h1, h2, h3⟩ := C81_index m vs h
  refine ⟨s, is, h1, h2, fun k v i hv hi => ?_⟩
  obtain ⟨h4, h5⟩ := h3 k v hv
  rw [h4] at hi
  cases hi
  have h0 := (h v (List.mem_of_getElem? hv)).2
  have hb := After.internedAt_le h5 h0
  obtain ⟨s', is', h1', h6⟩ := C80_store m vs h
  rw [h1] at h1'
  cases h1'
  have hlt : internedAt vs v < 2 ^ 32 := by
    have : s.words.length = 8 + (distinctWords vs).flatten.length := by
      rw [h6, internedStore, List.length_append, List.length_map, List.length_range]
    unfold InBounds pastEnd at hb
    dsimp only at hb
    omega
  rw [Nat.mod_eq_of_lt hlt]
  obtain ⟨u, hu1, hu2⟩ := (C44_get_ref s.words ⟨internedAt vs v, v.width⟩).1 hb
  rw [hu1, hu2.unique h5]

/-- What goes wrong: once the store has grown to exactly 2^32 words, the next new number of up to 64 bits gets the index of
the number zero. -/
theorem C81_wrong (m : Mode) (vs : List BitVecValue) (v : BitVecValue) (h : AnyHistory (vs ++ [v]))
    (hfull : 8 + (distinctWords vs).flatten.length = 2 ^ 32) (hw : v.width ≤ 64) (h8 : 8 ≤ wordsVal v.words)
    (hnew : ∀ u ∈ vs, u.words ≠ v.words) :
    ∃ s is, internAll m .new (vs ++ [v]) = ok (s, is) ∧ is[vs.length]? = some ⟨0, v.width⟩ ∧
      Indexed.getRef s.words ⟨0, v.width⟩ = ok ⟨v.width, [0#64]⟩ := by
  obtain ⟨s, is, h1, h2, h3⟩ := C81_index m _ h
  obtain ⟨s', is', h1', h6⟩ := C80_store m _ h
  rw [h1] at h1'
  cases h1'
  obtain ⟨hc, h0⟩ := h v (by simp)
  have hl := hc.length_eq
  obtain ⟨word, hword⟩ := List.length_eq_one_iff.mp (show v.words.length = 1 by omega)
  have hp : ¬ Preloaded v.words := by
    rw [hword, preloaded_single]
    rw [hword] at h8
    simp only [wordsVal] at h8
    omega
  have hm : v.words ∉ distinctWords vs := fun e => by
    obtain ⟨⟨u, hu, he⟩, -⟩ := mem_distinctWords.mp e
    exact hnew u hu he
  have hat : internedAt (vs ++ [v]) v = 2 ^ 32 := by
    rw [internedAt, if_neg hp, distinctWords_snoc, if_neg (by simp [hp, hm]), wordsBefore_append_self hm, hfull]
  obtain ⟨h4, -⟩ := h3 vs.length v (by simp)
  rw [hat, Nat.mod_self] at h4
  refine ⟨s, is, h1, h4, ?_⟩
  have hst : StoredAt s.words ⟨0, v.width⟩ ⟨v.width, [0#64]⟩ := by
    refine ⟨rfl, ?_, ?_⟩
    · dsimp only
      rw [← hl, hword]
      rfl
    · intro k hk
      dsimp only at hk ⊢
      rw [h6, internedStore]
      have : k = 0 := by omega
      subst this
      rfl
  have hb : InBounds s.words ⟨0, v.width⟩ := by
    unfold InBounds pastEnd
    dsimp only
    rw [h6, internedStore, List.length_append, List.length_map, List.length_range]
    omega
  obtain ⟨u, hu1, hu2⟩ := (C44_get_ref s.words ⟨0, v.width⟩).1 hb
  rw [hu1, hu2.unique hst]

/-- The 64-bit numbers 8, 9, … -/
def countingHistory (n : Nat) : List BitVecValue := (List.range n).map fun k => ⟨64, [BitVec.ofNat 64 (k + 8)]⟩

theorem counting_canonical (n : Nat) : AnyHistory (countingHistory n) := by
  intro v hv
  obtain ⟨k, -, rfl⟩ := List.mem_map.mp hv
  exact ⟨⟨show 64 < 2 ^ 32 by decide, show 1 = 127 / 64 by decide, by simp only [wordsVal]; have := (BitVec.ofNat 64 (k + 8)).isLt; omega⟩, show 0 < 64 by decide⟩

theorem counting_distinct (n : Nat) (h : n + 8 ≤ 2 ^ 64) :
    distinctWords (countingHistory n) = (List.range n).map fun k => [BitVec.ofNat 64 (k + 8)] := by
  induction n with
  | zero => rfl
  | succ n ih =>
    have ih := ih (by omega)
    have hs : countingHistory (n + 1) = countingHistory n ++ [⟨64, [BitVec.ofNat 64 (n + 8)]⟩] := by
      unfold countingHistory
      rw [List.range_succ, List.map_append]
      rfl
    rw [hs, distinctWords_snoc, if_neg, ih, List.range_succ, List.map_append]
    · rfl
    · rintro (hp | hm)
      · have := preloaded_single.mp hp
        rw [BitVec.toNat_ofNat, Nat.mod_eq_of_lt (by omega)] at this
        omega
      · rw [ih] at hm
        obtain ⟨k, hk, he⟩ := List.mem_map.mp hm
        have hk := List.mem_range.mp hk
        have he := congrArg BitVec.toNat (List.cons.inj he).1
        rw [BitVec.toNat_ofNat, BitVec.toNat_ofNat, Nat.mod_eq_of_lt (by omega), Nat.mod_eq_of_lt (by omega)] at he
        omega

theorem counting_length (n : Nat) (h : n + 8 ≤ 2 ^ 64) : (distinctWords (countingHistory n)).flatten.length = n := by
  rw [counting_distinct n h]
  clear h
  induction n with
  | zero => rfl
  | succ n ih =>
    rw [List.range_succ, List.map_append, List.flatten_append, List.length_append, ih]
    rfl

/-- The full claim is false: after the 64-bit numbers 8, …, 2^32 − 1, the number 2^32 reads back as 0. -/
theorem C81_refuted : ¬ C81_statement := by
  intro h
  obtain ⟨n, hn⟩ : ∃ n : Nat, n + 8 = 2 ^ 32 := ⟨2 ^ 32 - 8, by decide⟩
  let v : BitVecValue := ⟨64, [BitVec.ofNat 64 (n + 8)]⟩
  have hs : countingHistory (n + 1) = countingHistory n ++ [v] := by
    unfold countingHistory
    rw [List.range_succ, List.map_append]
    rfl
  have hall := counting_canonical (n + 1)
  obtain ⟨s, is, h1, h2, h3⟩ := C81_wrong .release (countingHistory n) v (by rw [← hs]; exact hall)
    (by rw [counting_length n (by omega)]; omega) (show 64 ≤ 64 by decide) (by
      show 8 ≤ wordsVal [BitVec.ofNat 64 (n + 8)]
      rw [hn]
      decide) (by
      intro u hu he
      obtain ⟨k, hk, rfl⟩ := List.mem_map.mp hu
      have hk := List.mem_range.mp hk
      have he := congrArg BitVec.toNat (List.cons.inj he).1
      rw [BitVec.toNat_ofNat, BitVec.toNat_ofNat, Nat.mod_eq_of_lt (by omega), Nat.mod_eq_of_lt (by omega)] at he
      omega)
  obtain ⟨s', is', h4, h5⟩ := h .release _ hall
  rw [hs, h1] at h4
  cases h4
  have h6 := h5 (countingHistory n).length v _ (by rw [hs]; simp) h2
  rw [show v.width = 64 from rfl] at h6 h3
  rw [h3] at h6
  have h7 : [0#64] = [BitVec.ofNat 64 (n + 8)] := by injection h6 with h6; injection h6
  rw [hn] at h7
  revert h7
  decide

/-! ## Examples -/

example : AnyHistory exampleHistory := exampleHistory_ok.canonical
example : distinctWords exampleHistory = [[300], [5, 64]] := by decide +kernel
example : internedStore exampleHistory = [0, 1, 2, 3, 4, 5, 6, 7, 300, 5, 64] := by decide +kernel
example : exampleHistory.map (internedAt exampleHistory) = [3, 8, 9, 8, 9] := by decide +kernel
example : ∃ s is, internAll .debug .new exampleHistory = ok (s, is) ∧ s.words = internedStore exampleHistory :=
  C80_store _ _ exampleHistory_ok.canonical
example : (8 : Nat) + (distinctWords exampleHistory).flatten.length ≤ 2 ^ 32 := by decide +kernel

end Baa

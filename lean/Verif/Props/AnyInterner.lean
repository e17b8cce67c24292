import Verif.Props.InternerGrowth
import Verif.SpecMalformed

/-!
# C113: the interner, given any values whatsoever
-/

namespace Baa
open Res

theorem wordsBefore_inj {x y : List Word} {l : List (List Word)} (hx : x ∈ l) (hy : y ∈ l) (hx0 : x ≠ []) (hy0 : y ≠ [])
    (h : wordsBefore x l = wordsBefore y l) : x = y := by
  induction l with
  | nil => cases hx
  | cons z l ih =>
    unfold wordsBefore at h ih
    rw [List.takeWhile_cons, List.takeWhile_cons] at h
    by_cases hzx : z = x
    · by_cases hzy : z = y
      · rw [← hzx, ← hzy]
      · rw [if_neg (by simp [hzx]), if_pos (by simp [hzy]), List.flatten_cons, List.length_append] at h
        have : z.length = 0 := by
          simp only [List.flatten_nil, List.length_nil] at h
          omega
        exact absurd (hzx ▸ List.length_eq_zero_iff.mp this) hx0
    · by_cases hzy : z = y
      · rw [if_pos (by simp [hzx]), if_neg (by simp [hzy]), List.flatten_cons, List.length_append] at h
        have : z.length = 0 := by
          simp only [List.flatten_nil, List.length_nil] at h
          omega
        exact absurd (hzy ▸ List.length_eq_zero_iff.mp this) hy0
      · rw [if_pos (by simp [hzx]), if_pos (by simp [hzy]), List.flatten_cons, List.flatten_cons, List.length_append,
          List.length_append] at h
        refine ih ?_ ?_ (by omega)
        · rcases List.mem_cons.mp hx with hx | hx
          · exact absurd hx.symm hzx
          · exact hx
        · rcases List.mem_cons.mp hy with hy | hy
          · exact absurd hy.symm hzy
          · exact hy

theorem wordsBefore_le {x : List Word} {l : List (List Word)} : wordsBefore x l ≤ l.flatten.length := by
  induction l with
  | nil => exact Nat.zero_le _
  | cons y l ih =>
    unfold wordsBefore at ih ⊢
    rw [List.takeWhile_cons]
    split
    · rw [List.flatten_cons, List.flatten_cons, List.length_append, List.length_append]
      omega
    · exact Nat.zero_le _

theorem flatten_drop_wordsBefore {x : List Word} {l : List (List Word)} (h : x ∈ l) :
    x <+: l.flatten.drop (wordsBefore x l) := by
  induction l with
  | nil => cases h
  | cons y l ih =>
    unfold wordsBefore at ih ⊢
    rw [List.takeWhile_cons]
    by_cases hy : y = x
    · subst hy
      rw [if_neg (by simp), List.flatten_nil, List.length_nil, List.drop_zero, List.flatten_cons]
      exact List.prefix_append _ _
    · rw [if_pos (by simp [hy]), List.flatten_cons, List.flatten_cons, List.length_append, List.drop_append,
        List.drop_eq_nil_of_le (by omega), List.nil_append, Nat.add_sub_cancel_left]
      refine ih ?_
      rcases List.mem_cons.mp h with h | h
      · exact absurd h.symm hy
      · exact h

theorem length_internedStore (vs : List BitVecValue) :
    (internedStore vs).length = 8 + (distinctWords vs).flatten.length := by
  rw [internedStore, List.length_append, List.length_map, List.length_range]

theorem internedAt_preloaded {vs : List BitVecValue} {v : BitVecValue} (h : Preloaded v.words) :
    ∃ k < 8, v.words = [BitVec.ofNat 64 k] ∧ internedAt vs v = k := by
  have hp := h
  obtain ⟨k, hk, e⟩ := h
  refine ⟨k, hk, e, ?_⟩
  rw [internedAt, if_pos hp, e]
  simp only [wordsVal, BitVec.toNat_ofNat]
  omega

theorem internedAt_le (vs : List BitVecValue) (v : BitVecValue) : internedAt vs v ≤ (internedStore vs).length := by
  rw [length_internedStore]
  by_cases hp : Preloaded v.words
  · obtain ⟨k, hk, -, e⟩ := internedAt_preloaded (vs := vs) hp
    omega
  · rw [internedAt, if_neg hp]
    have := wordsBefore_le (x := v.words) (l := distinctWords vs)
    omega

/-- **C113** The words of every interned value are in the store, at its position. -/
theorem C113_stored (vs : List BitVecValue) (v : BitVecValue) (hv : v ∈ vs) :
    v.words <+: (internedStore vs).drop (internedAt vs v) := by
  by_cases hp : Preloaded v.words
  · obtain ⟨k, hk, e, ek⟩ := internedAt_preloaded (vs := vs) hp
    rw [e, ek, internedStore, List.drop_append_of_le_length (by simp; omega)]
    refine List.IsPrefix.trans ?_ (List.prefix_append _ _)
    rw [← List.map_drop, List.drop_eq_getElem_cons (by simpa using hk), List.getElem_range, List.map_cons]
    exact ⟨_, rfl⟩
  · rw [internedAt, if_neg hp, internedStore, ← List.drop_drop, List.drop_left' (by simp)]
    exact flatten_drop_wordsBefore (mem_distinctWords.mpr ⟨⟨v, hv, rfl⟩, hp⟩)

/-- **C113** Interning any values that are accepted: the word store and all indices, exactly. -/
theorem C113_accepts (m : Mode) (vs : List BitVecValue) (h : ∀ v ∈ vs, Internable m v) :
    ∃ s, internAll m .new vs = ok (s, vs.map fun v => ⟨internedAt vs v % 2 ^ 32, v.width⟩) ∧ s.words = internedStore vs ∧
      s.debugText = "ValueInterner(".toList.map ch ++ decimal ((distinctWords vs).countP fun ws => ws.length = 1) ++
        " small, ".toList.map ch ++ decimal ((distinctWords vs).countP fun ws => ws.length ≠ 1) ++ " large)".toList.map ch := by
  obtain ⟨s, is, h1, h2, h3⟩ := after_new.runAny m vs h
  rw [List.nil_append] at h2 h3
  refine ⟨s, by rw [h1, h3], h2.words, ?_⟩
  unfold ValueInterner.debugText
  rw [h2.small_len, h2.large_len]

theorem not_internable {m : Mode} {v : BitVecValue} (h : ¬ Internable m v) (s : ValueInterner) : Panics (s.getIndex m v) := by
  unfold Internable at h
  cases m with
  | release => exact absurd (by intro e; cases e) h
  | debug =>
    unfold ValueInterner.getIndex
    split
    · rename_i word hw
      have : ¬ v.width ≤ BITS := fun e => h fun _ => by
        rw [hw]
        exact ⟨fun _ => e, fun _ => rfl⟩
      rw [decide_eq_false this]
      exact ⟨.debugAssert, rfl⟩
    · rename_i hw
      have h1 : v.words.length ≠ 1 := fun e => by
        obtain ⟨word, e⟩ := List.length_eq_one_iff.mp e
        exact hw word e
      have : ¬ v.width > BITS := fun e => h fun _ => ⟨fun e' => absurd e' h1, fun e' => absurd e' (by
        have : BITS = 64 := rfl
        omega)⟩
      rw [decide_eq_false this]
      exact ⟨.debugAssert, rfl⟩

/-- **C113** A value that is not accepted makes the history panic, whatever else is in it. -/
theorem C113_rejects (m : Mode) (vs : List BitVecValue) (s : ValueInterner) (h : ∃ v ∈ vs, ¬ Internable m v) :
    Panics (internAll m s vs) := by
  induction vs generalizing s with
  | nil => obtain ⟨v, hv, -⟩ := h; cases hv
  | cons u vs ih =>
    rw [internAll]
    cases hg : s.getIndex m u with
    | panic p => exact ⟨p, rfl⟩
    | ok r =>
      obtain ⟨s', i⟩ := r
      obtain ⟨v, hv, hn⟩ := h
      rcases List.mem_cons.mp hv with hv | hv
      · subst hv
        obtain ⟨p, hp⟩ := not_internable hn s
        rw [hg] at hp
        cases hp
      · obtain ⟨p, hp⟩ := ih s' ⟨v, hv, hn⟩
        exact ⟨p, by rw [ok_bind]; dsimp only; rw [hp]; rfl⟩

/-- What a history that did not panic returned. -/
theorem internAll_ok {m : Mode} {vs : List BitVecValue} {s : ValueInterner} {is : List BitVecValueIndex}
    (h : internAll m .new vs = ok (s, is)) :
    (∀ v ∈ vs, Internable m v) ∧ s.words = internedStore vs ∧ is = vs.map fun v => ⟨internedAt vs v % 2 ^ 32, v.width⟩ := by
  have hi : ∀ v ∈ vs, Internable m v := by
    intro v hv
    by_cases hn : Internable m v
    · exact hn
    · obtain ⟨p, hp⟩ := C113_rejects m vs .new ⟨v, hv, hn⟩
      rw [h] at hp
      cases hp
  obtain ⟨s', h1, h2, -⟩ := C113_accepts m vs hi
  rw [h] at h1
  cases h1
  exact ⟨hi, h2, rfl⟩

theorem internAll_index {m : Mode} {vs : List BitVecValue} {s : ValueInterner} {is : List BitVecValueIndex}
    (h : internAll m .new vs = ok (s, is)) (hfit : s.words.length < 2 ^ 32) {k : Nat} {v : BitVecValue} {i : BitVecValueIndex}
    (hv : vs[k]? = some v) (hi : is[k]? = some i) : v ∈ vs ∧ i = ⟨internedAt vs v, v.width⟩ := by
  obtain ⟨-, h2, h3⟩ := internAll_ok h
  have := internedAt_le vs v
  rw [h2] at hfit
  rw [h3, List.getElem?_map, hv, Option.map_some] at hi
  cases hi
  refine ⟨List.mem_of_getElem? hv, ?_⟩
  rw [Nat.mod_eq_of_lt (by omega)]

theorem getRef_exact (data : List Word) (i : BitVecValueIndex) :
    Indexed.getRef data i =
      if i.index + need i.width ≤ data.length then ok ⟨i.width, (data.drop i.index).take (need i.width)⟩ else panic .bounds := by
  rw [Indexed.getRef, toRange_eq, sliceR]
  unfold pastEnd need
  dsimp only
  by_cases h : i.index + (i.width + 63) / 64 ≤ data.length
  · rw [if_pos ⟨by omega, h⟩, if_pos h, Nat.add_sub_cancel_left]
    rfl
  · rw [if_neg (fun e => h e.2), if_neg h]
    rfl

/-- **C113** A value with at least the words that its width needs is read back with exactly the words that its width needs. -/
theorem C113_read_back (m : Mode) (vs : List BitVecValue) (s : ValueInterner) (is : List BitVecValueIndex)
    (h : internAll m .new vs = ok (s, is)) (hfit : s.words.length < 2 ^ 32) (k : Nat) (v : BitVecValue) (i : BitVecValueIndex)
    (hv : vs[k]? = some v) (hi : is[k]? = some i) (hn : need v.width ≤ v.words.length) :
    Indexed.getRef s.words i = ok ⟨v.width, v.words.take (need v.width)⟩ := by
  obtain ⟨hm, rfl⟩ := internAll_index h hfit hv hi
  obtain ⟨-, h2, -⟩ := internAll_ok h
  obtain ⟨t, ht⟩ := C113_stored vs v hm
  have hl := congrArg List.length ht
  rw [List.length_append, List.length_drop] at hl
  have hle := internedAt_le vs v
  rw [getRef_exact, h2]
  dsimp only
  rw [if_pos (by omega), ← ht, List.take_append_of_le_length hn]

/-- **C113** A value with fewer words is read back with the words that happen to be stored after its own, and the read panics when the
store ends first. -/
theorem C113_read_short (m : Mode) (vs : List BitVecValue) (s : ValueInterner) (is : List BitVecValueIndex)
    (h : internAll m .new vs = ok (s, is)) (hfit : s.words.length < 2 ^ 32) (k : Nat) (v : BitVecValue) (i : BitVecValueIndex)
    (hv : vs[k]? = some v) (hi : is[k]? = some i) (hn : v.words.length < need v.width) :
    Indexed.getRef s.words i =
      if internedAt vs v + need v.width ≤ (internedStore vs).length then
        ok ⟨v.width, v.words ++ ((internedStore vs).drop (internedAt vs v + v.words.length)).take (need v.width - v.words.length)⟩
      else panic .bounds := by
  obtain ⟨hm, rfl⟩ := internAll_index h hfit hv hi
  obtain ⟨-, h2, -⟩ := internAll_ok h
  obtain ⟨t, ht⟩ := C113_stored vs v hm
  rw [getRef_exact, h2]
  dsimp only
  rw [← List.drop_drop, ← ht, List.take_append, List.drop_left' rfl, List.take_of_length_le (by omega)]

/-- **C113** Reading an index back gives the value that was interned exactly if that value has the number of words that its width needs. -/
theorem C113_same_value (m : Mode) (vs : List BitVecValue) (s : ValueInterner) (is : List BitVecValueIndex)
    (h : internAll m .new vs = ok (s, is)) (hfit : s.words.length < 2 ^ 32) (k : Nat) (v : BitVecValue) (i : BitVecValueIndex)
    (hv : vs[k]? = some v) (hi : is[k]? = some i) : Indexed.getRef s.words i = ok v ↔ v.words.length = need v.width := by
  constructor
  · intro e
    obtain ⟨-, rfl⟩ := internAll_index h hfit hv hi
    rw [getRef_exact] at e
    dsimp only at e
    split at e
    · have e' := congrArg List.length (congrArg BitVecValue.words (ok.inj e))
      rw [List.length_take, List.length_drop] at e'
      omega
    · cases e
  · intro e
    rw [C113_read_back m vs s is h hfit k v i hv hi (by omega), List.take_of_length_le (by omega)]

theorem internedAt_inj {vs : List BitVecValue} {u v : BitVecValue} (hu : u ∈ vs) (hv : v ∈ vs) (hu0 : u.words ≠ []) (hv0 : v.words ≠ [])
    (h : internedAt vs u = internedAt vs v) : u.words = v.words := by
  by_cases hpu : Preloaded u.words
  · obtain ⟨j, hj, ej, ej'⟩ := internedAt_preloaded (vs := vs) hpu
    by_cases hpv : Preloaded v.words
    · obtain ⟨k, hk, ek, ek'⟩ := internedAt_preloaded (vs := vs) hpv
      rw [ej, ek, show j = k by omega]
    · rw [ej', internedAt, if_neg hpv] at h
      omega
  · by_cases hpv : Preloaded v.words
    · obtain ⟨k, hk, ek, ek'⟩ := internedAt_preloaded (vs := vs) hpv
      rw [ek', internedAt, if_neg hpu] at h
      omega
    · rw [internedAt, if_neg hpu, internedAt, if_neg hpv] at h
      exact wordsBefore_inj (mem_distinctWords.mpr ⟨⟨u, hu, rfl⟩, hpu⟩) (mem_distinctWords.mpr ⟨⟨v, hv, rfl⟩, hpv⟩) hu0 hv0 (by omega)

/-- **C113** Two values that have words get the same index exactly if they have the same width and the same words. -/
theorem C113_unique (m : Mode) (vs : List BitVecValue) (s : ValueInterner) (is : List BitVecValueIndex)
    (h : internAll m .new vs = ok (s, is)) (hfit : s.words.length < 2 ^ 32) (j k : Nat) (u v : BitVecValue) (a b : BitVecValueIndex)
    (hu : vs[j]? = some u) (ha : is[j]? = some a) (hv : vs[k]? = some v) (hb : is[k]? = some b) (hu0 : u.words ≠ [])
    (hv0 : v.words ≠ []) : a = b ↔ u = v := by
  obtain ⟨hum, rfl⟩ := internAll_index h hfit hu ha
  obtain ⟨hvm, rfl⟩ := internAll_index h hfit hv hb
  constructor
  · intro e
    have e1 : u.width = v.width := congrArg BitVecValueIndex.width e
    have e2 := internedAt_inj hum hvm hu0 hv0 (congrArg BitVecValueIndex.index e)
    cases u
    cases v
    simp only [BitVecValue.mk.injEq]
    exact ⟨e1, e2⟩
  · intro e
    rw [e]

/-- **C113** An index is reported to be zero (one) exactly if the value is the single word zero (one). -/
theorem C113_is_zero_one (m : Mode) (vs : List BitVecValue) (s : ValueInterner) (is : List BitVecValueIndex)
    (h : internAll m .new vs = ok (s, is)) (hfit : s.words.length < 2 ^ 32) (k : Nat) (v : BitVecValue) (i : BitVecValueIndex)
    (hv : vs[k]? = some v) (hi : is[k]? = some i) :
    (ValueInterner.isZero i = true ↔ v.words = [0#64]) ∧ (ValueInterner.isOne i = true ↔ v.words = [1#64]) := by
  obtain ⟨-, rfl⟩ := internAll_index h hfit hv hi
  unfold ValueInterner.isZero ValueInterner.isOne
  dsimp only
  rw [beq_iff_eq, beq_iff_eq]
  by_cases hp : Preloaded v.words
  · obtain ⟨j, hj, ej, ej'⟩ := internedAt_preloaded (vs := vs) hp
    rw [ej, ej']
    have : j = 0 ∨ j = 1 ∨ j = 2 ∨ j = 3 ∨ j = 4 ∨ j = 5 ∨ j = 6 ∨ j = 7 := by omega
    rcases this with e | e | e | e | e | e | e | e <;> subst e <;> decide
  · rw [internedAt, if_neg hp]
    refine ⟨⟨fun e => by omega, fun e => absurd ⟨0, by omega, e⟩ hp⟩, ⟨fun e => by omega, fun e => absurd ⟨1, by omega, e⟩ hp⟩⟩

/-- **C113** Values without words are the reason why `C113_unique` asks for words: the next new value shares their index. -/
theorem C113_empty_shares (m : Mode) (w : Nat) (x y : Word) (hw : 64 < w) :
    ∃ s, internAll m .new [⟨w, []⟩, ⟨w, [x, y]⟩] = ok (s, [⟨8, w⟩, ⟨8, w⟩]) := by
  have hi : ∀ v ∈ [(⟨w, []⟩ : BitVecValue), ⟨w, [x, y]⟩], Internable m v := by
    intro v hv _
    rcases List.mem_cons.mp hv with rfl | hv
    · exact ⟨fun e => (by simp at e), fun e => (by simp at e; omega)⟩
    · rw [List.mem_singleton.mp hv]
      exact ⟨fun e => (by simp at e), fun e => (by simp at e; omega)⟩
  obtain ⟨s, h, -, -⟩ := C113_accepts m _ hi
  refine ⟨s, ?_⟩
  rw [h]
  have hp0 : ¬ Preloaded ([] : List Word) := fun ⟨_, _, e⟩ => by cases e
  have hp1 : ¬ Preloaded [x, y] := fun ⟨_, _, e⟩ => by cases e
  have hd : distinctWords [⟨w, []⟩, ⟨w, [x, y]⟩] = [[], [x, y]] := by
    simp [distinctWords, hp0, hp1, List.eraseDups_cons]
  simp [internedAt, hp0, hp1, hd, wordsBefore]

/- Stray bits, too many words, too few words and no words at all, in a release build: the indices, what a value with too many words and a
value with too few words read back as, and a read past the end of the store. -/
example :
    ∃ s, internAll .release .new [⟨4, [0xff#64]⟩, ⟨3, [1#64]⟩, ⟨3, [1#64, 2#64]⟩, ⟨70, [9#64]⟩, ⟨3, [0xff#64]⟩, ⟨70, []⟩] =
        ok (s, [⟨8, 4⟩, ⟨1, 3⟩, ⟨9, 3⟩, ⟨11, 70⟩, ⟨8, 3⟩, ⟨12, 70⟩]) ∧
      Indexed.getRef s.words ⟨9, 3⟩ = ok ⟨3, [1#64]⟩ ∧ Indexed.getRef s.words ⟨8, 4⟩ = ok ⟨4, [0xff#64]⟩ ∧
      Indexed.getRef s.words ⟨11, 70⟩ = Res.panic .bounds := by
  refine ⟨_, rfl, ?_⟩
  decide +kernel

/- The same values stop a debug build; stray bits alone do not. -/
example : ¬ Internable .debug ⟨3, [1#64, 2#64]⟩ ∧ ¬ Internable .debug ⟨70, [9#64]⟩ ∧ Internable .debug ⟨4, [0xff#64]⟩ := by
  refine ⟨fun h => ?_, fun h => ?_, fun _ => by simp⟩
  · exact absurd ((h rfl).mpr (by decide)) (by decide)
  · exact absurd ((h rfl).mp (by decide)) (by decide)

/- A value with too few words takes over the words that were interned after it. -/
example : ∃ s, internAll .release .new [⟨70, [9#64]⟩, ⟨8, [0x55#64]⟩] = ok (s, [⟨8, 70⟩, ⟨9, 8⟩]) ∧
    Indexed.getRef s.words ⟨8, 70⟩ = ok ⟨70, [9#64, 0x55#64]⟩ := by
  refine ⟨_, rfl, ?_⟩
  decide +kernel

end Baa

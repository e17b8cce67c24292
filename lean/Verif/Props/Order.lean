import Verif.Props.Derived
import Verif.Spec.Order

/-!
# C128: the order of bit-vectors
-/

namespace Baa
open Res

theorem flipWords_lt (n x : Nat) : flipWords n x < 2 ^ (64 * n) := by
  induction n generalizing x with
  | zero => exact Nat.zero_lt_one
  | succ n ih =>
    have h := ih (x / 2 ^ 64)
    have hx : x % 2 ^ 64 < 2 ^ 64 := Nat.mod_lt _ (by decide)
    have he : 2 ^ (64 * (n + 1)) = 2 ^ 64 * 2 ^ (64 * n) := by rw [← Nat.pow_add]; congr 1; omega
    have hm : (x % 2 ^ 64 + 1) * 2 ^ (64 * n) ≤ 2 ^ 64 * 2 ^ (64 * n) := Nat.mul_le_mul_right _ hx
    rw [Nat.succ_mul] at hm
    rw [flipWords, he]
    omega

/-- Two-digit numbers are compared by the first digit, then by the second. -/
theorem compare_digits {M a b r s : Nat} (hr : r < M) (hs : s < M) :
    compare (a * M + r) (b * M + s) = (compare a b).then (compare r s) := by
  have key : ∀ {a b r s : Nat}, r < M → a < b → a * M + r < b * M + s := by
    intro a b r s hr h
    have := Nat.mul_le_mul_right M h
    rw [Nat.succ_mul] at this
    omega
  rcases Nat.lt_trichotomy a b with h | h | h
  · rw [Nat.compare_eq_lt.2 (key hr h), Nat.compare_eq_lt.2 h]
    rfl
  · subst h
    rw [Nat.compare_eq_eq.2 rfl]
    show _ = compare r s
    rcases Nat.lt_trichotomy r s with h | h | h
    · rw [Nat.compare_eq_lt.2 h, Nat.compare_eq_lt.2 (by omega)]
    · rw [h, Nat.compare_eq_eq.2 rfl, Nat.compare_eq_eq.2 rfl]
    · rw [Nat.compare_eq_gt.2 h, Nat.compare_eq_gt.2 (by omega)]
  · rw [Nat.compare_eq_gt.2 (key hs h), Nat.compare_eq_gt.2 h]
    rfl

theorem cmpWordsLex_flip (as bs : List Word) (h : as.length = bs.length) :
    BitVecValue.cmpWordsLex as bs = compare (flipWords as.length (wordsVal as)) (flipWords as.length (wordsVal bs)) := by
  induction as generalizing bs with
  | nil =>
    cases bs with
    | nil => rfl
    | cons b bs => cases h
  | cons a as ih =>
    cases bs with
    | nil => cases h
    | cons b bs =>
      have hv : ∀ (w : Word) (ws : List Word), wordsVal (w :: ws) % 2 ^ 64 = w.toNat ∧ wordsVal (w :: ws) / 2 ^ 64 = wordsVal ws := by
        intro w ws
        have := w.isLt
        rw [wordsVal]
        omega
      rw [BitVecValue.cmpWordsLex, List.length_cons, flipWords, flipWords, (hv a as).1, (hv a as).2, (hv b bs).1, (hv b bs).2,
        compare_digits (flipWords_lt _ _) (flipWords_lt _ _), ih bs (by simpa using h)]

/-- **C128**: values of the same width are ordered by the numbers one gets by reading their words in the opposite order. -/
theorem C128_same_width {w : Nat} {a b : BitVecValue} {x y : BitVec w} (ha : Denotes a x) (hb : Denotes b y) :
    a.cmp b = compare (flipWords ((w + 63) / 64) x.toNat) (flipWords ((w + 63) / 64) y.toNat) := by
  have hl : a.words.length = (w + 63) / 64 := ha.length_eq
  have hl' : b.words.length = (w + 63) / 64 := hb.length_eq
  rw [BitVecValue.cmp, ha.width_eq, hb.width_eq, Nat.compare_eq_eq.2 rfl, cmpWordsLex_flip _ _ (hl.trans hl'.symm), hl, ha.val_eq,
    hb.val_eq]
  rfl

/-- **C128**: values of different widths are ordered by width, whatever they contain. -/
theorem C128_other_width {w u : Nat} (h : w ≠ u) {a b : BitVecValue} {x : BitVec w} {y : BitVec u} (ha : Denotes a x)
    (hb : Denotes b y) : a.cmp b = compare w u := by
  rw [BitVecValue.cmp, ha.width_eq, hb.width_eq]
  rcases Nat.lt_or_gt_of_ne h with h | h
  · rw [Nat.compare_eq_lt.2 h]
    rfl
  · rw [Nat.compare_eq_gt.2 h]
    rfl

/-- **C128**: the order of the values of a width is the order of their numbers exactly if the width is at most 64. -/
theorem C128_by_number (w : Nat) (hw : w < 2 ^ 32) :
    (∀ (a b : BitVecValue) (x y : BitVec w), Denotes a x → Denotes b y → a.cmp b = compare x.toNat y.toNat) ↔ w ≤ 64 := by
  constructor
  · intro h
    apply Decidable.byContradiction
    intro hn
    have h1 := h _ _ _ _ (encode_denotes (BitVec.ofNat w (2 ^ 64)) hw) (encode_denotes (BitVec.ofNat w 1) hw)
    have e1 : (BitVec.ofNat w (2 ^ 64)).toNat = 2 ^ 64 := by
      rw [BitVec.toNat_ofNat]
      exact Nat.mod_eq_of_lt (Nat.pow_lt_pow_right (by decide) (by omega))
    have e2 : (BitVec.ofNat w 1).toNat = 1 := by
      rw [BitVec.toNat_ofNat]
      exact Nat.mod_eq_of_lt (Nat.one_lt_two_pow (by omega))
    rw [C128_same_width (encode_denotes _ hw) (encode_denotes _ hw), e1, e2] at h1
    obtain ⟨n, hn'⟩ : ∃ n, (w + 63) / 64 = n + 1 := ⟨(w + 63) / 64 - 1, by omega⟩
    rw [hn', flipWords, flipWords, compare_digits (flipWords_lt _ _) (flipWords_lt _ _)] at h1
    have e3 : compare (2 ^ 64 % 2 ^ 64) (1 % 2 ^ 64) = .lt := by decide
    have e4 : compare (2 ^ 64) 1 = .gt := by decide
    rw [e3, e4] at h1
    cases h1
  · intro hle a b x y ha hb
    rcases Nat.eq_zero_or_pos w with h0 | h0
    · subst h0
      rw [C128_same_width ha hb, BitVec.of_length_zero (x := x), BitVec.of_length_zero (x := y)]
      decide
    · exact C60_cmp_narrow h0 hle ha hb

/-- Two sorted sequences with the same elements are the same. -/
theorem sortedValues_unique (vs us : List BitVecValue) (h : vs.Perm us) (hv : SortedValues vs) (hu : SortedValues us) : vs = us := by
  refine List.Perm.eq_of_pairwise (le := fun a b : BitVecValue => a.cmp b ≠ .gt) ?_ hv hu h
  intro a b _ _ h1 h2
  have hs := C60_ord_total.2.1 a b
  rw [← cmp_eq_iff]
  cases hc : a.cmp b with
  | eq => rfl
  | gt => exact absurd hc h1
  | lt => rw [hc] at hs; exact absurd hs h2

/-- **C128**: every sequence of values can be sorted in exactly one way. So sorting has one result, whatever the method. -/
theorem C128_sorting (vs : List BitVecValue) :
    ∃ us, vs.Perm us ∧ SortedValues us ∧ ∀ us', vs.Perm us' → SortedValues us' → us' = us := by
  have hp := List.mergeSort_perm vs fun a b => a.cmp b != .gt
  have hs : SortedValues (vs.mergeSort fun a b => a.cmp b != .gt) := by
    have h := List.pairwise_mergeSort (le := fun a b : BitVecValue => a.cmp b != .gt) (fun a b c h1 h2 => by
      simp only [bne_iff_ne] at *
      cases e1 : a.cmp b with
      | gt => exact absurd e1 h1
      | eq => rwa [(cmp_eq_iff _ _).1 e1]
      | lt =>
        cases e2 : b.cmp c with
        | gt => exact absurd e2 h2
        | eq => rw [← (cmp_eq_iff _ _).1 e2, e1]; decide
        | lt => rw [C60_ord_total.2.2 a b c e1 e2]; decide) (fun a b => by
      rw [C60_ord_total.2.1 a b]
      cases a.cmp b <;> rfl) vs
    exact h.imp fun h => by simpa using h
  exact ⟨_, hp.symm, hs, fun us' h1 h2 => sortedValues_unique _ _ (h1.symm.trans hp.symm) h2 hs⟩

theorem searchSorted_spec (vs : List BitVecValue) (v : BitVecValue) (hs : SortedValues vs) (n lo : Nat) (hn : lo + n ≤ vs.length)
    (hlo : ∀ i (h : i < vs.length), i < lo → vs[i].cmp v = .lt)
    (hhi : ∀ i (h : i < vs.length), lo + n ≤ i → vs[i].cmp v = .gt) :
    match searchSorted vs v lo n with
    | .ok i => vs[i]? = some v
    | .error i => i ≤ vs.length ∧ (∀ j (h : j < vs.length), j < i → vs[j].cmp v = .lt) ∧
        ∀ j (h : j < vs.length), i ≤ j → vs[j].cmp v = .gt := by
  induction n using Nat.strongRecOn generalizing lo with
  | _ n ih =>
    rw [searchSorted]
    by_cases h0 : n = 0
    · rw [dif_pos h0]
      subst h0
      exact ⟨hn, hlo, fun j h hj => hhi j h (by omega)⟩
    · rw [dif_neg h0]
      have hm : lo + n / 2 < vs.length := by omega
      rw [List.getElem?_eq_getElem hm]
      have hp := List.pairwise_iff_getElem.1 hs
      dsimp only
      cases hc : vs[lo + n / 2].cmp v with
      | eq =>
        dsimp only
        rw [List.getElem?_eq_getElem hm, (cmp_eq_iff _ _).1 hc]
      | lt =>
        dsimp only
        refine ih _ (by omega) _ (by omega) ?_ fun i h hi => hhi i h (by omega)
        intro i h hi
        by_cases hi' : i = lo + n / 2
        · subst hi'
          exact hc
        · have h1 := hp i (lo + n / 2) h hm (by omega)
          cases hij : vs[i].cmp vs[lo + n / 2] with
          | gt => exact absurd hij h1
          | eq => rw [(cmp_eq_iff _ _).1 hij, hc]
          | lt => exact C60_ord_total.2.2 _ _ _ hij hc
      | gt =>
        dsimp only
        refine ih _ (by omega) _ (by omega) hlo ?_
        intro i h hi
        by_cases hi' : i = lo + n / 2
        · subst hi'
          exact hc
        · have h1 := hp (lo + n / 2) i hm h (by omega)
          have hsw : ∀ a b : BitVecValue, a.cmp b = .gt → b.cmp a = .lt := fun a b h => by rw [C60_ord_total.2.1 a b, h]; rfl
          have hsw' : ∀ a b : BitVecValue, a.cmp b = .lt → b.cmp a = .gt := fun a b h => by rw [C60_ord_total.2.1 a b, h]; rfl
          cases hij : vs[lo + n / 2].cmp vs[i] with
          | gt => exact absurd hij h1
          | eq => rw [← (cmp_eq_iff _ _).1 hij, hc]
          | lt => exact hsw' _ _ (C60_ord_total.2.2 _ _ _ (hsw _ _ hc) hij)

/-- **C128**: a search in a sorted sequence finds a value exactly if it occurs, and returns where; otherwise it returns the
position at which the value can be inserted so that the sequence stays sorted. -/
theorem C128_search (vs : List BitVecValue) (v : BitVecValue) (hs : SortedValues vs) :
    (v ∈ vs ↔ ∃ i, searchSorted vs v 0 vs.length = .ok i) ∧
      (∀ i, searchSorted vs v 0 vs.length = .ok i → vs[i]? = some v) ∧
      ∀ i, searchSorted vs v 0 vs.length = .error i → SortedValues (vs.take i ++ v :: vs.drop i) := by
  have h := searchSorted_spec vs v hs vs.length 0 (by omega) (fun i _ h => absurd h (by omega)) (fun i h h' => absurd h (by omega))
  cases hr : searchSorted vs v 0 vs.length with
  | ok i =>
    rw [hr] at h
    dsimp only at h
    refine ⟨⟨fun _ => ⟨i, rfl⟩, fun _ => List.mem_of_getElem? h⟩, ?_, ?_⟩
    · intro j hj
      cases hj
      exact h
    · intro j hj
      cases hj
  | error i =>
    rw [hr] at h
    dsimp only at h
    obtain ⟨hle, hlt, hgt⟩ := h
    refine ⟨⟨fun hm => ?_, fun ⟨_, hj⟩ => nomatch hj⟩, fun j hj => (nomatch hj), ?_⟩
    · obtain ⟨j, hj, he⟩ := List.getElem_of_mem hm
      have hc : vs[j].cmp v = .eq := (cmp_eq_iff _ _).2 he
      by_cases hji : j < i
      · rw [hlt j hj hji] at hc
        cases hc
      · rw [hgt j hj (by omega)] at hc
        cases hc
    · intro j hj
      cases hj
      have htake : ∀ u, u ∈ vs.take i → u.cmp v = .lt := by
        intro u hu
        obtain ⟨j, hj, he⟩ := List.getElem_of_mem hu
        rw [List.length_take] at hj
        rw [List.getElem_take] at he
        exact he ▸ hlt j (by omega) (by omega)
      have hdrop : ∀ u, u ∈ vs.drop i → u.cmp v = .gt := by
        intro u hu
        obtain ⟨j, hj, he⟩ := List.getElem_of_mem hu
        rw [List.length_drop] at hj
        rw [List.getElem_drop] at he
        exact he ▸ hgt (i + j) (by omega) (by omega)
      have hs' : SortedValues (vs.take i ++ vs.drop i) := by rw [List.take_append_drop]; exact hs
      obtain ⟨h1, h2, h3⟩ := List.pairwise_append.1 hs'
      refine List.pairwise_append.2 ⟨h1, List.pairwise_cons.2 ⟨?_, h2⟩, ?_⟩
      · intro u hu hg
        have := C60_ord_total.2.1 u v
        rw [hg, hdrop u hu] at this
        cases this
      · intro a ha b hb
        rcases List.mem_cons.1 hb with rfl | hb
        · rw [htake a ha]
          exact (fun h => nomatch h)
        · exact h3 a ha b hb

example : flipWords 2 (2 ^ 64 + 5) = 5 * 2 ^ 64 + 1 := by decide +kernel
example : SortedValues [encode 7#3, encode 0x10000000000000000#70, encode 1#70, encode 0x30000000000000001#70] := by
  unfold SortedValues
  decide +kernel
example : (searchSorted [encode 7#3, encode 0x10000000000000000#70, encode 1#70] (encode 1#70) 0 3).toOption = some 2 := by
  decide +kernel
example : (searchSorted [encode 7#3, encode 0x10000000000000000#70, encode 1#70] (encode 0#70) 0 3).toOption = none := by
  decide +kernel

end Baa

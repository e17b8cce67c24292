import Verif.SpecIndexed
import Verif.Proofs.Words
import Verif.Proofs.HMap

/-!
# C44, C45: values addressed by an index into a slice of words
-/

namespace Baa
open Res

/-! ## C44 -/

theorem toRange_eq (i : BitVecValueIndex) : i.toRange = (i.index, pastEnd i) := rfl

theorem sliceR_panics {α : Type} {l : List α} {lo hi : Nat} (h : ¬ (lo ≤ hi ∧ hi ≤ l.length)) : Panics (sliceR l lo hi) :=
  ⟨.bounds, by rw [sliceR, if_neg h]⟩

theorem sliceR_storedAt {data : List Word} {i : BitVecValueIndex} (h : InBounds data i) :
    ∃ ws, sliceR data i.index (pastEnd i) = ok ws ∧ StoredAt data i ⟨i.width, ws⟩ := by
  unfold InBounds pastEnd at *
  refine ⟨_, sliceR_ok (by omega) h, rfl, ?_, ?_⟩
  · simp only [List.length_take, List.length_drop]
    omega
  · intro k hk
    simp only [List.getElem?_take, List.getElem?_drop]
    rw [if_pos (by omega)]

theorem StoredAt.unique {data : List Word} {i : BitVecValueIndex} {u v : BitVecValue} (hu : StoredAt data i u)
    (hv : StoredAt data i v) : u = v := by
  have h1 : u.words = v.words := by
    apply List.ext_getElem?
    intro k
    by_cases hk : k < (i.width + 63) / 64
    · rw [hu.word_eq k hk, hv.word_eq k hk]
    · rw [List.getElem?_eq_none (by rw [hu.length_eq]; omega), List.getElem?_eq_none (by rw [hv.length_eq]; omega)]
  cases u
  cases v
  simp only [BitVecValue.mk.injEq]
  exact ⟨hu.width_eq.trans hv.width_eq.symm, h1⟩

/-- **C44**: `get_ref(index)` returns exactly the addressed value when the range is in bounds, and panics otherwise. -/
theorem C44_get_ref (data : List Word) (i : BitVecValueIndex) :
    (InBounds data i → ∃ v, Indexed.getRef data i = ok v ∧ StoredAt data i v) ∧
    (¬ InBounds data i → Panics (Indexed.getRef data i)) := by
  constructor
  · intro h
    obtain ⟨ws, h1, h2⟩ := sliceR_storedAt h
    exact ⟨_, by rw [Indexed.getRef, toRange_eq, h1, ok_bind], h2⟩
  · intro h
    obtain ⟨p, hp⟩ := sliceR_panics (l := data) (lo := i.index) (hi := pastEnd i) (fun e => h e.2)
    exact ⟨p, by rw [Indexed.getRef, toRange_eq, hp, panic_bind]⟩

/-- **C44**: the mutable reference initially shows the addressed value, too. -/
theorem C44_get_mut_ref (data : List Word) (i : BitVecValueIndex) :
    (InBounds data i → ∃ v, Indexed.getMutRef data i = ok v ∧ StoredAt data i v) ∧
    (¬ InBounds data i → Panics (Indexed.getMutRef data i)) := C44_get_ref data i

/-- **C44**, pairs: `get_ref((a, b))` returns both addressed values (they may overlap), and panics iff one of the ranges is
out of bounds. -/
theorem C44_get_ref_pair (data : List Word) (a b : BitVecValueIndex) :
    (InBounds data a ∧ InBounds data b →
      ∃ u v, Indexed.getRef2 data a b = ok (u, v) ∧ StoredAt data a u ∧ StoredAt data b v) ∧
    (¬ (InBounds data a ∧ InBounds data b) → Panics (Indexed.getRef2 data a b)) := by
  constructor
  · rintro ⟨ha, hb⟩
    obtain ⟨wa, h1, h2⟩ := sliceR_storedAt ha
    obtain ⟨wb, h3, h4⟩ := sliceR_storedAt hb
    exact ⟨_, _, by rw [Indexed.getRef2, toRange_eq, toRange_eq, h1, ok_bind, h3, ok_bind], h2, h4⟩
  · intro h
    by_cases ha : InBounds data a
    · obtain ⟨wa, h1, h2⟩ := sliceR_storedAt ha
      obtain ⟨p, hp⟩ := sliceR_panics (l := data) (lo := b.index) (hi := pastEnd b) (fun e => h ⟨ha, e.2⟩)
      exact ⟨p, by rw [Indexed.getRef2, toRange_eq, toRange_eq, h1, ok_bind, hp, panic_bind]⟩
    · obtain ⟨p, hp⟩ := sliceR_panics (l := data) (lo := a.index) (hi := pastEnd a) (fun e => ha e.2)
      exact ⟨p, by rw [Indexed.getRef2, toRange_eq, toRange_eq, hp, panic_bind]⟩

/-- a 70-bit value at word 1 of a slice of 4 words -/
example : InBounds [1#64, 2#64, 3#64, 4#64] ⟨1, 70⟩ ∧
    Indexed.getRef [1#64, 2#64, 3#64, 4#64] ⟨1, 70⟩ = ok ⟨70, [2#64, 3#64]⟩ ∧
    Indexed.getRef [1#64, 2#64, 3#64, 4#64] ⟨3, 70⟩ = panic .bounds := by
  refine ⟨by unfold InBounds; decide, by decide, by decide⟩

/-! ## C45 -/

theorem splitAt_ok {l : List Word} {n : Nat} (h : n ≤ l.length) : Indexed.splitAt l n = ok (l.take n, l.drop n) := by
  rw [Indexed.splitAt, if_pos h]

/-- The shared reference taken out of what is left of the slice after the mutable range has been split off. -/
def restSlice (data : List Word) (dst src : Nat × Nat) : Res (List Word) :=
  if src.1 ≥ dst.2 then sliceR (data.drop dst.2) (src.1 - dst.2) (src.2 - dst.2)
  else sliceR (data.take dst.1) src.1 src.2

theorem restSlice_eq (data : List Word) {a b : BitVecValueIndex} (ha : InBounds data a) (hb : InBounds data b)
    (h : Apart a b) : restSlice data a.toRange b.toRange = sliceR data b.index (pastEnd b) := by
  rw [toRange_eq, toRange_eq]
  unfold InBounds Apart pastEnd at *
  unfold restSlice
  dsimp only
  by_cases h1 : b.index ≥ a.index + (a.width + 63) / 64
  · rw [if_pos h1, sliceR_ok (by omega) (by rw [List.length_drop]; omega), sliceR_ok (by omega) hb, List.drop_drop]
    congr 2
    · omega
    · congr 1
      omega
  · rw [if_neg h1]
    rw [sliceR_ok (by omega) (by rw [List.length_take]; omega), sliceR_ok (by omega) hb, List.drop_take, List.take_take]
    congr 2
    omega

theorem restSlice_panics (data : List Word) {a b : BitVecValueIndex} (ha : InBounds data a)
    (h : ¬ (InBounds data b ∧ Apart a b)) : Panics (restSlice data a.toRange b.toRange) := by
  rw [toRange_eq, toRange_eq]
  unfold InBounds Apart pastEnd at *
  unfold restSlice
  dsimp only
  by_cases h1 : b.index ≥ a.index + (a.width + 63) / 64
  · rw [if_pos h1]
    exact sliceR_panics (by rw [List.length_drop]; omega)
  · rw [if_neg h1]
    exact sliceR_panics (by rw [List.length_take]; omega)

theorem splitBorrow1_eq (data : List Word) {a : BitVecValueIndex} (ha : InBounds data a) (src : Nat × Nat) :
    Indexed.splitBorrow1 data a.toRange src = (do
      let d ← sliceR data a.index (pastEnd a)
      let s ← restSlice data a.toRange src
      ok (d, s)) := by
  rw [toRange_eq]
  unfold InBounds pastEnd at *
  unfold Indexed.splitBorrow1 restSlice
  rw [splitAt_ok (show (a.index, a.index + (a.width + 63) / 64).1 ≤ data.length by dsimp only; omega), ok_bind]
  dsimp only
  rw [splitAt_ok (by rw [List.length_drop]; omega), ok_bind, sliceR_ok (by omega) ha, ok_bind]
  dsimp only
  rw [List.drop_drop, show a.index + (a.index + (a.width + 63) / 64 - a.index) = a.index + (a.width + 63) / 64 by omega]

theorem splitBorrow2_eq (data : List Word) {a : BitVecValueIndex} (ha : InBounds data a) (src src' : Nat × Nat) :
    Indexed.splitBorrow2 data a.toRange src src' = (do
      let d ← sliceR data a.index (pastEnd a)
      let s ← restSlice data a.toRange src
      let s' ← restSlice data a.toRange src'
      ok (d, s, s')) := by
  rw [toRange_eq]
  unfold InBounds pastEnd at *
  unfold Indexed.splitBorrow2 restSlice
  rw [splitAt_ok (show (a.index, a.index + (a.width + 63) / 64).1 ≤ data.length by dsimp only; omega), ok_bind]
  dsimp only
  rw [splitAt_ok (by rw [List.length_drop]; omega), ok_bind, sliceR_ok (by omega) ha, ok_bind]
  dsimp only
  rw [List.drop_drop, show a.index + (a.index + (a.width + 63) / 64 - a.index) = a.index + (a.width + 63) / 64 by omega]

theorem split_oob (data : List Word) {a : BitVecValueIndex} (ha : ¬ InBounds data a) {β : Type}
    (f : List Word × List Word → List Word × List Word → Res β) :
    Panics (do
      let p ← Indexed.splitAt data a.toRange.1
      let q ← Indexed.splitAt p.2 (a.toRange.2 - a.toRange.1)
      f p q) := by
  rw [toRange_eq]
  unfold InBounds pastEnd at *
  dsimp only
  by_cases h1 : a.index ≤ data.length
  · refine ⟨.bounds, ?_⟩
    rw [splitAt_ok h1, ok_bind]
    dsimp only
    rw [Indexed.splitAt, if_neg (by rw [List.length_drop]; omega), panic_bind]
  · exact ⟨.bounds, by rw [Indexed.splitAt, if_neg h1, panic_bind]⟩

/-- **C45**: `get_mut_ref((a, b))` returns the two addressed values exactly when both ranges are in bounds and the mutable
one lies apart from the other one; in all other cases it panics, so it never hands out overlapping references. -/
theorem C45_get_mut_ref_pair (data : List Word) (a b : BitVecValueIndex) :
    (InBounds data a ∧ InBounds data b ∧ Apart a b →
      ∃ u v, Indexed.getMutRef2 data a b = ok (u, v) ∧ StoredAt data a u ∧ StoredAt data b v) ∧
    (¬ (InBounds data a ∧ InBounds data b ∧ Apart a b) → Panics (Indexed.getMutRef2 data a b)) := by
  constructor
  · rintro ⟨ha, hb, h⟩
    obtain ⟨wa, h1, h2⟩ := sliceR_storedAt ha
    obtain ⟨wb, h3, h4⟩ := sliceR_storedAt hb
    exact ⟨_, _, by rw [Indexed.getMutRef2, splitBorrow1_eq data ha, h1, ok_bind, restSlice_eq data ha hb h, h3, ok_bind,
      ok_bind], h2, h4⟩
  · intro h
    by_cases ha : InBounds data a
    · obtain ⟨wa, h1, h2⟩ := sliceR_storedAt ha
      obtain ⟨p, hp⟩ := restSlice_panics data (b := b) ha fun e => h ⟨ha, e⟩
      exact ⟨p, by rw [Indexed.getMutRef2, splitBorrow1_eq data ha, h1, ok_bind, hp, panic_bind, panic_bind]⟩
    · obtain ⟨p, hp⟩ := split_oob data ha (fun x y => (do
        let srcWords ← (if b.toRange.1 ≥ a.toRange.2 then sliceR y.2 (b.toRange.1 - a.toRange.2) (b.toRange.2 - a.toRange.2)
          else sliceR x.1 b.toRange.1 b.toRange.2)
        ok (y.1, srcWords)))
      exact ⟨p, by rw [Indexed.getMutRef2, show Indexed.splitBorrow1 data a.toRange b.toRange = Res.panic p from hp, panic_bind]⟩

/-- **C45**, triples: `get_mut_ref((a, b, c))` returns the three addressed values exactly when all ranges are in bounds and
the mutable one lies apart from the other two (which may overlap each other); otherwise it panics. -/
theorem C45_get_mut_ref_triple (data : List Word) (a b c : BitVecValueIndex) :
    (InBounds data a ∧ InBounds data b ∧ InBounds data c ∧ Apart a b ∧ Apart a c →
      ∃ u v w, Indexed.getMutRef3 data a b c = ok (u, v, w) ∧ StoredAt data a u ∧ StoredAt data b v ∧
        StoredAt data c w) ∧
    (¬ (InBounds data a ∧ InBounds data b ∧ InBounds data c ∧ Apart a b ∧ Apart a c) →
      Panics (Indexed.getMutRef3 data a b c)) := by
  constructor
  · rintro ⟨ha, hb, hc, h, h'⟩
    obtain ⟨wa, h1, h2⟩ := sliceR_storedAt ha
    obtain ⟨wb, h3, h4⟩ := sliceR_storedAt hb
    obtain ⟨wc, h5, h6⟩ := sliceR_storedAt hc
    exact ⟨_, _, _, by rw [Indexed.getMutRef3, splitBorrow2_eq data ha, h1, ok_bind, restSlice_eq data ha hb h, h3,
      ok_bind, restSlice_eq data ha hc h', h5, ok_bind, ok_bind], h2, h4, h6⟩
  · intro h
    by_cases ha : InBounds data a
    · obtain ⟨wa, h1, h2⟩ := sliceR_storedAt ha
      by_cases hb : InBounds data b ∧ Apart a b
      · obtain ⟨wb, h3, h4⟩ := sliceR_storedAt hb.1
        obtain ⟨p, hp⟩ := restSlice_panics data (b := c) ha fun e => h ⟨ha, hb.1, e.1, hb.2, e.2⟩
        exact ⟨p, by rw [Indexed.getMutRef3, splitBorrow2_eq data ha, h1, ok_bind, restSlice_eq data ha hb.1 hb.2, h3,
          ok_bind, hp, panic_bind, panic_bind]⟩
      · obtain ⟨p, hp⟩ := restSlice_panics data (b := b) ha hb
        exact ⟨p, by rw [Indexed.getMutRef3, splitBorrow2_eq data ha, h1, ok_bind, hp, panic_bind, panic_bind]⟩
    · obtain ⟨p, hp⟩ := split_oob data ha (fun x y => (do
        let aWords ← (if b.toRange.1 ≥ a.toRange.2 then sliceR y.2 (b.toRange.1 - a.toRange.2) (b.toRange.2 - a.toRange.2)
          else sliceR x.1 b.toRange.1 b.toRange.2)
        let bWords ← (if c.toRange.1 ≥ a.toRange.2 then sliceR y.2 (c.toRange.1 - a.toRange.2) (c.toRange.2 - a.toRange.2)
          else sliceR x.1 c.toRange.1 c.toRange.2)
        ok (y.1, aWords, bWords)))
      exact ⟨p, by rw [Indexed.getMutRef3, show Indexed.splitBorrow2 data a.toRange b.toRange c.toRange = Res.panic p from hp,
        panic_bind]⟩

/-- **C45**, writes: whatever words `new` (as many as the range has) are written through a mutable reference to `a`, the
slice keeps its length, reading at `a` gives the new words, every word outside of the range of `a` is unchanged, and so is
every value stored apart from `a`. -/
theorem C45_write (data : List Word) (a : BitVecValueIndex) (ha : InBounds data a) (new : List Word)
    (hn : new.length = (a.width + 63) / 64) :
    let data' := Indexed.writeBack data a.index new
    data'.length = data.length ∧
    Indexed.getRef data' a = ok ⟨a.width, new⟩ ∧
    (∀ k, k < a.index ∨ pastEnd a ≤ k → data'[k]? = data[k]?) ∧
    (∀ b, InBounds data b → Apart a b → Indexed.getRef data' b = Indexed.getRef data b) := by
  intro data'
  unfold InBounds pastEnd at ha
  have hl : data'.length = data.length := by
    simp only [data', Indexed.writeBack, List.length_append, List.length_take, List.length_drop]
    omega
  have hout : ∀ k, k < a.index ∨ pastEnd a ≤ k → data'[k]? = data[k]? := by
    intro k hk
    unfold pastEnd at hk
    simp only [data', Indexed.writeBack, List.getElem?_append, List.length_append, List.length_take, List.getElem?_take,
      List.getElem?_drop]
    rcases hk with hk | hk
    · rw [if_pos (by omega), if_pos (by omega), if_pos hk]
    · rw [if_neg (by omega)]
      congr 1
      omega
  have hin : ∀ k, k < new.length → data'[a.index + k]? = new[k]? := by
    intro k hk
    simp only [data', Indexed.writeBack, List.getElem?_append, List.length_append, List.length_take, List.getElem?_take,
      List.getElem?_drop]
    rw [if_pos (by omega), if_neg (by omega)]
    congr 1
    omega
  refine ⟨hl, ?_, hout, ?_⟩
  · obtain ⟨v, h1, h2⟩ := (C44_get_ref data' a).1 (by unfold InBounds pastEnd; omega)
    rw [h1, h2.unique (v := ⟨a.width, new⟩) ⟨rfl, hn, fun k hk => (hin k (by omega)).symm⟩]
  · intro b hb hab
    obtain ⟨v, h1, h2⟩ := (C44_get_ref data' b).1 (by unfold InBounds at *; omega)
    obtain ⟨u, h3, h4⟩ := (C44_get_ref data b).1 hb
    rw [h1, h3, h2.unique ⟨h4.width_eq, h4.length_eq, fun k hk => ?_⟩]
    rw [h4.word_eq k hk]
    refine (hout _ ?_).symm
    unfold Apart pastEnd at *
    omega

/-- **C45**, assignment: `let (mut a, b) = data.get_mut_ref((a, b)); a.assign(b)` copies the value at `b` to `a` and changes
nothing outside of the range of `a`. -/
theorem C45_assign_from (m : Mode) (data : List Word) (a b : BitVecValueIndex) (hw : a.width = b.width)
    (ha : InBounds data a) (hb : InBounds data b) (hab : Apart a b) :
    ∃ data', Indexed.assignFrom m data a b = ok data' ∧ data'.length = data.length ∧
      (∃ v, Indexed.getRef data b = ok v ∧ Indexed.getRef data' a = ok v ∧ Indexed.getRef data' b = ok v) ∧
      (∀ k, k < a.index ∨ pastEnd a ≤ k → data'[k]? = data[k]?) := by
  obtain ⟨u, v, h1, h2, h3⟩ := (C45_get_mut_ref_pair data a b).1 ⟨ha, hb, hab⟩
  obtain ⟨v', h4, h5⟩ := (C44_get_ref data b).1 hb
  have hvv := h3.unique h5
  have hlen : v.words.length = (a.width + 63) / 64 := by rw [h3.length_eq, hw]
  obtain ⟨e1, e2, e3, e4⟩ := C45_write data a ha v.words hlen
  refine ⟨Indexed.writeBack data a.index v.words, ?_, e1, ⟨v, ?_, ?_, ?_⟩, e3⟩
  · rw [Indexed.assignFrom, h1, ok_bind]
    dsimp only
    unfold BitVecValue.assign
    rw [debugAssert_of (by rw [h2.width_eq, h3.width_eq, hw]; simp), ok_bind,
      debugAssert_of (by rw [h2.length_eq, hlen]; simp), ok_bind, if_pos (by rw [h2.length_eq, hlen]), ok_bind]
  · rw [h4, hvv]
  · have hv : v = ⟨a.width, v.words⟩ := by
      cases v
      have := h3.width_eq
      simp only at this
      rw [hw, ← this]
    rw [e2, ← hv]
  · rw [e4 b hb hab, h4, hvv]

/-- **C45**, assignment of a value: `data.get_mut_ref(a).assign(value)`. -/
theorem C45_assign_at (m : Mode) (data : List Word) (a : BitVecValueIndex) (v : BitVecValue) (hw : v.width = a.width)
    (hv : v.words.length = (v.width + 63) / 64) (ha : InBounds data a) :
    ∃ data', Indexed.assignAt m data a v = ok data' ∧ data'.length = data.length ∧
      Indexed.getRef data' a = ok v ∧ (∀ k, k < a.index ∨ pastEnd a ≤ k → data'[k]? = data[k]?) := by
  obtain ⟨u, h1, h2⟩ := (C44_get_mut_ref data a).1 ha
  have hlen : v.words.length = (a.width + 63) / 64 := by rw [hv, hw]
  obtain ⟨e1, e2, e3, e4⟩ := C45_write data a ha v.words hlen
  refine ⟨Indexed.writeBack data a.index v.words, ?_, e1, ?_, e3⟩
  · rw [Indexed.assignAt, h1, ok_bind]
    unfold BitVecValue.assign
    rw [debugAssert_of (by rw [h2.width_eq, hw]; simp), ok_bind,
      debugAssert_of (by rw [h2.length_eq, hlen]; simp), ok_bind, if_pos (by rw [h2.length_eq, hlen]), ok_bind]
  · have hv : v = ⟨a.width, v.words⟩ := by
      cases v
      simp only at hw
      rw [← hw]
    rw [e2, ← hv]

/-- copying the 70-bit value at words 2..4 to words 0..2 -/
example : InBounds [1#64, 2#64, 3#64, 4#64, 5#64] ⟨0, 70⟩ ∧ InBounds [1#64, 2#64, 3#64, 4#64, 5#64] ⟨2, 70⟩ ∧
    Apart ⟨0, 70⟩ ⟨2, 70⟩ ∧
    Indexed.assignFrom .debug [1#64, 2#64, 3#64, 4#64, 5#64] ⟨0, 70⟩ ⟨2, 70⟩ =
      ok [3#64, 4#64, 3#64, 4#64, 5#64] := by
  refine ⟨by unfold InBounds; decide, by unfold InBounds; decide, .inl (by decide), by decide⟩

/-- overlapping ranges are rejected -/
example : Indexed.assignFrom .release [1#64, 2#64, 3#64, 4#64, 5#64] ⟨0, 70⟩ ⟨1, 70⟩ = panic .bounds := by decide

end Baa

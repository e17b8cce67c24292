import Verif.Props.ArrayEq
import Verif.Props.ArrayConv
import Verif.Spec.Arrays

/-!
# C72, C73: laws of arrays

C72: any history of creations, stores, clears and conversions; C73: `==` as an equivalence relation.
-/

namespace Baa
open Res

/-! ## Lemmas -/

/-- The invariant of both representations, with the default of a sparse array. -/
def ArrayInv {iw dw : Nat} : ArrayValue → (BitVec iw → BitVec dw) → Option (BitVec dw) → Prop
  | .dense d, f, none => DenseInv d f
  | .sparse s, f, some x => SparseInv s f x
  | _, _, _ => False

theorem Reachable.arrayInv {m : Mode} {iw dw : Nat} {a : ArrayValue} {f : BitVec iw → BitVec dw} (h : Reachable m a f)
    (hu : Usable a iw dw) : ∃ x, ArrayInv a f x := by
  have h0 := hu.data_pos
  have h1 := hu.index_le
  rcases h.inv (by omega) hu.data_lt with ⟨d, rfl, hd | ⟨-, ⟨h2, -⟩ | ⟨h2, h3, -⟩⟩⟩ | ⟨s, x, rfl, hs⟩
  · exact ⟨none, hd⟩
  · omega
  · have := hu.bits rfl; omega
  · exact ⟨some x, hs⟩

theorem ArrayInv.select_of {m : Mode} {env : HashEnv} {iw dw : Nat} {a : ArrayValue} {f : BitVec iw → BitVec dw}
    {x : Option (BitVec dw)} (h : ArrayInv a f x) (hu : Usable a iw dw) (i : BitVec iw) :
    a.select m env (encode i) = ok (encode (f i)) := by
  match a, x, h with
  | .dense d, none, h => exact DenseInv.select_of m h i
  | .sparse s, some x, h => exact SparseInv.select_of m env h hu.data_pos hu.index_le i

theorem ArrayInv.store_of (m : Mode) (env : HashEnv) {iw dw : Nat} {a : ArrayValue} {f : BitVec iw → BitVec dw}
    {x : Option (BitVec dw)} (h : ArrayInv a f x) (hu : Usable a iw dw) (i : BitVec iw) (e : BitVec dw) :
    ∃ b, a.store m env (encode i) (encode e) = ok b ∧ b.isDense = a.isDense ∧ Usable b iw dw ∧
      ArrayInv b (update f i e) x := by
  match a, x, h with
  | .dense d, none, h =>
    obtain ⟨d', h1, h2⟩ := DenseInv.store_of m h i e
    refine ⟨.dense d', ?_, rfl, ⟨hu.1, hu.2, hu.3, fun _ => hu.4 rfl⟩, h2⟩
    unfold ArrayValue.store
    dsimp only
    rw [h1]
    rfl
  | .sparse s, some x, h =>
    obtain ⟨s', h1, h2⟩ := SparseInv.store_of m env h hu.index_le i e
    refine ⟨.sparse s', ?_, rfl, ⟨hu.1, hu.2, hu.3, nofun⟩, h2⟩
    unfold ArrayValue.store
    dsimp only
    rw [h1]
    rfl

/-- Arrays of one representation with the same default and the same contents are equal. -/
theorem ArrayInv.eq_of (m : Mode) (env : HashEnv) {iw dw : Nat} {a b : ArrayValue} {f g : BitVec iw → BitVec dw}
    {x : Option (BitVec dw)} (ha : ArrayInv a f x) (hb : ArrayInv b g x) :
    ∃ r, a.eq m env b = ok r ∧ (r = true ↔ f = g) := by
  match a, b, x, ha, hb with
  | .dense d, .dense e, none, ha, hb =>
    obtain ⟨r, h1, h2⟩ := DenseInv.isEqual_of m ha hb
    refine ⟨r, ?_, h2⟩
    unfold ArrayValue.eq ArrayValue.isEqual
    dsimp only
    rw [h1]
    rfl
  | .sparse s, .sparse t, some x, ha, hb =>
    obtain ⟨r, h1, h2⟩ := SparseInv.isEqual_of m env ha hb
    refine ⟨r, ?_, by simpa using h2⟩
    unfold ArrayValue.eq ArrayValue.isEqual
    dsimp only
    rw [h1]
    rfl

theorem update_same {iw dw : Nat} (f : BitVec iw → BitVec dw) (i : BitVec iw) (d e : BitVec dw) :
    update (update f i d) i e = update f i e := by
  funext j
  unfold update
  split <;> rfl

theorem update_comm {iw dw : Nat} (f : BitVec iw → BitVec dw) {i j : BitVec iw} (hij : i ≠ j) (d e : BitVec dw) :
    update (update f i d) j e = update (update f j e) i d := by
  funext k
  unfold update
  split <;> split <;> simp_all

theorem update_self {iw dw : Nat} (f : BitVec iw → BitVec dw) (i : BitVec iw) : update f i (f i) = f := by
  funext j
  unfold update
  split
  · rename_i h; rw [h]
  · rfl

/-! ## C72: arrays behave like functions -/

/-- The full claim: after any history of creations, stores, clears and conversions an array shows the function that the
history describes, and can be written. -/
def C72_statement : Prop :=
  ∀ (m : Mode) (env : HashEnv) (iw dw : Nat), iw < 2 ^ 32 → dw < 2 ^ 32 →
    ∀ (a : ArrayValue) (f : BitVec iw → BitVec dw), Reachable m a f →
      Reads m env a f ∧ ∀ (i : BitVec iw) (d : BitVec dw), ∃ b, a.store m env (encode i) (encode d) = ok b

/-- C72 without the shapes that cannot be read. -/
theorem C72_any_history_partial (m : Mode) (env : HashEnv) {iw dw : Nat} {a : ArrayValue} {f : BitVec iw → BitVec dw}
    (h : Reachable m a f) (hu : Usable a iw dw) :
    Reads m env a f ∧ ∀ (i : BitVec iw) (d : BitVec dw), ∃ b, a.store m env (encode i) (encode d) = ok b ∧
      b.isDense = a.isDense ∧ Reads m env b (update f i d) := by
  obtain ⟨x, hx⟩ := h.arrayInv hu
  have hr : ∀ {a : ArrayValue} {f : BitVec iw → BitVec dw}, ArrayInv a f x → Usable a iw dw → Reads m env a f := by
    intro a f ha hu i v hv
    rw [hv.eq_encode]
    exact ⟨_, ha.select_of hu i, encode_denotes _ hu.data_lt⟩
  refine ⟨hr hx hu, fun i d => ?_⟩
  obtain ⟨b, h1, h2, h3, h4⟩ := hx.store_of m env hu i d
  exact ⟨b, h1, h2, hr h4 h3⟩

/-- The full claim is false, for the same reason as C49. -/
theorem C72_refuted : ¬ C72_statement := by
  intro h
  have hn : ArrayValue.newDense .debug 32 (encode 0#1) = ok (.dense ⟨32, 1, .bit ⟨0, []⟩⟩) := rfl
  obtain ⟨h2, -⟩ := h .debug listEnv 32 1 (by decide) (by decide) _ _
    (.newDense (iw := 32) 0#1 _ ⟨by decide, by decide +kernel⟩ hn)
  obtain ⟨r, hr, -⟩ := h2 0#32 _ (encode_denotes _ (by decide))
  exact not_panics (C49_long_bit_arrays .debug listEnv (by decide) (by decide) 0#1 hn 0#32) hr

/-- **C72** Read over write: the element that was written is read back, all others are unchanged. -/
theorem C72_read_over_write (m : Mode) (e₁ e₂ e₃ : HashEnv) {iw dw : Nat} {a b : ArrayValue} {f : BitVec iw → BitVec dw}
    (h : Reachable m a f) (hu : Usable a iw dw) (i j : BitVec iw) (d : BitVec dw)
    (hs : a.store m e₁ (encode i) (encode d) = ok b) :
    b.select m e₂ (encode j) = if j = i then ok (encode d) else a.select m e₃ (encode j) := by
  obtain ⟨x, hx⟩ := h.arrayInv hu
  obtain ⟨b', h1, -, h3, h4⟩ := hx.store_of m e₁ hu i d
  rw [hs] at h1
  cases h1
  rw [h4.select_of h3, hx.select_of hu]
  unfold update
  split <;> rfl

/-- **C72** The last write wins: overwriting an element gives an array that equals the one without the first write. -/
theorem C72_last_write_wins (m : Mode) (e₁ e₂ e₃ e₄ : HashEnv) {iw dw : Nat} {a b c b' : ArrayValue} {f : BitVec iw → BitVec dw}
    (h : Reachable m a f) (hu : Usable a iw dw) (i : BitVec iw) (d e : BitVec dw)
    (h1 : a.store m e₁ (encode i) (encode d) = ok b) (h2 : b.store m e₂ (encode i) (encode e) = ok c)
    (h3 : a.store m e₃ (encode i) (encode e) = ok b') : c.eq m e₄ b' = ok true := by
  obtain ⟨x, hx⟩ := h.arrayInv hu
  obtain ⟨_, g1, -, u1, i1⟩ := hx.store_of m e₁ hu i d
  rw [h1] at g1; cases g1
  obtain ⟨_, g2, -, u2, i2⟩ := i1.store_of m e₂ u1 i e
  rw [h2] at g2; cases g2
  obtain ⟨_, g3, -, u3, i3⟩ := hx.store_of m e₃ hu i e
  rw [h3] at g3; cases g3
  obtain ⟨r, g4, g5⟩ := i2.eq_of m e₄ i3
  rw [g4, g5.mpr (update_same f i d e)]

/-- **C72** Writes to different elements can be swapped. -/
theorem C72_writes_commute (m : Mode) (e₁ e₂ e₃ e₄ e₅ : HashEnv) {iw dw : Nat} {a b c b' c' : ArrayValue} {f : BitVec iw → BitVec dw}
    (h : Reachable m a f) (hu : Usable a iw dw) {i j : BitVec iw} (hij : i ≠ j) (d e : BitVec dw)
    (h1 : a.store m e₁ (encode i) (encode d) = ok b) (h2 : b.store m e₂ (encode j) (encode e) = ok c)
    (h3 : a.store m e₃ (encode j) (encode e) = ok b') (h4 : b'.store m e₄ (encode i) (encode d) = ok c') :
    c.eq m e₅ c' = ok true := by
  obtain ⟨x, hx⟩ := h.arrayInv hu
  obtain ⟨_, g1, -, u1, i1⟩ := hx.store_of m e₁ hu i d
  rw [h1] at g1; cases g1
  obtain ⟨_, g2, -, u2, i2⟩ := i1.store_of m e₂ u1 j e
  rw [h2] at g2; cases g2
  obtain ⟨_, g3, -, u3, i3⟩ := hx.store_of m e₃ hu j e
  rw [h3] at g3; cases g3
  obtain ⟨_, g4, -, u4, i4⟩ := i3.store_of m e₄ u3 i d
  rw [h4] at g4; cases g4
  obtain ⟨r, g5, g6⟩ := i2.eq_of m e₅ i4
  rw [g5, g6.mpr (update_comm f hij d e)]

/-- **C72** Writing back what was read gives an equal array. -/
theorem C72_write_back (m : Mode) (e₁ e₂ e₃ : HashEnv) {iw dw : Nat} {a b : ArrayValue} {f : BitVec iw → BitVec dw}
    (h : Reachable m a f) (hu : Usable a iw dw) (i : BitVec iw) {v : BitVecValue}
    (h1 : a.select m e₁ (encode i) = ok v) (h2 : a.store m e₂ (encode i) v = ok b) : b.eq m e₃ a = ok true := by
  obtain ⟨x, hx⟩ := h.arrayInv hu
  rw [hx.select_of hu] at h1
  cases h1
  obtain ⟨_, g1, -, u1, i1⟩ := hx.store_of m e₂ hu i (f i)
  rw [h2] at g1; cases g1
  obtain ⟨r, g2, g3⟩ := i1.eq_of m e₃ hx
  rw [g2, g3.mpr (update_self f i)]

/-- A history with both conversions. -/
example (m : Mode) (env : HashEnv) : ∃ a b c, ArrayValue.newSparse 2 (encode 0#9) = ok a ∧
    a.store m env (encode 1#2) (encode 300#9) = ok b ∧ b.makeDense m env = ok c ∧
    Usable c 2 9 ∧ Reachable m c (update (fun _ => 0#9) 1#2 300#9) ∧ c.select m env (encode 1#2) = ok (encode 300#9) := by
  have hn : ArrayValue.newSparse 2 (encode 0#9) = ok (.sparse ⟨2, 9, .u64u64 0#64 HMap.empty⟩) := rfl
  have hr : Reachable m (.sparse ⟨2, 9, .u64u64 0#64 HMap.empty⟩) (fun _ : BitVec 2 => 0#9) := .newSparse _ _ hn
  obtain ⟨-, h2⟩ := C72_any_history_partial m env hr ⟨by decide, by decide, by decide, nofun⟩
  obtain ⟨b, h3, -, -⟩ := h2 1#2 300#9
  have hr' := Reachable.store _ _ _ _ _ hr h3
  obtain ⟨c, h4, h5, -⟩ := C52_make_dense_partial m env (by decide) hr' ⟨by decide, by decide⟩
    (.inr (by decide)) (by decide) (.inl (by decide)) (.inl (by decide))
  have hr'' := Reachable.makeDense _ _ _ ⟨by decide, by decide⟩ hr' h4
  have hu : Usable c 2 9 := ⟨by decide, by decide, by decide, fun _ => .inl (by decide)⟩
  obtain ⟨h6, -⟩ := C72_any_history_partial m env hr'' hu
  obtain ⟨r, h7, h8⟩ := h6 1#2 _ (encode_denotes _ (by decide))
  refine ⟨_, b, c, hn, h3, h4, hu, hr'', ?_⟩
  rw [h7, h8.eq_encode]
  rfl

/-! ## C73: `==` of arrays is an equivalence relation -/

/-- The full claim: `==` does not panic, and is reflexive, symmetric and transitive. -/
def C73_statement : Prop :=
  ∀ (m : Mode) (env : HashEnv) (iw dw : Nat), iw < 2 ^ 32 → dw < 2 ^ 32 →
    ∀ (a b c : ArrayValue) (f g h : BitVec iw → BitVec dw), Reachable m a f → Reachable m b g → Reachable m c h →
      a.eq m env a = ok true ∧ (a.eq m env b = ok true → b.eq m env a = ok true) ∧
      (a.eq m env b = ok true → b.eq m env c = ok true → a.eq m env c = ok true)

/-- **C73** Reflexive: every array equals itself, and the comparison does not panic. -/
theorem C73_reflexive (m : Mode) (env : HashEnv) {iw dw : Nat} (hiw : iw < 2 ^ 32) (hdw : dw < 2 ^ 32) {a : ArrayValue}
    {f : BitVec iw → BitVec dw} (h : Reachable m a f) : a.eq m env a = ok true := by
  rcases h.inv hiw hdw with ⟨d, rfl, hd⟩ | ⟨s, x, rfl, hs⟩
  · obtain ⟨r, -, h1, -, h2⟩ := C54_dense_equal m env hiw hdw h h rfl rfl
    rw [h1, h2.mpr rfl]
  · obtain ⟨r, -, h1, h2⟩ := C55_sparse_equal_partial m env hiw hdw h h
    rw [h1, h2.mpr ⟨rfl, rfl⟩]

/-- **C73** Symmetric: swapping the arguments does not change the answer (including panics). -/
theorem C73_symmetric (m : Mode) (env : HashEnv) {iw dw : Nat} (hiw : iw < 2 ^ 32) (hdw : dw < 2 ^ 32) {a b : ArrayValue}
    {f g : BitVec iw → BitVec dw} (ha : Reachable m a f) (hb : Reachable m b g) : a.eq m env b = b.eq m env a := by
  cases a with
  | dense d =>
    cases b with
    | dense e =>
      obtain ⟨r, -, h1, -, h2⟩ := C54_dense_equal m env hiw hdw ha hb rfl rfl
      obtain ⟨r', -, h3, -, h4⟩ := C54_dense_equal m env hiw hdw hb ha rfl rfl
      rw [h1, h3]
      congr 1
      rw [Bool.eq_iff_iff, h2, h4]
      exact ⟨Eq.symm, Eq.symm⟩
    | sparse t => rfl
  | sparse s =>
    cases b with
    | dense e => rfl
    | sparse t =>
      obtain ⟨r, -, h1, h2⟩ := C55_sparse_equal_partial m env hiw hdw ha hb
      obtain ⟨r', -, h3, h4⟩ := C55_sparse_equal_partial m env hiw hdw hb ha
      rw [h1, h3]
      congr 1
      rw [Bool.eq_iff_iff, h2, h4]
      exact ⟨fun h => ⟨h.1.symm, h.2.symm⟩, fun h => ⟨h.1.symm, h.2.symm⟩⟩

/-- **C73, proved part** Transitive if all three arrays use the same representation. -/
theorem C73_transitive_partial (m : Mode) (env : HashEnv) {iw dw : Nat} (hiw : iw < 2 ^ 32) (hdw : dw < 2 ^ 32)
    {a b c : ArrayValue} {f g h : BitVec iw → BitVec dw} (ha : Reachable m a f) (hb : Reachable m b g)
    (hc : Reachable m c h) (hab : a.isDense = b.isDense) (hbc : b.isDense = c.isDense)
    (h1 : a.eq m env b = ok true) (h2 : b.eq m env c = ok true) : a.eq m env c = ok true := by
  cases a with
  | dense d =>
    cases b with
    | sparse t => cases hab
    | dense e =>
      cases c with
      | sparse t => cases hbc
      | dense c =>
        obtain ⟨r, -, g1, -, g2⟩ := C54_dense_equal m env hiw hdw ha hb rfl rfl
        obtain ⟨r', -, g3, -, g4⟩ := C54_dense_equal m env hiw hdw hb hc rfl rfl
        obtain ⟨r'', -, g5, -, g6⟩ := C54_dense_equal m env hiw hdw ha hc rfl rfl
        rw [g1] at h1; cases h1
        rw [g3] at h2; cases h2
        rw [g5, g6.mpr ((g2.mp rfl).trans (g4.mp rfl))]
  | sparse s =>
    cases b with
    | dense t => cases hab
    | sparse e =>
      cases c with
      | dense t => cases hbc
      | sparse c =>
        obtain ⟨r, -, g1, g2⟩ := C55_sparse_equal_partial m env hiw hdw ha hb
        obtain ⟨r', -, g3, g4⟩ := C55_sparse_equal_partial m env hiw hdw hb hc
        obtain ⟨r'', -, g5, g6⟩ := C55_sparse_equal_partial m env hiw hdw ha hc
        rw [g1] at h1; cases h1
        rw [g3] at h2; cases h2
        rw [g5, g6.mpr ⟨(g2.mp rfl).1.trans (g4.mp rfl).1, (g2.mp rfl).2.trans (g4.mp rfl).2⟩]

/-- **C73** In any representation: arrays that are `==` hold the same function. Hence a chain of `==` never relates arrays
with different elements. -/
theorem C73_equal_sound (m : Mode) (env : HashEnv) {iw dw : Nat} (hdw : dw < 2 ^ 32) (had : Addressable iw dw)
    {a b : ArrayValue} {f g : BitVec iw → BitVec dw} (ha : Reachable m a f) (hb : Reachable m b g)
    (h : a.eq m env b = ok true) : f = g := by
  have hiw := had.1
  have hmix : ∀ {d : DenseArrayValue} {s : SparseArrayValue} {f g : BitVec iw → BitVec dw}, Reachable m (.dense d) f →
      Reachable m (.sparse s) g → (ArrayValue.dense d).eq m env (.sparse s) = ok true → f = g := by
    intro d s f g hd hs h
    rcases hd.inv (by omega) hdw with ⟨_, h1, hd'⟩ | ⟨_, _, h1, -⟩ <;> cases h1
    rcases hs.inv (by omega) hdw with ⟨_, h1, -⟩ | ⟨_, x, h1, hs'⟩ <;> cases h1
    unfold ArrayValue.eq ArrayValue.isEqual at h
    dsimp only at h
    unfold isEqualMixed at h
    rw [if_neg (by rw [hd'.indexWidth, hd'.dataWidth, hs'.indexWidth, hs'.dataWidth]; simp)] at h
    obtain ⟨o, h1, h2⟩ := of_bind_ok h
    obtain ⟨e, h3, h4⟩ := of_bind_ok h1
    obtain ⟨r, h5, h6⟩ := (ofSparse_sound m env hs' had h3).isEqual_of m hd'
    rw [h5] at h4
    cases h4
    cases h2
    exact (h6.mp rfl).symm
  cases a with
  | dense d =>
    cases b with
    | dense e =>
      obtain ⟨r, -, g1, -, g2⟩ := C54_dense_equal m env (by omega) hdw ha hb rfl rfl
      rw [g1] at h; cases h
      exact g2.mp rfl
    | sparse t => exact hmix ha hb h
  | sparse s =>
    cases b with
    | dense e => exact (hmix hb ha h).symm
    | sparse t =>
      obtain ⟨r, -, g1, g2⟩ := C55_sparse_equal_partial m env (by omega) hdw ha hb
      rw [g1] at h; cases h
      exact (g2.mp rfl).2

/-- **C73** Stores preserve `==`: storing the same element into equal arrays of the same representation gives equal arrays. -/
theorem C73_store_congruent (m : Mode) (env : HashEnv) {iw dw : Nat} {a b a' b' : ArrayValue}
    {f g : BitVec iw → BitVec dw} (ha : Reachable m a f) (hb : Reachable m b g) (hua : Usable a iw dw)
    (hub : Usable b iw dw) (hab : a.isDense = b.isDense) (h : a.eq m env b = ok true) (i : BitVec iw) (d : BitVec dw)
    (h1 : a.store m env (encode i) (encode d) = ok a') (h2 : b.store m env (encode i) (encode d) = ok b') :
    a'.eq m env b' = ok true := by
  obtain ⟨x, hx⟩ := ha.arrayInv hua
  obtain ⟨y, hy⟩ := hb.arrayInv hub
  have hiw := hua.index_le
  have hxy : x = y ∧ f = g := by
    match a, b, x, y, hx, hy with
    | .dense d, .dense e, none, none, hx, hy =>
      obtain ⟨r, g1, g2⟩ := ArrayInv.eq_of m env (x := none) hx hy
      rw [h] at g1; cases g1
      exact ⟨rfl, g2.mp rfl⟩
    | .sparse s, .sparse t, some x, some y, hx, hy =>
      obtain ⟨r, -, g1, g2⟩ := C55_sparse_equal_partial m env (by omega) hua.data_lt ha hb
      rw [h] at g1; cases g1
      have := (g2.mp rfl).1
      rw [SparseInv.default_of m hx hua.data_pos, SparseInv.default_of m hy hua.data_pos] at this
      exact ⟨by rw [encode_inj hua.data_lt (Res.ok.inj this)], (g2.mp rfl).2⟩
  obtain ⟨rfl, rfl⟩ := hxy
  obtain ⟨_, g1, -, u1, i1⟩ := hx.store_of m env hua i d
  rw [h1] at g1; cases g1
  obtain ⟨_, g2, -, u2, i2⟩ := hy.store_of m env hub i d
  rw [h2] at g2; cases g2
  obtain ⟨r, g3, g4⟩ := i1.eq_of m env i2
  rw [g3, g4.mpr rfl]

/-- The full claim is false: `==` is not transitive. Two sparse arrays of one bit, one with default 0 into which 1 was
stored, one with default 1, both equal a dense array that holds 1, but they do not equal each other. -/
theorem C73_refuted : ¬ C73_statement := by
  intro h
  have hr : Reachable .release (.sparse ⟨0, 1, .u64u64 0#64 ⟨[(0#64, 1#64)]⟩⟩) (update (fun _ => 0#1) 0#0 1#1) :=
    .store (env := listEnv) _ (.sparse ⟨0, 1, .u64u64 0#64 HMap.empty⟩) _ _ _ (.newSparse _ _ rfl) rfl
  have hr' : Reachable .release (.sparse ⟨0, 1, .u64u64 1#64 HMap.empty⟩) (fun _ : BitVec 0 => 1#1) :=
    .newSparse _ _ rfl
  have hd : Reachable .release (.dense ⟨0, 1, .bit ⟨1, [1#64]⟩⟩) (fun _ : BitVec 0 => 1#1) :=
    .newDense _ _ ⟨by decide, by decide⟩ rfl
  have := (h .release listEnv 0 1 (by decide) (by decide) _ _ _ _ _ _ hr hd hr').2.2 (by decide +kernel) (by decide +kernel)
  revert this
  decide +kernel

/-- Two different histories lead to equal arrays. -/
example (m : Mode) (env : HashEnv) : ∃ a b c d, ArrayValue.newSparse 3 (encode 0#8) = ok a ∧
    a.store m env (encode 1#3) (encode 5#8) = ok b ∧ b.store m env (encode 1#3) (encode 9#8) = ok c ∧
    a.store m env (encode 1#3) (encode 9#8) = ok d ∧ c.eq m env d = ok true ∧ d.eq m env a = ok false := by
  have hn : ArrayValue.newSparse 3 (encode 0#8) = ok (.sparse ⟨3, 8, .u64u64 0#64 HMap.empty⟩) := rfl
  have hr : Reachable m (.sparse ⟨3, 8, .u64u64 0#64 HMap.empty⟩) (fun _ : BitVec 3 => 0#8) := .newSparse _ _ hn
  have hu : Usable (.sparse ⟨3, 8, .u64u64 0#64 HMap.empty⟩) 3 8 := ⟨by decide, by decide, by decide, nofun⟩
  obtain ⟨x, hx⟩ := hr.arrayInv hu
  obtain ⟨b, h1, -, u1, i1⟩ := hx.store_of m env hu 1#3 5#8
  obtain ⟨c, h2, -, -, -⟩ := i1.store_of m env u1 1#3 9#8
  obtain ⟨d, h3, -, -, i3⟩ := hx.store_of m env hu 1#3 9#8
  obtain ⟨r, h4, h5⟩ := i3.eq_of m env hx
  refine ⟨_, b, c, d, hn, h1, h2, h3, C72_last_write_wins m env env env env hr hu _ _ _ h1 h2 h3, ?_⟩
  have : r = false := Bool.eq_false_iff.mpr fun h => by
    have := congrFun (h5.mp h) 1#3
    revert this
    decide
  rw [h4, this]

end Baa

import Verif.Props.AnyLong
import Verif.Props.MalformedObs
import Verif.Props.MalformedParse
import Verif.Props.Modes
import Verif.Spec.Devices

/-!
# C112: every program over values and arrays is predictable, legal or not

C105 is about expressions, C106 and C107 about observers and parsing, C110, C111, C114 and C115 about single arrays. This file puts them together: programs
with registers, array variables, jumps and output, on values with any widths and any words.
-/

namespace Baa
open Res BitVecValue

variable {m : Mode} {s : Device} {σ : Sketch}

/-! ## The invariant -/

/-- The outcome, with related values. -/
def Upshot.Shows {α β : Type} (R : α → β → Prop) (x : Res α) : Upshot β → Prop
  | .value b => ∃ a, x = ok a ∧ R a b
  | .panic => Panics x
  | .outside => True

theorem shows_of_fate {α β : Type} {R : α → β → Prop} {x : Res α} {o : Option β} (h : Fate R x o) : (Upshot.of o).Shows R x := by
  cases o with
  | none => exact h
  | some σ => exact h

theorem Upshot.Shows.bind {α β γ δ : Type} {R : α → β → Prop} {S : γ → δ → Prop} {x : Res α} {u : Upshot β} (h : u.Shows R x) {f : α → Res γ}
    {g : β → δ} (hf : ∀ a b, R a b → ∃ c, f a = ok c ∧ S c (g b)) : (u.map g).Shows S (x >>= f) := by
  cases u with
  | value b =>
    obtain ⟨a, rfl, hab⟩ := h
    obtain ⟨c, h1, h2⟩ := hf a b hab
    exact ⟨c, h1, h2⟩
  | panic => exact panics_bind h _
  | outside => trivial

/-- The array holds this. -/
inductive Stock.Held (m : Mode) (iw dw : Nat) : ArrayValue → Stock → Prop
  | dense {d mem n} (h : DenseHolds m iw dw d mem) (hw : mem.Whole m iw dw) (hn : elementCount m iw = some n) : Held m iw dw (.dense d) (.dense mem)
  | table {s t} (h : SparseHolds iw dw s t) (hu : t.Uniform m dw) (hi : iw ≤ 64) : Held m iw dw (.sparse s) (.table t)
  | long {d map t} (h : LongHolds m iw dw d map t) (hi : 64 < iw) : Held m iw dw (longArray iw dw d map) (.long t)

variable {iw dw : Nat} {a b : ArrayValue} {c e : Stock}

theorem held_new (k : Kind) (m : Mode) (iw : Nat) {v : BitVecValue} (hv : v.width < 2 ^ 32) :
    ∃ u, Stock.Created k m iw v.shape u ∧ u.Shows (Stock.Held m iw v.width) (newOf k m iw v) := by
  cases k with
  | dense =>
    by_cases hs : Storable .dense m iw v.shape
    · refine ⟨_, .inr ⟨hs, rfl⟩, shows_of_fate ?_⟩
      have h := dense_new_fate m iw hv hs
      show Fate _ (DenseArrayValue.new m iw v >>= fun d => ok (ArrayValue.dense d)) _
      cases hr : Memory.create m iw v.shape with
      | none => rw [hr] at h; exact panics_bind h _
      | some mem =>
        rw [hr] at h
        obtain ⟨d, h1, h2⟩ := h
        obtain ⟨h3, n, h4⟩ := create_whole hr
        rw [h1]
        exact ⟨_, rfl, .dense h2 h3 h4⟩
    · exact ⟨_, .inl ⟨hs, rfl⟩, trivial⟩
  | sparse =>
    unfold Stock.Created
    by_cases hi : iw ≤ 64
    · simp only [if_pos hi]
      refine ⟨_, rfl, shows_of_fate ?_⟩
      have h := any_new (iw := iw) .sparse m hv hi
      replace h : Fate _ _ ((Table.create v.shape).map Contents.sparse) := h
      cases hr : Table.create v.shape with
      | none => rw [hr] at h; exact h
      | some t =>
        rw [hr] at h
        obtain ⟨x, h1, h2⟩ := h
        cases h2 with
        | sparse h2 hu => exact ⟨_, h1, .table h2 hu hi⟩
    · simp only [if_neg hi]
      have h64 : 64 < iw := by omega
      exact ⟨_, rfl, _, wide_new m h64 v, .long (LongHolds.start hv) h64⟩

/-- An operation of a sparse array with more than 64 index bits. -/
theorem LongHolds.shown {d : BitVecValue} {map : HMap BitVecValue BitVecValue} {t : LongTable} (h : LongHolds m iw dw d map t) (hi : 64 < iw)
    (env : HashEnv) (op : ConvOp) :
    (t.Risks m iw dw op ∧ Panics (op.run m env (longArray iw dw d map))) ∨
    (¬ t.Stops m iw dw op ∧ ∃ b, op.run m env (longArray iw dw d map) = ok b ∧ Stock.Held m iw dw b (.long (t.after dw op))) := by
  have hk := h.op op
  cases hr : op.run m env (longArray iw dw d map) with
  | panic p =>
    refine .inl ⟨Classical.byContradiction fun hn => ?_, p, rfl⟩
    obtain ⟨b, hb⟩ := hk.safe hn env
    rw [hr] at hb
    cases hb
  | ok b =>
    obtain ⟨d', map', rfl, h'⟩ := hk.goes env b hr
    exact .inr ⟨fun hs => not_panics (hk.stops hs env) hr, _, rfl, .long h' hi⟩

namespace Stock.Held

theorem stored (h : Held m iw dw a c) (env : HashEnv) (i : BitVecValue) {v : BitVecValue} (hv : v.width < 2 ^ 32) :
    ∃ u, c.Stored m iw dw i.shape v.shape u ∧ u.Shows (Held m iw dw) ((ConvOp.base (.store i v)).run m env a) := by
  cases h with
  | @dense d mem n h hw hn =>
    refine ⟨_, rfl, shows_of_fate ?_⟩
    have h2 := h.store_of i v
    cases hr : mem.store m iw dw i.shape v.shape with
    | none => rw [hr] at h2; exact panics_bind h2 _
    | some mem' =>
      rw [hr] at h2
      obtain ⟨s', hs1, hs2⟩ := h2
      refine ⟨.dense s', ?_, .dense hs2 (fun h1 h2 => by rw [store_count hr]; exact hw h1 h2) hn⟩
      show (d.store m i v >>= fun v => ok (ArrayValue.dense v)) = _
      rw [hs1]
      rfl
  | @table s t h hu hi =>
    refine ⟨_, rfl, shows_of_fate ?_⟩
    have h2 := (Holding.sparse h hu).after_of env (.store i v) hv
    replace h2 : Fate _ _ ((t.store m iw dw i.shape v.shape).map Contents.sparse) := h2
    cases hr : t.store m iw dw i.shape v.shape with
    | none => rw [hr] at h2; exact h2
    | some t' =>
      rw [hr] at h2
      obtain ⟨x, h3, h4⟩ := h2
      cases h4 with
      | sparse h4 hu' => exact ⟨_, h3, .table h4 hu' hi⟩
  | long h hi =>
    rcases h.shown hi env (.base (.store i v)) with ⟨h1, h2⟩ | ⟨h1, h2⟩
    · exact ⟨_, .inl ⟨h1, rfl⟩, h2⟩
    · exact ⟨_, .inr ⟨h1, rfl⟩, h2⟩

theorem cleared (h : Held m iw dw a c) (env : HashEnv) : ∃ b, (ConvOp.base .clear).run m env a = ok b ∧ Held m iw dw b (c.cleared dw) := by
  cases h with
  | dense h hw hn => exact ⟨_, rfl, .dense h.clear_of (fun h1 h2 => hw h1 h2) hn⟩
  | table h hu hi => exact ⟨_, rfl, .table h.clear_of (uniform_clear m dw) hi⟩
  | long h hi =>
    rcases h.shown hi env (.base .clear) with ⟨h1, -⟩ | ⟨-, h2⟩
    · exact h1.elim
    · exact h2

theorem roomy {s : SparseArrayValue} {t : Table} (h : SparseHolds iw dw s t) (hs : Storable .dense m iw t.default) :
    ∀ n, elementCount m iw = some n → 64 < dw → n * t.default.words < 2 ^ 60 := by
  intro n hn hw
  exact hs n hn (by rw [h.default_width]; exact hw)

theorem madeDense (h : Held m iw dw a c) (env : HashEnv) :
    ∃ u, c.MadeDense m iw dw u ∧ u.Shows (Held m iw dw) (ConvOp.makeDense.run m env a) := by
  cases h with
  | dense h hw hn => exact ⟨_, rfl, _, rfl, .dense h hw hn⟩
  | @table s t h hu hi =>
    by_cases hs : Storable .dense m iw t.default
    · obtain ⟨L, hL, hf⟩ := h.ofSparse_of m env (roomy h hs)
      refine ⟨_, .inr ⟨hs, L, hL, rfl⟩, shows_of_fate ?_⟩
      cases hr : t.densified m iw dw L with
      | none =>
        rw [hr] at hf
        exact panics_bind hf _
      | some mem =>
        rw [hr] at hf
        obtain ⟨d, hd1, hd2⟩ := hf
        obtain ⟨hw, n, hn⟩ := densified_whole h.default_width hr
        refine ⟨.dense d, ?_, .dense hd2 hw hn⟩
        show (DenseArrayValue.ofSparse m env s >>= fun d => ok (ArrayValue.dense d)) = _
        rw [hd1, ok_bind]
    · exact ⟨_, .inl ⟨hs, rfl⟩, trivial⟩
  | long h hi =>
    rcases h.shown hi env .makeDense with ⟨-, h2⟩ | ⟨h1, -⟩
    · exact ⟨_, rfl, h2⟩
    · exact absurd trivial h1

theorem madeSparse (h : Held m iw dw a c) (env : HashEnv) :
    ∃ u, c.MadeSparse m iw dw u ∧ u.Shows (Held m iw dw) (ConvOp.toSparse.run m env a) := by
  cases h with
  | table h hu hi => exact ⟨_, rfl, _, rfl, .table h hu hi⟩
  | long h hi => exact ⟨_, rfl, _, rfl, .long h hi⟩
  | @dense d mem n h hw hn =>
    unfold Stock.MadeSparse
    by_cases hi : iw ≤ 64
    · simp only [if_pos hi]
      rcases h.toSparse_of env hw hn hi with ⟨hp, hnone⟩ | ⟨x, hc, hf⟩
      · exact ⟨.panic, .inl ⟨rfl, hnone⟩, panics_bind hp _⟩
      · refine ⟨_, .inr ⟨x, hc, rfl⟩, shows_of_fate ?_⟩
        cases hr : mem.sparsified m iw dw x with
        | none =>
          rw [hr] at hf
          exact panics_bind hf _
        | some t =>
          rw [hr] at hf
          obtain ⟨s, hs1, hs2⟩ := hf
          refine ⟨.sparse s, ?_, .table hs2 (sparsified_uniform hr) hi⟩
          show (DenseArrayValue.toSparse m env d >>= fun s => ok (ArrayValue.sparse s)) = _
          rw [hs1, ok_bind]
    · simp only [if_neg hi]
      have h64 : 64 < iw := by omega
      refine ⟨_, rfl, shows_of_fate ((h.toSparse_long env hw hn h64).map fun s x hs => ?_)⟩
      obtain ⟨u, rfl, rfl, hu⟩ := hs
      have hl := h.data_lt
      subst hu
      exact ⟨_, rfl, .long (LongHolds.start hl) h64⟩

theorem widths (h : Held m iw dw a c) : a.indexWidth = iw ∧ a.dataWidth = dw := by
  cases h with
  | dense h => exact ⟨h.indexWidth, h.dataWidth⟩
  | table h => exact ⟨h.indexWidth, h.dataWidth⟩
  | long h => exact ⟨rfl, rfl⟩

/-- The values are as long as they should be. -/
def Read (v : BitVecValue) (s : Shape) : Prop := v.shape = s ∧ v.width < 2 ^ 32

theorem shows_of_makes {x : Res BitVecValue} {o : Option Shape} (h : Makes x o) : (Upshot.of o).Shows Read x := by
  cases o with
  | none => exact h
  | some s =>
    obtain ⟨v, h1, h2, h3⟩ := h
    exact ⟨v, h1, h2, by rw [← h2] at h3; exact h3⟩

theorem selected (h : Held m iw dw a c) (env : HashEnv) (i : BitVecValue) :
    ∃ u, c.Selected m iw dw i.shape u ∧ u.Shows Read (a.select m env i) := by
  cases h with
  | dense h hw hn => exact ⟨_, rfl, shows_of_makes (h.select_of i)⟩
  | table h hu hi => exact ⟨_, rfl, shows_of_makes (h.select_of m env i)⟩
  | @long d map t h hi =>
    obtain ⟨h1, h2, h3⟩ := h.reading i
    cases hr : (longArray iw dw d map).select m env i with
    | panic p =>
      refine ⟨_, .inl ⟨Classical.byContradiction fun hn => ?_, rfl⟩, p, rfl⟩
      obtain ⟨r, hr'⟩ := h2.mpr ⟨fun hh => hn (.inl hh), fun hh => hn (.inr hh)⟩ env
      rw [hr] at hr'
      cases hr'
    | ok r =>
      have hn : ¬ ((m = .debug ∧ i.width ≠ iw) ∨ t.stored i.shape ≠ none) := fun hh => not_panics (h1.mpr hh env) hr
      refine ⟨_, .inr ⟨fun hh => hn (.inl hh), Classical.byContradiction fun hh => hn (.inr hh), rfl⟩, r, rfl, h3 env r hr, ?_⟩
      have hd := congrArg Shape.width ((h3 env r hr).trans h.dflt.symm)
      have hd' : r.width = d.width := hd
      rw [hd', h.dflt_width]
      exact h.width_lt

theorem mixed {d : DenseArrayValue} {s : SparseArrayValue} {mem : Memory} {t : Table} (hd : DenseHolds m iw dw d mem) (hs : SparseHolds iw dw s t)
    (env : HashEnv) :
    ∃ u, t.MixedCompared m iw dw mem u ∧ u.Shows Eq (isEqualMixed m env d s >>= fun r => ok (r.getD false)) := by
  by_cases h : Storable .dense m iw t.default
  · obtain ⟨L, hL, hm⟩ := isEqualMixed_of env hd hs (roomy hs h)
    cases hr : t.densified m iw dw L with
    | none =>
      rw [hr] at hm
      exact ⟨.panic, .inr ⟨h, L, hL, by rw [hr]⟩, panics_bind hm _⟩
    | some out =>
      rw [hr] at hm
      obtain ⟨b, hb1, hb2⟩ := hm
      refine ⟨.value b, .inr ⟨h, L, hL, by rw [hr]; exact ⟨b, rfl, hb2⟩⟩, b, ?_, rfl⟩
      rw [hb1]
      rfl
  · exact ⟨.outside, .inl ⟨h, rfl⟩, trivial⟩

theorem compared (ha : Held m iw dw a c) (hb : Held m iw dw b e) (env : HashEnv) :
    ∃ u, c.Compared m iw dw e u ∧ u.Shows Eq (a.eq m env b) := by
  cases ha with
  | @dense d mem n ha hw hn =>
    cases hb with
    | dense hb =>
      obtain ⟨r, hr1, hr2⟩ := ha.isEqual_of hb
      refine ⟨_, ⟨r, rfl, hr2⟩, r, ?_, rfl⟩
      show (DenseArrayValue.isEqual m d _ >>= fun r => ok (r.getD false)) = _
      rw [hr1]
      rfl
    | table hb => exact mixed ha hb env
    | long hb => exact ⟨_, rfl, (long_mixed env ha.indexWidth ha.dataWidth).2⟩
  | @table s t ha hau hi =>
    cases hb with
    | dense hb => exact mixed hb ha env
    | @table s' t' hb hbu =>
      have h := ha.isEqual_of m env hb hau hbu
      by_cases hcl : (Contents.sparse t).Clash m dw (.sparse t')
      · rw [if_pos (show m = .debug ∧ 64 < dw ∧ t.default.words ≠ t'.default.words from hcl)] at h
        exact ⟨_, .inl ⟨hcl, rfl⟩, panics_bind h _⟩
      · rw [if_neg (show ¬ (m = .debug ∧ 64 < dw ∧ t.default.words ≠ t'.default.words) from hcl)] at h
        obtain ⟨r, hr1, hr2⟩ := h
        refine ⟨_, .inr ⟨hcl, r, rfl, hr2⟩, r, ?_, rfl⟩
        show (SparseArrayValue.isEqual m env s s' >>= fun r => ok (r.getD false)) = _
        rw [hr1]
        rfl
    | long hb hi' => omega
  | @long d map t ha hi =>
    cases hb with
    | dense hb => exact ⟨_, rfl, (long_mixed env hb.indexWidth hb.dataWidth).1⟩
    | table hb _ hi' => omega
    | @long d' map' t' hb _ =>
      obtain ⟨h1, h2, h3⟩ := ha.comparing hb
      cases hr : (longArray iw dw d map).eq m env (longArray iw dw d' map') with
      | panic p =>
        refine ⟨_, .inl ⟨Classical.byContradiction fun hn => ?_, rfl⟩, p, rfl⟩
        obtain ⟨r, hr'⟩ := h2.mpr ⟨fun hh => hn (.inl hh), fun hh => hn (.inr hh)⟩ env
        rw [hr] at hr'
        cases hr'
      | ok r => exact ⟨_, .inr ⟨fun hh => not_panics (h1.mpr hh env) hr, r, rfl, h3 env r hr⟩, r, rfl, rfl⟩

end Stock.Held

/-- The array holds what is known. -/
def Known.Held (m : Mode) (a : ArrayValue) (x : Known) : Prop := x.stock.Held m x.iw x.dw a

structure Device.Tracks (m : Mode) (s : Device) (σ : Sketch) : Prop where
  pc : s.pc = σ.pc
  out : s.out = σ.out
  reg : ∀ r, (s.reg r).shape = σ.reg r ∧ (s.reg r).width < 2 ^ 32
  arr : ∀ A, match s.arr A, σ.arr A with
    | some a, some x => x.Held m a
    | none, none => True
    | _, _ => False

theorem Device.Tracks.write (h : s.Tracks m σ) (r : Nat) {v : BitVecValue} {w : Shape} (hv : v.shape = w) (hw : v.width < 2 ^ 32) :
    (s.write r v).Tracks m (σ.write r w) := by
  refine ⟨congrArg (· + 1) h.pc, h.out, fun k => ?_, h.arr⟩
  show (if k = r then v else s.reg k).shape = (if k = r then w else σ.reg k) ∧ (if k = r then v else s.reg k).width < 2 ^ 32
  split
  · exact ⟨hv, hw⟩
  · exact h.reg k

theorem Device.Tracks.hold (h : s.Tracks m σ) (A : Nat) {a : ArrayValue} {x : Known} (ha : x.Held m a) :
    (s.hold A a).Tracks m (σ.hold A x) := by
  refine ⟨congrArg (· + 1) h.pc, h.out, h.reg, fun k => ?_⟩
  show match (if k = A then some a else s.arr k), (if k = A then some x else σ.arr k) with
    | some a, some x => x.Held m a
    | none, none => True
    | _, _ => False
  by_cases hk : k = A
  · rw [if_pos hk, if_pos hk]
    exact ha
  · rw [if_neg hk, if_neg hk]
    exact h.arr k

theorem Device.Tracks.goto (h : s.Tracks m σ) (t : Nat) : Device.Tracks m { s with pc := t } { σ with pc := t } := ⟨rfl, h.out, h.reg, h.arr⟩

/-- The array variables correspond. -/
theorem Device.Tracks.arr_cases (h : s.Tracks m σ) (A : Nat) :
    (s.arr A = none ∧ σ.arr A = none) ∨ ∃ a x, s.arr A = some a ∧ σ.arr A = some x ∧ x.Held m a := by
  have := h.arr A
  cases ha : s.arr A with
  | none =>
    cases hx : σ.arr A with
    | none => exact .inl ⟨rfl, rfl⟩
    | some x => rw [ha, hx] at this; exact this.elim
  | some a =>
    cases hx : σ.arr A with
    | none => rw [ha, hx] at this; exact this.elim
    | some x => rw [ha, hx] at this; exact .inr ⟨a, x, rfl, rfl, this⟩

theorem Device.Tracks.write_makes (h : s.Tracks m σ) (r : Nat) {x : Res BitVecValue} {o : Option Shape} (hx : Makes x o) :
    (Upshot.of (o.map (σ.write r))).Shows (Device.Tracks m) (x >>= fun v => ok (s.write r v)) := by
  cases o with
  | none => exact panics_bind hx _
  | some w =>
    obtain ⟨v, rfl, hv, hw⟩ := hx
    exact ⟨_, rfl, h.write r hv (by rw [← hv] at hw; exact hw)⟩

theorem Device.Tracks.write_answers (h : s.Tracks m σ) (r : Nat) {x : Res Bool} {o : Option Bool} (hx : Answers x o) :
    (Upshot.of (o.map fun t => σ.write r (.ofBool t))).Shows (Device.Tracks m) (x >>= fun t => fromBool m t >>= fun v => ok (s.write r v)) := by
  cases o with
  | none => exact panics_bind (show Panics x from hx) _
  | some t =>
    replace hx : x = ok t := hx
    have h1 : Makes (x >>= fun t => fromBool m t) _ := makes_of_answers m (o := some t) hx
    rw [hx, ok_bind] at h1 ⊢
    obtain ⟨v, hv1, hv2, hv3⟩ := h1
    rw [hv1, ok_bind]
    exact ⟨_, rfl, h.write r hv2 (by rw [← hv2] at hv3; exact hv3)⟩

theorem Device.Tracks.change (h : s.Tracks m σ) (env : HashEnv) (A : Nat) (op : ConvOp) {f : Known → Upshot Stock → Prop}
    (hf : ∀ a x, σ.arr A = some x → x.Held m a → ∃ u, f x u ∧ u.Shows (Stock.Held m x.iw x.dw) (op.run m env a)) :
    ∃ e, σ.Changes A f e ∧ e.Shows (Device.Tracks m) (s.change m env A op) := by
  unfold Device.change Sketch.Changes
  rcases h.arr_cases A with ⟨h1, h2⟩ | ⟨a, x, h1, h2, h3⟩
  · rw [h1, h2]
    exact ⟨_, rfl, _, rfl⟩
  · obtain ⟨u, hu, hs⟩ := hf a x h2 h3
    rw [h1, h2]
    exact ⟨_, ⟨u, hu, rfl⟩, hs.bind fun b c hb => ⟨_, rfl, h.hold A hb⟩⟩

/-- Arrays of different widths are different. -/
theorem eq_of_widths (env : HashEnv) (a b : ArrayValue) (h : ¬ (a.indexWidth = b.indexWidth ∧ a.dataWidth = b.dataWidth)) :
    a.eq m env b = ok false := by
  have hn : a.indexWidth ≠ b.indexWidth ∨ a.dataWidth ≠ b.dataWidth := by omega
  have hn' : b.indexWidth ≠ a.indexWidth ∨ b.dataWidth ≠ a.dataWidth := by omega
  unfold ArrayValue.eq ArrayValue.isEqual
  cases a with
  | dense a =>
    cases b with
    | dense b =>
      dsimp only [ArrayValue.indexWidth, ArrayValue.dataWidth] at hn' ⊢
      unfold DenseArrayValue.isEqual
      rw [if_pos hn']
      rfl
    | sparse b =>
      dsimp only [ArrayValue.indexWidth, ArrayValue.dataWidth] at hn ⊢
      unfold isEqualMixed
      rw [if_pos hn]
      rfl
  | sparse a =>
    cases b with
    | dense b =>
      dsimp only [ArrayValue.indexWidth, ArrayValue.dataWidth] at hn' ⊢
      unfold isEqualMixed
      rw [if_pos hn']
      rfl
    | sparse b =>
      dsimp only [ArrayValue.indexWidth, ArrayValue.dataWidth] at hn' ⊢
      unfold SparseArrayValue.isEqual
      rw [if_pos hn']
      rfl

theorem Known.Held.answers {a b : ArrayValue} {x y : Known} (ha : x.Held m a) (hb : y.Held m b) (env : HashEnv) :
    ∃ u, x.Answers m y u ∧ u.Shows Eq (a.eq m env b) := by
  unfold Known.Answers
  by_cases h : x.iw = y.iw ∧ x.dw = y.dw
  · simp only [if_pos h]
    replace hb : y.stock.Held m y.iw y.dw b := hb
    rw [← h.1, ← h.2] at hb
    exact Stock.Held.compared ha hb env
  · simp only [if_neg h]
    refine ⟨_, rfl, false, eq_of_widths env a b ?_, rfl⟩
    rw [(Stock.Held.widths ha).1, (Stock.Held.widths ha).2, (Stock.Held.widths hb).1, (Stock.Held.widths hb).2]
    exact h

/-! ## One action -/

theorem Device.Tracks.step (h : s.Tracks m σ) (env : HashEnv) (a : Action) (hs : a.Sized) :
    ∃ e, a.Leads m σ e ∧ e.Shows (Device.Tracks m) (a.run m env s) := by
  have hr : ∀ r, σ.reg r = (s.reg r).shape := fun r => (h.reg r).1.symm
  cases a with
  | value r v => exact ⟨_, rfl, _, rfl, h.write r rfl hs⟩
  | un r op a =>
    refine ⟨_, rfl, ?_⟩
    rw [hr]
    exact h.write_makes r (C105_unary m op hs (h.reg a).2)
  | bin r op a b =>
    refine ⟨_, rfl, ?_⟩
    rw [hr, hr]
    exact h.write_makes r (C105_operation m op (h.reg a).2)
  | concat r a b =>
    refine ⟨_, rfl, ?_⟩
    rw [hr, hr]
    exact h.write_makes r (C105_concat m (h.reg a).2 (h.reg b).2)
  | cmp r op a b =>
    refine ⟨_, rfl, ?_⟩
    rw [hr, hr]
    exact h.write_answers r (C105_comparison m op)
  | test r op a =>
    refine ⟨_, rfl, ?_⟩
    rw [hr]
    exact h.write_answers r (C105_test m op)
  | setU64 r v =>
    refine ⟨_, rfl, ?_⟩
    rw [hr]
    exact h.write_makes r (C106_assign_from_u64 m v (h.reg r).2)
  | setI64 r v =>
    refine ⟨_, rfl, ?_⟩
    rw [hr]
    exact h.write_makes r (C106_assign_from_i64 m v (h.reg r).2)
  | parse r radix text target =>
    refine ⟨_, rfl, ?_⟩
    have hp := C107_assign_from_str_radix m radix (s.reg r) text (fun _ _ => hs.1) (fun _ _ => hs.2)
    rw [hr]
    dsimp only [Action.run]
    cases ho : (s.reg r).shape.parse m radix text with
    | stores N =>
      rw [ho] at hp
      obtain ⟨v, hv1, hv2⟩ := hp
      rw [hv1, ok_bind]
      exact ⟨_, rfl, h.write r hv2 (show v.shape.width < _ by rw [hv2]; exact (h.reg r).2)⟩
    | invalid N =>
      rw [ho] at hp
      obtain ⟨v, hv1, hv2⟩ := hp
      rw [hv1, ok_bind]
      exact ⟨_, rfl, (h.write r hv2 (show v.shape.width < _ by rw [hv2]; exact (h.reg r).2)).goto target⟩
    | exceeds N =>
      rw [ho] at hp
      obtain ⟨v, hv1, hv2⟩ := hp
      rw [hv1, ok_bind]
      exact ⟨_, rfl, (h.write r hv2 (show v.shape.width < _ by rw [hv2]; exact (h.reg r).2)).goto target⟩
    | panics =>
      rw [ho] at hp
      exact panics_bind (show Panics (assignFromStrRadix m (s.reg r) text radix) from hp) _
  | print a =>
    refine ⟨_, rfl, ?_⟩
    have hb := C106_to_bit_str (s.reg a)
    rw [hr]
    dsimp only [Action.run]
    cases ho : (s.reg a).shape.bits with
    | none =>
      rw [ho] at hb
      exact panics_bind (show Panics (toBitStr (s.reg a)) from hb) _
    | some t =>
      rw [ho] at hb
      rw [show toBitStr (s.reg a) = ok t from hb, ok_bind]
      exact ⟨_, rfl, congrArg (· + 1) h.pc, congrArg (· ++ [t]) h.out, h.reg, h.arr⟩
  | jump t => exact ⟨_, rfl, _, rfl, h.goto t⟩
  | branch a t =>
    refine ⟨_, rfl, ?_⟩
    have hb : Answers (isTru (s.reg a)) _ := C105_test m .tru
    rw [hr]
    dsimp only [Action.run]
    cases ho : Test.foresee m (s.reg a).shape .tru with
    | none =>
      rw [ho] at hb
      exact panics_bind (show Panics (isTru (s.reg a)) from hb) _
    | some b =>
      rw [ho] at hb
      rw [show isTru (s.reg a) = ok b from hb, ok_bind]
      refine ⟨_, rfl, ?_⟩
      rw [h.pc]
      exact h.goto _
  | create A k iw a =>
    obtain ⟨u, hu, hs⟩ := held_new k m iw (h.reg a).2
    refine ⟨_, ⟨u, by rw [hr]; exact hu, rfl⟩, ?_⟩
    rw [hr]
    exact hs.bind fun b c hb => ⟨_, rfl, h.hold A hb⟩
  | copy A B =>
    refine ⟨_, rfl, ?_⟩
    dsimp only [Action.run]
    rcases h.arr_cases B with ⟨h1, h2⟩ | ⟨a, x, h1, h2, h3⟩
    · rw [h1, h2]
      exact ⟨_, rfl⟩
    · rw [h1, h2]
      exact ⟨_, rfl, h.hold A h3⟩
  | store A i d =>
    refine h.change env A _ fun a x _ hx => ?_
    rw [hr, hr]
    exact Stock.Held.stored hx env (s.reg i) (h.reg d).2
  | clear A => exact h.change env A _ fun a x _ hx => ⟨_, rfl, Stock.Held.cleared hx env⟩
  | makeDense A => exact h.change env A _ fun a x _ hx => Stock.Held.madeDense hx env
  | toSparse A => exact h.change env A _ fun a x _ hx => Stock.Held.madeSparse hx env
  | select r A i =>
    dsimp only [Action.Leads, Action.run]
    rcases h.arr_cases A with ⟨h1, h2⟩ | ⟨a, x, h1, h2, h3⟩
    · rw [h1, h2]
      exact ⟨_, rfl, _, rfl⟩
    · rw [h1, h2, hr]
      obtain ⟨u, hu, hs⟩ := Stock.Held.selected h3 env (s.reg i)
      exact ⟨_, ⟨u, hu, rfl⟩, hs.bind fun v w hv => ⟨_, rfl, h.write r hv.1 hv.2⟩⟩
  | same r A B =>
    dsimp only [Action.Leads, Action.run]
    rcases h.arr_cases A with ⟨h1, h2⟩ | ⟨a, x, h1, h2, h3⟩
    · rw [h1, h2]
      exact ⟨_, rfl, _, rfl⟩
    · rcases h.arr_cases B with ⟨h1', h2'⟩ | ⟨b, y, h1', h2', h3'⟩
      · rw [h1, h2, h1', h2']
        exact ⟨_, rfl, _, rfl⟩
      · rw [h1, h2, h1', h2']
        obtain ⟨u, hu, hs⟩ := h3.answers h3' env
        refine ⟨_, ⟨u, hu, rfl⟩, hs.bind fun t t' ht => ?_⟩
        subst ht
        have hw := h.write_answers (m := m) r (show Answers (ok t) (some t) from rfl)
        exact hw

/-! ## Programs -/

theorem Device.Tracks.runs (prog : List Action) (hp : ∀ a ∈ prog, a.Sized) (env : Nat → HashEnv) (n : Nat) (h : s.Tracks m σ) :
    ∃ e, σ.Runs m prog n e ∧ e.Shows (Device.Tracks m) (s.run m env prog n) := by
  induction n generalizing s σ with
  | zero => exact ⟨_, rfl, s, rfl, h⟩
  | succ n ih =>
    unfold Sketch.Runs Device.run
    rw [h.pc]
    cases ha : prog[σ.pc]? with
    | none => exact ⟨_, rfl, s, rfl, h⟩
    | some a =>
      dsimp only
      obtain ⟨mid, h1, h2⟩ := h.step (env n) a (hp a (List.mem_of_getElem? ha))
      cases mid with
      | panic => exact ⟨.panic, ⟨_, h1, rfl⟩, panics_bind h2 _⟩
      | outside => exact ⟨.outside, ⟨_, h1, rfl⟩, trivial⟩
      | value σ' =>
        obtain ⟨s', hs1, hs2⟩ := h2
        obtain ⟨e, he1, he2⟩ := ih hs2
        refine ⟨e, ⟨_, h1, he1⟩, ?_⟩
        rw [hs1, ok_bind]
        exact he2

theorem Device.Tracks.matched (h : s.Tracks m σ) : s.Matches m σ := by
  refine ⟨h.pc, h.out, fun r => (h.reg r).1, fun A => ?_⟩
  rcases h.arr_cases A with ⟨h1, h2⟩ | ⟨a, x, h1, h2, h3⟩
  · rw [h1, h2]
    trivial
  · rw [h1, h2]
    refine ⟨(Stock.Held.widths h3).1, (Stock.Held.widths h3).2, ?_⟩
    obtain ⟨iw, dw, c⟩ := x
    cases h3 with
    | dense h => exact ⟨rfl, fun _ i => h.select_of i⟩
    | table h => exact ⟨rfl, fun env i => h.select_of m env i⟩
    | long h => exact ⟨rfl, fun i => h.reading i⟩

/-- **C112** Any program, on registers with any values: what happens is something that the specification allows. It panics if the specification
says so, and otherwise output, program counter, registers and arrays are what the specification says. -/
theorem C112_program (m : Mode) (env : Nat → HashEnv) (prog : List Action) (hp : ∀ a ∈ prog, a.Sized) (n : Nat) (s : Device)
    (hr : ∀ r, (s.reg r).width < 2 ^ 32) (ha : ∀ A, s.arr A = none) :
    ∃ e, s.sketch.Runs m prog n e ∧ e.Describes m (s.run m env prog n) := by
  have h : s.Tracks m s.sketch := ⟨rfl, rfl, fun r => ⟨rfl, hr r⟩, fun A => by rw [ha A]; trivial⟩
  obtain ⟨e, h1, h2⟩ := h.runs prog hp env n
  refine ⟨e, h1, ?_⟩
  cases e with
  | value σ =>
    obtain ⟨s', h3, h4⟩ := h2
    exact ⟨s', h3, h4.matched⟩
  | panic => exact h2
  | outside => trivial

/-! ## Programs without conversions and comparisons of arrays -/

/-- No sparse array has more than 64 index bits. -/
def Sketch.Short (σ : Sketch) : Prop := ∀ A x t, σ.arr A = some x → x.stock ≠ .long t

theorem Sketch.Short.write (h : σ.Short) (r : Nat) (v : Shape) : (σ.write r v).Short := h

theorem Sketch.Short.hold (h : σ.Short) (A : Nat) {x : Known} (hx : ∀ t, x.stock ≠ .long t) : (σ.hold A x).Short := by
  intro B y t hy
  replace hy : (if B = A then some x else σ.arr B) = some y := hy
  split at hy
  · cases hy
    exact hx t
  · exact h B y t hy

/-- The only outcome, after which the arrays are still short. -/
def OnlyShort (P : Upshot Sketch → Prop) : Prop := ∃ e, (∀ e', P e' ↔ e' = e) ∧ ∀ σ', e = .value σ' → σ'.Short

theorem onlyShort_of (o : Option Sketch) (h : ∀ σ', o = some σ' → σ'.Short) : OnlyShort fun e => e = .of o := by
  refine ⟨_, fun e' => Iff.rfl, fun σ' he => ?_⟩
  cases o with
  | none => cases he
  | some x => cases he; exact h _ rfl

theorem onlyShort_map {α : Type} (o : Option α) (f : α → Sketch) (h : ∀ a, (f a).Short) : OnlyShort fun e => e = .of (o.map f) := by
  refine onlyShort_of _ fun σ' he => ?_
  obtain ⟨x, -, rfl⟩ := Option.map_eq_some_iff.mp he
  exact h x

theorem onlyShort_upshot {P : Upshot Stock → Prop} {u : Upshot Stock} (hu : ∀ u', P u' ↔ u' = u) {f : Stock → Sketch}
    (h : ∀ c, u = .value c → (f c).Short) : OnlyShort fun e => ∃ u', P u' ∧ e = u'.map f := by
  refine ⟨u.map f, fun e' => ⟨?_, fun h => ⟨u, (hu u).mpr rfl, h⟩⟩, fun σ' he => ?_⟩
  · rintro ⟨u', h1, rfl⟩
    rw [(hu u').mp h1]
  · cases u with
    | value c => cases he; exact h c rfl
    | panic => cases he
    | outside => cases he

theorem Stock.created_short (k : Kind) (m : Mode) (iw : Nat) (v : Shape) (h : k = .dense ∨ iw ≤ 64) :
    ∃ u, (∀ u', Stock.Created k m iw v u' ↔ u' = u) ∧ ∀ c t, u = .value c → c ≠ .long t := by
  cases k with
  | dense =>
    by_cases hs : Storable .dense m iw v
    · refine ⟨_, fun u' => ⟨fun h => h.elim (fun h => absurd hs h.1) fun h => h.2, fun h => .inr ⟨hs, h⟩⟩, fun c t hc => ?_⟩
      cases hm : Memory.create m iw v with
      | none => rw [hm] at hc; cases hc
      | some mem => rw [hm] at hc; cases hc; exact fun h => (by cases h)
    · exact ⟨_, fun u' => ⟨fun h => h.elim (fun h => h.2) fun h => absurd h.1 hs, fun h => .inl ⟨hs, h⟩⟩, fun c t hc => (by cases hc)⟩
  | sparse =>
    have hi : iw ≤ 64 := h.resolve_left fun h => (by cases h)
    unfold Stock.Created
    simp only [if_pos hi]
    refine ⟨_, fun u' => Iff.rfl, fun c t hc => ?_⟩
    cases hm : Table.create v with
    | none => rw [hm] at hc; cases hc
    | some mem => rw [hm] at hc; cases hc; exact fun h => (by cases h)

theorem Action.leads_unique (a : Action) (ha : a.Plain) (hσ : σ.Short) : OnlyShort fun e => a.Leads m σ e := by
  cases a with
  | makeDense A => exact ha.elim
  | toSparse A => exact ha.elim
  | same r A B => exact ha.elim
  | value r v => exact ⟨_, fun e' => Iff.rfl, fun σ' he => (by cases he; exact hσ)⟩
  | un r op a => exact onlyShort_map _ _ fun _ => hσ
  | bin r op a b => exact onlyShort_map _ _ fun _ => hσ
  | concat r a b => exact onlyShort_map _ _ fun _ => hσ
  | cmp r op a b => exact onlyShort_map _ _ fun _ => hσ
  | test r op a => exact onlyShort_map _ _ fun _ => hσ
  | setU64 r v => exact onlyShort_map _ _ fun _ => hσ
  | setI64 r v => exact onlyShort_map _ _ fun _ => hσ
  | print a => exact onlyShort_map _ _ fun _ => hσ
  | jump t => exact ⟨_, fun e' => Iff.rfl, fun σ' he => (by cases he; exact hσ)⟩
  | branch a t => exact onlyShort_map _ _ fun _ => hσ
  | parse r radix text target =>
    refine ⟨_, fun e' => Iff.rfl, fun σ' he => ?_⟩
    cases hp : (σ.reg r).parse m radix text <;> rw [hp] at he <;> cases he <;> exact hσ
  | create A k iw a =>
    obtain ⟨u, h1, h2⟩ := Stock.created_short k m iw (σ.reg a) ha
    exact onlyShort_upshot h1 fun c hc => hσ.hold A fun t => h2 c t hc
  | copy A B =>
    refine onlyShort_of _ fun σ' he => ?_
    obtain ⟨x, hx, rfl⟩ := Option.map_eq_some_iff.mp he
    exact hσ.hold A fun t => hσ B x t hx
  | store A i d =>
    dsimp only [Action.Leads]
    unfold Sketch.Changes
    cases hx : σ.arr A with
    | none => exact ⟨_, fun e' => Iff.rfl, fun σ' he => (by cases he)⟩
    | some x =>
      obtain ⟨iw, dw, c⟩ := x
      dsimp only
      cases c with
      | long t => exact absurd rfl (hσ A _ t hx)
      | dense mem =>
        refine onlyShort_upshot (fun u' => Iff.rfl) fun c hc => hσ.hold A fun t => ?_
        cases hm : mem.store m iw dw (σ.reg i) (σ.reg d) with
        | none => rw [hm] at hc; cases hc
        | some mem' => rw [hm] at hc; cases hc; exact fun h => (by cases h)
      | table tab =>
        refine onlyShort_upshot (fun u' => Iff.rfl) fun c hc => hσ.hold A fun t => ?_
        cases hm : tab.store m iw dw (σ.reg i) (σ.reg d) with
        | none => rw [hm] at hc; cases hc
        | some mem' => rw [hm] at hc; cases hc; exact fun h => (by cases h)
  | clear A =>
    dsimp only [Action.Leads]
    unfold Sketch.Changes
    cases hx : σ.arr A with
    | none => exact ⟨_, fun e' => Iff.rfl, fun σ' he => (by cases he)⟩
    | some x =>
      refine onlyShort_upshot (fun u' => Iff.rfl) fun c hc => hσ.hold A fun t => ?_
      cases hc
      obtain ⟨iw, dw, c⟩ := x
      cases c with
      | long t => exact absurd rfl (hσ A _ t hx)
      | dense mem => exact fun h => (by cases h)
      | table tab => exact fun h => (by cases h)
  | select r A i =>
    dsimp only [Action.Leads]
    cases hx : σ.arr A with
    | none => exact ⟨_, fun e' => Iff.rfl, fun σ' he => (by cases he)⟩
    | some x =>
      obtain ⟨iw, dw, c⟩ := x
      dsimp only
      have key : ∀ o : Option Shape, OnlyShort fun e => ∃ u, u = Upshot.of o ∧ e = u.map (σ.write r) := by
        intro o
        refine ⟨(Upshot.of o).map (σ.write r), fun e' => ⟨fun ⟨u, h1, h2⟩ => (by rw [h2, h1]), fun h => ⟨_, rfl, h⟩⟩, fun σ' he => ?_⟩
        cases o with
        | none => cases he
        | some v => cases he; exact hσ
      cases c with
      | long t => exact absurd rfl (hσ A _ t hx)
      | dense mem => exact key _
      | table tab => exact key _

theorem Sketch.runs_unique (prog : List Action) (hp : ∀ a ∈ prog, a.Plain) (n : Nat) (σ : Sketch) (hσ : σ.Short) :
    ∃ e, ∀ e', σ.Runs m prog n e' ↔ e' = e := by
  induction n generalizing σ with
  | zero => exact ⟨_, fun e' => Iff.rfl⟩
  | succ n ih =>
    unfold Sketch.Runs
    cases ha : prog[σ.pc]? with
    | none => exact ⟨_, fun e' => Iff.rfl⟩
    | some a =>
      obtain ⟨mid, hm, hs⟩ := Action.leads_unique (m := m) a (hp a (List.mem_of_getElem? ha)) hσ
      cases mid with
      | value σ' =>
        obtain ⟨e, he⟩ := ih σ' (hs σ' rfl)
        refine ⟨e, fun e' => ⟨?_, fun h => ⟨_, (hm _).mpr rfl, (he e').mpr h⟩⟩⟩
        rintro ⟨mid, h1, h2⟩
        rw [(hm mid).mp h1] at h2
        exact (he e').mp h2
      | panic =>
        refine ⟨.panic, fun e' => ⟨?_, fun h => ⟨_, (hm _).mpr rfl, h⟩⟩⟩
        rintro ⟨mid, h1, h2⟩
        rw [(hm mid).mp h1] at h2
        exact h2
      | outside =>
        refine ⟨.outside, fun e' => ⟨?_, fun h => ⟨_, (hm _).mpr rfl, h⟩⟩⟩
        rintro ⟨mid, h1, h2⟩
        rw [(hm mid).mp h1] at h2
        exact h2

/-- **C112** (without conversions): if the program does not convert or compare arrays and creates no sparse arrays with more than 64 index bits, the
specification allows only one outcome, so the behaviour of hash tables does not matter. -/
theorem C112_unique (m : Mode) (prog : List Action) (hp : ∀ a ∈ prog, a.Sized ∧ a.Plain) (n : Nat) (s : Device)
    (hr : ∀ r, (s.reg r).width < 2 ^ 32) (ha : ∀ A, s.arr A = none) :
    ∃ e, (∀ e', s.sketch.Runs m prog n e' ↔ e' = e) ∧ ∀ env, e.Describes m (s.run m env prog n) := by
  obtain ⟨e, he⟩ := Sketch.runs_unique (m := m) prog (fun a h => (hp a h).2) n s.sketch (fun A x t h => by cases h)
  refine ⟨e, he, fun env => ?_⟩
  obtain ⟨e', h1, h2⟩ := C112_program m env prog (fun a h => (hp a h).1) n s hr ha
  rw [(he e').mp h1] at h2
  exact h2

/-! ## Debug and release builds -/

theorem UnOp_run_le (op : UnOp) (a : BitVecValue) : Le (op.run .debug a) (op.run .release a) := by
  cases op <;> dsimp only [UnOp.run] <;> le_auto
macro_rules | `(tactic| le_step) => `(tactic| with_reducible apply UnOp_run_le)

theorem MixedOp_runIn_le (op : MixedOp) (a b : BitVecValue) : Le (op.runIn .debug a b) (op.runIn .release a b) := by
  cases op <;> dsimp only [MixedOp.runIn] <;> le_auto
macro_rules | `(tactic| le_step) => `(tactic| with_reducible apply MixedOp_runIn_le)

theorem MixedCmp_runIn_le (op : MixedCmp) (a b : BitVecValue) : Le (op.runIn .debug a b) (op.runIn .release a b) := by
  cases op <;> dsimp only [MixedCmp.runIn] <;> le_auto
macro_rules | `(tactic| le_step) => `(tactic| with_reducible apply MixedCmp_runIn_le)

theorem Test_run_le (op : Test) (a : BitVecValue) : Le (op.run .debug a) (op.run .release a) := by
  cases op <;> dsimp only [Test.run] <;> le_auto
macro_rules | `(tactic| le_step) => `(tactic| with_reducible apply Test_run_le)

theorem newOf_le (k : Kind) (iw : Nat) (v : BitVecValue) : Le (newOf k .debug iw v) (newOf k .release iw v) := by
  cases k <;> dsimp only [newOf] <;> le_auto
macro_rules | `(tactic| le_step) => `(tactic| with_reducible apply newOf_le)

theorem ConvOp_run_le (env : HashEnv) (a : ArrayValue) (op : ConvOp) : Le (op.run .debug env a) (op.run .release env a) := by
  cases op with
  | base op => cases op <;> dsimp only [ConvOp.run, RawOp.run] <;> le_auto
  | makeDense => dsimp only [ConvOp.run]; le_auto
  | toSparse => dsimp only [ConvOp.run]; le_auto
macro_rules | `(tactic| le_step) => `(tactic| with_reducible apply ConvOp_run_le)

theorem Device_change_le (env : HashEnv) (s : Device) (A : Nat) (op : ConvOp) : Le (s.change .debug env A op) (s.change .release env A op) := by
  unfold Device.change
  le_auto
macro_rules | `(tactic| le_step) => `(tactic| with_reducible apply Device_change_le)

theorem Action_run_le (env : HashEnv) (s : Device) (a : Action) : Le (a.run .debug env s) (a.run .release env s) := by
  cases a <;> dsimp only [Action.run] <;> le_auto

theorem Device_run_le (env : Nat → HashEnv) (prog : List Action) (n : Nat) (s : Device) :
    Le (s.run .debug env prog n) (s.run .release env prog n) := by
  induction n generalizing s with
  | zero => exact Le.refl _
  | succ n ih =>
    unfold Device.run
    cases prog[s.pc]? with
    | none => exact Le.refl _
    | some a => exact (Action_run_le _ s a).bind ih

/-- **C112** (builds): a program that runs without a panic in a debug build does exactly the same in a release build. -/
theorem C112_builds (env : Nat → HashEnv) (prog : List Action) (n : Nat) (s s' : Device) (h : s.run .debug env prog n = ok s') :
    s.run .release env prog n = ok s' := (Device_run_le env prog n s).of_ok s' h

/-! ## A concrete case -/

/-- A program that creates a sparse array of wide data whose default has too few words, tries to parse a text with a bad digit, stores in a loop
and prints a counter and an element. -/
def oddProgram : List Action :=
  [.value 0 ⟨65, [7#64]⟩, .value 1 (encode 0#2), .value 2 (encode 1#2), .value 3 (encode 3#2),
   .create 0 .sparse 2 0, .parse 1 2 [ch '2'] 6,
   .store 0 1 0, .bin 1 .add 1 2, .cmp 4 .less 1 3, .branch 4 6,
   .select 5 0 1, .un 5 (.setBit 1) 5, .print 1, .print 5]

example : ∀ a ∈ oddProgram, a.Sized ∧ a.Plain := by
  intro a h
  simp only [oddProgram, List.mem_cons, List.not_mem_nil, or_false] at h
  rcases h with rfl | rfl | rfl | rfl | rfl | rfl | rfl | rfl | rfl | rfl | rfl | rfl | rfl | rfl
  all_goals first
    | exact ⟨trivial, trivial⟩
    | exact ⟨by unfold Action.Sized; decide, trivial⟩
    | exact ⟨trivial, .inr (by decide)⟩
    | exact ⟨⟨fun _ => by decide, fun h => by cases h⟩, trivial⟩

/-- The texts that it prints. The element holds 7 in one word, of which 65 bits show only one. -/
example : (match Device.run .release (fun _ => listEnv) oddProgram 100 ⟨0, fun _ => encode 0#1, fun _ => none, []⟩ with
    | .ok s => s.out
    | .panic _ => []) = [[ch '1', ch '1'], [ch '1']] := by decide +kernel

end Baa

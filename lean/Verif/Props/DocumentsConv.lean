import Verif.Props.AnyConv
import Verif.Props.DocumentsEq
import Verif.Spec.DocumentsConv

/-!
# C118: conversions of arrays from documents are predictable: from sparse to dense

C111 is about conversions of arrays that were created. This file and the next one are about arrays whose storage need not belong to their widths.
-/

namespace Baa
open Res BitVecValue Serde

variable {m : Mode}

theorem Account.InMemory.array {a : ArrayValue} (h : a.account.InMemory) : a.InMemory := by
  cases a with
  | sparse s => trivial
  | dense d =>
    obtain ⟨iw, dw, data⟩ := d
    cases data with
    | big l => exact h
    | _ => trivial

/-! ## A new dense array -/

theorem within_cellsOf {k : Nat} {l : List (BitVec k)} {mem : Memory} (hl : l.length = mem.count)
    (hf : ∀ n, n < mem.count → ∃ b : BitVec k, l[n]? = some b ∧ b.toNat = mem.cell n) : cellsOf l = mem.within := by
  unfold cellsOf Memory.within
  rw [hl]
  congr 1
  funext n
  by_cases hn : n < mem.count
  · obtain ⟨b, hb1, hb2⟩ := hf n hn
    rw [if_pos hn, hb1, ← hb2]
    rfl
  · rw [if_neg hn, List.getElem?_eq_none (by omega)]
    rfl

theorem DenseHolds.hoard_eq {iw dw : Nat} {d : DenseArrayValue} {mem : Memory} (h : DenseHolds m iw dw d mem) {n : Nat}
    (hn : elementCount m iw = some n) :
    d.data.hoard = .dense (CellLayout.of dw) (if dw = 1 then n % 2 ^ 32 else 0) mem.within ∧ d.indexWidth = iw ∧ d.dataWidth = dw ∧ dw < 2 ^ 32 ∧
      (∀ v, d.data = .bit v → v.width < 2 ^ 32) := by
  obtain ⟨hiw, hdw, hlt, hrep⟩ := h
  refine ⟨?_, hiw, hdw, hlt, ?_⟩
  · unfold CellLayout.of
    cases hd : d.data with
    | bit v =>
      rw [hd] at hrep
      obtain ⟨h1, n', N, hn', hN, hc, hf⟩ := hrep
      rw [hn] at hn'
      cases hn'
      rw [if_pos h1, if_pos h1]
      show Hoard.dense .bits v.width (bitsOf v) = _
      rw [hN.width_eq]
      congr 1
      unfold bitsOf Memory.within
      have hlen : 64 * v.words.length = mem.count := by
        rw [hN.length_eq, hc]
        rfl
      rw [hlen]
      congr 1
      funext k
      by_cases hk : k < mem.count
      · rw [if_pos hk, hf k hk, hN.val_eq]
      · rw [if_neg hk, Nat.testBit_lt_two_pow]
        · rfl
        · refine Nat.lt_of_lt_of_le (wordsVal_lt _) (Nat.pow_le_pow_right (by decide) (by omega))
    | u8 l =>
      rw [hd] at hrep
      obtain ⟨h1, h2, h3, hf⟩ := hrep
      rw [if_neg h1, if_neg h1, if_pos h2, ← within_cellsOf h3 hf]
      rfl
    | u64 l =>
      rw [hd] at hrep
      obtain ⟨h1, h2, h3, hf⟩ := hrep
      rw [if_neg (show ¬ dw = 1 by omega), if_neg (show ¬ dw ≤ 8 by omega), if_pos h2, if_neg (show ¬ dw = 1 by omega), ← within_cellsOf h3 hf]
      rfl
    | big l =>
      rw [hd] at hrep
      obtain ⟨h1, h2, h3, hf⟩ := hrep
      rw [if_neg (show ¬ dw = 1 by omega), if_neg (show ¬ dw ≤ 8 by omega), if_neg (show ¬ dw ≤ 64 by omega), if_neg (show ¬ dw = 1 by omega), ← within_cellsOf h2]
      · rfl
      · intro k hk
        have hx := List.getElem?_eq_getElem (l := l) (i := k) (by omega)
        exact ⟨_, hx, hf _ _ hx⟩
  · intro v hd
    rw [hd] at hrep
    obtain ⟨h1, n', N, hn', hN, hc, hf⟩ := hrep
    rw [hN.width_eq]
    exact Nat.mod_lt _ (by decide)

/-- A dense array with these widths, this layout and these cells. -/
def Laid (iw dw : Nat) (l : CellLayout) (span : Nat) (d : DenseArrayValue) (mem : Memory) : Prop :=
  Kept (.dense d) iw dw (.dense l span mem) ∧ (Account.mk iw dw (.dense l span mem)).InMemory

theorem elementCount_lt {iw n : Nat} (h : elementCount m iw = some n) : n < 2 ^ 64 := by
  rw [elementCount_eq h]
  exact Nat.pow_lt_pow_right (by decide) (Nat.mod_lt _ (by decide))

theorem laid_new {iw : Nat} (hi : iw < 2 ^ 32) {v : BitVecValue} (hv : v.width < 2 ^ 32) {n : Nat} (hn : elementCount m iw = some n)
    (hs : 64 < v.width → n * v.words.length < 2 ^ 60) :
    Fate (Laid iw v.width (CellLayout.of v.width) (if v.width = 1 then n % 2 ^ 32 else 0)) (DenseArrayValue.new m iw v)
      ((Memory.create m iw v.shape).map Memory.within) := by
  have h := dense_new_fate m iw hv fun k hk hw => by
    rw [hn] at hk
    cases hk
    exact hs hw
  have hcount : ∀ mem, Memory.create m iw v.shape = some mem → v.width ≠ 1 → (v.width ≤ 64 → mem.count = n) ∧
      (64 < v.width → mem.count = n * v.words.length) := by
    intro mem hmem h1
    unfold Memory.create at hmem
    rw [hn] at hmem
    simp only [Option.bind_eq_bind, Option.bind_some] at hmem
    split at hmem
    · cases hmem
    · rw [if_neg (show ¬ v.shape.width = 1 from h1)] at hmem
      by_cases h64 : v.width ≤ 64
      · rw [if_pos (show v.shape.width ≤ 64 from h64), Option.map_eq_some_iff] at hmem
        obtain ⟨c, -, rfl⟩ := hmem
        exact ⟨fun _ => rfl, fun h => by omega⟩
      · rw [if_neg (show ¬ v.shape.width ≤ 64 from h64)] at hmem
        cases hmem
        exact ⟨fun h => by omega, fun _ => rfl⟩
  cases hmem : Memory.create m iw v.shape with
  | none => rw [hmem] at h; exact h
  | some mem =>
    rw [hmem] at h
    obtain ⟨d, hd1, hd2⟩ := h
    obtain ⟨h1, h2, h3, h4, h5⟩ := hd2.hoard_eq hn
    have hacc : (ArrayValue.dense d).account = ⟨iw, v.width, .dense (CellLayout.of v.width) (if v.width = 1 then n % 2 ^ 32 else 0) mem.within⟩ := by
      show (⟨_, _, _⟩ : Account) = _
      rw [h1, h2, h3]
    have hmem' : (Account.mk iw v.width (.dense (CellLayout.of v.width) (if v.width = 1 then n % 2 ^ 32 else 0) mem.within)).InMemory := by
      have hc := hcount mem hmem
      have hlt := elementCount_lt hn
      unfold Account.InMemory CellLayout.of
      dsimp only
      by_cases g1 : v.width = 1
      · rw [if_pos g1]
        trivial
      · have hc := hc g1
        rw [if_neg g1]
        by_cases g2 : v.width ≤ 8
        · rw [if_pos g2]
          show mem.count < _
          rw [hc.1 (by omega)]
          exact hlt
        · rw [if_neg g2]
          by_cases g3 : v.width ≤ 64
          · rw [if_pos g3]
            show mem.count < _
            rw [hc.1 g3]
            exact hlt
          · rw [if_neg g3]
            show mem.count < _
            rw [hc.2 (by omega)]
            exact hs (by omega)
    refine ⟨d, hd1, ⟨hacc, ⟨by omega, by omega, ?_⟩, ?_⟩, hmem'⟩
    · cases hd : d.data with
      | bit v => exact h5 v hd
      | _ => trivial
    · refine Account.InMemory.array ?_
      rw [hacc]
      exact hmem'

/-! ## Entries -/

section
variable {iw dw span : Nat} {l : CellLayout} {d : DenseArrayValue} {mem : Memory}

theorem Laid.split (h : Laid iw dw l span d mem) : ∃ data, d = ⟨iw, dw, data⟩ ∧ data.layout = l ∧ data.span = span ∧ data.cells = mem ∧
    Acceptable (.dense ⟨iw, dw, data⟩) ∧ (ArrayValue.dense ⟨iw, dw, data⟩).InMemory := by
  obtain ⟨⟨h1, h2, h3⟩, -⟩ := h
  obtain ⟨iw', dw', data⟩ := d
  replace h1 : (⟨iw', dw', data.hoard⟩ : Account) = _ := h1
  rw [dense_hoard] at h1
  injection h1 with e1 e2 e3
  injection e3 with e3 e4 e5
  subst e1 e2
  exact ⟨data, rfl, e3, e4, e5, h2, h3⟩

/-- Writing cells keeps their number. -/
theorem Laid.of_kept (h : Laid iw dw l span d mem) {r : DenseArrayValue} {cell : Nat → Nat}
    (hk : Kept (.dense r) iw dw (.dense l span ⟨mem.count, cell⟩)) : Laid iw dw l span r ⟨mem.count, cell⟩ := by
  refine ⟨hk, ?_⟩
  have := h.2
  unfold Account.InMemory at this ⊢
  cases l <;> exact this

/-- One number. -/
theorem Laid.putU64 (h : Laid iw dw l span d mem) (i v : Word) :
    Fate (Laid iw dw l span) (d.putU64 m i v)
      ((l.locate m dw mem.count i.toNat).bind fun n => (l.put m mem.cell n v.toNat).bind fun cell => some ⟨mem.count, cell⟩) := by
  have hall := h
  obtain ⟨data, rfl, rfl, rfl, rfl, ⟨ha1, ha2, ha3⟩, hm⟩ := h.split
  dsimp only at ha1 ha2 ha3
  unfold DenseArrayValue.putU64
  cases data with
  | bit b =>
    dsimp only [DenseArrayImpl.layout, DenseArrayImpl.span, DenseArrayImpl.cells, CellLayout.locate, CellLayout.put] at hall ⊢
    rw [show U32 = 2 ^ 32 from rfl]
    have hsc := setBit_fate b (i.toNat % 2 ^ 32)
    have hv1 : v = 1#64 ↔ v.toNat = 1 := ⟨fun e => by rw [e]; rfl, fun e => BitVec.eq_of_toNat_eq e⟩
    by_cases hk : i.toNat % 2 ^ 32 < (bitsOf b).count
    · rw [if_pos hk] at hsc ⊢
      obtain ⟨⟨r, hr1, hr2, hr3⟩, ⟨s, hs1, hs2, hs3⟩⟩ := hsc
      rw [Option.bind_some]
      by_cases hD : v.toNat = 1
      · rw [if_pos (hv1.mpr hD), if_neg (by omega), if_pos hD, hr1, ok_bind]
        refine ⟨_, rfl, hall.of_kept ⟨?_, ⟨ha1, ha2, ?_⟩, trivial⟩⟩
        · show (⟨iw, dw, .dense .bits r.width (bitsOf r)⟩ : Account) = _
          rw [hr2, hr3]
        · show r.width < 2 ^ 32
          rw [hr2]; exact ha3
      · rw [if_neg (fun e => hD (hv1.mp e)), if_neg hD, hs1]
        rw [show (Option.bind (if m = .debug ∧ 1 < v.toNat then none else some (setCell (bitsOf b).cell (i.toNat % 2 ^ 32) 0)) fun cell =>
          some (⟨(bitsOf b).count, cell⟩ : Memory)) = if m = .debug ∧ 1 < v.toNat then none
            else some ⟨(bitsOf b).count, setCell (bitsOf b).cell (i.toNat % 2 ^ 32) 0⟩ by split <;> rfl]
        refine Fate.guard (1 < v.toNat) ?_ fun _ => ?_
        · rw [beq_iff_eq]
          constructor
          · rintro rfl; decide
          · intro h
            apply BitVec.eq_of_toNat_eq
            show v.toNat = 0
            omega
        · refine ⟨_, rfl, hall.of_kept ⟨?_, ⟨ha1, ha2, ?_⟩, trivial⟩⟩
          · show (⟨iw, dw, .dense .bits s.width (bitsOf s)⟩ : Account) = _
            rw [hs2, hs3]
          · show s.width < 2 ^ 32
            rw [hs2]; exact ha3
    · rw [if_neg hk] at hsc ⊢
      show Panics _
      by_cases hD : v = 1#64
      · rw [if_pos hD]
        exact panics_bind hsc.1 _
      · rw [if_neg hD]
        exact panics_bind_of _ fun _ _ => panics_bind hsc.2 _
  | u8 l =>
    show Fate _ _ (Option.bind (if i.toNat < (cellsOf l).count then some i.toNat else none) _)
    by_cases hc : i.toNat < (cellsOf l).count
    · rw [if_pos hc]
      obtain ⟨l', hl1, hl2, hl3⟩ := setIdx_spec (l := l) (i := i.toNat) hc (v.setWidth 8)
      dsimp only
      rw [hl1, ok_bind]
      refine ⟨_, rfl, hall.of_kept ⟨?_, ⟨ha1, ha2, trivial⟩, trivial⟩⟩
      show (⟨iw, dw, .dense .bytes 0 (cellsOf l')⟩ : Account) = _
      rw [cellsOf_set hl2 hl3, BitVec.toNat_setWidth]
      rfl
    · rw [if_neg hc]
      dsimp only
      rw [setIdx_none (Nat.le_of_not_lt hc)]
      exact ⟨_, rfl⟩
  | u64 l =>
    show Fate _ _ (Option.bind (if i.toNat < (cellsOf l).count then some i.toNat else none) _)
    by_cases hc : i.toNat < (cellsOf l).count
    · rw [if_pos hc]
      obtain ⟨l', hl1, hl2, hl3⟩ := setIdx_spec (l := l) (i := i.toNat) hc v
      dsimp only
      rw [hl1, ok_bind]
      refine ⟨_, rfl, hall.of_kept ⟨?_, ⟨ha1, ha2, trivial⟩, trivial⟩⟩
      show (⟨iw, dw, .dense .words 0 (cellsOf l')⟩ : Account) = _
      rw [cellsOf_set hl2 hl3]
      rfl
    · rw [if_neg hc]
      dsimp only
      rw [setIdx_none (Nat.le_of_not_lt hc)]
      exact ⟨_, rfl⟩
  | big l =>
    show Fate _ _ (Option.bind (place m (need dw) l.length i.toNat) fun _ => none)
    have : (Option.bind (place m (need dw) l.length i.toNat) fun _ => (none : Option Memory)) = none := by
      cases place m (need dw) l.length i.toNat <;> rfl
    rw [this]
    exact ⟨_, rfl⟩

/-- One value. -/
theorem Laid.store (h : Laid iw dw l span d mem) (i v : BitVecValue) :
    Fate (Laid iw dw l span) (d.store m i v)
      ((i.shape.points m iw).bind fun I => (l.locate m dw mem.count I).bind fun n =>
        if m = .debug ∧ v.shape.width ≠ dw then none else (l.write dw mem.cell n v.shape).bind fun cell => some ⟨mem.count, cell⟩) := by
  have hall := h
  obtain ⟨data, rfl, rfl, rfl, rfl, ha, hm⟩ := h.split
  rw [dense_store_eq]
  refine (points_fate m iw i).bind fun w n hw => ?_
  rw [← hw.1]
  have h := doc_storeAt m ha hm w.toNat v
  dsimp only at h
  revert h
  cases data.layout.locate m dw data.cells.count w.toNat with
  | none => exact id
  | some k =>
    rw [Option.bind_some, Option.bind_some]
    by_cases hg : m = .debug ∧ v.shape.width ≠ dw
    · rw [if_pos hg, if_pos hg]
      exact id
    · rw [if_neg hg, if_neg hg]
      cases data.layout.write dw data.cells.cell k v.shape with
      | none => exact id
      | some cell =>
        rintro ⟨r, hr1, hr2⟩
        exact ⟨r, hr1, hall.of_kept hr2⟩

/-- All numbers. -/
theorem Laid.putAllU64 {t : Sheet Nat Nat} (es : List (Word × Word)) {d : DenseArrayValue} {mem : Memory} (h : Laid iw dw l span d mem)
    (hes : ∀ e ∈ es, t.read e.1.toNat = e.2.toNat) :
    Fate (Laid iw dw l span) (d.putAllU64 m es) (l.fill m dw t mem (es.map fun e => e.1.toNat)) := by
  induction es generalizing d mem with
  | nil => exact ⟨d, rfl, h⟩
  | cons e es ih =>
    have hp := h.putU64 (m := m) e.1 e.2
    rw [← hes e (by simp)] at hp
    have hb := hp.bind (f := fun d => d.putAllU64 m es) (g := fun mem => l.fill m dw t mem (es.map fun e => e.1.toNat)) fun d' mem' h' =>
      ih h' fun e he => hes e (by simp [he])
    rw [Option.bind_assoc] at hb
    simp only [Option.bind_assoc, Option.bind_some] at hb
    exact hb

theorem setU64_numberAs (m : Mode) (w N v : Nat) (hv : v < 2 ^ 64) : (⟨w, need w, N⟩ : Shape).setU64 m v = numberAs m w v := by
  unfold Shape.setU64 numberAs masked
  dsimp only
  by_cases h0 : w = 0
  · subst h0
    rfl
  · have hn : need w ≠ 0 := by unfold need; omega
    have hf : fitted w (need w) = w := by unfold fitted need; omega
    rw [if_neg (by rintro (h | h); exact hn h; exact h.2 rfl), if_neg h0, hf]
    show (if m = .debug ∧ v % 2 ^ w % 2 ^ 64 ≠ v then none else some (⟨w, need w, v % 2 ^ w⟩ : Shape)) = _
    by_cases hc : v < 2 ^ w
    · rw [if_pos hc, Nat.mod_eq_of_lt hc, Nat.mod_eq_of_lt hv, if_neg (fun hh => hh.2 rfl)]
    · rw [if_neg hc]
      have hne : v % 2 ^ w % 2 ^ 64 ≠ v := by
        have h1 := Nat.mod_lt v (show 0 < 2 ^ w from Nat.pow_pos (by decide))
        have h2 := Nat.mod_le (v % 2 ^ w) (2 ^ 64)
        omega
      by_cases hm : m = .debug
      · rw [if_pos ⟨hm, hne⟩, if_pos hm]
      · rw [if_neg (fun hh => hm hh.1), if_neg hm]

/-- The reused index. -/
theorem reused_index (m : Mode) {vw : Nat} (hvw : vw < 2 ^ 32) {bv : BitVecValue} (hb : bv.width = vw ∧ bv.words.length = need vw) (v : Word) :
    Fate (fun r s => r.shape = s ∧ r.width = vw ∧ r.words.length = need vw) (bv.assignFromU64 m v) (numberAs m vw v.toNat) := by
  have h := C106_assign_from_u64 (a := bv) m v (by omega)
  have hs : bv.shape = ⟨vw, need vw, wordsVal bv.words⟩ := by
    unfold BitVecValue.shape
    rw [hb.1, hb.2]
  rw [hs, setU64_numberAs _ _ _ _ v.isLt] at h
  have hsh : ∀ s, numberAs m vw v.toNat = some s → s.width = vw ∧ s.words = need vw := by
    intro s hs
    unfold numberAs at hs
    split at hs
    · cases hs
    · split at hs
      · cases hs; exact ⟨rfl, rfl⟩
      · split at hs
        · cases hs
        · cases hs; exact ⟨rfl, rfl⟩
  cases hn : numberAs m vw v.toNat with
  | none => rw [hn] at h; exact h
  | some s =>
    rw [hn] at h
    obtain ⟨r, h1, h2, -⟩ := h
    obtain ⟨h3, h4⟩ := hsh s hn
    rw [← h2] at h3 h4
    exact ⟨r, h1, h2, h3, h4⟩

/-- All values. -/
theorem Laid.putAllBig {vw : Nat} (hvw : vw < 2 ^ 32) {t : Sheet Nat Shape} (es : List (Word × BitVecValue)) {d : DenseArrayValue} {mem : Memory}
    {bv : BitVecValue} (h : Laid iw dw l span d mem) (hb : bv.width = vw ∧ bv.words.length = need vw)
    (hes : ∀ e ∈ es, t.read e.1.toNat = e.2.shape) :
    Fate (Laid iw dw l span) (d.putAllBig m bv es) (l.fillWide m iw vw dw t mem (es.map fun e => e.1.toNat)) := by
  induction es generalizing d mem bv with
  | nil => exact ⟨d, rfl, h⟩
  | cons e es ih =>
    unfold DenseArrayValue.putAllBig
    refine (reused_index m hvw hb e.1).bind fun i s hi => ?_
    obtain ⟨rfl, hi⟩ := hi
    have hst := h.store (m := m) i e.2
    rw [← hes e (by simp)] at hst
    have hb := hst.bind (f := fun d => d.putAllBig m i es) (g := fun mem => l.fillWide m iw vw dw t mem (es.map fun e => e.1.toNat))
      fun d' mem' h' => ih h' hi fun e he => hes e (by simp [he])
    refine cast (congrArg (Fate _ _) ?_) hb
    rw [Option.bind_assoc]
    congr 1
    funext J
    rw [Option.bind_assoc]
    congr 1
    funext n
    dsimp only
    by_cases hg : m = .debug ∧ (t.read e.1.toNat).width ≠ dw
    · rw [if_pos hg, if_pos hg]
      rfl
    · rw [if_neg hg, if_neg hg, Option.bind_assoc]
      rfl

end

/-! ## From sparse to dense -/

theorem res_bind_assoc {α β γ : Type} (x : Res α) (f : α → Res β) (g : β → Res γ) : (x >>= f) >>= g = x >>= fun a => f a >>= g := by
  cases x <;> rfl

/-- What is known after an operation. -/
def Known118 (b : ArrayValue) (y : Account) : Prop := b.account = y ∧ Acceptable b ∧ y.InMemory

theorem standard_fate {s : SparseArrayValue} (ha : Acceptable (.sparse s)) (m : Mode) :
    Fate HasShape (s.default m) ((ArrayValue.sparse s).account.standard m) := by
  obtain ⟨iw, dw, data⟩ := s
  obtain ⟨-, hdl, hrep⟩ := ha
  dsimp only at hdl hrep
  cases data with
  | u64u64 d map => exact (makes_iff _ _).mp (numberAs_fate m hdl d)
  | u64big d map => exact ⟨d, rfl, rfl, hrep.1⟩
  | bigbig d map => exact ⟨d, rfl, rfl, hrep.1⟩

/-- The part that all sparse arrays share. -/
theorem densify_fate {s : SparseArrayValue} (ha : Acceptable (.sparse s)) (hr : (ArrayValue.sparse s).account.Roomy m)
    {f : DenseArrayValue → Res DenseArrayValue} {g : Shape → Memory → Option Memory}
    (hf : ∀ (d : DenseArrayValue) (x : Shape) mem span, Laid s.indexWidth x.width (CellLayout.of x.width) span d mem →
      Fate (Laid s.indexWidth x.width (CellLayout.of x.width) span) (f d) (g x mem)) :
    Fate Known118 (s.default m >>= fun dflt => DenseArrayValue.new m s.indexWidth dflt >>= fun dense =>
        debugAssert m (s.dataWidth == dense.dataWidth) >>= fun _ => debugAssert m (s.indexWidth == dense.indexWidth) >>= fun _ =>
        f dense >>= fun d => ok (ArrayValue.dense d))
      (((ArrayValue.sparse s).account.standard m).bind fun d => (elementCount m s.indexWidth).bind fun n => (Memory.create m s.indexWidth d).bind fun mem =>
        if m = .debug ∧ s.dataWidth ≠ d.width then none
        else (g d mem.within).map fun mem => ⟨s.indexWidth, d.width, .dense (CellLayout.of d.width) (if d.width = 1 then n % 2 ^ 32 else 0) mem⟩) := by
  have hst := standard_fate ha m
  have hiw : s.indexWidth < 2 ^ 32 := ha.1
  cases hx : (ArrayValue.sparse s).account.standard m with
  | none =>
    rw [hx] at hst
    exact panics_bind hst _
  | some x =>
    rw [hx] at hst
    obtain ⟨v, hv1, hv2, hv3⟩ := hst
    subst hv2
    replace hv3 : v.width < 2 ^ 32 := hv3
    rw [hv1, ok_bind, Option.bind_some]
    cases hn : elementCount m s.indexWidth with
    | none =>
      refine panics_bind ?_ _
      unfold DenseArrayValue.new
      refine panics_bind (panics_bind ?_ _) _
      have := numElements_fate m s.indexWidth
      rw [hn] at this
      exact this
    | some n =>
      rw [Option.bind_some]
      have hnew := laid_new (m := m) hiw hv3 hn (hr v.shape n hx hn)
      cases hmem : Memory.create m s.indexWidth v.shape with
      | none =>
        rw [hmem] at hnew
        exact panics_bind hnew _
      | some mem =>
        rw [hmem] at hnew
        obtain ⟨d, hd1, hd2⟩ := hnew
        rw [hd1, ok_bind, Option.bind_some]
        obtain ⟨data, rfl, -⟩ := hd2.split
        refine Fate.guard (s.dataWidth ≠ v.shape.width) (by simp [BitVecValue.shape]) fun _ => ?_
        dsimp only
        rw [show debugAssert m (s.indexWidth == s.indexWidth) = ok () by cases m <;> simp [debugAssert], ok_bind]
        refine (hf _ v.shape _ _ hd2).map fun r mem' hl => ⟨_, rfl, hl.1.account, hl.1.acceptable, hl.2⟩

theorem doc_makeDense {a : ArrayValue} (ha : Acceptable a) (hm : a.account.InMemory) (hr : a.account.Roomy m) :
    Exactly Known118 (fun env => a.makeDense m env) (a.account.MakesDense m) := by
  cases a with
  | dense d =>
    refine Exactly.of (some (ArrayValue.dense d).account) (fun r => ?_) fun env => ⟨_, rfl, rfl, ha, hm⟩
    obtain ⟨iw, dw, data⟩ := d
    cases data <;> exact Iff.rfl
  | sparse s =>
    have hall := ha
    obtain ⟨iw, dw, data⟩ := s
    obtain ⟨hiw, hdl, hrep⟩ := ha
    dsimp only at hiw hdl hrep
    cases data with
    | u64u64 d map =>
      have ht := entriesOf_tabled BitVec.toNat hrep
      have key : ∀ env : HashEnv, Fate Known118 ((ArrayValue.sparse ⟨iw, dw, .u64u64 d map⟩).makeDense m env)
          ((ArrayValue.sparse ⟨iw, dw, .u64u64 d map⟩).account.densified m ((env.order map.entries).map fun e => e.1.toNat)) := by
        intro env
        have h := densify_fate hall hr (f := fun dense => DenseArrayValue.putAllU64 m dense (env.order map.entries))
          (g := fun x mem => (CellLayout.of x.width).fill m x.width ⟨d.toNat, entriesOf BitVec.toNat map⟩ mem
            ((env.order map.entries).map fun e => e.1.toNat)) fun d' x mem span hl => by
          refine hl.putAllU64 _ fun e he => ?_
          have hg := (HMap.get_eq_some_iff hrep _ _).mpr ((env.order_perm _).mem_iff.mp he)
          rw [ht.read, hg]
          rfl
        refine cast (congrArg (fun x => Fate _ x _) ?_) h
        unfold ArrayValue.makeDense DenseArrayValue.ofSparse
        dsimp only
        simp only [res_bind_assoc]
      constructor
      · exact fun env => ⟨_, ⟨_, ht.lists word_inj (env.order_perm _) d.toNat, rfl⟩, key env⟩
      · rintro _ ⟨L, hL, rfl⟩
        have hl := ht.lists word_inj (.refl _) d.toNat
        obtain ⟨env, rfl⟩ := any_order map.entries (fun e => e.1.toNat) hl.1 hL.1 fun x => (hL.2 x).trans (hl.2 x).symm
        exact ⟨env, key env⟩
    | u64big d map =>
      obtain ⟨h1, h2, h3⟩ := hrep
      have ht := entriesOf_tabled BitVecValue.shape h2
      have key : ∀ env : HashEnv, Fate Known118 ((ArrayValue.sparse ⟨iw, dw, .u64big d map⟩).makeDense m env)
          ((ArrayValue.sparse ⟨iw, dw, .u64big d map⟩).account.densified m ((env.order map.entries).map fun e => e.1.toNat)) := by
        intro env
        have h := densify_fate hall hr (f := fun dense => DenseArrayValue.putAllBig m dense (BitVecValue.zero dw) (env.order map.entries))
          (g := fun x mem => (CellLayout.of x.width).fillWide m iw dw x.width ⟨d.shape, entriesOf BitVecValue.shape map⟩ mem
            ((env.order map.entries).map fun e => e.1.toNat)) fun d' x mem span hl => by
          refine hl.putAllBig hdl _ ⟨rfl, ?_⟩ fun e he => ?_
          · exact congrArg Shape.words (zero_shape dw)
          · have hg := (HMap.get_eq_some_iff h2 _ _).mpr ((env.order_perm _).mem_iff.mp he)
            rw [ht.read, hg]
            rfl
        refine cast (congrArg (fun x => Fate _ x _) ?_) h
        unfold ArrayValue.makeDense DenseArrayValue.ofSparse
        dsimp only
        simp only [res_bind_assoc]
      constructor
      · exact fun env => ⟨_, ⟨_, ht.lists word_inj (env.order_perm _) d.shape, rfl⟩, key env⟩
      · rintro _ ⟨L, hL, rfl⟩
        have hl := ht.lists word_inj (.refl _) d.shape
        obtain ⟨env, rfl⟩ := any_order map.entries (fun e => e.1.toNat) hl.1 hL.1 fun x => (hL.2 x).trans (hl.2 x).symm
        exact ⟨env, key env⟩
    | bigbig d map =>
      refine Exactly.of none (fun r => Iff.rfl) fun env => ?_
      show Panics ((_ >>= fun _ => _ >>= fun _ => _ >>= fun _ => _ >>= fun _ => Res.panic _) >>= fun _ => _)
      refine panics_bind (panics_bind_of _ fun _ _ => panics_bind_of _ fun _ _ => panics_bind_of _ fun _ _ => panics_bind_of _ fun _ _ => ?_) _
      exact ⟨_, rfl⟩

end Baa

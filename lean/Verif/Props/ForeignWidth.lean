import Verif.Props.MixedWidth
import Verif.Props.RawArray
import Verif.Spec.Histories

/-!
# C93: array operations with values of the wrong width in a release build

In a debug build `select` and `store` panic if the index or the data does not have the width of the array (C29). A release build carries
on. This file reduces what it does to operations with the right widths, which C89 predicts.
-/

namespace Baa
open Res BitVecValue

/-! ## Indices -/

theorem toU64_eq {i j : BitVecValue} {v w I : Nat} (hi : Raw i v I) (hj : Raw j w I) : i.toU64 = j.toU64 := by
  rw [C87_to_u64 hi, C87_to_u64 hj]

theorem toU64_none {i : BitVecValue} {v I : Nat} (hi : Raw i v I) (h : ¬ I < 2 ^ 64) : i.toU64 = none := by
  rw [C87_to_u64 hi, if_neg h]

/-- **C93** (index): in a release build an index of the wrong width acts like the index of the right width with the same number, and an
index that is not below 2^64 panics. -/
theorem C93_index (env : HashEnv) {a : ArrayValue} (ha : NarrowIndex a) {i : BitVecValue} {v I : Nat} (hi : Raw i v I) :
    (∀ {j w}, Raw j w I → a.select .release env i = a.select .release env j ∧
      ∀ d, a.store .release env i d = a.store .release env j d) ∧
    (2 ^ 64 ≤ I → Panics (a.select .release env i) ∧ ∀ d, Panics (a.store .release env i d)) := by
  constructor
  · intro j w hj
    have h := toU64_eq hi hj
    cases a with
    | dense d =>
      constructor
      · show DenseArrayValue.select .release d i = DenseArrayValue.select .release d j
        unfold DenseArrayValue.select
        rw [h]
        rfl
      · intro x
        show (DenseArrayValue.store .release d i x >>= _) = (DenseArrayValue.store .release d j x >>= _)
        unfold DenseArrayValue.store
        rw [h]
        rfl
    | sparse s =>
      obtain ⟨iw, dw, data⟩ := s
      constructor
      · show SparseArrayValue.select .release env _ i = SparseArrayValue.select .release env _ j
        unfold SparseArrayValue.select
        cases data with
        | bigbig _ _ => exact ha.elim
        | u64u64 _ _ => dsimp only; rw [h]; rfl
        | u64big _ _ => dsimp only; rw [h]; rfl
      · intro x
        show (SparseArrayValue.store .release env _ i x >>= _) = (SparseArrayValue.store .release env _ j x >>= _)
        unfold SparseArrayValue.store
        cases data with
        | bigbig _ _ => exact ha.elim
        | u64u64 _ _ => dsimp only; rw [h]; rfl
        | u64big _ _ => dsimp only; rw [h]; rfl
  · intro hI
    have h := toU64_none hi (by omega)
    cases a with
    | dense d =>
      constructor
      · show Panics (DenseArrayValue.select .release d i)
        unfold DenseArrayValue.select
        rw [h]
        exact ⟨.unwrap, rfl⟩
      · intro x
        show Panics (DenseArrayValue.store .release d i x >>= _)
        unfold DenseArrayValue.store
        rw [h]
        exact ⟨.unwrap, rfl⟩
    | sparse s =>
      obtain ⟨iw, dw, data⟩ := s
      constructor
      · show Panics (SparseArrayValue.select .release env _ i)
        unfold SparseArrayValue.select
        cases data with
        | bigbig _ _ => exact ha.elim
        | u64u64 _ _ => dsimp only; rw [h]; exact ⟨.unwrap, rfl⟩
        | u64big _ _ => dsimp only; rw [h]; exact ⟨.unwrap, rfl⟩
      · intro x
        show Panics (SparseArrayValue.store .release env _ i x >>= _)
        unfold SparseArrayValue.store
        cases data with
        | bigbig _ _ => exact ha.elim
        | u64u64 _ _ => dsimp only; rw [h]; exact ⟨.unwrap, rfl⟩
        | u64big _ _ => dsimp only; rw [h]; exact ⟨.unwrap, rfl⟩

/-! ## Data -/

theorem panics_bind_of {α β : Type} (x : Res α) {f : α → Res β} (h : ∀ y, x = ok y → Panics (f y)) : Panics (x >>= f) := by
  cases x with
  | panic p => exact ⟨p, rfl⟩
  | ok y => exact h y rfl

/-- **C93** (data of a dense array): in a release build data of the wrong width acts like data of the right width with the number that
`foreignData` gives, or panics. -/
theorem C93_dense_data {d : DenseArrayValue} (hd : DenseShape d) {x : BitVecValue} {v D : Nat} (hx : Raw x v D) :
    match foreignData .dense d.dataWidth v D with
    | none => ∀ i, Panics (d.store .release i x)
    | some E => ∀ {y}, Raw y d.dataWidth E → ∀ i, d.store .release i x = d.store .release i y := by
  obtain ⟨iw, dw, data⟩ := d
  unfold foreignData
  dsimp only
  have hrel : ∀ i z, DenseArrayValue.store .release ⟨iw, dw, data⟩ i z = (unwrap i.toU64 >>= fun j => match data with
      | .bit value => (z.isTru >>= fun t => (if t then value.setBit (j.toNat % U32) else value.clearBit (j.toNat % U32)) >>= fun value =>
        ok ⟨iw, dw, .bit value⟩)
      | .u8 values => (unwrap z.toU64 >>= fun v => setIdx values j.toNat (v.setWidth 8) >>= fun values => ok ⟨iw, dw, .u8 values⟩)
      | .u64 values => (unwrap z.toU64 >>= fun v => setIdx values j.toNat v >>= fun values => ok ⟨iw, dw, .u64 values⟩)
      | .big values => (mulC .release U64 (divCeil dw 64) j.toNat >>= fun start => addC .release U64 start (divCeil dw 64) >>= fun end_ =>
        modifyRange values start end_ (fun ws => BitVecValue.assign .release ⟨dw, ws⟩ z >>= fun r => ok r.words) >>= fun values =>
        ok ⟨iw, dw, .big values⟩)) := by
    intro i z
    cases data <;> rfl
  have hlow : ∀ {y : BitVecValue}, dw ≤ 64 → dw ≠ 1 → ((∀ l, data ≠ .bit l) ∧ ∀ l, data ≠ .big l) →
      (x.toU64 = none → ∀ i, Panics (DenseArrayValue.store .release ⟨iw, dw, data⟩ i x)) ∧
      (x.toU64 = y.toU64 → ∀ i, DenseArrayValue.store .release ⟨iw, dw, data⟩ i x = DenseArrayValue.store .release ⟨iw, dw, data⟩ i y) := by
    intro y _ _ hdat
    constructor
    · intro h i
      rw [hrel]
      refine panics_bind_of _ fun j _ => ?_
      cases data with
      | bit l => exact absurd rfl (hdat.1 l)
      | big l => exact absurd rfl (hdat.2 l)
      | u8 l => dsimp only; rw [h]; exact ⟨.unwrap, rfl⟩
      | u64 l => dsimp only; rw [h]; exact ⟨.unwrap, rfl⟩
    · intro h i
      rw [hrel, hrel]
      cases data with
      | bit l => exact absurd rfl (hdat.1 l)
      | big l => exact absurd rfl (hdat.2 l)
      | u8 l => dsimp only; rw [h]
      | u64 l => dsimp only; rw [h]
  cases data with
  | bit l =>
    have h1 : dw = 1 := hd
    rw [if_pos ⟨rfl, h1⟩]
    dsimp only
    intro y hy i
    rw [hrel, hrel]
    dsimp only
    rw [(C87_bools hx).1, (C87_bools hy).1]
    by_cases hv : v = 1
    · rw [if_pos hv]
      simp [hv, h1]
    · rw [if_neg hv]
      simp [hv]
  | u8 l =>
    have h1 : dw ≠ 1 ∧ dw ≤ 8 := hd
    rw [if_neg (fun h => h1.1 h.2), if_pos (by omega)]
    by_cases hD : D < 2 ^ 64
    · rw [if_pos hD]
      dsimp only
      intro y hy
      exact (hlow (by omega) h1.1 ⟨(by intro l h; cases h), (by intro l h; cases h)⟩).2 (toU64_eq hx hy)
    · rw [if_neg hD]
      exact (hlow (y := x) (by omega) h1.1 ⟨(by intro l h; cases h), (by intro l h; cases h)⟩).1 (toU64_none hx hD)
  | u64 l =>
    have h1 : 8 < dw ∧ dw ≤ 64 := hd
    rw [if_neg (fun h => by omega), if_pos (by omega)]
    by_cases hD : D < 2 ^ 64
    · rw [if_pos hD]
      dsimp only
      intro y hy
      exact (hlow (by omega) (by omega) ⟨(by intro l h; cases h), (by intro l h; cases h)⟩).2 (toU64_eq hx hy)
    · rw [if_neg hD]
      exact (hlow (y := x) (by omega) (by omega) ⟨(by intro l h; cases h), (by intro l h; cases h)⟩).1 (toU64_none hx hD)
  | big l =>
    have h1 : 64 < dw ∧ dw < 4294967296 := hd
    rw [if_neg (fun h => by omega), if_neg (by omega)]
    have hxl := hx.length_eq
    by_cases hc : capacity v = capacity dw
    · rw [if_pos hc]
      dsimp only
      intro y hy i
      have hyl := hy.length_eq
      have hw : x.words = y.words := wordsVal_inj (by unfold capacity at hc; omega) (by rw [hx.val_eq, hy.val_eq])
      rw [hrel, hrel]
      dsimp only
      have : ∀ ws, BitVecValue.assign .release ⟨dw, ws⟩ x = BitVecValue.assign .release ⟨dw, ws⟩ y := by
        intro ws
        show (if ws.length = x.words.length then _ else _) = (if ws.length = y.words.length then _ else _)
        rw [hw]
      simp only [this]
    · rw [if_neg hc]
      dsimp only
      intro i
      rw [hrel]
      refine panics_bind_of _ fun j _ => panics_bind_of _ fun start hs => panics_bind_of _ fun end_ he => panics_bind ?_ _
      unfold modifyRange
      refine panics_bind_of _ fun ws hws => panics_bind (panics_bind ⟨.lenMismatch, ?_⟩ _) _
      show (if ws.length = x.words.length then _ else _) = _
      refine if_neg fun hl => hc ?_
      unfold sliceR at hws
      split at hws
      · next hr =>
        cases hws
        have hU : (U64 : Nat) = 2 ^ 64 := rfl
        have hlen : ((l.drop start).take (end_ - start)).length = end_ - start := by simp; omega
        rw [hlen] at hl
        have he2 : end_ = start + divCeil dw 64 := by
          unfold addC at he
          split at he
          · cases he; rfl
          · cases he
            have hst : start < U64 := by
              unfold mulC at hs
              split at hs
              · cases hs; assumption
              · cases hs; exact Nat.mod_lt _ (by decide)
            have hdc : divCeil dw 64 = (dw + 63) / 64 := rfl
            have h3 : (start + divCeil dw 64) % 18446744073709551616 < start := by
              have h2 : start < 18446744073709551616 := hst
              rename_i hge
              have h4 : ¬ start + divCeil dw 64 < 18446744073709551616 := hge
              omega
            have h5 : start ≤ (start + divCeil dw 64) % 18446744073709551616 := hr.1
            omega
        have hdc : divCeil dw 64 = (dw + 63) / 64 := rfl
        unfold capacity
        omega
      · cases hws

/-- **C93** (data of a sparse array with data of up to 64 bits). -/
theorem C93_sparse_data (env : HashEnv) {s : SparseArrayValue} {z : Word} {map : HMap Word Word} (hs : s.data = .u64u64 z map)
    (hdw : s.dataWidth ≤ 64) {x : BitVecValue} {v D : Nat} (hx : Raw x v D) :
    match foreignData .sparse s.dataWidth v D with
    | none => ∀ i, Panics (s.store .release env i x)
    | some E => ∀ {y}, Raw y s.dataWidth E → ∀ i, s.store .release env i x = s.store .release env i y := by
  obtain ⟨iw, dw, data⟩ := s
  dsimp only at hs hdw
  subst hs
  unfold foreignData
  dsimp only
  rw [if_neg (fun h => by cases h.1), if_pos hdw]
  have hrel : ∀ i t, SparseArrayValue.store .release env ⟨iw, dw, .u64u64 z map⟩ i t = (unwrap i.toU64 >>= fun j => unwrap t.toU64 >>= fun e =>
      if e = z then ok ⟨iw, dw, .u64u64 z (map.remove j)⟩ else ok ⟨iw, dw, .u64u64 z (map.insert j e)⟩) := fun _ _ => rfl
  by_cases hD : D < 2 ^ 64
  · rw [if_pos hD]
    dsimp only
    intro y hy i
    rw [hrel, hrel, toU64_eq hx hy]
  · rw [if_neg hD]
    dsimp only
    intro i
    rw [hrel, toU64_none hx hD]
    exact panics_bind_of _ fun j _ => ⟨.unwrap, rfl⟩

/-! ## Histories -/

variable {iw dw : Nat}

theorem DenseCells.shape {d : DenseArrayValue} {mem : Nat → Nat} (h : DenseCells iw dw d mem) : DenseShape d := by
  obtain ⟨hiw, hdw, hlt, hpos, hdl, hrep⟩ := h
  obtain ⟨_, _, data⟩ := d
  dsimp only at hiw hdw hrep
  subst hiw hdw
  unfold DenseShape
  dsimp only
  cases data with
  | bit l => exact hrep.1
  | u8 l => exact ⟨hrep.1, hrep.2.1⟩
  | u64 l => exact ⟨hrep.1, hrep.2.1⟩
  | big l => exact ⟨hrep.1, hdl⟩

theorem raw_word {w N : Nat} (h0 : 0 < w) (hw : w ≤ 64) (hN : N < 2 ^ 64) : Raw ⟨w, [BitVec.ofNat 64 N]⟩ w N :=
  ⟨by omega, rfl, by show 1 = _; omega, by
    show (BitVec.ofNat 64 N).toNat + 2 ^ 64 * 0 = N
    rw [ofNat64_toNat hN]
    omega⟩

theorem Raw.slot {v : BitVecValue} {w N : Nat} (h : Raw v w N) : Slot v w := ⟨h.width_lt, h.width_eq, h.length_eq⟩

theorem HoldsCells.narrow {k : Kind} {a : ArrayValue} {mem : Nat → Nat} {D : Nat} (h : HoldsCells k iw dw a mem D) :
    NarrowIndex a := by
  cases k with
  | dense => obtain ⟨d, rfl, -⟩ := h.dense rfl; exact trivial
  | sparse =>
    obtain ⟨s, rfl, hs⟩ := h.sparse rfl
    have := hs.rep
    obtain ⟨_, _, data⟩ := s
    cases data with
    | bigbig _ _ => exact this.elim
    | u64u64 _ _ => exact trivial
    | u64big _ _ => exact trivial

theorem HoldsCells.index_le {k : Kind} {a : ArrayValue} {mem : Nat → Nat} {D : Nat} (h : HoldsCells k iw dw a mem D) : iw ≤ 64 := by
  cases k with
  | dense => obtain ⟨d, rfl, hd⟩ := h.dense rfl; have := hd.index_lt; omega
  | sparse => obtain ⟨s, rfl, hs⟩ := h.sparse rfl; exact hs.index_le

theorem HoldsCells.data_pos {k : Kind} {a : ArrayValue} {mem : Nat → Nat} {D : Nat} (h : HoldsCells k iw dw a mem D) :
    0 < dw ∧ dw < 2 ^ 32 := by
  cases k with
  | dense => obtain ⟨d, rfl, hd⟩ := h.dense rfl; exact ⟨hd.data_pos, hd.data_lt⟩
  | sparse => obtain ⟨s, rfl, hs⟩ := h.sparse rfl; exact ⟨hs.data_pos, hs.data_lt⟩

/-- A number that data of any width can leave in the array is the number of some data of the right width. -/
theorem foreignData_raw {k : Kind} (h0 : 0 < dw ∧ dw < 2 ^ 32) {x : BitVecValue} {v D E : Nat} (hx : Raw x v D)
    (h : foreignData k dw v D = some E) : ∃ y, Raw y dw E := by
  unfold foreignData at h
  by_cases h1 : k = .dense ∧ dw = 1
  · rw [if_pos h1] at h
    refine ⟨_, raw_word h0.1 (by omega) ?_⟩
    cases h
    split
    · next hv =>
      subst hv
      exact hx.lt
    · decide
  · rw [if_neg h1] at h
    by_cases h2 : dw ≤ 64
    · rw [if_pos h2] at h
      by_cases h3 : D < 2 ^ 64
      · rw [if_pos h3] at h
        cases h
        exact ⟨_, raw_word h0.1 h2 h3⟩
      · rw [if_neg h3] at h
        cases h
    · rw [if_neg h2] at h
      by_cases h3 : capacity v = capacity dw
      · rw [if_pos h3] at h
        cases h
        refine ⟨⟨dw, x.words⟩, h0.2, rfl, ?_, hx.val_eq⟩
        have := hx.length_eq
        unfold capacity at h3
        show x.words.length = _
        omega
      · rw [if_neg h3] at h
        cases h

/-- Data of any width, for an array that holds cells. -/
theorem HoldsCells.data_of (env : HashEnv) {k : Kind} {a : ArrayValue} {mem : Nat → Nat} {D : Nat} (h : HoldsCells k iw dw a mem D)
    (hk : k = .dense ∨ dw ≤ 64) {x : BitVecValue} {v E : Nat} (hx : Raw x v E) :
    (foreignData k dw v E = none → ∀ i, Panics (a.store .release env i x)) ∧
    (∀ F y, foreignData k dw v E = some F → Raw y dw F → ∀ i, a.store .release env i x = a.store .release env i y) := by
  cases k with
  | dense =>
    obtain ⟨d, rfl, hd⟩ := h.dense rfl
    have h1 := C93_dense_data hd.shape hx
    rw [hd.dataWidth] at h1
    constructor
    · intro hf i
      rw [hf] at h1
      exact panics_bind (h1 i) _
    · intro F y hf hy i
      rw [hf] at h1
      show (DenseArrayValue.store .release d i x >>= _) = (DenseArrayValue.store .release d i y >>= _)
      rw [h1 hy i]
  | sparse =>
    obtain ⟨s, rfl, hs⟩ := h.sparse rfl
    have hdw : dw ≤ 64 := by
      rcases hk with hk | hk
      · cases hk
      · exact hk
    have hrep := hs.rep
    cases hdata : s.data with
    | bigbig _ _ => rw [hdata] at hrep; exact hrep.elim
    | u64big _ _ =>
      rw [hdata] at hrep
      have := hrep.1
      omega
    | u64u64 z map =>
      have h1 := C93_sparse_data env hdata (by rw [hs.dataWidth]; exact hdw) hx
      rw [hs.dataWidth] at h1
      constructor
      · intro hf i
        rw [hf] at h1
        exact panics_bind (h1 i) _
      · intro F y hf hy i
        rw [hf] at h1
        show (SparseArrayValue.store .release env s i x >>= _) = (SparseArrayValue.store .release env s i y >>= _)
        rw [h1 hy i]

theorem HoldsCells.run_foreign (env : HashEnv) {k : Kind} (hiw : 0 < iw) {a : ArrayValue} {mem : Nat → Nat} {D : Nat}
    (h : HoldsCells k iw dw a mem D) (hk : k = .dense ∨ dw ≤ 64) (op : RawOp) (hf : op.Words) (hnw : op.NoWrap .release k dw) :
    RunOutcome k iw dw (defaultAfter D [op]) (op.run .release env a) (op.foreignEffect k iw dw mem) := by
  cases op with
  | clear => exact h.run_op .release env .clear trivial trivial
  | store i x =>
    have hidx := C93_index env h.narrow hf.1.raw
    unfold RawOp.foreignEffect foreignReached
    dsimp only
    show RunOutcome _ _ _ _ (a.store .release env i x) _
    by_cases hI : wordsVal i.words < 2 ^ 64
    · rw [if_pos hI]
      have hj := raw_word hiw h.index_le hI
      rw [(hidx.1 hj).2]
      obtain ⟨hd1, hd2⟩ := h.data_of env hk hf.2.raw
      cases hfd : foreignData k dw x.width (wordsVal x.words) with
      | none =>
        have := hd1 hfd ⟨iw, [BitVec.ofNat 64 (wordsVal i.words)]⟩
        cases reached k iw dw (wordsVal i.words) <;> exact this
      | some E =>
        obtain ⟨y, hy⟩ := foreignData_raw h.data_pos hf.2.raw hfd
        rw [hd2 E y hfd hy]
        have h1 := h.run_op .release env (.store ⟨iw, [BitVec.ofNat 64 (wordsVal i.words)]⟩ y) ⟨hj.slot, hy.slot⟩
          (by show NoWrap _ _ _ (wordsVal [_]); rw [hj.val_eq]; exact hnw)
        unfold RawOp.effect at h1
        dsimp only at h1
        rw [hj.val_eq, hy.val_eq] at h1
        cases hr : reached k iw dw (wordsVal i.words) with
        | none => rw [hr] at h1; exact h1
        | some n => rw [hr] at h1; exact h1
    · rw [if_neg hI]
      exact (hidx.2 (by omega)).2 x

/-- **C93** (histories): for a new array of either kind, except sparse ones with data of more than 64 bits, any history of stores and
clears with values of any width in a release build, and any final `select`, the specification of cells predicts the panics and the
result. -/
theorem C93_history (env : HashEnv) (k : Kind) (hadm : Admissible k iw dw) (hiw : 0 < iw) (hk : k = .dense ∨ dw ≤ 64) {v : BitVecValue}
    (hv : Slot v dw) (ops : List RawOp) (hf : ∀ op ∈ ops, op.Words) (hnw : ∀ op ∈ ops, op.NoWrap .release k dw) :
    ∃ a, newOf k .release iw v = ok a ∧
    match foreignAfter k iw dw (startCells k iw dw (wordsVal v.words)) ops with
    | none => Panics (runRaw .release env a ops)
    | some mem => ∃ b, runRaw .release env a ops = ok b ∧ ∀ i, Slot i i.width → NoWrap .release k dw (wordsVal i.words) →
        Outcome (b.select .release env i) dw
          ((foreignReached k iw dw (wordsVal i.words)).bind fun n => shown .release dw (mem n)) := by
  have hrun : ∀ (ops : List RawOp) {a : ArrayValue} {mem : Nat → Nat} {D : Nat}, HoldsCells k iw dw a mem D → (∀ op ∈ ops, op.Words) →
      (∀ op ∈ ops, op.NoWrap .release k dw) →
      RunOutcome k iw dw (defaultAfter D ops) (runRaw .release env a ops) (foreignAfter k iw dw mem ops) := by
    intro ops
    induction ops with
    | nil => intro a mem D h _ _; exact ⟨a, rfl, h⟩
    | cons op ops ih =>
      intro a mem D h hf hnw
      have h1 := h.run_foreign env hiw hk op (hf op List.mem_cons_self) (hnw op List.mem_cons_self)
      unfold foreignAfter runRaw
      cases he : op.foreignEffect k iw dw mem with
      | none =>
        rw [he] at h1
        exact panics_bind h1 _
      | some mem' =>
        rw [he] at h1
        obtain ⟨b, h2, h3⟩ := h1
        have h4 := ih h3 (fun o ho => hf o (List.mem_cons_of_mem _ ho)) (fun o ho => hnw o (List.mem_cons_of_mem _ ho))
        rw [h2, ok_bind]
        cases op <;> exact h4
  have hnew := new_holdsCells k .release hadm hv
  rw [if_neg (fun h => by cases h.2.1)] at hnew
  obtain ⟨a, ha, hh⟩ := hnew
  refine ⟨a, ha, ?_⟩
  have h1 := hrun ops hh hf hnw
  cases hc : foreignAfter k iw dw (startCells k iw dw (wordsVal v.words)) ops with
  | none => rw [hc] at h1; exact h1
  | some mem =>
    rw [hc] at h1
    obtain ⟨b, hb, hm⟩ := h1
    refine ⟨b, hb, fun i hi hw => ?_⟩
    have hidx := C93_index env hm.narrow hi.raw
    unfold foreignReached
    by_cases hI : wordsVal i.words < 2 ^ 64
    · rw [if_pos hI]
      have hj := raw_word hiw hm.index_le hI
      rw [(hidx.1 hj).1]
      have := hm.select_of .release env hj.slot (by show NoWrap _ _ _ (wordsVal [_]); rw [hj.val_eq]; exact hw)
      rw [hj.val_eq] at this
      exact this
    · rw [if_neg hI]
      exact (hidx.2 (by omega)).1

/-! ## Sparse arrays with wide data -/

/-- The hash map holds the cells. -/
structure WideRep (iw dw : Nat) (a : ArrayValue) (c : WideCells) : Prop where
  rep : ∃ d map, a = .sparse ⟨iw, dw, .u64big d map⟩ ∧ Raw d dw c.default ∧
    ∀ j : Word, Raw ((map.get j).getD d) (c.cell j.toNat).1 (c.cell j.toNat).2

/-- The outcome of a run: an array that holds the cells, or a panic. -/
def WideOutcome (iw dw : Nat) (r : Res ArrayValue) : Option WideCells → Prop
  | none => Panics r
  | some c => ∃ b, r = ok b ∧ WideRep iw dw b c

theorem WideRep.run_op (env : HashEnv) {a : ArrayValue} {c : WideCells} (h : WideRep iw dw a c) (op : RawOp) (hf : op.Words) :
    WideOutcome iw dw (op.run .release env a) (op.wideEffect dw c) := by
  obtain ⟨d, map, rfl, hd, hc⟩ := h.rep
  cases op with
  | clear =>
    have hz := (C01_zero hd.width_lt).raw
    simp only [BitVec.toNat_ofNat, Nat.zero_mod] at hz
    exact ⟨_, rfl, ⟨_, _, rfl, hz, fun j => hz⟩⟩
  | store i x =>
    unfold RawOp.wideEffect
    dsimp only
    have hi := hf.1.raw
    have hrun : (RawOp.store i x).run .release env (.sparse ⟨iw, dw, .u64big d map⟩) = ((unwrap i.toU64 >>= fun j =>
        BitVecValue.isEqual .release x d >>= fun e => if e then ok (⟨iw, dw, .u64big d (map.remove j)⟩ : SparseArrayValue)
          else ok ⟨iw, dw, .u64big d (map.insert j x)⟩) >>= fun v => ok (.sparse v)) := rfl
    rw [hrun]
    by_cases hI : wordsVal i.words < 2 ^ 64
    · rw [if_pos hI, C87_to_u64 hi, if_pos hI]
      rw [show unwrap (some (BitVec.ofNat 64 (wordsVal i.words))) = ok (BitVec.ofNat 64 (wordsVal i.words)) from rfl, ok_bind,
        mixed_equal hf.2.raw hd, ok_bind]
      have hn : ∀ j : Word, (j = BitVec.ofNat 64 (wordsVal i.words)) ↔ j.toNat = wordsVal i.words := by
        intro j
        constructor
        · rintro rfl; exact ofNat64_toNat hI
        · intro hj; exact BitVec.eq_of_toNat_eq (by rw [ofNat64_toNat hI, hj])
      by_cases he : wordsVal x.words % 2 ^ shared x.width dw = c.default % 2 ^ shared x.width dw
      · rw [decide_eq_true he, if_pos rfl]
        refine ⟨_, rfl, ⟨_, _, rfl, hd, fun j => ?_⟩⟩
        dsimp only
        rw [if_pos he]
        by_cases hj : j = BitVec.ofNat 64 (wordsVal i.words)
        · rw [if_pos ((hn j).mp hj), hj, HMap.get_remove_self]
          exact hd
        · rw [if_neg (fun hh => hj ((hn j).mpr hh)), HMap.get_remove_ne _ hj]
          exact hc j
      · rw [decide_eq_false he, if_neg (by simp)]
        refine ⟨_, rfl, ⟨_, _, rfl, hd, fun j => ?_⟩⟩
        dsimp only
        rw [if_neg he]
        by_cases hj : j = BitVec.ofNat 64 (wordsVal i.words)
        · rw [if_pos ((hn j).mp hj), hj, HMap.get_insert_self]
          exact hf.2.raw
        · rw [if_neg (fun hh => hj ((hn j).mpr hh)), HMap.get_insert_ne _ _ hj]
          exact hc j
    · rw [if_neg hI, C87_to_u64 hi, if_neg hI]
      exact ⟨.unwrap, rfl⟩

/-- **C93** (sparse arrays with data of more than 64 bits): `select` returns the value that was stored, with its own width. Only the
words that the value and the default both have decide whether the cell is reset to the default. -/
theorem C93_wide_history (env : HashEnv) (hiw : iw ≤ 64) (hdw : 64 < dw) {v : BitVecValue} (hv : Slot v dw) (ops : List RawOp)
    (hf : ∀ op ∈ ops, op.Words) :
    ∃ a, newOf .sparse .release iw v = ok a ∧
    match wideAfter dw ⟨fun _ => (dw, wordsVal v.words), wordsVal v.words⟩ ops with
    | none => Panics (runRaw .release env a ops)
    | some c => ∃ b, runRaw .release env a ops = ok b ∧ ∀ i, Slot i i.width →
        Outcome (b.select .release env i) (c.cell (wordsVal i.words)).1
          (if wordsVal i.words < 2 ^ 64 then some (c.cell (wordsVal i.words)).2 else none) := by
  have hrun : ∀ (ops : List RawOp) {a : ArrayValue} {c : WideCells}, WideRep iw dw a c → (∀ op ∈ ops, op.Words) →
      WideOutcome iw dw (runRaw .release env a ops) (wideAfter dw c ops) := by
    intro ops
    induction ops with
    | nil => intro a c h _; exact ⟨a, rfl, h⟩
    | cons op ops ih =>
      intro a c h hf
      have h1 := h.run_op env op (hf op List.mem_cons_self)
      unfold wideAfter runRaw
      cases he : op.wideEffect dw c with
      | none =>
        rw [he] at h1
        exact panics_bind h1 _
      | some c' =>
        rw [he] at h1
        obtain ⟨b, h2, h3⟩ := h1
        rw [h2, ok_bind]
        exact ih h3 fun o ho => hf o (List.mem_cons_of_mem _ ho)
  have hnew : newOf .sparse .release iw v = ok (.sparse ⟨iw, dw, .u64big v HMap.empty⟩) := by
    show (SparseArrayValue.new iw v >>= _) = _
    unfold SparseArrayValue.new
    have h0 : ¬ iw > BITS := by show ¬ iw > 64; omega
    have h1 : dw > BITS := hdw
    dsimp only
    rw [hv.width_eq, if_neg h0, if_pos h1]
    rfl
  refine ⟨_, hnew, ?_⟩
  have h1 := hrun ops (a := .sparse ⟨iw, dw, .u64big v HMap.empty⟩) (c := ⟨fun _ => (dw, wordsVal v.words), wordsVal v.words⟩)
    ⟨v, HMap.empty, rfl, hv.raw, fun j => hv.raw⟩ hf
  cases hc : wideAfter dw ⟨fun _ => (dw, wordsVal v.words), wordsVal v.words⟩ ops with
  | none => rw [hc] at h1; exact h1
  | some c =>
    rw [hc] at h1
    obtain ⟨b, hb, hm⟩ := h1
    refine ⟨b, hb, fun i hi => ?_⟩
    obtain ⟨d, map, rfl, hd, hcell⟩ := hm.rep
    have hsel : (ArrayValue.sparse ⟨iw, dw, .u64big d map⟩).select .release env i = (unwrap i.toU64 >>= fun j => ok ((map.get j).getD d)) := rfl
    rw [hsel, C87_to_u64 hi.raw]
    by_cases hI : wordsVal i.words < 2 ^ 64
    · rw [if_pos hI, if_pos hI]
      have := hcell (BitVec.ofNat 64 (wordsVal i.words))
      rw [ofNat64_toNat hI] at this
      exact ⟨_, rfl, this⟩
    · rw [if_neg hI, if_neg hI]
      exact ⟨.unwrap, rfl⟩

/-! ## Concrete cases -/

/-- Values of foreign widths meet the hypotheses: an eight-bit index and 200-bit data for an array of four-bit elements. -/
example : Admissible .dense 2 4 ∧ (RawOp.store (encode 1#8) (encode 9#200)).Words ∧
    (RawOp.store (encode 1#8) (encode 9#200)).NoWrap .release .dense 4 ∧ foreignData .dense 4 200 9 = some 9 ∧
    foreignData .dense 4 200 (2 ^ 64) = none ∧ foreignData .dense 1 2 1 = some 0 ∧ foreignReached .dense 2 4 1 = some 1 :=
  ⟨by unfold Admissible Addressable storageBytes; decide, ⟨⟨by decide, rfl, rfl⟩, ⟨by decide, rfl, rfl⟩⟩, .inr (.inr (.inl (by decide))),
    by decide, by decide, by decide, by decide⟩

/-- An index and data of the wrong width work as if they had the right one; a debug build panics. -/
example :
    (do let a ← newOf .dense .release 2 (encode 0#4)
        let a ← a.store .release listEnv (encode 1#8) (encode 9#200)
        a.select .release listEnv (encode 1#100)) = ok (encode 9#4) ∧
    Panics (do let a ← newOf .dense .debug 2 (encode 0#4)
               a.store .debug listEnv (encode 1#8) (encode 9#4)) :=
  ⟨by decide, ⟨.debugAssert, by rfl⟩⟩

/-- A dense array of bits takes a two-bit 1 for 0, and clears the bit. A sparse one takes it for 1. -/
example :
    (do let a ← newOf .dense .release 2 (encode 1#1)
        let a ← a.store .release listEnv (encode 1#2) (encode 1#2)
        a.select .release listEnv (encode 1#2)) = ok (encode 0#1) ∧
    (do let a ← newOf .sparse .release 2 (encode 0#1)
        let a ← a.store .release listEnv (encode 1#2) (encode 1#2)
        a.select .release listEnv (encode 1#2)) = ok (encode 1#1) := by decide

/-- A sparse array of 65-bit data returns what was stored, with the wrong width, unless its words agree with those of the default: then
the data is lost. -/
example :
    (do let a ← newOf .sparse .release 2 (encode 5#65)
        let a ← a.store .release listEnv (encode 1#2) (encode 7#8)
        a.select .release listEnv (encode 1#2)) = ok (encode 7#8) ∧
    (do let a ← newOf .sparse .release 2 (encode 0x10000000000000005#65)
        let a ← a.store .release listEnv (encode 1#2) (encode 5#8)
        a.select .release listEnv (encode 1#2)) = ok (encode 0x10000000000000005#65) := by decide

end Baa

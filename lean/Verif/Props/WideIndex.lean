import Verif.Props.ForeignWidth
import Verif.Props.ArrayExact
import Verif.Spec.Histories

/-!
# C98: sparse arrays with more than 64 index bits, on arbitrary words

C50 shows that such arrays lose access to what was stored. This file predicts every history of them, for indices and data with any words,
and in a release build of any width. The outcome depends on the hash table only through the elements that it happens to compare.
-/

namespace Baa
open Res BitVecValue

/-! ## The hash table -/

variable {iw dw : Nat}

theorem nameOf_inj {u v : BitVecValue} (hu : Slot u u.width) (hv : Slot v v.width) (h : nameOf u = nameOf v) : u = v := by
  have h1 : u.width = v.width := congrArg Prod.fst h
  have h2 : wordsVal u.words = wordsVal v.words := congrArg Prod.snd h
  have hu' := hu.raw
  have hv' := hv.raw
  rw [h1, h2] at hu'
  exact hu'.unique hv'

/-- The hash table holds the cells. -/
structure LongRep (dw : Nat) (d : BitVecValue) (map : HMap BitVecValue BitVecValue) (c : LongCells) : Prop where
  dflt : Raw d dw c.default
  nodup : map.Nodup
  slots : ∀ k v, map.get k = some v → Slot k k.width ∧ Slot v v.width
  get : ∀ k, Slot k k.width → (map.get k).map nameOf = c.stored (nameOf k)
  named : ∀ n, c.stored n ≠ none → ∃ k, Slot k k.width ∧ nameOf k = n

theorem LongRep.key_mem {d : BitVecValue} {map : HMap BitVecValue BitVecValue} {c : LongCells} (h : LongRep dw d map c) {i : BitVecValue}
    (hi : Slot i i.width) : i ∈ map.entries.map Prod.fst ↔ c.stored (nameOf i) ≠ none := by
  rw [← h.get i hi]
  constructor
  · intro hm
    obtain ⟨⟨k, v⟩, he, hk⟩ := List.mem_map.mp hm
    dsimp only at hk
    subst hk
    rw [(HMap.get_eq_some_iff h.nodup _ _).mpr he]
    simp
  · intro hn
    cases hg : map.get i with
    | none => rw [hg] at hn; exact absurd rfl hn
    | some v => exact List.mem_map.mpr ⟨(i, v), (HMap.get_eq_some_iff h.nodup _ _).mp hg, rfl⟩

theorem LongRep.entries_nil {d : BitVecValue} {map : HMap BitVecValue BitVecValue} {c : LongCells} (h : LongRep dw d map c)
    (hc : ∀ n, c.stored n = none) : map.entries = [] := by
  apply List.eq_nil_iff_forall_not_mem.mpr
  rintro ⟨k, v⟩ he
  have hg := (HMap.get_eq_some_iff h.nodup _ _).mpr he
  have h1 := h.get k (h.slots k v hg).1
  rw [hg, hc] at h1
  cases h1

theorem LongRep.equal_default (m : Mode) {d : BitVecValue} {map : HMap BitVecValue BitVecValue} {c : LongCells} (h : LongRep dw d map c)
    {x : BitVecValue} (hx : Slot x x.width) (hw : m = .debug → x.width = dw) :
    BitVecValue.isEqual m x d = ok (decide (c.IsDefault dw x)) := by
  cases m with
  | release =>
    exact mixed_equal hx.raw h.dflt
  | debug =>
    have hxw := hw rfl
    have hx' := hx.raw
    rw [hxw] at hx'
    rw [raw_eq .debug hx' h.dflt]
    congr 1
    rw [decide_eq_decide]
    unfold LongCells.IsDefault
    have h1 : shared dw dw = capacity dw := Nat.min_self _
    rw [hxw, h1, Nat.mod_eq_of_lt hx'.lt, Nat.mod_eq_of_lt h.dflt.lt]

theorem LongRep.insert {d : BitVecValue} {map : HMap BitVecValue BitVecValue} {c : LongCells} (h : LongRep dw d map c) {i x : BitVecValue}
    (hi : Slot i i.width) (hx : Slot x x.width) :
    LongRep dw d (map.insert i x) ⟨c.default, fun k => if k = nameOf i then some (nameOf x) else c.stored k⟩ where
  dflt := h.dflt
  nodup := HMap.nodup_insert h.nodup i x
  slots := by
    intro k v hg
    rw [HMap.get_insert] at hg
    split at hg
    · rename_i hk
      cases hg
      subst hk
      exact ⟨hi, hx⟩
    · exact h.slots k v hg
  get := by
    intro k hk
    dsimp only
    rw [HMap.get_insert]
    by_cases hki : k = i
    · rw [if_pos hki, if_pos (by rw [hki])]
      rfl
    · rw [if_neg hki, if_neg (fun hn => hki (nameOf_inj hk hi hn))]
      exact h.get k hk
  named := by
    intro n hn
    dsimp only at hn
    split at hn
    · rename_i hni
      exact ⟨i, hi, hni.symm⟩
    · exact h.named n hn

/-- The array with the given default and hash table. -/
def longArray (iw dw : Nat) (d : BitVecValue) (map : HMap BitVecValue BitVecValue) : ArrayValue := .sparse ⟨iw, dw, .bigbig d map⟩

theorem Slot.fits {u v : BitVecValue} (m : Mode) (hu : Slot u u.width) (hv : Slot v v.width) : Fits m u v := by
  intro _ hw
  rw [hu.length_eq, hv.length_eq, hw]

theorem LongRep.key_fits (m : Mode) {d : BitVecValue} {map : HMap BitVecValue BitVecValue} {c : LongCells} (h : LongRep dw d map c)
    {i : BitVecValue} (hi : Slot i i.width) : ∀ k ∈ map.entries.map Prod.fst, Fits m i k := by
  intro k hk
  obtain ⟨⟨k', x⟩, he, rfl⟩ := List.mem_map.mp hk
  exact hi.fits m (h.slots k' x ((HMap.get_eq_some_iff h.nodup _ _).mpr he)).1

/-- Looking for an index with the right number of words does not panic. -/
theorem LongRep.lookup (m : Mode) (env : HashEnv) {d : BitVecValue} {map : HMap BitVecValue BitVecValue} {c : LongCells}
    (h : LongRep dw d map c) {i : BitVecValue} (hi : Slot i i.width) : lookupOwned m env map i = ok () :=
  lookupOwned_ok env (h.key_fits m hi)

/-- The two ways a store can go. -/
theorem LongRep.run_store (m : Mode) (env : HashEnv) {d : BitVecValue} {map : HMap BitVecValue BitVecValue} {c : LongCells}
    (h : LongRep dw d map c) {i x : BitVecValue} (hf : (RawOp.store i x).Allowed m iw dw) :
    (longArray iw dw d map).store m env i x =
      if c.IsDefault dw x then (lookupBorrowed env map i >>= fun _ => ok (longArray iw dw d map))
      else ok (longArray iw dw d (map.insert i x)) := by
  obtain ⟨hi, hx, hw⟩ := hf
  show (SparseArrayValue.store m env ⟨iw, dw, .bigbig d map⟩ i x >>= fun v => ok (ArrayValue.sparse v)) = _
  unfold SparseArrayValue.store
  dsimp only
  have h1 : debugAssert m (i.width == iw) = ok () := by
    cases m with
    | release => rfl
    | debug => rw [(hw rfl).1]; exact debugAssert_of (by simp)
  have h2 : debugAssert m (x.width == dw) = ok () := by
    cases m with
    | release => rfl
    | debug => rw [(hw rfl).2]; exact debugAssert_of (by simp)
  rw [h1, ok_bind, h2, ok_bind, h.equal_default m hx (fun hm => (hw hm).2)]
  by_cases he : c.IsDefault dw x
  · simp only [he, decide_true, ok_bind, if_true]
    cases lookupBorrowed env map i <;> rfl
  · simp only [he, decide_false, ok_bind, Bool.false_eq_true, if_false, h.lookup m env hi]
    rfl

/-- One operation: it is blocked and panics, or it returns the predicted contents, or the hash table compares two elements. -/
theorem LongRep.run_op (m : Mode) (env : HashEnv) {d : BitVecValue} {map : HMap BitVecValue BitVecValue} {c : LongCells}
    (h : LongRep dw d map c) (op : RawOp) (hf : op.Allowed m iw dw) :
    (op.Blocked dw c → Panics (op.run m env (longArray iw dw d map))) ∧
    (∀ b, op.run m env (longArray iw dw d map) = ok b → ∃ d' map', b = longArray iw dw d' map' ∧ LongRep dw d' map' (op.longEffect dw c)) ∧
    (¬ op.Blocked dw c → ∃ b, op.run m listEnv (longArray iw dw d map) = ok b) := by
  cases op with
  | clear =>
    refine ⟨fun hb => hb.elim, fun b hb => ?_, fun _ => ⟨_, rfl⟩⟩
    cases hb
    have hz := (C01_zero h.dflt.width_lt).raw
    simp only [BitVec.toNat_ofNat, Nat.zero_mod] at hz
    exact ⟨_, _, rfl, ⟨hz, HMap.nodup_empty, fun k v hg => (by cases hg), fun k _ => rfl, fun n hn => absurd rfl hn⟩⟩
  | store i x =>
    obtain ⟨hi, hx, hw⟩ := hf
    have hrun : ∀ env : HashEnv, (RawOp.store i x).run m env (longArray iw dw d map) = (BitVecValue.isEqual m x d >>= fun e =>
        if e then (lookupBorrowed env map i >>= fun _ => ok (longArray iw dw d map)) else ok (longArray iw dw d (map.insert i x))) := by
      intro env
      show (SparseArrayValue.store m env ⟨iw, dw, .bigbig d map⟩ i x >>= fun v => ok (ArrayValue.sparse v)) = _
      unfold SparseArrayValue.store
      dsimp only
      have h1 : debugAssert m (i.width == iw) = ok () := by
        cases m with
        | release => rfl
        | debug => rw [(hw rfl).1]; exact debugAssert_of (by simp)
      have h2 : debugAssert m (x.width == dw) = ok () := by
        cases m with
        | release => rfl
        | debug => rw [(hw rfl).2]; exact debugAssert_of (by simp)
      rw [h1, ok_bind, h2, ok_bind]
      cases BitVecValue.isEqual m x d with
      | panic p => rfl
      | ok e =>
        cases e
        · simp only [ok_bind, Bool.false_eq_true, if_false, h.lookup m env hi]
          rfl
        · simp only [ok_bind, if_true]
          cases lookupBorrowed env map i <;> rfl
    simp only [hrun, h.equal_default m hx (fun hm => (hw hm).2), ok_bind]
    unfold RawOp.Blocked RawOp.longEffect
    by_cases he : c.IsDefault dw x
    · simp only [he, decide_true, if_true, true_and]
      refine ⟨fun hs => ?_, fun b hb => ?_, fun hs => ?_⟩
      · unfold lookupBorrowed
        rw [env.probe_mem _ _ ((h.key_mem hi).mpr hs), if_pos rfl]
        exact ⟨_, rfl⟩
      · obtain ⟨_, -, hb⟩ := of_bind_ok hb
        cases hb
        exact ⟨_, _, rfl, h⟩
      · unfold lookupBorrowed
        rw [if_neg]
        · exact ⟨_, rfl⟩
        · rw [listEnv_probe]
          exact fun hm => hs ((h.key_mem hi).mp hm)
    · simp only [he, decide_false, Bool.false_eq_true, if_false, false_and]
      refine ⟨fun hs => hs.elim, fun b hb => ?_, fun _ => ⟨_, rfl⟩⟩
      cases hb
      exact ⟨_, _, rfl, h.insert hi hx⟩

theorem LongRep.run (m : Mode) (env : HashEnv) (ops : List RawOp) : ∀ {d : BitVecValue} {map : HMap BitVecValue BitVecValue} {c : LongCells},
    LongRep dw d map c → (∀ op ∈ ops, op.Allowed m iw dw) →
    (SomeBlocked dw c ops → Panics (runRaw m env (longArray iw dw d map) ops)) ∧
    (∀ b, runRaw m env (longArray iw dw d map) ops = ok b →
      ∃ d' map', b = longArray iw dw d' map' ∧ LongRep dw d' map' (longAfter dw c ops)) ∧
    (¬ SomeBlocked dw c ops → ∃ b, runRaw m listEnv (longArray iw dw d map) ops = ok b) := by
  induction ops with
  | nil =>
    intro d map c h _
    refine ⟨fun hb => hb.elim, fun b hb => ?_, fun _ => ⟨_, rfl⟩⟩
    cases hb
    exact ⟨_, _, rfl, h⟩
  | cons op ops ih =>
    intro d map c h hf
    have h1 := h.run_op m env op (hf op List.mem_cons_self)
    have h1' := h.run_op m listEnv op (hf op List.mem_cons_self)
    have hf' : ∀ o ∈ ops, o.Allowed m iw dw := fun o ho => hf o (List.mem_cons_of_mem _ ho)
    refine ⟨fun hb => ?_, fun b hb => ?_, fun hb => ?_⟩
    · unfold runRaw
      rcases hb with hb | hb
      · exact panics_bind (h1.1 hb) _
      · refine panics_bind_of _ fun y hy => ?_
        obtain ⟨d', map', rfl, h2⟩ := h1.2.1 y hy
        exact (ih h2 hf').1 hb
    · obtain ⟨y, hy, hb⟩ := of_bind_ok hb
      obtain ⟨d', map', rfl, h2⟩ := h1.2.1 y hy
      exact (ih h2 hf').2.1 b hb
    · obtain ⟨y, hy⟩ := h1.2.2 fun hh => hb (.inl hh)
      obtain ⟨d', map', rfl, h2⟩ := h1'.2.1 y hy
      unfold runRaw
      rw [hy, ok_bind]
      exact (ih h2 hf').2.2 fun hh => hb (.inr hh)

/-! ## The statements -/

theorem long_start {v : BitVecValue} (hv : Slot v dw) : LongRep dw v HMap.empty (longStart v) :=
  ⟨hv.raw, HMap.nodup_empty, fun k v hg => (by cases hg), fun k _ => rfl, fun n hn => absurd rfl hn⟩

theorem long_new (m : Mode) (h64 : 64 < iw) {v : BitVecValue} (hv : Slot v dw) : newOf .sparse m iw v = ok (longArray iw dw v HMap.empty) := by
  show (SparseArrayValue.new iw v >>= _) = _
  unfold SparseArrayValue.new
  have h0 : iw > BITS := h64
  dsimp only
  rw [if_pos h0, hv.width_eq]
  rfl

/-- **C98** (histories): the array is always created. A history that puts the default back over a stored element panics, whatever the hash
table does. Every other history returns unless the hash table happens to compare different indices; there is a hash table with which it
returns. -/
theorem C98_history (m : Mode) (h64 : 64 < iw) {v : BitVecValue} (hv : Slot v dw) (ops : List RawOp) (hf : ∀ op ∈ ops, op.Allowed m iw dw) :
    ∃ a, newOf .sparse m iw v = ok a ∧
      (SomeBlocked dw (longStart v) ops → ∀ env, Panics (runRaw m env a ops)) ∧
      (¬ SomeBlocked dw (longStart v) ops → ∃ env b, runRaw m env a ops = ok b) := by
  refine ⟨_, long_new m h64 hv, fun hb env => ((long_start hv).run m env ops hf).1 hb, fun hb => ⟨listEnv, ?_⟩⟩
  exact ((long_start hv).run m listEnv ops hf).2.2 hb

/-- **C98** (storing): after a history that returned, storing something that differs from the default always returns, whatever the hash table
does. Storing the default over a stored element always panics; over any other element it returns or panics, depending on the hash table,
and it returns if nothing is stored. -/
theorem C98_store (m : Mode) (env env' : HashEnv) (h64 : 64 < iw) {v : BitVecValue} (hv : Slot v dw) (ops : List RawOp)
    (hf : ∀ op ∈ ops, op.Allowed m iw dw) {a b : ArrayValue} (ha : newOf .sparse m iw v = ok a) (hb : runRaw m env a ops = ok b)
    {i x : BitVecValue} (hs : (RawOp.store i x).Allowed m iw dw) :
    let c := longAfter dw (longStart v) ops
    (¬ c.IsDefault dw x → ∃ b', b.store m env' i x = ok b') ∧
    (c.IsDefault dw x → c.stored (nameOf i) ≠ none → Panics (b.store m env' i x)) ∧
    (c.IsDefault dw x → b.store m env' i x = ok b ∨ Panics (b.store m env' i x)) ∧
    (c.IsDefault dw x → (∀ n, c.stored n = none) → b.store m env' i x = ok b) := by
  rw [long_new m h64 hv] at ha
  cases ha
  obtain ⟨d, map, rfl, h⟩ := ((long_start hv).run m env ops hf).2.1 b hb
  intro c
  have hrun := h.run_store m env' hs
  refine ⟨fun he => ?_, fun he hst => ?_, fun he => ?_, fun he hst => ?_⟩
  · rw [hrun, if_neg he]
    exact ⟨_, rfl⟩
  · exact (h.run_op m env' (RawOp.store i x) hs).1 ⟨he, hst⟩
  · rw [hrun, if_pos he]
    unfold lookupBorrowed
    split
    · exact .inr ⟨_, rfl⟩
    · exact .inl rfl
  · rw [hrun, if_pos he]
    unfold lookupBorrowed
    rw [h.entries_nil hst, List.map_nil, env'.probe_nil, if_neg (by simp)]
    rfl

/-- **C98** (reading): after a history that returned, an index that is stored cannot be read. Reading any other index gives the default or
panics, depending on the hash table, and gives the default if nothing is stored. -/
theorem C98_select (m : Mode) (env env' : HashEnv) (h64 : 64 < iw) {v : BitVecValue} (hv : Slot v dw) (ops : List RawOp)
    (hf : ∀ op ∈ ops, op.Allowed m iw dw) {a b : ArrayValue} (ha : newOf .sparse m iw v = ok a) (hb : runRaw m env a ops = ok b)
    {i : BitVecValue} (hi : Slot i i.width) (hw : m = .debug → i.width = iw) :
    let c := longAfter dw (longStart v) ops
    (c.stored (nameOf i) ≠ none → Panics (b.select m env' i)) ∧
    (Outcome (b.select m env' i) dw (some c.default) ∨ Panics (b.select m env' i)) ∧
    (c.stored (nameOf i) = none → ∃ env'', Outcome (b.select m env'' i) dw (some c.default)) ∧
    ((∀ n, c.stored n = none) → Outcome (b.select m env' i) dw (some c.default)) := by
  rw [long_new m h64 hv] at ha
  cases ha
  obtain ⟨d, map, rfl, h⟩ := ((long_start hv).run m env ops hf).2.1 b hb
  intro c
  have hsel : ∀ env, (longArray iw dw d map).select m env i = (lookupBorrowed env map i >>= fun _ => ok d) := by
    intro env
    show SparseArrayValue.select m env ⟨iw, dw, .bigbig d map⟩ i = _
    unfold SparseArrayValue.select
    dsimp only
    have h1 : debugAssert m (i.width == iw) = ok () := by
      cases m with
      | release => rfl
      | debug => rw [hw rfl]; exact debugAssert_of (by simp)
    rw [h1, ok_bind]
  simp only [hsel]
  refine ⟨fun hs => ?_, ?_, fun hs => ⟨listEnv, ?_⟩, fun hs => ?_⟩
  · unfold lookupBorrowed
    rw [env'.probe_mem _ _ ((h.key_mem hi).mpr hs), if_pos rfl]
    exact ⟨_, rfl⟩
  · unfold lookupBorrowed
    split
    · exact .inr ⟨_, rfl⟩
    · exact .inl ⟨_, rfl, h.dflt⟩
  · unfold lookupBorrowed
    rw [if_neg]
    · exact ⟨_, rfl, h.dflt⟩
    · rw [listEnv_probe]
      exact fun hm => (h.key_mem hi).mp hm hs
  · unfold lookupBorrowed
    rw [h.entries_nil hs, List.map_nil, env'.probe_nil, if_neg (by simp)]
    exact ⟨_, rfl, h.dflt⟩

/-- **C98** (listing): `default` and `non_default_entries` always return, and list exactly what is stored, every index once. -/
theorem C98_entries (m : Mode) (env env' : HashEnv) (h64 : 64 < iw) {v : BitVecValue} (hv : Slot v dw) (ops : List RawOp)
    (hf : ∀ op ∈ ops, op.Allowed m iw dw) {a b : ArrayValue} (ha : newOf .sparse m iw v = ok a) (hb : runRaw m env a ops = ok b) :
    let c := longAfter dw (longStart v) ops
    ∃ s l, b = .sparse s ∧ Outcome (s.default m) dw (some c.default) ∧ s.nonDefaultEntries m env' = ok l ∧ (l.map Prod.fst).Nodup ∧
      ∀ n y, c.stored n = some y ↔ ∃ e ∈ l, nameOf e.1 = n ∧ nameOf e.2 = y := by
  rw [long_new m h64 hv] at ha
  cases ha
  obtain ⟨d, map, rfl, h⟩ := ((long_start hv).run m env ops hf).2.1 b hb
  intro c
  have hp := env'.order_perm map.entries
  refine ⟨_, env'.order map.entries, rfl, ⟨_, rfl, h.dflt⟩, rfl, (hp.map _).nodup_iff.mpr h.nodup, fun n y => ?_⟩
  constructor
  · intro hn
    obtain ⟨k, hk, hkn⟩ := h.named n (by rw [hn]; simp)
    have h1 := h.get k hk
    rw [hkn, hn] at h1
    cases hg : map.get k with
    | none => rw [hg] at h1; cases h1
    | some x =>
      rw [hg] at h1
      exact ⟨(k, x), hp.mem_iff.mpr ((HMap.get_eq_some_iff h.nodup _ _).mp hg), hkn, Option.some.inj h1⟩
  · rintro ⟨⟨k, x⟩, he, rfl, rfl⟩
    have hg := (HMap.get_eq_some_iff h.nodup _ _).mpr (hp.mem_iff.mp he)
    rw [← h.get k (h.slots k x hg).1, hg]
    rfl

theorem LongRep.data_ext {d d' : BitVecValue} {map map' : HMap BitVecValue BitVecValue} {c c' : LongCells} (h : LongRep dw d map c)
    (h' : LongRep dw d' map' c') : (d = d' ∧ ∀ k, map.get k = map'.get k) ↔ c = c' := by
  constructor
  · rintro ⟨rfl, hg⟩
    have h1 : c.default = c'.default := h.dflt.val_eq.symm.trans h'.dflt.val_eq
    have h2 : c.stored = c'.stored := by
      funext n
      by_cases hn : ∃ k, Slot k k.width ∧ nameOf k = n
      · obtain ⟨k, hk, rfl⟩ := hn
        rw [← h.get k hk, ← h'.get k hk, hg]
      · have e1 : c.stored n = none := Classical.byContradiction fun hh => hn (h.named n hh)
        have e2 : c'.stored n = none := Classical.byContradiction fun hh => hn (h'.named n hh)
        rw [e1, e2]
    cases c
    cases c'
    cases h1
    cases h2
    rfl
  · rintro rfl
    refine ⟨h.dflt.unique h'.dflt, fun k => ?_⟩
    by_cases hk : Slot k k.width
    · have e1 := h.get k hk
      rw [← h'.get k hk] at e1
      cases hg : map.get k with
      | none =>
        rw [hg] at e1
        cases hg' : map'.get k with
        | none => rfl
        | some y => rw [hg'] at e1; cases e1
      | some x =>
        rw [hg] at e1
        cases hg' : map'.get k with
        | none => rw [hg'] at e1; cases e1
        | some y =>
          rw [hg'] at e1
          rw [nameOf_inj (h.slots k x hg).2 (h'.slots k y hg').2 (Option.some.inj e1)]
    · have e1 : map.get k = none := by
        cases hg : map.get k with
        | none => rfl
        | some x => exact absurd (h.slots k x hg).1 hk
      have e2 : map'.get k = none := by
        cases hg : map'.get k with
        | none => rfl
        | some x => exact absurd (h'.slots k x hg).1 hk
      rw [e1, e2]

open Classical in
/-- **C98** (equality): comparing two such arrays always returns, and says whether they hold the same. -/
theorem C98_equal (m : Mode) (env env₁ env₂ : HashEnv) (h64 : 64 < iw) {u v : BitVecValue} (hu : Slot u dw) (hv : Slot v dw)
    (ops ops' : List RawOp) (hf : ∀ op ∈ ops, op.Allowed m iw dw) (hf' : ∀ op ∈ ops', op.Allowed m iw dw) {a a' b b' : ArrayValue}
    (ha : newOf .sparse m iw u = ok a) (hb : runRaw m env₁ a ops = ok b) (ha' : newOf .sparse m iw v = ok a')
    (hb' : runRaw m env₂ a' ops' = ok b') :
    ArrayValue.isEqual m env b b' = ok (some (decide (longAfter dw (longStart u) ops = longAfter dw (longStart v) ops'))) := by
  rw [long_new m h64 hu] at ha
  cases ha
  rw [long_new m h64 hv] at ha'
  cases ha'
  obtain ⟨d, map, rfl, h⟩ := ((long_start hu).run m env₁ ops hf).2.1 b hb
  obtain ⟨d', map', rfl, h'⟩ := ((long_start hv).run m env₂ ops' hf').2.1 b' hb'
  show SparseArrayValue.isEqual m env ⟨iw, dw, .bigbig d map⟩ ⟨iw, dw, .bigbig d' map'⟩ = _
  unfold SparseArrayValue.isEqual
  rw [if_neg (by simp)]
  dsimp only
  have hl : d'.words.length = d.words.length := by rw [h.dflt.length_eq, h'.dflt.length_eq]
  have he : BitVecValue.eqOwned m d d' = ok (decide (d = d')) := by
    unfold BitVecValue.eqOwned
    rw [debugAssert_of (by simp [hl]), ok_bind]
    congr 1
    rw [Bool.eq_iff_iff]
    simp only [Bool.and_eq_true, beq_iff_eq, decide_eq_true_eq]
    constructor
    · rintro ⟨h1, h2⟩
      obtain ⟨dw1, ds1⟩ := d
      obtain ⟨dw2, ds2⟩ := d'
      dsimp only at h1 h2
      rw [h1, h2]
    · rintro rfl
      exact ⟨rfl, rfl⟩
  rw [he, ok_bind]
  have hext := h.data_ext h'
  have hbeq := HMap.beq_iff h.nodup h'.nodup
  by_cases hd : d = d'
  · have hfit : ∀ e ∈ map.entries, ∀ v, map'.get e.1 = some v → Fits m e.2 v := fun e he v hv =>
      (h.slots e.1 e.2 ((HMap.get_eq_some_iff h.nodup _ _).mpr he)).2.fits m (h'.slots e.1 v hv).2
    rw [decide_eq_true hd, if_pos rfl, eqMaps_branch env (fun e he =>
      h'.lookup m env (h.slots e.1 e.2 ((HMap.get_eq_some_iff h.nodup _ _).mpr he)).1) hfit]
    by_cases hlen : map.len = map'.len
    · rw [if_pos hlen]
      congr 2
      rw [Bool.eq_iff_iff, hbeq, decide_eq_true_eq, ← hext]
      exact ⟨fun hh => ⟨hd, hh⟩, fun hh => hh.2⟩
    · rw [if_neg hlen, decide_eq_false]
      intro hc
      have h1 := hbeq.mpr (hext.mpr hc).2
      unfold HMap.beq at h1
      simp only [Bool.and_eq_true, beq_iff_eq] at h1
      exact hlen h1.1
  · rw [decide_eq_false hd, if_neg (by simp), decide_eq_false]
    exact fun hc => hd (hext.mpr hc).1

/-! ## Concrete cases -/

/-- Stray bits in an index make another index: a value stored under a 65-bit index with a stray bit is listed, but reading the same bits
without it gives the default. Putting the default back over it panics. -/
example :
    (do let a ← newOf .sparse .debug 65 (encode 0#8)
        let a ← a.store .debug listEnv ⟨65, [3#64, 2#64]⟩ (encode 7#8)
        a.select .debug listEnv (encode 3#65)) = ok (encode 0#8) ∧
    Panics (do let a ← newOf .sparse .debug 65 (encode 0#8)
               let a ← a.store .debug listEnv ⟨65, [3#64, 2#64]⟩ (encode 7#8)
               a.select .debug listEnv ⟨65, [3#64, 2#64]⟩) ∧
    Panics (do let a ← newOf .sparse .debug 65 (encode 0#8)
               let a ← a.store .debug listEnv ⟨65, [3#64, 2#64]⟩ (encode 7#8)
               a.store .debug listEnv ⟨65, [3#64, 2#64]⟩ (encode 0#8)) :=
  ⟨by decide +kernel, ⟨.todo, by rfl⟩, ⟨.todo, by rfl⟩⟩

/-- The operations meet the hypotheses, also with a foreign width in a release build. -/
example : (RawOp.store ⟨65, [3#64, 2#64]⟩ (encode 7#8)).Allowed .debug 65 8 ∧ (RawOp.store (encode 3#2) (encode 7#100)).Allowed .release 65 8 ∧
    Slot (encode 0#8) 8 ∧ ¬ SomeBlocked 8 (longStart (encode 0#8)) [.store ⟨65, [3#64, 2#64]⟩ (encode 7#8)] :=
  ⟨⟨⟨by decide, rfl, rfl⟩, ⟨by decide, rfl, rfl⟩, fun _ => ⟨rfl, rfl⟩⟩, ⟨⟨by decide, rfl, rfl⟩, ⟨by decide, rfl, rfl⟩, fun h => by cases h⟩,
    ⟨by decide, rfl, rfl⟩, by
      rintro (⟨-, h⟩ | h)
      · exact h rfl
      · exact h⟩

/-- A history that is blocked. -/
example : SomeBlocked 8 (longStart (encode 0#8)) [.store (encode 3#65) (encode 7#8), .store (encode 3#65) (encode 0#8)] :=
  .inr (.inl ⟨by decide, by decide⟩)

end Baa

import Verif.Props.AnyConv
import Verif.Props.WideIndex
import Verif.Spec.LongTables

/-!
# C114: sparse arrays with more than 64 index bits, given any values

C98 predicts such arrays for values that have the words their width needs. This file predicts them for all values, and tells exactly when the
outcome depends on the indices that the hash table happens to compare.
-/

namespace Baa
open Res BitVecValue

variable {iw dw : Nat} {m : Mode}

/-! ## Comparisons of indices -/

theorem eqOwned_imp {u v : BitVecValue} {r : Bool} (h : BitVecValue.eqOwned m u v = ok r) : r = decide (u = v) := by
  by_cases hf : Fits m u v
  · rw [hf.eqOwned] at h
    cases h
    rfl
  · cases m with
    | release => exact absurd (fun hm => by cases hm) hf
    | debug => rw [eqOwned_panics hf] at h; cases h

theorem compareKeys_panics {key k : BitVecValue} {ks : List BitVecValue} (hk : k ∈ ks) (h : ¬ Fits .debug key k) :
    Panics (compareKeys .debug key ks) := by
  induction ks with
  | nil => cases hk
  | cons x ks ih =>
    unfold compareKeys
    rcases List.mem_cons.mp hk with rfl | hk
    · rw [eqOwned_panics h]
      exact ⟨_, rfl⟩
    · exact panics_bind_of _ fun _ _ => ih hk

theorem eqEntries_imp {K : Type} [DecidableEq K] {lookup : K → Res Unit} {other : HMap K BitVecValue} {es : List (K × BitVecValue)} {r : Bool}
    (h : eqEntries m lookup other es = ok r) : r = es.all fun e => decide (other.get e.1 = some e.2) := by
  induction es with
  | nil => cases h; rfl
  | cons e es ih =>
    unfold eqEntries at h
    obtain ⟨_, -, h⟩ := of_bind_ok h
    rw [List.all_cons]
    cases hg : other.get e.1 with
    | none =>
      rw [hg] at h
      cases h
      simp
    | some v =>
      rw [hg] at h
      dsimp only at h
      obtain ⟨b, hb, h⟩ := of_bind_ok h
      rw [eqOwned_imp hb] at h
      by_cases hv : e.2 = v
      · rw [decide_eq_true hv, if_pos rfl] at h
        rw [ih h, hv, decide_eq_true rfl, Bool.true_and]
      · rw [decide_eq_false hv, if_neg (by simp)] at h
        cases h
        rw [decide_eq_false (fun hh => hv (Option.some.inj hh).symm), Bool.false_and]

theorem eqMaps_imp {K : Type} [DecidableEq K] {env : HashEnv} {lookup : K → Res Unit} {a b : HMap K BitVecValue} {r : Bool}
    (h : eqMaps m env lookup a b = ok r) : r = a.beq b := by
  unfold eqMaps at h
  unfold HMap.beq
  by_cases hn : a.len = b.len
  · rw [if_pos hn] at h
    rw [eqEntries_imp h, beq_iff_eq.mpr hn, Bool.true_and]
    exact (env.order_perm a.entries).all_eq
  · rw [if_neg hn] at h
    cases h
    rw [beq_eq_false_iff_ne.mpr hn, Bool.false_and]

theorem crowded_lookup {V : Type} {n : Nat} {map : HMap BitVecValue V} {key k : BitVecValue} (hk : k ∈ map.entries.map Prod.fst)
    (h : ¬ Fits .debug key k) : Panics (lookupOwned .debug (crowdedEnv n) map key) := compareKeys_panics hk h

theorem list_lookup {V : Type} (m : Mode) (map : HMap BitVecValue V) (key : BitVecValue) : lookupOwned m listEnv map key = ok () := by
  refine compareKeys_ok fun k hk => ?_
  have hk' : k ∈ (map.entries.map Prod.fst).filter (· = key) := hk
  have := of_decide_eq_true (List.mem_filter.mp hk').2
  rw [this]
  exact fun _ _ => rfl

/-! ## The hash table -/

/-- The hash table holds the contents. -/
structure LongHolds (m : Mode) (iw dw : Nat) (d : BitVecValue) (map : HMap BitVecValue BitVecValue) (t : LongTable) : Prop where
  width_lt : dw < 2 ^ 32
  dflt : d.shape = t.default
  dflt_width : d.width = dw
  nodup : map.Nodup
  get : ∀ k, (map.get k).map BitVecValue.shape = t.stored k.shape
  named : ∀ s, t.stored s ≠ none → ∃ k : BitVecValue, k.shape = s
  uniform : m = .debug → ∀ k v, map.get k = some v → k.width = iw ∧ v.width = dw ∧ v.words.length = d.words.length

namespace LongHolds
variable {d d' : BitVecValue} {map map' : HMap BitVecValue BitVecValue} {t t' : LongTable}

theorem key_mem (h : LongHolds m iw dw d map t) {i : BitVecValue} : i ∈ map.entries.map Prod.fst ↔ t.stored i.shape ≠ none := by
  rw [← h.get i]
  constructor
  · intro hm
    obtain ⟨⟨k, v⟩, he, hk⟩ := List.mem_map.mp hm
    dsimp only at hk
    subst hk
    rw [(HMap.get_eq_some_iff h.nodup _ _).mpr he]
    simp
  · intro hn
    cases hg : map.get i with
    | none => rw [hg] at hn; exact absurd rfl hn
    | some v => exact List.mem_map.mpr ⟨(i, v), (HMap.get_eq_some_iff h.nodup _ _).mp hg, rfl⟩

/-- Every stored index is an index of the hash table. -/
theorem has_key (h : LongHolds m iw dw d map t) {s : Shape} (hs : t.stored s ≠ none) : ∃ k ∈ map.entries.map Prod.fst, k.shape = s := by
  obtain ⟨k, rfl⟩ := h.named s hs
  exact ⟨k, h.key_mem.mpr hs, rfl⟩

theorem unused (h : LongHolds m iw dw d map t) (hu : ¬ t.Used) : map.entries.map Prod.fst = [] := by
  apply List.eq_nil_iff_forall_not_mem.mpr
  exact fun k hk => hu ⟨_, h.key_mem.mp hk⟩

theorem used (h : LongHolds m iw dw d map t) (hu : t.Used) : map.entries.map Prod.fst ≠ [] := by
  obtain ⟨s, hs⟩ := hu
  obtain ⟨k, hk, -⟩ := h.has_key hs
  exact List.ne_nil_of_mem hk

theorem key_width (h : LongHolds .debug iw dw d map t) {k : BitVecValue} (hk : k ∈ map.entries.map Prod.fst) : k.width = iw := by
  obtain ⟨⟨k', v⟩, he, rfl⟩ := List.mem_map.mp hk
  exact (h.uniform rfl k' v ((HMap.get_eq_some_iff h.nodup _ _).mpr he)).1

theorem equal_default (h : LongHolds m iw dw d map t) (x : BitVecValue) :
    if m = .debug ∧ (x.width ≠ dw ∨ x.shape.words ≠ t.default.words) then Panics (BitVecValue.isEqual m x d)
    else BitVecValue.isEqual m x d = ok (x.shape.equal t.default) := by
  have hc : Answers (BitVecValue.isEqual m x d) (if m = .debug ∧ (x.shape.width ≠ d.shape.width ∨ x.shape.words ≠ d.shape.words) then none
      else some (x.shape.equal d.shape)) := C105_comparison (a := x) (b := d) m .equal
  rw [show d.shape.width = dw from h.dflt_width, h.dflt] at hc
  by_cases hg : m = .debug ∧ (x.width ≠ dw ∨ x.shape.words ≠ t.default.words)
  · rw [if_pos hg]
    rw [if_pos (show m = .debug ∧ (x.shape.width ≠ dw ∨ _) from hg)] at hc
    exact hc
  · rw [if_neg hg]
    rw [if_neg (show ¬ (m = .debug ∧ (x.shape.width ≠ dw ∨ _)) from hg)] at hc
    exact hc

theorem insert (h : LongHolds m iw dw d map t) {i x : BitVecValue} (hr : ¬ t.Refused m iw dw i.shape x.shape) :
    LongHolds m iw dw d (map.insert i x) { t with stored := fun k => if k = i.shape then some x.shape else t.stored k } where
  width_lt := h.width_lt
  dflt := h.dflt
  dflt_width := h.dflt_width
  nodup := HMap.nodup_insert h.nodup i x
  get := by
    intro k
    dsimp only
    rw [HMap.get_insert]
    by_cases hki : k = i
    · rw [if_pos hki, if_pos (by rw [hki])]
      rfl
    · rw [if_neg hki, if_neg (fun hn => hki (shape_inj hn))]
      exact h.get k
  named := by
    intro s hs
    dsimp only at hs
    split at hs
    · rename_i hsi
      exact ⟨i, hsi.symm⟩
    · exact h.named s hs
  uniform := by
    intro hm k v hg
    rw [HMap.get_insert] at hg
    split at hg
    · rename_i hk
      cases hg
      subst hk
      refine ⟨Classical.byContradiction fun hh => hr ⟨hm, .inl hh⟩, Classical.byContradiction fun hh => hr ⟨hm, .inr (.inl hh)⟩,
        Classical.byContradiction fun hh => hr ⟨hm, .inr (.inr fun e => hh ?_)⟩⟩
      rw [← h.dflt] at e
      exact e
    · exact h.uniform hm k v hg

theorem cleared (hw : dw < 2 ^ 32) : LongHolds m iw dw (BitVecValue.zero dw) HMap.empty ⟨⟨dw, need dw, 0⟩, fun _ => none⟩ where
  width_lt := hw
  dflt := by
    have := (C01_zero hw).raw.shape_eq
    simpa using this
  dflt_width := rfl
  nodup := HMap.nodup_empty
  get := fun _ => rfl
  named := fun _ hs => absurd rfl hs
  uniform := fun _ _ _ hg => by cases hg

/-! ## One operation -/

/-- What is known about an operation. -/
structure Known (m : Mode) (iw dw : Nat) (t : LongTable) (op : ConvOp) (d : BitVecValue) (map : HMap BitVecValue BitVecValue) : Prop where
  stops : t.Stops m iw dw op → ∀ env, Panics (op.run m env (longArray iw dw d map))
  goes : ∀ env b, op.run m env (longArray iw dw d map) = ok b →
    ∃ d' map', b = longArray iw dw d' map' ∧ LongHolds m iw dw d' map' (t.after dw op)
  can : ¬ t.Stops m iw dw op → ∃ b, op.run m listEnv (longArray iw dw d map) = ok b
  risks : t.Risks m iw dw op → Panics (op.run m (crowdedEnv 0) (longArray iw dw d map))
  safe : ¬ t.Risks m iw dw op → ∀ env, ∃ b, op.run m env (longArray iw dw d map) = ok b

theorem probe_crowded (n : Nat) {keys : List BitVecValue} (h : keys ≠ []) (key : BitVecValue) : (crowdedEnv n).probe keys key = true := by
  unfold HashEnv.probe
  cases keys with
  | nil => exact absurd rfl h
  | cons k ks => rfl

theorem op (h : LongHolds m iw dw d map t) (op : ConvOp) : Known m iw dw t op d map := by
  match op with
  | .base .clear =>
    exact ⟨fun hs => hs.elim, fun env b hb => (by cases hb; exact ⟨_, _, rfl, cleared h.width_lt⟩), fun _ => ⟨_, rfl⟩, fun hs => hs.elim,
      fun _ _ => ⟨_, rfl⟩⟩
  | .toSparse =>
    exact ⟨fun hs => hs.elim, fun env b hb => (by cases hb; exact ⟨_, _, rfl, h⟩), fun _ => ⟨_, rfl⟩, fun hs => hs.elim, fun _ _ => ⟨_, rfl⟩⟩
  | .makeDense =>
    have hp : ∀ env, Panics (ConvOp.makeDense.run m env (longArray iw dw d map)) := by
      intro env
      show Panics (DenseArrayValue.ofSparse m env ⟨iw, dw, .bigbig d map⟩ >>= fun d => ok (ArrayValue.dense d))
      refine panics_bind ?_ _
      unfold DenseArrayValue.ofSparse
      exact panics_bind_of _ fun _ _ => panics_bind_of _ fun _ _ => panics_bind_of _ fun _ _ => panics_bind_of _ fun _ _ => ⟨_, rfl⟩
    exact ⟨fun _ => hp, fun env b hb => absurd hb (fun e => not_panics (hp env) e), fun hs => absurd trivial hs, fun _ => hp _,
      fun hs => absurd trivial hs⟩
  | .base (.store i x) =>
    have hrun : ∀ env : HashEnv, (RawOp.store i x).run m env (longArray iw dw d map) =
        (debugAssert m (i.width == iw) >>= fun _ => debugAssert m (x.width == dw) >>= fun _ => BitVecValue.isEqual m x d >>= fun e =>
        if e then (lookupBorrowed env map i >>= fun _ => ok (longArray iw dw d map))
        else (lookupOwned m env map i >>= fun _ => ok (longArray iw dw d (map.insert i x)))) := by
      intro env
      show (SparseArrayValue.store m env ⟨iw, dw, .bigbig d map⟩ i x >>= fun v => ok (ArrayValue.sparse v)) = _
      unfold SparseArrayValue.store
      dsimp only
      cases debugAssert m (i.width == iw) with
      | panic p => rfl
      | ok _ =>
        cases debugAssert m (x.width == dw) with
        | panic p => rfl
        | ok _ =>
          cases BitVecValue.isEqual m x d with
          | panic p => rfl
          | ok e =>
            cases e
            · simp only [ok_bind, Bool.false_eq_true, if_false]
              cases lookupOwned m env map i <;> rfl
            · simp only [ok_bind, if_true]
              cases lookupBorrowed env map i <;> rfl
    by_cases hr : t.Refused m iw dw i.shape x.shape
    · have hp : ∀ env, Panics ((RawOp.store i x).run m env (longArray iw dw d map)) := by
        intro env
        rw [hrun]
        obtain ⟨rfl, hr⟩ := hr
        by_cases h1 : i.width = iw
        · refine panics_bind_of _ fun _ _ => panics_bind_of _ fun _ _ => panics_bind ?_ _
          have he := h.equal_default x
          rw [if_pos ⟨rfl, by
            rcases hr with hr | hr
            · exact absurd h1 hr
            · exact hr⟩] at he
          exact he
        · rw [show (i.width == iw) = false by simpa using h1]
          exact ⟨_, rfl⟩
      exact ⟨fun _ => hp, fun env b hb => absurd hb (fun e => not_panics (hp env) e), fun hs => absurd (.inl hr) hs, fun _ => hp _,
        fun hs => absurd (.inl hr) hs⟩
    · have h1 : debugAssert m (i.width == iw) = ok () := by
        cases m with
        | release => rfl
        | debug =>
          rw [show i.width = iw from Classical.byContradiction fun hh => hr ⟨rfl, .inl hh⟩]
          exact debugAssert_of (by simp)
      have h2 : debugAssert m (x.width == dw) = ok () := by
        cases m with
        | release => rfl
        | debug =>
          rw [show x.width = dw from Classical.byContradiction fun hh => hr ⟨rfl, .inr (.inl hh)⟩]
          exact debugAssert_of (by simp)
      have he := h.equal_default x
      rw [if_neg (fun hh => hr ⟨hh.1, .inr hh.2⟩)] at he
      have hrun' : ∀ env : HashEnv, (ConvOp.base (.store i x)).run m env (longArray iw dw d map) =
          if x.shape.equal t.default then (lookupBorrowed env map i >>= fun _ => ok (longArray iw dw d map))
          else (lookupOwned m env map i >>= fun _ => ok (longArray iw dw d (map.insert i x))) := by
        intro env
        rw [show (ConvOp.base (.store i x)).run m env (longArray iw dw d map) = (RawOp.store i x).run m env (longArray iw dw d map) from rfl,
          hrun, h1, ok_bind, h2, ok_bind, he, ok_bind]
      cases hq : x.shape.equal t.default with
      | true =>
        rw [hq] at hrun'
        simp only [if_true] at hrun'
        have hstop : t.Stops m iw dw (.base (.store i x)) ↔ t.stored i.shape ≠ none := by
          show (_ ∨ _) ↔ _
          exact ⟨fun hh => hh.elim (fun hh => absurd hh hr) fun hh => hh.2, fun hh => .inr ⟨hq, hh⟩⟩
        have hrisk : t.Risks m iw dw (.base (.store i x)) ↔ t.Used := by
          show (_ ∨ (if _ then _ else _)) ↔ _
          rw [if_pos hq]
          exact ⟨fun hh => hh.elim (fun hh => absurd hh hr) id, .inr⟩
        have haft : t.after dw (.base (.store i x)) = t := if_pos hq
        refine ⟨fun hs env => ?_, fun env b hb => ?_, fun hs => ?_, fun hs => ?_, fun hs env => ?_⟩
        · rw [hrun']
          unfold lookupBorrowed
          rw [env.probe_mem _ _ (h.key_mem.mpr (hstop.mp hs)), if_pos rfl]
          exact ⟨_, rfl⟩
        · rw [hrun'] at hb
          obtain ⟨_, -, hb⟩ := of_bind_ok hb
          cases hb
          rw [haft]
          exact ⟨_, _, rfl, h⟩
        · rw [hrun']
          unfold lookupBorrowed
          rw [if_neg]
          · exact ⟨_, rfl⟩
          · rw [listEnv_probe]
            exact fun hm => hs (hstop.mpr (h.key_mem.mp hm))
        · rw [hrun']
          unfold lookupBorrowed
          rw [probe_crowded 0 (h.used (hrisk.mp hs)), if_pos rfl]
          exact ⟨_, rfl⟩
        · rw [hrun']
          unfold lookupBorrowed
          rw [h.unused (fun hu => hs (hrisk.mpr hu)), env.probe_nil, if_neg (by simp)]
          exact ⟨_, rfl⟩
      | false =>
        rw [hq] at hrun'
        simp only [Bool.false_eq_true, if_false] at hrun'
        have hstop : ¬ t.Stops m iw dw (.base (.store i x)) := by
          rintro (hh | hh)
          · exact hr hh
          · rw [hq] at hh; cases hh.1
        have hrisk : t.Risks m iw dw (.base (.store i x)) ↔ m = .debug ∧ ∃ k, t.stored k ≠ none ∧ k.words ≠ i.shape.words := by
          show (_ ∨ (if _ then _ else _)) ↔ _
          rw [if_neg (by rw [hq]; simp)]
          exact ⟨fun hh => hh.elim (fun hh => absurd hh hr) id, .inr⟩
        have haft : t.after dw (.base (.store i x)) = { t with stored := fun k => if k = i.shape then some x.shape else t.stored k } :=
          if_neg (by rw [hq]; simp)
        refine ⟨fun hs => absurd hs hstop, fun env b hb => ?_, fun hs => ?_, fun hs => ?_, fun hs env => ?_⟩
        · rw [hrun'] at hb
          obtain ⟨_, -, hb⟩ := of_bind_ok hb
          cases hb
          rw [haft]
          exact ⟨_, _, rfl, h.insert hr⟩
        · rw [hrun', list_lookup]
          exact ⟨_, rfl⟩
        · obtain ⟨rfl, k, hk, hkw⟩ := hrisk.mp hs
          obtain ⟨k, hk2, rfl⟩ := h.has_key hk
          rw [hrun']
          refine panics_bind (crowded_lookup hk2 fun hf => hkw (hf rfl ?_).symm) _
          rw [h.key_width hk2]
          exact Classical.byContradiction fun hh => hr ⟨rfl, .inl hh⟩
        · rw [hrun', lookupOwned_ok env fun k hk hm hw => Classical.byContradiction fun hne =>
            hs (hrisk.mpr ⟨hm, k.shape, h.key_mem.mp hk, fun e => hne e.symm⟩)]
          exact ⟨_, rfl⟩

/-! ## Histories -/

theorem runs (ops : List ConvOp) : ∀ {d : BitVecValue} {map : HMap BitVecValue BitVecValue} {t : LongTable},
    LongHolds m iw dw d map t →
    (t.Somewhere (fun t => t.Stops m iw dw) dw ops → ∀ env, Panics (runConv m env (longArray iw dw d map) ops)) ∧
    (∀ env b, runConv m env (longArray iw dw d map) ops = ok b →
      ∃ d' map', b = longArray iw dw d' map' ∧ LongHolds m iw dw d' map' (t.history dw ops)) ∧
    (¬ t.Somewhere (fun t => t.Stops m iw dw) dw ops → ∃ b, runConv m listEnv (longArray iw dw d map) ops = ok b) ∧
    (t.Somewhere (fun t => t.Risks m iw dw) dw ops → Panics (runConv m (crowdedEnv 0) (longArray iw dw d map) ops)) ∧
    (¬ t.Somewhere (fun t => t.Risks m iw dw) dw ops → ∀ env, ∃ b, runConv m env (longArray iw dw d map) ops = ok b) := by
  induction ops with
  | nil =>
    intro d map t h
    exact ⟨fun hs => hs.elim, fun env b hb => (by cases hb; exact ⟨_, _, rfl, h⟩), fun _ => ⟨_, rfl⟩, fun hs => hs.elim, fun _ _ => ⟨_, rfl⟩⟩
  | cons o ops ih =>
    intro d map t h
    have hk := h.op o
    refine ⟨fun hs env => ?_, fun env b hb => ?_, fun hs => ?_, fun hs => ?_, fun hs env => ?_⟩
    · unfold runConv
      rcases hs with hs | hs
      · exact panics_bind (hk.stops hs env) _
      · refine panics_bind_of _ fun y hy => ?_
        obtain ⟨d', map', rfl, h2⟩ := hk.goes env y hy
        exact (ih h2).1 hs env
    · unfold runConv at hb
      obtain ⟨y, hy, hb⟩ := of_bind_ok hb
      obtain ⟨d', map', rfl, h2⟩ := hk.goes env y hy
      exact (ih h2).2.1 env b hb
    · obtain ⟨y, hy⟩ := hk.can fun hh => hs (.inl hh)
      obtain ⟨d', map', rfl, h2⟩ := hk.goes listEnv y hy
      unfold runConv
      rw [hy, ok_bind]
      exact (ih h2).2.2.1 fun hh => hs (.inr hh)
    · unfold runConv
      rcases hs with hs | hs
      · exact panics_bind (hk.risks hs) _
      · refine panics_bind_of _ fun y hy => ?_
        obtain ⟨d', map', rfl, h2⟩ := hk.goes _ y hy
        exact (ih h2).2.2.2.1 hs
    · obtain ⟨y, hy⟩ := hk.safe (fun hh => hs (.inl hh)) env
      obtain ⟨d', map', rfl, h2⟩ := hk.goes env y hy
      unfold runConv
      rw [hy, ok_bind]
      exact (ih h2).2.2.2.2 (fun hh => hs (.inr hh)) env

theorem start {v : BitVecValue} (hv : v.width < 2 ^ 32) : LongHolds m iw v.width v HMap.empty (.create v.shape) :=
  ⟨hv, rfl, rfl, HMap.nodup_empty, fun _ => rfl, fun _ hs => absurd rfl hs, fun _ _ _ hg => (by cases hg)⟩

end LongHolds

theorem wide_new (m : Mode) (h64 : 64 < iw) (v : BitVecValue) : newOf .sparse m iw v = ok (longArray iw v.width v HMap.empty) := by
  show (SparseArrayValue.new iw v >>= _) = _
  unfold SparseArrayValue.new
  have h0 : iw > BITS := h64
  dsimp only
  rw [if_pos h0]
  rfl

/-- What a history that returned has led to. -/
theorem wide_reached (m : Mode) (env : HashEnv) (h64 : 64 < iw) {v : BitVecValue} (hv : v.width < 2 ^ 32) (ops : List ConvOp) {b : ArrayValue}
    (hb : (newOf .sparse m iw v >>= fun a => runConv m env a ops) = ok b) :
    ∃ d map, b = longArray iw v.width d map ∧ LongHolds m iw v.width d map ((LongTable.create v.shape).history v.width ops) := by
  rw [wide_new m h64, ok_bind] at hb
  exact (LongHolds.runs ops (LongHolds.start hv)).2.1 env b hb

/-! ## The claims -/

/-- **C114** (histories): the history panics whatever indices are compared exactly if it stops somewhere, and returns whatever indices are
compared exactly if it is nowhere at risk. -/
theorem C114_history (m : Mode) (h64 : 64 < iw) {v : BitVecValue} (hv : v.width < 2 ^ 32) (ops : List ConvOp) :
    let t := LongTable.create v.shape
    ((∀ env, Panics (newOf .sparse m iw v >>= fun a => runConv m env a ops)) ↔ t.Somewhere (fun t => t.Stops m iw v.width) v.width ops) ∧
    ((∀ env, ∃ b, (newOf .sparse m iw v >>= fun a => runConv m env a ops) = ok b) ↔
      ¬ t.Somewhere (fun t => t.Risks m iw v.width) v.width ops) := by
  intro t
  have h := LongHolds.runs ops (LongHolds.start (m := m) (iw := iw) hv)
  rw [wide_new m h64]
  simp only [ok_bind]
  refine ⟨⟨fun hp => Classical.byContradiction fun hn => ?_, h.1⟩, ⟨fun hb hn => ?_, h.2.2.2.2⟩⟩
  · obtain ⟨b, hb⟩ := h.2.2.1 hn
    exact not_panics (hp listEnv) hb
  · obtain ⟨b, hb⟩ := hb (crowdedEnv 0)
    exact not_panics (h.2.2.2.1 hn) hb

/-- **C114** (listing): after a history that returned, the default and the entries are as predicted, every index once. -/
theorem C114_entries (m : Mode) (env env' : HashEnv) (h64 : 64 < iw) {v : BitVecValue} (hv : v.width < 2 ^ 32) (ops : List ConvOp)
    {b : ArrayValue} (hb : (newOf .sparse m iw v >>= fun a => runConv m env a ops) = ok b) :
    let t := (LongTable.create v.shape).history v.width ops
    ∃ s d l, b = .sparse s ∧ s.default m = ok d ∧ d.shape = t.default ∧ s.nonDefaultEntries m env' = ok l ∧ (l.map Prod.fst).Nodup ∧
      ∀ i x, t.stored i = some x ↔ ∃ e ∈ l, e.1.shape = i ∧ e.2.shape = x := by
  obtain ⟨d, map, rfl, h⟩ := wide_reached m env h64 hv ops hb
  intro t
  have hp := env'.order_perm map.entries
  refine ⟨_, d, env'.order map.entries, rfl, rfl, h.dflt, rfl, (hp.map _).nodup_iff.mpr h.nodup, fun i x => ?_⟩
  constructor
  · intro hi
    obtain ⟨k, rfl⟩ := h.named i (by rw [hi]; simp)
    have h1 := h.get k
    rw [hi] at h1
    cases hg : map.get k with
    | none => rw [hg] at h1; cases h1
    | some y =>
      rw [hg] at h1
      exact ⟨(k, y), hp.mem_iff.mpr ((HMap.get_eq_some_iff h.nodup _ _).mp hg), rfl, Option.some.inj h1⟩
  · rintro ⟨⟨k, y⟩, he, rfl, rfl⟩
    have hg := (HMap.get_eq_some_iff h.nodup _ _).mpr (hp.mem_iff.mp he)
    rw [← h.get k, hg]
    rfl

theorem LongHolds.reading {d : BitVecValue} {map : HMap BitVecValue BitVecValue} {t : LongTable} (h : LongHolds m iw dw d map t) (i : BitVecValue) :
    ((∀ env', Panics ((longArray iw dw d map).select m env' i)) ↔ (m = .debug ∧ i.width ≠ iw) ∨ t.stored i.shape ≠ none) ∧
    ((∀ env', ∃ r, (longArray iw dw d map).select m env' i = ok r) ↔ ¬ (m = .debug ∧ i.width ≠ iw) ∧ ¬ t.Used) ∧
    (∀ env' r, (longArray iw dw d map).select m env' i = ok r → r.shape = t.default) := by
  have hsel : ∀ env, (longArray iw dw d map).select m env i =
      (debugAssert m (i.width == iw) >>= fun _ => lookupBorrowed env map i >>= fun _ => ok d) := fun env => rfl
  simp only [hsel]
  by_cases hg : m = .debug ∧ i.width ≠ iw
  · obtain ⟨rfl, hw⟩ := hg
    have hp : ∀ env : HashEnv, Panics (debugAssert .debug (i.width == iw) >>= fun _ => lookupBorrowed env map i >>= fun _ => ok d) := by
      intro env
      rw [show (i.width == iw) = false by simpa using hw]
      exact ⟨_, rfl⟩
    refine ⟨⟨fun _ => .inl ⟨rfl, hw⟩, fun _ => hp⟩, ⟨fun hr => ?_, fun hh => absurd ⟨rfl, hw⟩ hh.1⟩, fun env' r hr => absurd hr fun e => not_panics (hp env') e⟩
    obtain ⟨r, hr⟩ := hr listEnv
    exact absurd hr fun e => not_panics (hp _) e
  · have h1 : debugAssert m (i.width == iw) = ok () := by
      cases m with
      | release => rfl
      | debug => exact debugAssert_of (by simpa using Classical.byContradiction fun hh => hg ⟨rfl, hh⟩)
    simp only [h1, ok_bind]
    refine ⟨⟨fun hp => .inr fun hn => ?_, fun hs env' => ?_⟩, ⟨fun hr => ⟨hg, fun hu => ?_⟩, fun hu env' => ?_⟩, fun env' r hr => ?_⟩
    · refine not_panics (hp listEnv) (a := d) ?_
      unfold lookupBorrowed
      rw [if_neg]
      · rfl
      · rw [listEnv_probe]
        exact fun hm => h.key_mem.mp hm hn
    · unfold lookupBorrowed
      rw [env'.probe_mem _ _ (h.key_mem.mpr (hs.resolve_left hg)), if_pos rfl]
      exact ⟨_, rfl⟩
    · obtain ⟨r, hr⟩ := hr (crowdedEnv 0)
      unfold lookupBorrowed at hr
      rw [LongHolds.probe_crowded 0 (h.used hu), if_pos rfl] at hr
      cases hr
    · unfold lookupBorrowed
      rw [h.unused hu.2, env'.probe_nil, if_neg (by simp)]
      exact ⟨_, rfl⟩
    · obtain ⟨_, -, hr⟩ := of_bind_ok hr
      cases hr
      exact h.dflt

/-- **C114** (reading): an index that is stored cannot be read, and neither can one of another width in a debug build. Reading any other index
gives the default or panics. It gives the default whatever indices are compared exactly if nothing is stored. -/
theorem C114_select (m : Mode) (env : HashEnv) (h64 : 64 < iw) {v : BitVecValue} (hv : v.width < 2 ^ 32) (ops : List ConvOp) {b : ArrayValue}
    (hb : (newOf .sparse m iw v >>= fun a => runConv m env a ops) = ok b) (i : BitVecValue) :
    let t := (LongTable.create v.shape).history v.width ops
    ((∀ env', Panics (b.select m env' i)) ↔ (m = .debug ∧ i.width ≠ iw) ∨ t.stored i.shape ≠ none) ∧
    ((∀ env', ∃ r, b.select m env' i = ok r) ↔ ¬ (m = .debug ∧ i.width ≠ iw) ∧ ¬ t.Used) ∧
    (∀ env' r, b.select m env' i = ok r → r.shape = t.default) := by
  obtain ⟨d, map, rfl, h⟩ := wide_reached m env h64 hv ops hb
  exact h.reading i

/-! ## Comparing two arrays -/

theorem LongHolds.size (h : LongHolds m iw dw d map t) : t.Size map.len := by
  refine ⟨(map.entries.map Prod.fst).map BitVecValue.shape, ?_, fun s => ?_, by simp [HMap.len]⟩
  · exact List.Pairwise.map _ (fun _ _ hne e => hne (shape_inj e)) h.nodup
  · rw [List.mem_map]
    constructor
    · rintro ⟨k, hk, rfl⟩
      exact h.key_mem.mp hk
    · intro hs
      exact h.has_key hs

theorem LongTable.Size.unique {t : LongTable} {n n' : Nat} (h : t.Size n) (h' : t.Size n') : n = n' := by
  obtain ⟨L, h1, h2, rfl⟩ := h
  obtain ⟨L', h1', h2', rfl⟩ := h'
  exact ((List.perm_ext_iff_of_nodup h1 h1').mpr fun k => (h2 k).trans (h2' k).symm).length_eq

theorem LongHolds.same (h : LongHolds m iw dw d map t) (h' : LongHolds m iw dw d' map' t') (hd : t.default = t'.default) :
    map.beq map' = true ↔ t = t' := by
  rw [HMap.beq_iff h.nodup h'.nodup]
  constructor
  · intro hg
    have : t.stored = t'.stored := by
      funext s
      by_cases hs : ∃ k : BitVecValue, k.shape = s
      · obtain ⟨k, rfl⟩ := hs
        rw [← h.get, ← h'.get, hg]
      · rw [Classical.byContradiction fun hh => hs (h.named s hh), Classical.byContradiction fun hh => hs (h'.named s hh)]
    cases t
    cases t'
    cases hd
    cases this
    rfl
  · rintro rfl k
    have h1 := (h.get k).trans (h'.get k).symm
    cases hg : map.get k with
    | none =>
      rw [hg] at h1
      cases hg' : map'.get k with
      | none => rfl
      | some y => rw [hg'] at h1; cases h1
    | some x =>
      rw [hg] at h1
      cases hg' : map'.get k with
      | none => rw [hg'] at h1; cases h1
      | some y =>
        rw [hg'] at h1
        rw [shape_inj (Option.some.inj h1)]

theorem LongHolds.comparing {d d' : BitVecValue} {map map' : HMap BitVecValue BitVecValue} {t t' : LongTable} (h : LongHolds m iw dw d map t)
    (h' : LongHolds m iw dw d' map' t') :
    ((∀ env, Panics ((longArray iw dw d map).eq m env (longArray iw dw d' map'))) ↔ t.Clash m t') ∧
    ((∀ env, ∃ r, (longArray iw dw d map).eq m env (longArray iw dw d' map') = ok r) ↔ ¬ t.Clash m t' ∧ ¬ t.MayClash m t') ∧
    (∀ env r, (longArray iw dw d map).eq m env (longArray iw dw d' map') = ok r → (r = true ↔ t = t')) := by
  have hc : Answers (BitVecValue.eqOwned m d d') (if m = .debug ∧ d.shape.width = d'.shape.width ∧ d.shape.words ≠ d'.shape.words then none
    else some (decide (d.shape = d'.shape))) := C105_comparison (a := d) (b := d') m .eqOwned
  have hww : d.shape.width = d'.shape.width := h.dflt_width.trans h'.dflt_width.symm
  rw [h.dflt, h'.dflt] at hc hww
  have heq : ∀ env : HashEnv, ArrayValue.eq m env (longArray iw dw d map) (longArray iw dw d' map') =
      (BitVecValue.eqOwned m d d' >>= fun e => if e then
        (if map.len = map'.len then eqMaps m env (lookupOwned m env map') map map' else ok false) else ok false) := by
    intro env
    show (SparseArrayValue.isEqual m env ⟨iw, dw, .bigbig d map⟩ ⟨iw, dw, .bigbig d' map'⟩ >>= _) = _
    unfold SparseArrayValue.isEqual
    rw [if_neg (by simp)]
    dsimp only
    cases BitVecValue.eqOwned m d d' with
    | panic p => rfl
    | ok e =>
      cases e
      · rfl
      · simp only [ok_bind, if_true]
        by_cases hl : map.len = map'.len
        · rw [if_pos hl, if_pos hl]
          cases eqMaps m env (lookupOwned m env map') map map' <;> rfl
        · rw [if_neg hl, if_neg hl]
          rfl
  simp only [heq]
  by_cases hcl : t.Clash m t'
  · rw [if_pos ⟨hcl.1, hww, hcl.2⟩] at hc
    have hp : ∀ env : HashEnv, Panics (BitVecValue.eqOwned m d d' >>= fun e => if e then
        (if map.len = map'.len then eqMaps m env (lookupOwned m env map') map map' else ok false) else ok false) := fun env => panics_bind hc _
    refine ⟨⟨fun _ => hcl, fun _ => hp⟩, ⟨fun hr => ?_, fun hh => absurd hcl hh.1⟩, fun env r hr => absurd hr fun e => not_panics (hp env) e⟩
    obtain ⟨r, hr⟩ := hr listEnv
    exact absurd hr fun e => not_panics (hp _) e
  · rw [if_neg (fun hh => hcl ⟨hh.1, hh.2.2⟩)] at hc
    replace hc : BitVecValue.eqOwned m d d' = ok (decide (t.default = t'.default)) := hc
    simp only [hc, ok_bind]
    by_cases hd : t.default = t'.default
    · rw [decide_eq_true hd]
      simp only [if_true]
      have hlen : (∃ n, t.Size n ∧ t'.Size n) ↔ map.len = map'.len :=
        ⟨fun ⟨n, h1, h2⟩ => (h.size.unique h1).trans (h2.unique h'.size), fun e => ⟨_, h.size, e ▸ h'.size⟩⟩
      by_cases hl : map.len = map'.len
      · simp only [if_pos hl]
        have hfit : ∀ e ∈ map.entries, ∀ v, map'.get e.1 = some v → Fits m e.2 v := by
          intro e he v hv hm _
          have h1 := (h.uniform hm e.1 e.2 ((HMap.get_eq_some_iff h.nodup _ _).mpr he)).2.2
          have h2 := (h'.uniform hm e.1 v hv).2.2
          have h3 : d.shape.words = d'.shape.words := by rw [h.dflt, h'.dflt]; exact congrArg _ hd
          exact h1.trans (h3.trans h2.symm)
        have hmay : t.MayClash m t' ↔ m = .debug ∧ ∃ k k', t.stored k ≠ none ∧ t'.stored k' ≠ none ∧ k.words ≠ k'.words :=
          ⟨fun hh => ⟨hh.1, hh.2.2.2⟩, fun hh => ⟨hh.1, hd, hlen.mpr hl, hh.2⟩⟩
        refine ⟨⟨fun hp => ?_, fun hh => absurd hh hcl⟩, ⟨fun hr => ⟨hcl, fun hh => ?_⟩, fun hh env => ?_⟩, fun env r hr => ?_⟩
        · exact absurd (eqMaps_ok listEnv (fun e _ => list_lookup m map' e.1) hfit) fun e => not_panics (hp listEnv) e
        · obtain ⟨rfl, k, k', hk, hk', hne⟩ := hmay.mp hh
          obtain ⟨k, hk2, rfl⟩ := h.has_key hk
          obtain ⟨k', hk2', rfl⟩ := h'.has_key hk'
          obtain ⟨e, he, rfl⟩ := List.mem_map.mp hk2
          obtain ⟨n, hn, rfl⟩ := List.getElem_of_mem he
          obtain ⟨r, hr⟩ := hr (crowdedEnv n)
          unfold eqMaps at hr
          rw [if_pos hl] at hr
          have hord : (crowdedEnv n).order map.entries = map.entries[n] :: (map.entries.drop (n + 1) ++ map.entries.take n) := by
            show map.entries.drop n ++ map.entries.take n = _
            rw [List.drop_eq_getElem_cons hn, List.cons_append]
          rw [hord] at hr
          unfold eqEntries at hr
          have hpan := crowded_lookup (n := n) hk2' (key := map.entries[n].1) fun hf =>
            hne (hf rfl ((h.key_width hk2).trans (h'.key_width hk2').symm))
          obtain ⟨p, hp⟩ := hpan
          rw [hp] at hr
          cases hr
        · rw [eqMaps_ok env (fun e he => lookupOwned_ok env fun k hk hm _ => Classical.byContradiction fun hne =>
            hh.2 (hmay.mpr ⟨hm, e.1.shape, k.shape, h.key_mem.mp (List.mem_map.mpr ⟨e, he, rfl⟩), h'.key_mem.mp hk, hne⟩)) hfit]
          exact ⟨_, rfl⟩
        · rw [eqMaps_imp hr]
          exact h.same h' hd
      · simp only [if_neg hl]
        refine ⟨⟨fun hp => absurd rfl fun e => not_panics (hp listEnv) e, fun hh => absurd hh hcl⟩,
          ⟨fun _ => ⟨hcl, fun hh => hl (hlen.mp hh.2.2.1)⟩, fun _ _ => ⟨_, rfl⟩⟩, fun env r hr => ?_⟩
        cases hr
        refine ⟨fun hh => (by cases hh), fun hh => absurd (hlen.mp ?_) hl⟩
        rw [← hh]
        exact ⟨_, h.size, h.size⟩
    · rw [decide_eq_false hd]
      simp only [Bool.false_eq_true, if_false]
      refine ⟨⟨fun hp => absurd rfl fun e => not_panics (hp listEnv) e, fun hh => absurd hh hcl⟩,
        ⟨fun _ => ⟨hcl, fun hh => hd hh.2.1⟩, fun _ _ => ⟨_, rfl⟩⟩, fun env r hr => ?_⟩
      cases hr
      exact ⟨fun hh => (by cases hh), fun hh => absurd (congrArg LongTable.default hh) hd⟩

/-- **C114** (equality): two such arrays of the same widths are compared correctly whenever the comparison returns. It panics whatever indices
are compared exactly if the defaults clash, and can panic exactly if the indices of equally large arrays with the same default may clash. -/
theorem C114_equal (m : Mode) (env₁ env₂ : HashEnv) (h64 : 64 < iw) {u v : BitVecValue} (hu : u.width < 2 ^ 32) (huv : u.width = v.width)
    (ops ops' : List ConvOp) {a b : ArrayValue} (ha : (newOf .sparse m iw u >>= fun a => runConv m env₁ a ops) = ok a)
    (hb : (newOf .sparse m iw v >>= fun a => runConv m env₂ a ops') = ok b) :
    let t := (LongTable.create u.shape).history u.width ops
    let t' := (LongTable.create v.shape).history v.width ops'
    ((∀ env, Panics (a.eq m env b)) ↔ t.Clash m t') ∧
    ((∀ env, ∃ r, a.eq m env b = ok r) ↔ ¬ t.Clash m t' ∧ ¬ t.MayClash m t') ∧
    (∀ env r, a.eq m env b = ok r → (r = true ↔ t = t')) := by
  obtain ⟨d, map, rfl, h⟩ := wide_reached m env₁ h64 hu ops ha
  obtain ⟨d', map', rfl, h'⟩ := wide_reached m env₂ h64 (huv ▸ hu) ops' hb
  rw [← huv] at h' ⊢
  exact h.comparing h'

theorem long_mixed (env' : HashEnv) {x : BitVecValue} {map : HMap BitVecValue BitVecValue} {d : DenseArrayValue} (hi : d.indexWidth = iw)
    (hd : d.dataWidth = dw) :
    Panics ((longArray iw dw x map).eq m env' (.dense d)) ∧ Panics (ArrayValue.eq m env' (.dense d) (longArray iw dw x map)) := by
  have hp : Panics (isEqualMixed m env' d ⟨iw, dw, .bigbig x map⟩) := by
    unfold isEqualMixed
    rw [if_neg (by simp [hi, hd])]
    refine panics_bind ?_ _
    unfold DenseArrayValue.ofSparse
    exact panics_bind_of _ fun _ _ => panics_bind_of _ fun _ _ => panics_bind_of _ fun _ _ => panics_bind_of _ fun _ _ => ⟨_, rfl⟩
  exact ⟨panics_bind hp _, panics_bind hp _⟩

/-- **C114** (comparison with a dense array): it panics in both orders if the widths are the same. -/
theorem C114_mixed (m : Mode) (env env' : HashEnv) (h64 : 64 < iw) {v : BitVecValue} (hv : v.width < 2 ^ 32) (ops : List ConvOp) {b : ArrayValue}
    (hb : (newOf .sparse m iw v >>= fun a => runConv m env a ops) = ok b) {d : DenseArrayValue} (hi : d.indexWidth = iw)
    (hd : d.dataWidth = v.width) : Panics (b.eq m env' (.dense d)) ∧ Panics (ArrayValue.eq m env' (.dense d) b) := by
  obtain ⟨x, map, rfl, -⟩ := wide_reached m env h64 hv ops hb
  exact long_mixed env' hi hd

/-! ## Concrete cases -/

/-- The indices 3 and 4 of 65 bits, the first with a word too many, the second with a word too few. -/
abbrev oddOps : List ConvOp := [.base (.store ⟨65, [3#64, 0#64, 0#64]⟩ (encode 7#8)), .base (.store ⟨65, [4#64]⟩ (encode 9#8))]

/-- A history that does not stop, but is at risk in a debug build, and not in a release build. -/
example : ¬ (LongTable.create (encode 0#8).shape).Somewhere (fun t => t.Stops .debug 65 8) 8 oddOps ∧
    (LongTable.create (encode 0#8).shape).Somewhere (fun t => t.Risks .debug 65 8) 8 oddOps ∧
    ¬ (LongTable.create (encode 0#8).shape).Somewhere (fun t => t.Risks .release 65 8) 8 oddOps := by
  refine ⟨?_, .inr (.inl (.inr ?_)), ?_⟩
  · rintro ((⟨-, h⟩ | ⟨h, -⟩) | (⟨-, h⟩ | ⟨h, -⟩) | h)
    · revert h; decide
    · revert h; decide
    · revert h; decide
    · revert h; decide
    · exact h
  · exact ⟨rfl, (BitVecValue.shape ⟨65, [3#64, 0#64, 0#64]⟩), by decide, by decide⟩
  · rintro ((⟨h, -⟩ | ⟨h, -⟩) | (⟨h, -⟩ | ⟨h, -⟩) | h)
    · cases h
    · cases h
    · cases h
    · cases h
    · exact h

/-- It panics in a debug build if the hash table compares the two indices, and returns otherwise. -/
example : Panics (newOf .sparse .debug 65 (encode 0#8) >>= fun a => runConv .debug (crowdedEnv 0) a oddOps) ∧
    (do let a ← newOf .sparse .debug 65 (encode 0#8)
        let a ← runConv .debug listEnv a oddOps
        let s ← a.toSparse .debug listEnv
        let l ← s.nonDefaultEntries .debug listEnv
        ok l.length) = ok 2 :=
  ⟨⟨.debugAssert, by rfl⟩, by decide +kernel⟩

/-- Reading what is stored panics. Reading an index with the same number but other words gives the default, if it is not compared. -/
example : Panics (newOf .sparse .debug 65 (encode 0#8) >>= fun a => runConv .debug listEnv a oddOps >>= fun a =>
      a.select .debug listEnv ⟨65, [4#64]⟩) ∧
    (do let a ← newOf .sparse .debug 65 (encode 0#8)
        let a ← runConv .debug listEnv a oddOps
        a.select .debug listEnv (encode 4#65)) = ok (encode 0#8) :=
  ⟨⟨.todo, by decide +kernel⟩, by decide +kernel⟩

/-- Two arrays that may clash: comparing them panics in a debug build if the two indices are compared, and says that they differ otherwise. -/
example : Panics (do let a ← newOf .sparse .debug 65 (encode 0#8)
                     let x ← runConv .debug listEnv a [.base (.store ⟨65, [4#64]⟩ (encode 9#8))]
                     let y ← runConv .debug listEnv a [.base (.store (encode 4#65) (encode 9#8))]
                     x.eq .debug (crowdedEnv 0) y) ∧
    (do let a ← newOf .sparse .debug 65 (encode 0#8)
        let x ← runConv .debug listEnv a [.base (.store ⟨65, [4#64]⟩ (encode 9#8))]
        let y ← runConv .debug listEnv a [.base (.store (encode 4#65) (encode 9#8))]
        x.eq .debug listEnv y) = ok false :=
  ⟨⟨.debugAssert, by decide +kernel⟩, by decide +kernel⟩

/-- Making such an array dense panics, also in a release build. -/
example : Panics (newOf .sparse .release 65 (encode 0#8) >>= fun a => runConv .release listEnv a [.makeDense]) :=
  ⟨.unreachable, by rfl⟩

end Baa

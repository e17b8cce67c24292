import Verif.Props.Devices

/-!
# C116: the predictions of programs are exact

C112 says that whatever a program does is allowed by the specification. This file says that the specification allows nothing else: every outcome
that it leaves open does occur for some behaviour of the hash tables.
-/

namespace Baa
open Res BitVecValue

variable {m : Mode} {s : Device} {σ : Sketch} {iw dw : Nat} {a b : ArrayValue} {c e : Stock}

/-! ## Every order of the entries -/

theorem range_filterMap {α : Type} (l : List α) : (List.range l.length).filterMap (fun k => l[k]?) = l := by
  induction l with
  | nil => rfl
  | cons a l ih =>
    rw [List.length_cons, List.range_succ_eq_map, List.filterMap_cons]
    simp [List.filterMap_map, Function.comp_def]
    simpa using ih

/-- A hash table that visits its entries in a given order of positions. -/
def permEnv (p : List Nat) : HashEnv where
  order := fun l => if p.isPerm (List.range l.length) then p.filterMap fun k => l[k]? else l
  order_perm := fun l => by
    by_cases h : p.isPerm (List.range l.length) = true
    · rw [if_pos h]
      exact ((List.isPerm_iff.mp h).filterMap _).trans (.of_eq (range_filterMap l))
    · rw [if_neg h]
  compared := fun keys key => keys.filter fun k => k = key
  compared_stored := fun _ _ _ h => (List.mem_filter.mp h).1
  compared_mem := fun _ _ h => List.mem_filter.mpr ⟨h, by simp⟩

theorem map_idxOf {l : List Nat} (h : l.Nodup) : l.map (fun x => l.idxOf x) = List.range l.length := by
  apply List.ext_getElem (by simp)
  intro i h1 h2
  rw [List.getElem_map, List.getElem_range]
  exact h.idxOf_getElem i (by simpa using h1)

/-- Any order of the keys is the order in which some hash table visits them. -/
theorem permEnv_order {α : Type} (l : List α) (key : α → Nat) {L : List Nat} (hn : (l.map key).Nodup) (hL : L.Nodup)
    (h : ∀ x, x ∈ L ↔ x ∈ l.map key) : ∃ env : HashEnv, (env.order l).map key = L := by
  have hperm : L.Perm (l.map key) := perm_of_subset hL (fun x hx => (h x).mp hx) (length_le_of_subset hn fun x hx => (h x).mpr hx)
  refine ⟨permEnv (L.map fun x => (l.map key).idxOf x), ?_⟩
  have hp : (L.map fun x => (l.map key).idxOf x).isPerm (List.range l.length) = true := by
    rw [List.isPerm_iff]
    refine (hperm.map _).trans (.of_eq ?_)
    rw [map_idxOf hn, List.length_map]
  show List.map key (if _ then _ else _) = L
  rw [if_pos hp, List.filterMap_map]
  have hmem : ∀ x ∈ L, x ∈ l.map key := fun x hx => (h x).mp hx
  clear hp hperm h hL
  induction L with
  | nil => rfl
  | cons x L ih =>
    have hx : (l.map key).idxOf x < (l.map key).length := List.idxOf_lt_length_iff.mpr (hmem x (by simp))
    have hx' : (l.map key).idxOf x < l.length := by simpa using hx
    have hk := List.getElem_idxOf hx
    rw [List.getElem_map] at hk
    rw [List.filterMap_cons]
    simp only [Function.comp_apply, List.getElem?_eq_getElem hx', List.map_cons, hk]
    exact congrArg (List.cons x) (ih fun y hy => hmem y (by simp [hy]))

theorem SparseHolds.listing_any {s : SparseArrayValue} {t : Table} (h : SparseHolds iw dw s t) {L : List Nat} (hL : t.Lists L) :
    ∃ env, s.listing env = L := by
  have hl := h.listed listEnv
  obtain ⟨-, -, -, hrep⟩ := h
  obtain ⟨_, _, data⟩ := s
  cases data with
  | u64u64 d map => exact permEnv_order map.entries _ hl.1 hL.1 fun x => (hL.2 x).trans (hl.2 x).symm
  | u64big d map => exact permEnv_order map.entries _ hl.1 hL.1 fun x => (hL.2 x).trans (hl.2 x).symm
  | bigbig d map => exact hrep.elim

/-! ## Arrays -/

namespace Stock.Held

theorem created_any (k : Kind) (m : Mode) (iw : Nat) {v : BitVecValue} (hv : v.width < 2 ^ 32) {u : Upshot Stock}
    (hu : Stock.Created k m iw v.shape u) : u.Shows (Stock.Held m iw v.width) (newOf k m iw v) := by
  obtain ⟨u', hu', hs⟩ := held_new k m iw hv
  have : u' = u := by
    cases k with
    | dense =>
      rcases hu with ⟨h1, rfl⟩ | ⟨h1, rfl⟩ <;> rcases hu' with ⟨h2, rfl⟩ | ⟨h2, rfl⟩
      · rfl
      · exact absurd h2 h1
      · exact absurd h1 h2
      · rfl
    | sparse =>
      unfold Stock.Created at hu hu'
      by_cases hi : iw ≤ 64
      · simp only [if_pos hi] at hu hu'
        rw [hu, hu']
      · simp only [if_neg hi] at hu hu'
        rw [hu, hu']
  rw [← this]
  exact hs

theorem stored_any (h : Held m iw dw a c) (i : BitVecValue) {v : BitVecValue} (hv : v.width < 2 ^ 32) {u : Upshot Stock}
    (hu : c.Stored m iw dw i.shape v.shape u) : ∃ env, u.Shows (Held m iw dw) ((ConvOp.base (.store i v)).run m env a) := by
  cases h with
  | long h hi =>
    have hk := h.op (.base (.store i v))
    rcases hu with ⟨h1, rfl⟩ | ⟨h1, rfl⟩
    · exact ⟨_, hk.risks h1⟩
    · obtain ⟨b, hb⟩ := hk.can h1
      obtain ⟨d', map', rfl, h'⟩ := hk.goes _ b hb
      exact ⟨_, _, hb, .long h' hi⟩
  | dense h hw hn =>
    obtain ⟨u', hu', hs⟩ := (dense h hw hn).stored listEnv i hv
    rw [show u' = u from Eq.trans hu' (Eq.symm hu)] at hs
    exact ⟨_, hs⟩
  | table h ht hi =>
    obtain ⟨u', hu', hs⟩ := (table h ht hi).stored (m := m) listEnv i hv
    rw [show u' = u from Eq.trans hu' (Eq.symm hu)] at hs
    exact ⟨_, hs⟩

theorem madeDense_any (h : Held m iw dw a c) {u : Upshot Stock} (hu : c.MadeDense m iw dw u) :
    ∃ env, u.Shows (Held m iw dw) (ConvOp.makeDense.run m env a) := by
  cases h with
  | dense h hw hn =>
    obtain ⟨u', hu', hs⟩ := (dense h hw hn).madeDense listEnv
    rw [show u' = u from Eq.trans hu' (Eq.symm hu)] at hs
    exact ⟨_, hs⟩
  | long h hi =>
    obtain ⟨u', hu', hs⟩ := (long h hi).madeDense listEnv
    rw [show u' = u from Eq.trans hu' (Eq.symm hu)] at hs
    exact ⟨_, hs⟩
  | @table s t h ht hi =>
    rcases hu with ⟨-, rfl⟩ | ⟨hs, L, hL, rfl⟩
    · exact ⟨listEnv, trivial⟩
    · obtain ⟨env, rfl⟩ := h.listing_any hL
      have hf := h.ofSparse_listing m env (roomy h hs)
      refine ⟨env, shows_of_fate ?_⟩
      cases hr : t.densified m iw dw (s.listing env) with
      | none =>
        rw [hr] at hf
        exact panics_bind hf _
      | some mem =>
        rw [hr] at hf
        obtain ⟨d, hd1, hd2⟩ := hf
        obtain ⟨hw, n, hn⟩ := densified_whole h.default_width hr
        refine ⟨.dense d, ?_, .dense hd2 hw hn⟩
        show (DenseArrayValue.ofSparse m env s >>= fun d => ok (ArrayValue.dense d)) = _
        rw [hd1, ok_bind]

theorem madeSparse_any (h : Held m iw dw a c) {u : Upshot Stock} (hu : c.MadeSparse m iw dw u) :
    ∃ env, u.Shows (Held m iw dw) (ConvOp.toSparse.run m env a) := by
  cases h with
  | table h ht hi =>
    obtain ⟨u', hu', hs⟩ := (table h ht hi).madeSparse (m := m) listEnv
    rw [show u' = u from Eq.trans hu' (Eq.symm hu)] at hs
    exact ⟨_, hs⟩
  | long h hi =>
    obtain ⟨u', hu', hs⟩ := (long h hi).madeSparse listEnv
    rw [show u' = u from Eq.trans hu' (Eq.symm hu)] at hs
    exact ⟨_, hs⟩
  | @dense d mem n h hw hn =>
    by_cases hi : iw ≤ 64
    · unfold Stock.MadeSparse at hu
      simp only [if_pos hi] at hu
      have key : ∀ env x, Fate (SparseHolds iw dw) (d.toSparse m env) (mem.sparsified m iw dw x) →
          (Upshot.of ((mem.sparsified m iw dw x).map .table)).Shows (Held m iw dw) (ConvOp.toSparse.run m env (.dense d)) := by
        intro env x hf
        refine shows_of_fate ?_
        cases hr : mem.sparsified m iw dw x with
        | none =>
          rw [hr] at hf
          exact panics_bind hf _
        | some t =>
          rw [hr] at hf
          obtain ⟨s, hs1, hs2⟩ := hf
          refine ⟨.sparse s, ?_, .table hs2 (sparsified_uniform hr) hi⟩
          show (DenseArrayValue.toSparse m env d >>= fun s => ok (ArrayValue.sparse s)) = _
          rw [hs1, ok_bind]
      rcases h.toSparse_all hw hn hi with ⟨hp, hnone⟩ | ⟨hall, hany⟩
      · have : u = .panic := by
          rcases hu with ⟨h1, -⟩ | ⟨x, -, h1⟩
          · exact h1
          · rw [h1, hnone x]
            rfl
        rw [this]
        exact ⟨listEnv, panics_bind (hp listEnv) _⟩
      · rcases hu with ⟨rfl, hnone⟩ | ⟨x, hx, rfl⟩
        · obtain ⟨x, -, hf⟩ := hall listEnv
          have := key listEnv x hf
          rw [hnone x] at this
          exact ⟨listEnv, this⟩
        · obtain ⟨env, hf⟩ := hany x hx
          exact ⟨env, key env x hf⟩
    · obtain ⟨u', hu', hs⟩ := (dense h hw hn).madeSparse listEnv
      unfold Stock.MadeSparse at hu hu'
      simp only [if_neg hi] at hu hu'
      rw [show u' = u from Eq.trans hu' (Eq.symm hu)] at hs
      exact ⟨_, hs⟩

theorem selected_any (h : Held m iw dw a c) (i : BitVecValue) {u : Upshot Shape} (hu : c.Selected m iw dw i.shape u) :
    ∃ env, u.Shows Read (a.select m env i) := by
  cases h with
  | dense h hw hn =>
    obtain ⟨u', hu', hs⟩ := (dense h hw hn).selected listEnv i
    rw [show u' = u from Eq.trans hu' (Eq.symm hu)] at hs
    exact ⟨_, hs⟩
  | table h ht hi =>
    obtain ⟨u', hu', hs⟩ := (table h ht hi).selected (m := m) listEnv i
    rw [show u' = u from Eq.trans hu' (Eq.symm hu)] at hs
    exact ⟨_, hs⟩
  | @long d map t h hi =>
    obtain ⟨h1, h2, h3⟩ := h.reading i
    rcases hu with ⟨hp, rfl⟩ | ⟨hg, hn, rfl⟩
    · apply Classical.byContradiction
      intro hno
      have := h2.mp fun env => by
        cases hr : (longArray iw dw d map).select m env i with
        | ok r => exact ⟨r, rfl⟩
        | panic p => exact absurd ⟨env, p, hr⟩ hno
      exact hp.elim this.1 this.2
    · apply Classical.byContradiction
      intro hno
      have := h1.mp fun env => by
        cases hr : (longArray iw dw d map).select m env i with
        | panic p => exact ⟨p, rfl⟩
        | ok r =>
          refine absurd ⟨env, r, hr, h3 env r hr, ?_⟩ hno
          have hd : r.width = d.width := congrArg Shape.width ((h3 env r hr).trans h.dflt.symm)
          rw [hd, h.dflt_width]
          exact h.width_lt
      exact this.elim hg fun hh => hh hn

theorem mixed_any {d : DenseArrayValue} {s : SparseArrayValue} {mem : Memory} {t : Table} (hd : DenseHolds m iw dw d mem)
    (hs : SparseHolds iw dw s t) {u : Upshot Bool} (hu : t.MixedCompared m iw dw mem u) :
    ∃ env, u.Shows Eq (isEqualMixed m env d s >>= fun r => ok (r.getD false)) := by
  rcases hu with ⟨-, rfl⟩ | ⟨h, L, hL, hu⟩
  · exact ⟨listEnv, trivial⟩
  · obtain ⟨env, rfl⟩ := hs.listing_any hL
    have hm := isEqualMixed_listing env hd hs (roomy hs h)
    refine ⟨env, ?_⟩
    cases hr : t.densified m iw dw (s.listing env) with
    | none =>
      rw [hr] at hm hu
      rw [show u = .panic from hu]
      exact panics_bind hm _
    | some out =>
      rw [hr] at hm hu
      obtain ⟨b, rfl, hb⟩ := hu
      obtain ⟨b', hb1, hb2⟩ := hm
      refine ⟨b', ?_, ?_⟩
      · rw [hb1]
        rfl
      · exact Bool.eq_iff_iff.mpr (hb2.trans hb.symm)

theorem compared_any (ha : Held m iw dw a c) (hb : Held m iw dw b e) {u : Upshot Bool} (hu : c.Compared m iw dw e u) :
    ∃ env, u.Shows Eq (a.eq m env b) := by
  have det : (∀ u', c.Compared m iw dw e u' → u' = u) → ∃ env, u.Shows Eq (a.eq m env b) := fun hd => by
    obtain ⟨u', hu', hs⟩ := ha.compared hb listEnv
    rw [hd u' hu'] at hs
    exact ⟨_, hs⟩
  cases ha with
  | dense ha hw hn =>
    cases hb with
    | dense hb hw' hn' =>
      refine det fun u' hu' => ?_
      obtain ⟨r, rfl, hr⟩ := hu
      obtain ⟨r', rfl, hr'⟩ := hu'
      rw [Bool.eq_iff_iff.mpr (hr'.trans hr.symm)]
    | table hb => exact mixed_any ha hb hu
    | long hb => exact det fun u' hu' => Eq.trans hu' (Eq.symm hu)
  | table ha hat hi =>
    cases hb with
    | dense hb => exact mixed_any hb ha hu
    | table hb =>
      refine det fun u' hu' => ?_
      rcases hu with ⟨h1, rfl⟩ | ⟨h1, r, rfl, hr⟩ <;> rcases hu' with ⟨h2, rfl⟩ | ⟨h2, r', rfl, hr'⟩
      · rfl
      · exact absurd h1 h2
      · exact absurd h2 h1
      · rw [Bool.eq_iff_iff.mpr (hr'.trans hr.symm)]
    | long hb hi' => omega
  | @long d map t ha hi =>
    cases hb with
    | dense hb => exact det fun u' hu' => Eq.trans hu' (Eq.symm hu)
    | table hb _ hi' => omega
    | @long d' map' t' hb _ =>
      obtain ⟨h1, h2, h3⟩ := ha.comparing hb
      rcases hu with ⟨hp, rfl⟩ | ⟨hg, r, rfl, hr⟩
      · apply Classical.byContradiction
        intro hno
        have := h2.mp fun env => by
          cases hr : (longArray iw dw d map).eq m env (longArray iw dw d' map') with
          | ok r => exact ⟨r, rfl⟩
          | panic p => exact absurd ⟨env, p, hr⟩ hno
        exact hp.elim this.1 this.2
      · apply Classical.byContradiction
        intro hno
        refine hg (h1.mp fun env => ?_)
        cases hr' : (longArray iw dw d map).eq m env (longArray iw dw d' map') with
        | panic p => exact ⟨p, rfl⟩
        | ok r' => exact absurd ⟨env, r', hr', Bool.eq_iff_iff.mpr ((h3 env r' hr').trans hr.symm)⟩ hno

end Stock.Held

theorem Known.Held.answers_any {a b : ArrayValue} {x y : Known} (ha : x.Held m a) (hb : y.Held m b) {u : Upshot Bool} (hu : x.Answers m y u) :
    ∃ env, u.Shows Eq (a.eq m env b) := by
  unfold Known.Answers at hu
  by_cases h : x.iw = y.iw ∧ x.dw = y.dw
  · simp only [if_pos h] at hu
    replace hb : y.stock.Held m y.iw y.dw b := hb
    rw [← h.1, ← h.2] at hb
    exact Stock.Held.compared_any ha hb hu
  · obtain ⟨u', hu', hs⟩ := ha.answers hb listEnv
    unfold Known.Answers at hu'
    simp only [if_neg h] at hu hu'
    rw [show u' = u from hu'.trans hu.symm] at hs
    exact ⟨_, hs⟩

/-! ## Actions and programs -/

theorem Device.Tracks.change_any (h : s.Tracks m σ) (A : Nat) (op : ConvOp) {f : Known → Upshot Stock → Prop}
    (hf : ∀ a x u, σ.arr A = some x → x.Held m a → f x u → ∃ env, u.Shows (Stock.Held m x.iw x.dw) (op.run m env a)) {e : Upshot Sketch}
    (he : σ.Changes A f e) : ∃ env, e.Shows (Device.Tracks m) (s.change m env A op) := by
  unfold Sketch.Changes at he
  unfold Device.change
  rcases h.arr_cases A with ⟨h1, h2⟩ | ⟨a, x, h1, h2, h3⟩
  · rw [h2] at he
    rw [h1, show e = .panic from he]
    exact ⟨listEnv, _, rfl⟩
  · rw [h2] at he
    obtain ⟨u, hu, rfl⟩ := he
    obtain ⟨env, hs⟩ := hf a x u h2 h3 hu
    rw [h1]
    exact ⟨env, hs.bind fun b c hb => ⟨_, rfl, h.hold A hb⟩⟩

theorem Device.Tracks.step_any (h : s.Tracks m σ) (a : Action) (hs : a.Sized) {e : Upshot Sketch} (he : a.Leads m σ e) :
    ∃ env, e.Shows (Device.Tracks m) (a.run m env s) := by
  have hr : ∀ r, σ.reg r = (s.reg r).shape := fun r => (h.reg r).1.symm
  have det : (∀ e', a.Leads m σ e' → e' = e) → ∃ env, e.Shows (Device.Tracks m) (a.run m env s) := fun hd => by
    obtain ⟨e', h1, h2⟩ := h.step listEnv a hs
    rw [hd e' h1] at h2
    exact ⟨_, h2⟩
  cases a with
  | value r v => exact det fun e' h' => Eq.trans h' (Eq.symm he)
  | un r op a => exact det fun e' h' => Eq.trans h' (Eq.symm he)
  | bin r op a b => exact det fun e' h' => Eq.trans h' (Eq.symm he)
  | concat r a b => exact det fun e' h' => Eq.trans h' (Eq.symm he)
  | cmp r op a b => exact det fun e' h' => Eq.trans h' (Eq.symm he)
  | test r op a => exact det fun e' h' => Eq.trans h' (Eq.symm he)
  | setU64 r v => exact det fun e' h' => Eq.trans h' (Eq.symm he)
  | setI64 r v => exact det fun e' h' => Eq.trans h' (Eq.symm he)
  | parse r radix text target => exact det fun e' h' => Eq.trans h' (Eq.symm he)
  | print a => exact det fun e' h' => Eq.trans h' (Eq.symm he)
  | jump t => exact det fun e' h' => Eq.trans h' (Eq.symm he)
  | branch a t => exact det fun e' h' => Eq.trans h' (Eq.symm he)
  | copy A B => exact det fun e' h' => Eq.trans h' (Eq.symm he)
  | create A k iw a =>
    obtain ⟨u, hu, rfl⟩ := he
    rw [hr] at hu ⊢
    exact ⟨listEnv, (Stock.Held.created_any k m iw (h.reg a).2 hu).bind fun b c hb => ⟨_, rfl, h.hold A hb⟩⟩
  | store A i d =>
    refine h.change_any A _ (fun a x u _ hx hu => ?_) he
    rw [hr, hr] at hu
    exact Stock.Held.stored_any hx (s.reg i) (h.reg d).2 hu
  | clear A =>
    refine h.change_any A _ (fun a x u _ hx hu => ?_) he
    rw [hu]
    exact ⟨listEnv, Stock.Held.cleared hx listEnv⟩
  | makeDense A => exact h.change_any A _ (fun a x u _ hx hu => Stock.Held.madeDense_any hx hu) he
  | toSparse A => exact h.change_any A _ (fun a x u _ hx hu => Stock.Held.madeSparse_any hx hu) he
  | select r A i =>
    dsimp only [Action.Leads, Action.run] at he ⊢
    rcases h.arr_cases A with ⟨h1, h2⟩ | ⟨a, x, h1, h2, h3⟩
    · rw [h2] at he
      rw [h1, show e = .panic from he]
      exact ⟨listEnv, _, rfl⟩
    · rw [h2, hr] at he
      obtain ⟨u, hu, rfl⟩ := he
      obtain ⟨env, hs⟩ := Stock.Held.selected_any h3 (s.reg i) hu
      rw [h1]
      exact ⟨env, hs.bind fun v w hv => ⟨_, rfl, h.write r hv.1 hv.2⟩⟩
  | same r A B =>
    dsimp only [Action.Leads, Action.run] at he ⊢
    rcases h.arr_cases A with ⟨h1, h2⟩ | ⟨a, x, h1, h2, h3⟩
    · rw [h2] at he
      rw [h1, show e = .panic from he]
      exact ⟨listEnv, _, rfl⟩
    · rcases h.arr_cases B with ⟨h1', h2'⟩ | ⟨b, y, h1', h2', h3'⟩
      · rw [h2, h2'] at he
        rw [h1, h1', show e = .panic from he]
        exact ⟨listEnv, _, rfl⟩
      · rw [h2, h2'] at he
        obtain ⟨u, hu, rfl⟩ := he
        obtain ⟨env, hs⟩ := h3.answers_any h3' hu
        rw [h1, h1']
        refine ⟨env, hs.bind fun t t' ht => ?_⟩
        subst ht
        exact h.write_answers (m := m) r (show Answers (ok t) (some t) from rfl)

/-- Later behaviours of hash tables do not matter. -/
theorem Device.run_congr {env env' : Nat → HashEnv} (prog : List Action) (n : Nat) (h : ∀ k, k < n → env k = env' k) (s : Device) :
    s.run m env prog n = s.run m env' prog n := by
  induction n generalizing s with
  | zero => rfl
  | succ n ih =>
    unfold Device.run
    cases prog[s.pc]? with
    | none => rfl
    | some a =>
      dsimp only
      rw [h n (by omega)]
      congr 1
      funext s'
      exact ih (fun k hk => h k (by omega)) s'

theorem Device.Tracks.runs_any (prog : List Action) (hp : ∀ a ∈ prog, a.Sized) (n : Nat) (h : s.Tracks m σ) {e : Upshot Sketch}
    (he : σ.Runs m prog n e) : ∃ env : Nat → HashEnv, e.Shows (Device.Tracks m) (s.run m env prog n) := by
  induction n generalizing s σ with
  | zero =>
    rw [show e = .value σ from he]
    exact ⟨fun _ => listEnv, s, rfl, h⟩
  | succ n ih =>
    unfold Sketch.Runs at he
    unfold Device.run
    rw [h.pc]
    cases ha : prog[σ.pc]? with
    | none =>
      rw [ha] at he
      rw [show e = .value σ from he]
      exact ⟨fun _ => listEnv, s, rfl, h⟩
    | some a =>
      rw [ha] at he
      obtain ⟨mid, h1, h2⟩ := he
      obtain ⟨env₀, h3⟩ := h.step_any a (hp a (List.mem_of_getElem? ha)) h1
      dsimp only
      cases mid with
      | panic =>
        rw [show e = .panic from h2]
        exact ⟨fun _ => env₀, panics_bind h3 _⟩
      | outside =>
        rw [show e = .outside from h2]
        exact ⟨fun _ => env₀, trivial⟩
      | value σ' =>
        obtain ⟨s', hs1, hs2⟩ := h3
        obtain ⟨env, he⟩ := ih hs2 h2
        refine ⟨fun k => if k = n then env₀ else env k, ?_⟩
        dsimp only
        rw [if_pos rfl, hs1, ok_bind, Device.run_congr (env' := env) prog n fun k hk => if_neg (by omega)]
        exact he

/-- **C116** Every outcome that the specification leaves open occurs: for some behaviour of the hash tables the program ends like that. -/
theorem C116_exact (m : Mode) (prog : List Action) (hp : ∀ a ∈ prog, a.Sized) (n : Nat) (s : Device)
    (hr : ∀ r, (s.reg r).width < 2 ^ 32) (ha : ∀ A, s.arr A = none) {e : Upshot Sketch} (he : s.sketch.Runs m prog n e) :
    ∃ env : Nat → HashEnv, e.Describes m (s.run m env prog n) := by
  have h : s.Tracks m s.sketch := ⟨rfl, rfl, fun r => ⟨rfl, hr r⟩, fun A => by rw [ha A]; trivial⟩
  obtain ⟨env, h2⟩ := h.runs_any prog hp n he
  refine ⟨env, ?_⟩
  cases e with
  | value σ =>
    obtain ⟨s', h3, h4⟩ := h2
    exact ⟨s', h3, h4.matched⟩
  | panic => exact h2
  | outside => trivial

/-- **C116** (panics): a program whose dense arrays fit into the address space can panic exactly if the specification says so. -/
theorem C116_panics (m : Mode) (prog : List Action) (hp : ∀ a ∈ prog, a.Sized) (n : Nat) (s : Device)
    (hr : ∀ r, (s.reg r).width < 2 ^ 32) (ha : ∀ A, s.arr A = none) (hfit : ¬ s.sketch.Runs m prog n .outside) :
    (∃ env : Nat → HashEnv, Panics (s.run m env prog n)) ↔ s.sketch.Runs m prog n .panic := by
  refine ⟨fun ⟨env, h⟩ => ?_, fun h => C116_exact m prog hp n s hr ha h⟩
  obtain ⟨e, h1, h2⟩ := C112_program m env prog hp n s hr ha
  cases e with
  | panic => exact h1
  | outside => exact absurd h1 hfit
  | value σ =>
    obtain ⟨s', h3, -⟩ := h2
    exact absurd h3 fun h3 => not_panics h h3

/-- **C116** (safety): such a program ends without a panic, whatever the hash tables do, exactly if the specification allows no panic. -/
theorem C116_safe (m : Mode) (prog : List Action) (hp : ∀ a ∈ prog, a.Sized) (n : Nat) (s : Device)
    (hr : ∀ r, (s.reg r).width < 2 ^ 32) (ha : ∀ A, s.arr A = none) (hfit : ¬ s.sketch.Runs m prog n .outside) :
    (∀ env : Nat → HashEnv, ∃ s', s.run m env prog n = ok s') ↔ ¬ s.sketch.Runs m prog n .panic := by
  rw [← C116_panics m prog hp n s hr ha hfit]
  refine ⟨fun h ⟨env, hp⟩ => ?_, fun h env => ?_⟩
  · obtain ⟨s', hs⟩ := h env
    exact not_panics hp hs
  · cases hx : s.run m env prog n with
    | ok s' => exact ⟨s', rfl⟩
    | panic p => exact absurd ⟨env, p, hx⟩ h

/-! ## A concrete case -/

/-- A program that stores something in a sparse array with 65 index bits and reads another index. -/
def riskyProgram : List Action :=
  [.value 0 (encode 5#8), .value 1 (encode 1#65), .value 2 (encode 2#65), .value 3 (encode 9#8),
   .create 0 .sparse 65 0, .store 0 1 3, .select 4 0 2]

def riskyStart : Device := ⟨0, fun _ => encode 0#1, fun _ => none, []⟩

example : ∀ a ∈ riskyProgram, a.Sized := by
  intro a h
  simp only [riskyProgram, List.mem_cons, List.not_mem_nil, or_false] at h
  rcases h with rfl | rfl | rfl | rfl | rfl | rfl | rfl <;> first | trivial | (unfold Action.Sized; decide)

/-- What the specification leaves open: a panic, or the default. -/
example : riskyStart.sketch.Runs .debug riskyProgram 7 .panic := by
  refine ⟨_, rfl, _, rfl, _, rfl, _, rfl, _, ⟨_, rfl, rfl⟩, _, ⟨_, .inr ⟨?_, rfl⟩, rfl⟩, _, ⟨_, .inl ⟨.inr ⟨(encode 1#65).shape, ?_⟩, rfl⟩, rfl⟩, rfl⟩
  · rintro (⟨-, h⟩ | ⟨h, -⟩) <;> revert h <;> decide
  · decide

example : ∃ σ, riskyStart.sketch.Runs .debug riskyProgram 7 (.value σ) ∧ σ.reg 4 = (encode 5#8).shape := by
  refine ⟨_, ⟨_, rfl, _, rfl, _, rfl, _, rfl, _, ⟨_, rfl, rfl⟩, _, ⟨_, .inr ⟨?_, rfl⟩, rfl⟩, _, ⟨_, .inr ⟨?_, ?_, rfl⟩, rfl⟩, rfl⟩, rfl⟩
  · rintro (⟨-, h⟩ | ⟨h, -⟩) <;> revert h <;> decide
  · decide
  · decide

/-- It does not create a dense array. -/
example : ¬ riskyStart.sketch.Runs .debug riskyProgram 7 .outside := by
  rintro ⟨_, rfl, _, rfl, _, rfl, _, rfl, _, ⟨_, rfl, rfl⟩, _, ⟨_, ⟨-, rfl⟩ | ⟨-, rfl⟩, rfl⟩, h⟩
  · cases h
  · obtain ⟨_, ⟨_, ⟨-, rfl⟩ | ⟨-, -, rfl⟩, rfl⟩, h⟩ := h <;> cases h

/-- Both happen. -/
example : (match Device.run .debug (fun _ => listEnv) riskyProgram 7 riskyStart with
    | .ok s => some (s.reg 4)
    | .panic _ => none) = some (encode 5#8) := by decide +kernel
example : (match Device.run .debug (fun _ => crowdedEnv 0) riskyProgram 7 riskyStart with
    | .ok _ => none
    | .panic p => some p) = some .todo := by decide +kernel

end Baa

import Verif.Props.Documents
import Verif.Props.DevicesExact

/-!
# C117: comparing and listing arrays from documents
-/

namespace Baa
open Res BitVecValue Serde

variable {m : Mode}

theorem fits_iff {u v : BitVecValue} : Fits m u v ↔ ¬ u.shape.Odd m v.shape :=
  ⟨fun h ho => ho.2.2 (h ho.1 ho.2.1), fun h h1 h2 => Classical.byContradiction fun hn => h ⟨h1, h2, hn⟩⟩

/-- A hash table that visits the entry `n` first and compares no other keys than it has to. -/
def quietEnv (n : Nat) : HashEnv where
  order := fun l => l.drop n ++ l.take n
  order_perm := (crowdedEnv n).order_perm
  compared := listEnv.compared
  compared_stored := listEnv.compared_stored
  compared_mem := listEnv.compared_mem

theorem quiet_lookup {V : Type} (m : Mode) (n : Nat) (map : HMap BitVecValue V) (key : BitVecValue) :
    lookupOwned m (quietEnv n) map key = ok () := list_lookup m map key

section
variable {K : Type} [DecidableEq K]

theorem eqEntries_false {look : K → Res Unit} {other : HMap K BitVecValue} {es : List (K × BitVecValue)} (h : eqEntries m look other es = ok false) :
    ∃ e ∈ es, other.get e.1 ≠ some e.2 ∧ ∀ v, other.get e.1 = some v → Fits m e.2 v := by
  induction es with
  | nil => cases h
  | cons e es ih =>
    unfold eqEntries at h
    obtain ⟨_, -, h⟩ := of_bind_ok h
    cases hg : other.get e.1 with
    | none => exact ⟨e, List.mem_cons_self, by rw [hg]; simp, fun v hv => by rw [hg] at hv; cases hv⟩
    | some v =>
      rw [hg] at h
      dsimp only at h
      by_cases hf : Fits m e.2 v
      · rw [hf.eqOwned, ok_bind] at h
        by_cases hv : e.2 = v
        · rw [decide_eq_true hv, if_pos rfl] at h
          obtain ⟨e', he, h'⟩ := ih h
          exact ⟨e', List.mem_cons_of_mem _ he, h'⟩
        · exact ⟨e, List.mem_cons_self, by rw [hg]; exact fun hh => hv (Option.some.inj hh).symm,
            fun v' hv' => by rw [hg] at hv'; cases hv'; exact hf⟩
      · cases m with
        | release => exact absurd (fun hm => by cases hm) hf
        | debug =>
          rw [eqOwned_panics hf] at h
          cases h

theorem eqEntries_panic {look : K → Res Unit} {other : HMap K BitVecValue} {es : List (K × BitVecValue)} (h : Panics (eqEntries m look other es)) :
    ∃ e ∈ es, Panics (look e.1) ∨ ∃ v, other.get e.1 = some v ∧ ¬ Fits m e.2 v := by
  induction es with
  | nil =>
    obtain ⟨p, hp⟩ := h
    cases hp
  | cons e es ih =>
    unfold eqEntries at h
    cases hl : look e.1 with
    | panic p => exact ⟨e, List.mem_cons_self, .inl ⟨p, hl⟩⟩
    | ok _ =>
      rw [hl, ok_bind] at h
      cases hg : other.get e.1 with
      | none =>
        rw [hg] at h
        obtain ⟨p, hp⟩ := h
        cases hp
      | some v =>
        rw [hg] at h
        dsimp only at h
        by_cases hf : Fits m e.2 v
        · rw [hf.eqOwned, ok_bind] at h
          by_cases hv : e.2 = v
          · rw [decide_eq_true hv, if_pos rfl] at h
            obtain ⟨e', he, h'⟩ := ih h
            exact ⟨e', List.mem_cons_of_mem _ he, h'⟩
          · rw [decide_eq_false hv, if_neg (by simp)] at h
            obtain ⟨p, hp⟩ := h
            cases hp
        · exact ⟨e, List.mem_cons_self, .inr ⟨v, hg, hf⟩⟩

/-- Entry `n` first. -/
theorem rotate_cons {α : Type} {l : List α} {n : Nat} (hn : n < l.length) : l.drop n ++ l.take n = l[n] :: (l.drop (n + 1) ++ l.take n) := by
  rw [List.drop_eq_getElem_cons hn, List.cons_append]

variable {κ : Type} {emb : K → κ} {map map' : HMap K BitVecValue} {t t' : Sheet κ Shape}

theorem tables_compare (hi : ∀ {a b}, emb a = emb b → a = b) (h : Tabled emb BitVecValue.shape map t.entry)
    (h' : Tabled emb BitVecValue.shape map' t'.entry) {d d' : BitVecValue} (hd : t.default = d.shape) (hd' : t'.default = d'.shape)
    {Bad : κ → κ → Prop} {look : HashEnv → K → Res Unit} (L1 : ∀ env k, Panics (look env k) → ∃ s, t'.entry s ≠ none ∧ Bad (emb k) s)
    (L2 : ∀ n k, look (quietEnv n) k = ok ()) (L3 : ∀ n k s, t'.entry s ≠ none → Bad (emb k) s → Panics (look (crowdedEnv n) k)) :
    Exactly Eq (fun env => BitVecValue.eqOwned m d d' >>= fun e =>
      if e then (if map.len = map'.len then eqMaps m env (look env) map map' else ok false) else ok false) (t.Compares m Bad t') := by
  have hc : Answers (BitVecValue.eqOwned m d d') (if m = .debug ∧ d.shape.width = d'.shape.width ∧ d.shape.words ≠ d'.shape.words then none
    else some (decide (d.shape = d'.shape))) := C105_comparison (a := d) (b := d') m .eqOwned
  rw [← hd, ← hd'] at hc
  have hmany : t.AsMany t' ↔ map.len = map'.len := h.asMany h' hi t.default t'.default
  have hsame : (∀ k, map.get k = map'.get k) ↔ ∀ s, t.entry s = t'.entry s := h.same h' shape_inj
  by_cases ho : t.default.Odd m t'.default
  · rw [if_pos ho] at hc
    refine Exactly.of none (fun r => ⟨?_, fun hr => .inl ⟨ho, hr⟩⟩) fun env => panics_bind hc _
    rintro (h | h | h)
    · exact h.2
    · exact absurd ho h.1
    · rw [h.1] at ho
      exact absurd rfl ho.2.2
  · rw [if_neg ho] at hc
    replace hc : BitVecValue.eqOwned m d d' = ok (decide (t.default = t'.default)) := hc
    simp only [hc, ok_bind]
    by_cases hdd : t.default = t'.default
    · rw [decide_eq_true hdd]
      simp only [if_true]
      by_cases hl : map.len = map'.len
      · simp only [if_pos hl]
        constructor
        · intro env
          have hp := env.order_perm map.entries
          cases hr : eqMaps m env (look env) map map' with
          | panic p =>
            refine ⟨none, .inr (.inr ⟨hdd, hmany.mpr hl, .inr (.inr ?_)⟩), p, rfl⟩
            unfold eqMaps at hr
            rw [if_pos hl] at hr
            obtain ⟨e, he, hh⟩ := eqEntries_panic ⟨p, hr⟩
            have hg := (HMap.get_eq_some_iff h.nodup _ _).mpr (hp.mem_iff.mp he)
            refine ⟨emb e.1, e.2.shape, by rw [h.get, hg]; rfl, ?_, rfl⟩
            rcases hh with hh | ⟨v, hv, hf⟩
            · exact .inr (L1 env _ hh)
            · exact .inl ⟨v.shape, by rw [h'.get, hv]; rfl, Classical.byContradiction fun hn => hf (fits_iff.mpr hn)⟩
          | ok b =>
            refine ⟨some b, .inr (.inr ⟨hdd, hmany.mpr hl, ?_⟩), b, rfl, rfl⟩
            cases b with
            | true =>
              refine .inl ⟨⟨hdd, hsame.mp ?_⟩, rfl⟩
              exact (HMap.beq_iff h.nodup h'.nodup).mp (eqMaps_imp hr).symm
            | false =>
              unfold eqMaps at hr
              rw [if_pos hl] at hr
              obtain ⟨e, he, hne, hf⟩ := eqEntries_false hr
              have hg := (HMap.get_eq_some_iff h.nodup _ _).mpr (hp.mem_iff.mp he)
              refine .inr (.inl ⟨emb e.1, e.2.shape, by rw [h.get, hg]; rfl, ?_, ?_, rfl⟩)
              · rw [h'.get]
                intro hh
                cases hg' : map'.get e.1 with
                | none => rw [hg'] at hh; cases hh
                | some v => rw [hg'] at hh; exact hne (by rw [hg', shape_inj (Option.some.inj hh)])
              · intro v' hv'
                rw [h'.get] at hv'
                cases hg' : map'.get e.1 with
                | none => rw [hg'] at hv'; cases hv'
                | some v =>
                  rw [hg'] at hv'
                  cases hv'
                  exact fits_iff.mp (hf v hg')
        · have first : ∀ {k : κ} {v : Shape}, t.entry k = some v → ∃ n, ∃ hn : n < map.entries.length,
              emb map.entries[n].1 = k ∧ map.entries[n].2.shape = v := by
            intro k v hk
            obtain ⟨k, v, he, -, rfl, rfl⟩ := h.has_entry hk
            obtain ⟨n, hn, he⟩ := List.getElem_of_mem he
            exact ⟨n, hn, by rw [he], by rw [he]⟩
          rintro r (hr | hr | ⟨-, -, hr⟩)
          · exact absurd hr.1 ho
          · exact absurd (hr.2.1.resolve_left fun hh => hh hdd) fun hh => hh (hmany.mpr hl)
          · rcases hr with ⟨hs, rfl⟩ | ⟨k, v, hk, hne, hodd, rfl⟩ | ⟨k, v, hk, hbad, rfl⟩
            · refine ⟨quietEnv 0, true, ?_, rfl⟩
              have hs' := hsame.mpr hs.2
              show eqMaps m (quietEnv 0) (look (quietEnv 0)) map map' = ok true
              rw [eqMaps_ok (quietEnv 0) (fun e _ => L2 0 e.1) fun e he v hv => ?_, (HMap.beq_iff h.nodup h'.nodup).mpr hs']
              rw [← hs', (HMap.get_eq_some_iff h.nodup _ _).mpr he] at hv
              cases hv
              exact fun _ _ => rfl
            · obtain ⟨n, hn, rfl, rfl⟩ := first hk
              refine ⟨quietEnv n, false, ?_, rfl⟩
              show eqMaps m (quietEnv n) (look (quietEnv n)) map map' = ok false
              unfold eqMaps
              rw [if_pos hl, show (quietEnv n).order map.entries = _ from rotate_cons hn]
              unfold eqEntries
              rw [L2, ok_bind]
              cases hg : map'.get map.entries[n].1 with
              | none => rfl
              | some v =>
                have hv : t'.entry (emb map.entries[n].1) = some v.shape := by rw [h'.get, hg]; rfl
                dsimp only
                rw [(fits_iff.mpr (hodd _ hv)).eqOwned, ok_bind, decide_eq_false, if_neg (by simp)]
                intro e
                exact hne (by rw [hv, e])
            · obtain ⟨n, hn, rfl, rfl⟩ := first hk
              rcases hbad with ⟨v', hv', hodd⟩ | ⟨k', hk', hb⟩
              · refine ⟨quietEnv n, ?_⟩
                show Panics (eqMaps m (quietEnv n) (look (quietEnv n)) map map')
                unfold eqMaps
                rw [if_pos hl, show (quietEnv n).order map.entries = _ from rotate_cons hn]
                unfold eqEntries
                rw [L2, ok_bind]
                rw [h'.get] at hv'
                cases hg : map'.get map.entries[n].1 with
                | none => rw [hg] at hv'; cases hv'
                | some v =>
                  rw [hg] at hv'
                  cases hv'
                  obtain ⟨rfl, ho2⟩ := hodd
                  dsimp only
                  rw [eqOwned_panics fun hf => fits_iff.mp hf ⟨rfl, ho2⟩]
                  exact ⟨_, rfl⟩
              · refine ⟨crowdedEnv n, ?_⟩
                show Panics (eqMaps m (crowdedEnv n) (look (crowdedEnv n)) map map')
                unfold eqMaps
                rw [if_pos hl, show (crowdedEnv n).order map.entries = _ from rotate_cons hn]
                unfold eqEntries
                exact panics_bind (L3 n _ k' hk' hb) _
      · simp only [if_neg hl]
        refine Exactly.of (some false) (fun r => ⟨?_, fun hr => .inr (.inl ⟨ho, .inr fun hh => hl (hmany.mp hh), hr⟩)⟩) fun env => ⟨_, rfl, rfl⟩
        rintro (hr | hr | hr)
        · exact absurd hr.1 ho
        · exact hr.2.2
        · exact absurd (hmany.mp hr.2.1) hl
    · rw [decide_eq_false hdd]
      simp only [Bool.false_eq_true, if_false]
      refine Exactly.of (some false) (fun r => ⟨?_, fun hr => .inr (.inl ⟨ho, .inl hdd, hr⟩)⟩) fun env => ⟨_, rfl, rfl⟩
      rintro (hr | hr | hr)
      · exact absurd hr.1 ho
      · exact hr.2.2
      · exact absurd hr.1 hdd

end

/-! ## Comparing two arrays -/

theorem sparse_eq_long (env : HashEnv) (iw dw : Nat) (d d' : BitVecValue) (map map' : HMap BitVecValue BitVecValue) :
    ArrayValue.eq m env (.sparse ⟨iw, dw, .bigbig d map⟩) (.sparse ⟨iw, dw, .bigbig d' map'⟩) =
      (BitVecValue.eqOwned m d d' >>= fun e => if e then
        (if map.len = map'.len then eqMaps m env (lookupOwned m env map') map map' else ok false) else ok false) := by
  show (SparseArrayValue.isEqual m env ⟨iw, dw, .bigbig d map⟩ ⟨iw, dw, .bigbig d' map'⟩ >>= _) = _
  unfold SparseArrayValue.isEqual
  rw [if_neg (by simp)]
  dsimp only
  cases BitVecValue.eqOwned m d d' with
  | panic p => rfl
  | ok e =>
    cases e
    · rfl
    · simp only [ok_bind, if_true]
      by_cases hl : map.len = map'.len
      · rw [if_pos hl, if_pos hl]
        cases eqMaps m env (lookupOwned m env map') map map' <;> rfl
      · rw [if_neg hl, if_neg hl]
        rfl

theorem sparse_eq_broad (env : HashEnv) (iw dw : Nat) (d d' : BitVecValue) (map map' : HMap Word BitVecValue) :
    ArrayValue.eq m env (.sparse ⟨iw, dw, .u64big d map⟩) (.sparse ⟨iw, dw, .u64big d' map'⟩) =
      (BitVecValue.eqOwned m d d' >>= fun e => if e then
        (if map.len = map'.len then eqMaps m env (fun _ => ok ()) map map' else ok false) else ok false) := by
  show (SparseArrayValue.isEqual m env ⟨iw, dw, .u64big d map⟩ ⟨iw, dw, .u64big d' map'⟩ >>= _) = _
  unfold SparseArrayValue.isEqual
  rw [if_neg (by simp)]
  dsimp only
  cases BitVecValue.eqOwned m d d' with
  | panic p => rfl
  | ok e =>
    cases e
    · rfl
    · simp only [ok_bind, if_true]
      by_cases hl : map.len = map'.len
      · rw [if_pos hl, if_pos hl]
        cases eqMaps m env (fun _ => ok ()) map map' <;> rfl
      · rw [if_neg hl, if_neg hl]
        rfl

/-- A comparison with one outcome. -/
theorem Exactly.decided {run : HashEnv → Res Bool} (b : Bool) (p : Prop) (hb : b = true ↔ p) (h : ∀ env, run env = ok b) :
    Exactly Eq run (fun r => ∃ b, r = some b ∧ (b = true ↔ p)) := by
  refine Exactly.of (some b) (fun r => ⟨?_, fun hr => ⟨b, hr, hb⟩⟩) fun env => ⟨b, h env, rfl⟩
  rintro ⟨c, rfl, hc⟩
  congr 1
  rw [Bool.eq_iff_iff]
  exact hc.trans hb.symm

theorem cellsOf_same {k : Nat} (l l' : List (BitVec k)) : (cellsOf l).Same (cellsOf l') ↔ l = l' := by
  constructor
  · rintro ⟨h1, h2⟩
    replace h1 : l.length = l'.length := h1
    refine List.ext_getElem h1 fun n hn hn' => ?_
    have := h2 n hn
    unfold cellsOf at this
    dsimp only at this
    rw [List.getElem?_eq_getElem hn, List.getElem?_eq_getElem hn'] at this
    exact BitVec.eq_of_toNat_eq this
  · rintro rfl
    exact ⟨rfl, fun _ _ => rfl⟩

theorem bitsOf_same (v v' : BitVecValue) : v.shape.equal v'.shape = true ↔
    ∀ k, k < min (bitsOf v).count (bitsOf v').count → (bitsOf v).cell k = (bitsOf v').cell k := by
  unfold Shape.equal
  rw [decide_eq_true_eq]
  show wordsVal v.words % 2 ^ (64 * min v.words.length v'.words.length) = wordsVal v'.words % 2 ^ (64 * min v.words.length v'.words.length) ↔
    ∀ k, k < min (64 * v.words.length) (64 * v'.words.length) → ((wordsVal v.words).testBit k).toNat = ((wordsVal v'.words).testBit k).toNat
  have hm : 64 * min v.words.length v'.words.length = min (64 * v.words.length) (64 * v'.words.length) := by omega
  rw [hm]
  constructor
  · intro h k hk
    have := congrArg (fun n => n.testBit k) h
    simp only [Nat.testBit_mod_two_pow, hk, decide_true, Bool.true_and] at this
    rw [this]
  · intro h
    refine Nat.eq_of_testBit_eq fun k => ?_
    rw [Nat.testBit_mod_two_pow, Nat.testBit_mod_two_pow]
    by_cases hk : k < min (64 * v.words.length) (64 * v'.words.length)
    · have := h k hk
      cases h1 : (wordsVal v.words).testBit k <;> cases h2 : (wordsVal v'.words).testBit k <;> simp [h1, h2] at this ⊢
    · simp only [decide_eq_false hk, Bool.false_and]

theorem compares_other {l l' : CellLayout} (h : l ≠ l') (span span' : Nat) (mem mem' : Memory) (r : Option Bool) :
    Hoard.Compares m (.dense l span mem) (.dense l' span' mem') r ↔ r = none := by
  unfold Hoard.Compares
  dsimp only
  rw [if_pos (.inl h)]

theorem compares_cells {l : CellLayout} (h : l ≠ .bits) (span span' : Nat) (mem mem' : Memory) :
    Hoard.Compares m (.dense l span mem) (.dense l span' mem') = fun r => ∃ b, r = some b ∧ (b = true ↔ mem.Same mem') := by
  funext r
  unfold Hoard.Compares
  dsimp only
  rw [if_neg (by rintro (hh | hh); exact hh rfl; exact h hh.1)]
  simp only [if_neg h]

theorem doc_dense_eq (m : Mode) (iw dw : Nat) (data data' : DenseArrayImpl) :
    Exactly Eq (fun env => ArrayValue.eq m env (.dense ⟨iw, dw, data⟩) (.dense ⟨iw, dw, data'⟩)) (data.hoard.Compares m data'.hoard) := by
  have he : ∀ env, ArrayValue.eq m env (.dense ⟨iw, dw, data⟩) (.dense ⟨iw, dw, data'⟩) =
      (DenseArrayValue.isEqual m ⟨iw, dw, data⟩ ⟨iw, dw, data'⟩ >>= fun r => ok (r.getD false)) := fun _ => rfl
  unfold DenseArrayValue.isEqual at he
  simp only [if_neg (show ¬ (iw ≠ iw ∨ dw ≠ dw) by simp)] at he
  cases data with
  | bit v =>
    cases data' with
    | bit v' =>
      have hc : Answers (BitVecValue.isEqual m v v') (if m = .debug ∧ (v.shape.width ≠ v'.shape.width ∨ v.shape.words ≠ v'.shape.words) then none
        else some (v.shape.equal v'.shape)) := C105_comparison (a := v) (b := v') m .equal
      by_cases hg : m = .debug ∧ (v.shape.width ≠ v'.shape.width ∨ v.shape.words ≠ v'.shape.words)
      · rw [if_pos hg] at hc
        refine Exactly.of none (fun r => ?_) fun env => ?_
        · unfold DenseArrayImpl.hoard Hoard.Compares
          dsimp only
          rw [if_pos]
          refine .inr ⟨rfl, hg.1, hg.2.imp id fun h => ?_⟩
          show 64 * v.words.length ≠ 64 * v'.words.length
          have : v.words.length ≠ v'.words.length := h
          omega
        · rw [he]
          exact panics_bind (panics_bind hc _) _
      · rw [if_neg hg] at hc
        replace hc : BitVecValue.isEqual m v v' = ok (v.shape.equal v'.shape) := hc
        have : (DenseArrayImpl.bit v).hoard.Compares m (DenseArrayImpl.bit v').hoard = fun r => ∃ b, r = some b ∧ (b = true ↔
            ∀ k, k < min (bitsOf v).count (bitsOf v').count → (bitsOf v).cell k = (bitsOf v').cell k) := by
          funext r
          unfold DenseArrayImpl.hoard Hoard.Compares
          dsimp only
          rw [if_neg]
          · simp only [if_true]
          · rintro (h | ⟨-, h1, h2⟩)
            · exact h rfl
            · refine hg ⟨h1, h2.imp id fun h => ?_⟩
              replace h : 64 * v.words.length ≠ 64 * v'.words.length := h
              show v.words.length ≠ v'.words.length
              omega
        rw [this]
        refine Exactly.decided _ _ (bitsOf_same v v') fun env => ?_
        rw [he]
        dsimp only
        rw [hc]
        rfl
    | _ => exact Exactly.of none (fun r => compares_other (by decide) _ _ _ _ r) fun env => ⟨_, he env⟩
  | u8 l =>
    cases data' with
    | u8 l' =>
      rw [show (DenseArrayImpl.u8 l).hoard.Compares m (DenseArrayImpl.u8 l').hoard = _ from compares_cells (by decide) _ _ _ _]
      exact Exactly.decided (l == l') _ (by rw [cellsOf_same, beq_iff_eq]) he
    | _ => exact Exactly.of none (fun r => compares_other (by decide) _ _ _ _ r) fun env => ⟨_, he env⟩
  | u64 l =>
    cases data' with
    | u64 l' =>
      rw [show (DenseArrayImpl.u64 l).hoard.Compares m (DenseArrayImpl.u64 l').hoard = _ from compares_cells (by decide) _ _ _ _]
      exact Exactly.decided (l == l') _ (by rw [cellsOf_same, beq_iff_eq]) he
    | _ => exact Exactly.of none (fun r => compares_other (by decide) _ _ _ _ r) fun env => ⟨_, he env⟩
  | big l =>
    cases data' with
    | big l' =>
      rw [show (DenseArrayImpl.big l).hoard.Compares m (DenseArrayImpl.big l').hoard = _ from compares_cells (by decide) _ _ _ _]
      exact Exactly.decided (l == l') _ (by rw [cellsOf_same, beq_iff_eq]) he
    | _ => exact Exactly.of none (fun r => compares_other (by decide) _ _ _ _ r) fun env => ⟨_, he env⟩

theorem doc_sparse_eq (m : Mode) {iw dw : Nat} {data data' : SparseArrayImpl} (ha : Acceptable (.sparse ⟨iw, dw, data⟩))
    (hb : Acceptable (.sparse ⟨iw, dw, data'⟩)) :
    Exactly Eq (fun env => ArrayValue.eq m env (.sparse ⟨iw, dw, data⟩) (.sparse ⟨iw, dw, data'⟩)) (data.hoard.Compares m data'.hoard) := by
  have hu : ∀ env, (∀ r, SparseArrayValue.isEqual m env ⟨iw, dw, data⟩ ⟨iw, dw, data'⟩ = r →
      ArrayValue.eq m env (.sparse ⟨iw, dw, data⟩) (.sparse ⟨iw, dw, data'⟩) = (r >>= fun r => ok (r.getD false))) := by
    rintro env _ rfl
    rfl
  cases data with
  | u64u64 d map =>
    cases data' with
    | u64u64 d' map' =>
      have h := entriesOf_tabled BitVec.toNat ha.2.2
      have h' := entriesOf_tabled BitVec.toNat hb.2.2
      refine Exactly.decided (decide (d = d') && map.beq map') _ ?_ fun env => ?_
      · rw [Bool.and_eq_true, decide_eq_true_eq, HMap.beq_iff ha.2.2 hb.2.2, h.same h' word_inj]
        show _ ↔ d.toNat = d'.toNat ∧ _
        exact and_congr ⟨congrArg _, word_inj⟩ Iff.rfl
      · have := hu env _ rfl
        rw [this]
        unfold SparseArrayValue.isEqual
        rw [if_neg (by simp)]
        dsimp only
        by_cases hd : d = d'
        · rw [if_pos hd, decide_eq_true hd, Bool.true_and]
          by_cases hl : map.len = map'.len
          · rw [if_pos hl]
            rfl
          · rw [if_neg hl]
            unfold HMap.beq
            rw [beq_eq_false_iff_ne.mpr hl, Bool.false_and]
            rfl
        · rw [if_neg hd, decide_eq_false hd, Bool.false_and]
          rfl
    | _ => exact Exactly.of none (fun r => Iff.rfl) fun env => ⟨_, hu env _ (by unfold SparseArrayValue.isEqual; rw [if_neg (by simp)])⟩
  | u64big d map =>
    cases data' with
    | u64big d' map' =>
      simp only [sparse_eq_broad]
      refine tables_compare (t := ⟨d.shape, entriesOf BitVecValue.shape map⟩) (t' := ⟨d'.shape, entriesOf BitVecValue.shape map'⟩) word_inj
        (entriesOf_tabled BitVecValue.shape ha.2.2.2.1) (entriesOf_tabled BitVecValue.shape hb.2.2.2.1) rfl rfl
        (look := fun _ _ => ok ()) (fun env k hp => ?_) (fun n k => rfl) fun n k s _ hf => hf.elim
      obtain ⟨p, hp⟩ := hp
      cases hp
    | _ => exact Exactly.of none (fun r => Iff.rfl) fun env => ⟨_, hu env _ (by unfold SparseArrayValue.isEqual; rw [if_neg (by simp)])⟩
  | bigbig d map =>
    cases data' with
    | bigbig d' map' =>
      simp only [sparse_eq_long]
      have h' := valuesOf_tabled hb.2.2.2.1
      refine tables_compare (t := ⟨d.shape, valuesOf map⟩) (t' := ⟨d'.shape, valuesOf map'⟩) shape_inj
        (valuesOf_tabled ha.2.2.2.1) h' rfl rfl
        (look := fun env => lookupOwned m env map') (fun env k hp => ?_) (fun n k => quiet_lookup m n map' k) fun n k s hs hb => ?_
      · refine Classical.byContradiction fun hn => not_panics hp (lookupOwned_ok env fun k' hk' => fits_iff.mpr fun ho => hn ⟨k'.shape, h'.key_mem.mp hk', ho⟩)
      · obtain ⟨k', hk', rfl⟩ := h'.has_key hs
        obtain ⟨rfl, ho⟩ := hb
        exact crowded_lookup hk' fun hf => fits_iff.mp hf ⟨rfl, ho⟩
    | _ => exact Exactly.of none (fun r => Iff.rfl) fun env => ⟨_, hu env _ (by unfold SparseArrayValue.isEqual; rw [if_neg (by simp)])⟩

theorem doc_eq (m : Mode) {a b : ArrayValue} (ha : Acceptable a) (hb : Acceptable b) (hk : a.isDense = b.isDense) :
    Exactly Eq (fun env => a.eq m env b) (a.account.Compares m b.account) := by
  cases a with
  | dense d =>
    cases b with
    | sparse s => cases hk
    | dense d' =>
      obtain ⟨iw, dw, data⟩ := d
      obtain ⟨iw', dw', data'⟩ := d'
      by_cases hw : iw = iw' ∧ dw = dw'
      · obtain ⟨rfl, rfl⟩ := hw
        have : Account.Compares m (ArrayValue.dense ⟨iw, dw, data⟩).account (ArrayValue.dense ⟨iw, dw, data'⟩).account = data.hoard.Compares m data'.hoard := by
          funext r
          exact if_pos ⟨rfl, rfl⟩
        rw [this]
        exact doc_dense_eq m iw dw data data'
      · refine Exactly.of (some false) (fun r => ?_) fun env => ⟨false, ?_, rfl⟩
        · exact iff_of_eq (if_neg hw)
        · show (DenseArrayValue.isEqual m ⟨iw, dw, data⟩ ⟨iw', dw', data'⟩ >>= fun r => ok (r.getD false)) = _
          unfold DenseArrayValue.isEqual
          rw [if_pos]
          · rfl
          · dsimp only
            by_cases h : iw = iw'
            · exact .inr fun e => hw ⟨h, e.symm⟩
            · exact .inl fun e => h e.symm
  | sparse s =>
    cases b with
    | dense d => cases hk
    | sparse s' =>
      obtain ⟨iw, dw, data⟩ := s
      obtain ⟨iw', dw', data'⟩ := s'
      by_cases hw : iw = iw' ∧ dw = dw'
      · obtain ⟨rfl, rfl⟩ := hw
        have : Account.Compares m (ArrayValue.sparse ⟨iw, dw, data⟩).account (ArrayValue.sparse ⟨iw, dw, data'⟩).account = data.hoard.Compares m data'.hoard := by
          funext r
          exact if_pos ⟨rfl, rfl⟩
        rw [this]
        exact doc_sparse_eq m ha hb
      · refine Exactly.of (some false) (fun r => ?_) fun env => ⟨false, ?_, rfl⟩
        · exact iff_of_eq (if_neg hw)
        · show (SparseArrayValue.isEqual m env ⟨iw, dw, data⟩ ⟨iw', dw', data'⟩ >>= fun r => ok (r.getD false)) = _
          unfold SparseArrayValue.isEqual
          rw [if_pos]
          · rfl
          · dsimp only
            by_cases h : iw = iw'
            · exact .inr fun e => hw ⟨h, e.symm⟩
            · exact .inl fun e => h e.symm

/-- **C117** (comparing): the outcomes of comparing two arrays that documents are read as, both dense or both sparse, are the predicted ones, and
all of them can happen. -/
theorem C117_equal (m : Mode) {doc doc' : Serde} {a b : ArrayValue} (ha : readArray doc = some a) (hb : readArray doc' = some b)
    (hk : a.isDense = b.isDense) :
    (∀ env, ∃ r, a.account.Compares m b.account r ∧ Answers (a.eq m env b) r) ∧
    (∀ r, a.account.Compares m b.account r → ∃ env, Answers (a.eq m env b) r) := by
  have h := doc_eq m ((C85_accepts a).mp ⟨doc, ha⟩) ((C85_accepts b).mp ⟨doc', hb⟩) hk
  have key : ∀ env r, Fate Eq (a.eq m env b) r → Answers (a.eq m env b) r := by
    intro env r hr
    cases r with
    | none => exact hr
    | some c =>
      obtain ⟨_, hr, rfl⟩ := hr
      exact hr
  exact ⟨fun env => (h.sound env).imp fun r hr => ⟨hr.1, key env r hr.2⟩, fun r hr => (h.exact r hr).imp fun env hr => key env r hr⟩

/-! ## The default and the entries of a sparse array -/

/-- Any order of the keys is the order in which some hash table visits them. -/
theorem any_order {α κ : Type} [DecidableEq κ] (l : List α) (key : α → κ) {L : List κ} (hn : (l.map key).Nodup) (hL : L.Nodup)
    (h : ∀ x, x ∈ L ↔ x ∈ l.map key) : ∃ env : HashEnv, (env.order l).map key = L := by
  have inj : ∀ {x y : κ}, x ∈ l.map key → y ∈ l.map key → (l.map key).idxOf x = (l.map key).idxOf y → x = y := by
    intro x y hx hy e
    have h1 := List.getElem_idxOf (List.idxOf_lt_length_iff.mpr hx)
    have h2 := List.getElem_idxOf (List.idxOf_lt_length_iff.mpr hy)
    rw [← h1, ← h2]
    congr 1
  have pos : l.map (fun a => (l.map key).idxOf (key a)) = (l.map key).map fun x => (l.map key).idxOf x := by
    rw [List.map_map]
    rfl
  obtain ⟨env, henv⟩ := permEnv_order l (fun a => (l.map key).idxOf (key a)) (L := L.map fun x => (l.map key).idxOf x)
    (by
      rw [pos]
      refine List.pairwise_map.mpr (hn.imp_of_mem fun hx hy hne e => hne (inj hx hy e)))
    (List.pairwise_map.mpr (hL.imp_of_mem fun hx hy hne e => hne (inj ((h _).mp hx) ((h _).mp hy) e)))
    (fun n => by
      rw [pos, List.mem_map, List.mem_map]
      exact ⟨fun ⟨x, hx, e⟩ => ⟨x, (h x).mp hx, e⟩, fun ⟨x, hx, e⟩ => ⟨x, (h x).mpr hx, e⟩⟩)
  refine ⟨env, ?_⟩
  have hmem : ∀ x ∈ (env.order l).map key, x ∈ l.map key := by
    intro x hx
    obtain ⟨a, ha, rfl⟩ := List.mem_map.mp hx
    exact List.mem_map.mpr ⟨a, (env.order_perm l).mem_iff.mp ha, rfl⟩
  have hmem' : ∀ x ∈ L, x ∈ l.map key := fun x hx => (h x).mp hx
  have e : ((env.order l).map key).map (fun x => (l.map key).idxOf x) = L.map fun x => (l.map key).idxOf x := by
    rw [← henv, List.map_map]
    rfl
  generalize (env.order l).map key = M at e hmem
  clear h hL henv
  induction M generalizing L with
  | nil =>
    cases L with
    | nil => rfl
    | cons _ _ => cases e
  | cons x M ih =>
    cases L with
    | nil => cases e
    | cons y L =>
      rw [List.map_cons, List.map_cons, List.cons.injEq] at e
      rw [inj (hmem x (by simp)) (hmem' y (by simp)) e.1,
        ih (fun z hz => hmem' z (by simp [hz])) e.2 fun z hz => hmem z (by simp [hz])]

theorem mapRes_fate {α β κ γ : Type} {P : β → γ → Prop} (f : α → Res β) (key : α → κ) (g : κ → Option γ) (h : β → γ) (hP : ∀ {b c}, P b c → h b = c)
    (l : List α) (hf : ∀ a ∈ l, Fate P (f a) (g (key a))) :
    Fate (fun es ss => es.map h = ss) (SparseArrayValue.mapRes f l) ((l.map key).mapM g) := by
  induction l with
  | nil => exact ⟨[], rfl, rfl⟩
  | cons a l ih =>
    rw [List.map_cons, List.mapM_cons]
    unfold SparseArrayValue.mapRes
    refine (hf a (by simp)).bind fun b c hbc => ?_
    refine (ih fun a ha => hf a (by simp [ha])).bind fun bs cs hbs => ?_
    exact ⟨b :: bs, rfl, by show h b :: bs.map h = c :: cs; rw [hP hbc, hbs]⟩

/-- An index and its data. -/
def pairShape (e : BitVecValue × BitVecValue) : Shape × Shape := (e.1.shape, e.2.shape)

theorem doc_shows {s : SparseArrayValue} (ha : Acceptable (.sparse s)) (m : Mode) :
    Exactly (fun es ss => es.map pairShape = ss) (fun env => s.nonDefaultEntries m env) ((ArrayValue.account (.sparse s)).Shows m) := by
  obtain ⟨iw, dw, data⟩ := s
  obtain ⟨hiw, hdl, hrep⟩ := ha
  dsimp only at hiw hdl hrep
  cases data with
  | u64u64 d map =>
    have ht := entriesOf_tabled BitVec.toNat hrep
    have key : ∀ env : HashEnv, Fate (fun es ss => es.map pairShape = ss) (SparseArrayValue.nonDefaultEntries m env ⟨iw, dw, .u64u64 d map⟩)
        (((env.order map.entries).map fun e => e.1.toNat).mapM fun I =>
          listed (numberAs m iw I) (numberAs m dw (Sheet.read ⟨d.toNat, entriesOf BitVec.toNat map⟩ I))) := by
      intro env
      refine mapRes_fate (P := fun e p => pairShape e = p) _ _ _ _ id _ fun e he => ?_
      have hg := (HMap.get_eq_some_iff hrep _ _).mpr ((env.order_perm _).mem_iff.mp he)
      rw [ht.read, hg]
      unfold listed
      refine ((makes_iff _ _).mp (numberAs_fate m hiw e.1)).bind fun i j hij => ?_
      exact ((makes_iff _ _).mp (numberAs_fate m hdl e.2)).map fun v w hvw => ⟨_, rfl, by unfold pairShape; rw [hij.1, hvw.1]⟩
    constructor
    · exact fun env => ⟨_, ⟨_, ht.lists word_inj (env.order_perm _) d.toNat, rfl⟩, key env⟩
    · rintro _ ⟨L, hL, rfl⟩
      have hl := ht.lists word_inj (.refl _) d.toNat
      obtain ⟨env, rfl⟩ := any_order map.entries (fun e => e.1.toNat) hl.1 hL.1 fun x => (hL.2 x).trans (hl.2 x).symm
      exact ⟨env, key env⟩
  | u64big d map =>
    obtain ⟨h1, h2, h3⟩ := hrep
    have ht := entriesOf_tabled BitVecValue.shape h2
    have key : ∀ env : HashEnv, Fate (fun es ss => es.map pairShape = ss) (SparseArrayValue.nonDefaultEntries m env ⟨iw, dw, .u64big d map⟩)
        (((env.order map.entries).map fun e => e.1.toNat).mapM fun I =>
          listed (numberAs m iw I) (some (Sheet.read ⟨d.shape, entriesOf BitVecValue.shape map⟩ I))) := by
      intro env
      refine mapRes_fate (P := fun e p => pairShape e = p) _ _ _ _ id _ fun e he => ?_
      have hg := (HMap.get_eq_some_iff h2 _ _).mpr ((env.order_perm _).mem_iff.mp he)
      rw [ht.read, hg]
      unfold listed
      exact ((makes_iff _ _).mp (numberAs_fate m hiw e.1)).bind fun i j hij => ⟨_, rfl, by rw [← hij.1]; rfl⟩
    constructor
    · exact fun env => ⟨_, ⟨_, ht.lists word_inj (env.order_perm _) d.shape, rfl⟩, key env⟩
    · rintro _ ⟨L, hL, rfl⟩
      have hl := ht.lists word_inj (.refl _) d.shape
      obtain ⟨env, rfl⟩ := any_order map.entries (fun e => e.1.toNat) hl.1 hL.1 fun x => (hL.2 x).trans (hl.2 x).symm
      exact ⟨env, key env⟩
  | bigbig d map =>
    obtain ⟨h1, h2, h3⟩ := hrep
    have ht := valuesOf_tabled h2
    have key : ∀ env : HashEnv, Fate (fun es ss => es.map pairShape = ss) (SparseArrayValue.nonDefaultEntries m env ⟨iw, dw, .bigbig d map⟩)
        (some (((env.order map.entries).map fun e => e.1.shape).map fun i => (i, Sheet.read ⟨d.shape, valuesOf map⟩ i))) := by
      intro env
      refine ⟨_, rfl, ?_⟩
      rw [List.map_map]
      refine List.map_congr_left fun e he => ?_
      have hg := (HMap.get_eq_some_iff h2 _ _).mpr ((env.order_perm _).mem_iff.mp he)
      show pairShape e = (e.1.shape, Sheet.read ⟨d.shape, valuesOf map⟩ e.1.shape)
      unfold Sheet.read
      dsimp only
      rw [ht.get, hg]
      rfl
    constructor
    · exact fun env => ⟨_, ⟨_, ht.lists shape_inj (env.order_perm _) d.shape, rfl⟩, key env⟩
    · rintro _ ⟨L, hL, rfl⟩
      have hl := ht.lists shape_inj (.refl _) d.shape
      obtain ⟨env, rfl⟩ := any_order map.entries (fun e => e.1.shape) hl.1 hL.1 fun x => (hL.2 x).trans (hl.2 x).symm
      exact ⟨env, key env⟩

/-- **C117** (default): the default of a sparse array that a document is read as is predicted. -/
theorem C117_default (m : Mode) {doc : Serde} {s : SparseArrayValue} (hd : readArray doc = some (.sparse s)) :
    Makes (s.default m) ((ArrayValue.account (.sparse s)).standard m) := by
  have ha := (C85_accepts _).mp ⟨doc, hd⟩
  obtain ⟨iw, dw, data⟩ := s
  obtain ⟨hiw, hdl, hrep⟩ := ha
  cases data with
  | u64u64 d map => exact numberAs_fate m hdl d
  | u64big d map => exact ⟨d, rfl, rfl, hrep.1⟩
  | bigbig d map => exact ⟨d, rfl, rfl, hrep.1⟩

/-- **C117** (entries): the entries that a sparse array lists, which a document is read as, are the predicted ones, in every order. -/
theorem C117_entries (m : Mode) {doc : Serde} {s : SparseArrayValue} (hd : readArray doc = some (.sparse s)) :
    (∀ env, ∃ r, (ArrayValue.account (.sparse s)).Shows m r ∧ EntriesAre (s.nonDefaultEntries m env) r) ∧
    (∀ r, (ArrayValue.account (.sparse s)).Shows m r → ∃ env, EntriesAre (s.nonDefaultEntries m env) r) := by
  have h := doc_shows ((C85_accepts _).mp ⟨doc, hd⟩) m
  have key : ∀ env r, Fate (fun es ss => es.map pairShape = ss) (s.nonDefaultEntries m env) r → EntriesAre (s.nonDefaultEntries m env) r := by
    intro env r hr
    cases r with
    | none => exact hr
    | some y => exact hr
  exact ⟨fun env => (h.sound env).imp fun r hr => ⟨hr.1, key env r hr.2⟩, fun r hr => (h.exact r hr).imp fun env hr => key env r hr⟩

/-! ## Concrete cases -/

/-- A dense array with the given storage. -/
abbrev givenDense (iw dw : Nat) (data : Serde) : Serde :=
  .fields [("data", .variant "Dense" (.fields [("index_width", .num iw), ("data_width", .num dw), ("data", data)]))]

/-- A sparse array with the given storage. -/
abbrev givenSparse (iw dw : Nat) (data : Serde) : Serde :=
  .fields [("data", .variant "Sparse" (.fields [("index_width", .num iw), ("data_width", .num dw), ("data", data)]))]

/-- A value with the given words. -/
abbrev givenValue (w : Nat) (words : List Nat) : Serde := .fields [("width", .num w), ("words", .seq (words.map .num))]

/-- Bytes for data of 4 bits. The hypotheses of `C117_select` and `C117_history` are met. The first element cannot be read in a debug build, and
is cut in a release build; this is what the specification says. -/
example : ∃ a, readArray (givenDense 1 4 (.variant "U8" (.seq [.num 200, .num 3]))) = some a ∧ a.InMemory ∧
    Panics (a.select .debug listEnv (encode 0#1)) ∧ a.account.Selects .debug (encode 0#1).shape none ∧
    a.select .release listEnv (encode 0#1) = ok (encode 8#4) ∧ a.account.Selects .release (encode 0#1).shape (some ⟨4, 1, 8⟩) :=
  ⟨.dense ⟨1, 4, .u8 [200#8, 3#8]⟩, by rfl, trivial, ⟨.debugAssert, by decide +kernel⟩, show none = _ by decide +kernel, by decide +kernel,
    show some _ = _ by decide +kernel⟩

/-- Writing the last byte, and then one beyond the end. -/
example : ∃ a, readArray (givenDense 1 4 (.variant "U8" (.seq [.num 200]))) = some a ∧ a.InMemory ∧
    (∀ op ∈ [RawOp.store (encode 0#1) (encode 5#4), .store (encode 1#1) (encode 6#4)], op.Typed) ∧
    Panics (runEach .debug (fun _ => listEnv) a [.store (encode 0#1) (encode 5#4), .store (encode 1#1) (encode 6#4)]) := by
  refine ⟨.dense ⟨1, 4, .u8 [200#8]⟩, by rfl, trivial, ?_, .bounds, by rfl⟩
  intro op ho
  simp only [List.mem_cons, List.not_mem_nil, or_false] at ho
  rcases ho with rfl | rfl <;> (unfold RawOp.Typed; decide)

/-- An entry with the default as its data is an entry: the array differs from one without the entry, but every index reads the same. -/
example : ∃ a b, readArray (givenSparse 2 4 (.variant "U64U64" (.seq [.num 7, .map [(.num 3, .num 7)]]))) = some a ∧
    readArray (givenSparse 2 4 (.variant "U64U64" (.seq [.num 7, .map []]))) = some b ∧ a.isDense = b.isDense ∧
    a.eq .debug listEnv b = ok false ∧ ∀ env i, a.select .debug env i = b.select .debug env i := by
  refine ⟨.sparse ⟨2, 4, .u64u64 7#64 ⟨[(3#64, 7#64)]⟩⟩, .sparse ⟨2, 4, .u64u64 7#64 ⟨[]⟩⟩, by rfl, by rfl, rfl, by decide +kernel, fun env i => ?_⟩
  show SparseArrayValue.select .debug env ⟨2, 4, .u64u64 7#64 ⟨[(3#64, 7#64)]⟩⟩ i = SparseArrayValue.select .debug env ⟨2, 4, .u64u64 7#64 ⟨[]⟩⟩ i
  unfold SparseArrayValue.select
  dsimp only
  congr 1
  funext _
  congr 1
  funext w
  by_cases h : w = 3#64
  · subst h; rfl
  · have h1 : HMap.get (⟨[(3#64, 7#64)]⟩ : HMap Word Word) w = none := by
      unfold HMap.get
      simp
      exact fun e => h e.symm
    rw [h1]
    rfl

/-- Two arrays whose first entries differ and whose second entries cannot be compared: the comparison panics in a debug build or says that they
differ, depending on the entry that is visited first. -/
example : ∃ a b,
    readArray (givenSparse 2 70 (.variant "U64Big" (.seq [givenValue 70 [1, 0], .map [(.num 0, givenValue 70 [2, 0]), (.num 1, givenValue 70 [3, 0])]]))) = some a ∧
    readArray (givenSparse 2 70 (.variant "U64Big" (.seq [givenValue 70 [1, 0], .map [(.num 0, givenValue 70 [4, 0]), (.num 1, givenValue 70 [3])]]))) = some b ∧
    a.isDense = b.isDense ∧ a.eq .debug (quietEnv 1) b = ok false ∧ Panics (a.eq .debug (quietEnv 0) b) :=
  ⟨.sparse ⟨2, 70, .u64big ⟨70, [1#64, 0#64]⟩ ⟨[(1#64, ⟨70, [3#64, 0#64]⟩), (0#64, ⟨70, [2#64, 0#64]⟩)]⟩⟩,
    .sparse ⟨2, 70, .u64big ⟨70, [1#64, 0#64]⟩ ⟨[(1#64, ⟨70, [3#64]⟩), (0#64, ⟨70, [4#64, 0#64]⟩)]⟩⟩,
    by rfl, by rfl, rfl, by rfl, .debugAssert, by rfl⟩

/-- Indices that do not fit the declared width are listed by no debug build, and cut by a release build. -/
example : ∃ s, readArray (givenSparse 2 4 (.variant "U64U64" (.seq [.num 7, .map [(.num 5, .num 6)]]))) = some (.sparse s) ∧
    Panics (s.nonDefaultEntries .debug listEnv) ∧ s.nonDefaultEntries .release listEnv = ok [(encode 1#2, encode 6#4)] :=
  ⟨⟨2, 4, .u64u64 7#64 ⟨[(5#64, 6#64)]⟩⟩, by rfl, ⟨.debugAssert, by decide +kernel⟩, by decide +kernel⟩

end Baa

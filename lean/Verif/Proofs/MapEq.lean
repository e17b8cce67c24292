import Verif.Model.Array
import Verif.Proofs.HMap
import Verif.Proofs.Words

/-!
# Hash maps of bit-vector values: lookups and comparisons that cannot panic
-/

namespace Baa
open Res

theorem HashEnv.probe_mem (env : HashEnv) (keys : List BitVecValue) (key : BitVecValue) (h : key ∈ keys) : env.probe keys key = true := by
  have := env.compared_mem keys key h
  unfold HashEnv.probe
  cases he : env.compared keys key with
  | nil => rw [he] at this; cases this
  | cons _ _ => rfl

theorem HashEnv.probe_nil (env : HashEnv) (key : BitVecValue) : env.probe [] key = false := by
  unfold HashEnv.probe
  cases he : env.compared [] key with
  | nil => rfl
  | cons k _ => exact absurd (env.compared_stored [] key k (by rw [he]; exact List.mem_cons_self)) (by simp)

/-- Comparing the values with `==` does not panic: in a debug build they have different widths or the same number of words. -/
def Fits (m : Mode) (u v : BitVecValue) : Prop := m = .debug → u.width = v.width → u.words.length = v.words.length

theorem Fits.eqOwned {m : Mode} {u v : BitVecValue} (h : Fits m u v) : BitVecValue.eqOwned m u v = ok (decide (u = v)) := by
  unfold BitVecValue.eqOwned
  have h1 : debugAssert m (v.width != u.width || v.words.length == u.words.length) = ok () := by
    cases m with
    | release => rfl
    | debug =>
      have : (v.width != u.width || v.words.length == u.words.length) = true := by
        by_cases hw : u.width = v.width
        · simp [h rfl hw]
        · simp [Ne.symm hw]
      rw [this]
      rfl
  rw [h1, ok_bind]
  congr 1
  obtain ⟨w, ws⟩ := u
  obtain ⟨w', ws'⟩ := v
  rw [Bool.eq_iff_iff]
  simp only [Bool.and_eq_true, beq_iff_eq, decide_eq_true_eq, BitVecValue.mk.injEq]
  exact ⟨fun h => ⟨h.1.symm, h.2.symm⟩, fun h => ⟨h.1.symm, h.2.symm⟩⟩

/-- The other case. -/
theorem eqOwned_panics {u v : BitVecValue} (h : ¬ Fits .debug u v) : BitVecValue.eqOwned .debug u v = panic .debugAssert := by
  unfold Fits at h
  unfold BitVecValue.eqOwned
  have : (v.width != u.width || v.words.length == u.words.length) = false := by
    by_cases hw : u.width = v.width
    · by_cases hl : u.words.length = v.words.length
      · exact absurd (fun _ _ => hl) h
      · simp [hw, Ne.symm hl]
    · exact absurd (fun _ e => absurd e hw) h
  rw [this]
  rfl

theorem compareKeys_ok {m : Mode} {key : BitVecValue} {ks : List BitVecValue} (h : ∀ k ∈ ks, Fits m key k) :
    compareKeys m key ks = ok () := by
  induction ks with
  | nil => rfl
  | cons k ks ih =>
    unfold compareKeys
    rw [(h k List.mem_cons_self).eqOwned, ok_bind]
    exact ih fun k hk => h k (List.mem_cons_of_mem _ hk)

theorem lookupOwned_ok {V : Type} {m : Mode} (env : HashEnv) {map : HMap BitVecValue V} {key : BitVecValue}
    (h : ∀ k ∈ map.entries.map Prod.fst, Fits m key k) : lookupOwned m env map key = ok () :=
  compareKeys_ok fun k hk => h k (env.compared_stored _ _ k hk)

theorem eqEntries_ok {K : Type} [DecidableEq K] {m : Mode} {lookup : K → Res Unit} {other : HMap K BitVecValue}
    {es : List (K × BitVecValue)} (hl : ∀ e ∈ es, lookup e.1 = ok ()) (h : ∀ e ∈ es, ∀ v, other.get e.1 = some v → Fits m e.2 v) :
    eqEntries m lookup other es = ok (es.all fun e => decide (other.get e.1 = some e.2)) := by
  induction es with
  | nil => rfl
  | cons e es ih =>
    unfold eqEntries
    rw [hl e List.mem_cons_self, ok_bind, List.all_cons]
    cases hg : other.get e.1 with
    | none => simp
    | some v =>
      dsimp only
      rw [(h e List.mem_cons_self v hg).eqOwned, ok_bind]
      by_cases hv : e.2 = v
      · rw [decide_eq_true hv, if_pos rfl, ih (fun e he => hl e (List.mem_cons_of_mem _ he)) fun e he => h e (List.mem_cons_of_mem _ he), hv,
          decide_eq_true rfl, Bool.true_and]
      · rw [decide_eq_false hv, if_neg (by simp), decide_eq_false (fun hh => hv (Option.some.inj hh).symm), Bool.false_and]

theorem eqMaps_ok {K : Type} [DecidableEq K] {m : Mode} (env : HashEnv) {lookup : K → Res Unit} {a b : HMap K BitVecValue}
    (hl : ∀ e ∈ a.entries, lookup e.1 = ok ()) (h : ∀ e ∈ a.entries, ∀ v, b.get e.1 = some v → Fits m e.2 v) :
    eqMaps m env lookup a b = ok (a.beq b) := by
  unfold eqMaps HMap.beq
  by_cases hn : a.len = b.len
  · have hp := env.order_perm a.entries
    rw [if_pos hn, eqEntries_ok (fun e he => hl e (hp.mem_iff.mp he)) fun e he => h e (hp.mem_iff.mp he), beq_iff_eq.mpr hn, Bool.true_and]
    congr 1
    exact hp.all_eq
  · rw [if_neg hn, beq_eq_false_iff_ne.mpr hn, Bool.false_and]

/-- The comparison as it is written in `is_equal`, with a separate check of the lengths. -/
theorem eqMaps_branch {K : Type} [DecidableEq K] {m : Mode} (env : HashEnv) {lookup : K → Res Unit} {a b : HMap K BitVecValue}
    (hl : ∀ e ∈ a.entries, lookup e.1 = ok ()) (h : ∀ e ∈ a.entries, ∀ v, b.get e.1 = some v → Fits m e.2 v) :
    (if a.len = b.len then (do let r ← eqMaps m env lookup a b; ok (some r)) else (ok (some false) : Res (Option Bool))) =
      if a.len = b.len then ok (some (a.beq b)) else ok (some false) := by
  rw [eqMaps_ok env hl h]
  rfl

end Baa

import Verif.Props.AnyInterner
import Verif.Spec.InternerClient

/-!
# C125: an interner cannot be told from a table of values
-/

namespace Baa
open Res

theorem internAll_snoc (m : Mode) (vs : List BitVecValue) (v : BitVecValue) (s : ValueInterner) :
    internAll m s (vs ++ [v]) = (internAll m s vs >>= fun r => r.1.getIndex m v >>= fun q => ok (q.1, r.2 ++ [q.2])) := by
  induction vs generalizing s with
  | nil =>
    show (s.getIndex m v >>= fun q => internAll m q.1 [] >>= fun r => ok (r.1, q.2 :: r.2)) =
      (s.getIndex m v >>= fun q => ok (q.1, [] ++ [q.2]))
    cases s.getIndex m v <;> rfl
  | cons u vs ih =>
    rw [List.cons_append]
    show (s.getIndex m u >>= fun q => internAll m q.1 (vs ++ [v]) >>= fun r => ok (r.1, q.2 :: r.2)) =
      ((s.getIndex m u >>= fun q => internAll m q.1 vs >>= fun r => ok (r.1, q.2 :: r.2)) >>= _)
    cases s.getIndex m u with
    | panic p => rfl
    | ok q =>
      rw [ok_bind, ok_bind, ih]
      cases internAll m q.1 vs with
      | panic p => rfl
      | ok r =>
        simp only [ok_bind]
        cases r.1.getIndex m v <;> rfl

namespace InternerClient
variable {β : Type}

theorem ideal_prefix (c : InternerClient β) (vs : List BitVecValue) : vs <+: (c.ideal vs).2 := by
  induction c generalizing vs with
  | done b => exact List.prefix_refl _
  | intern v next ih => exact (List.prefix_append _ _).trans (ih _)
  | read k next ih => exact ih _ _
  | same j k next ih => exact ih _ _
  | width k next ih => exact ih _ _
  | isZero k next ih => exact ih _ _
  | isOne k next ih => exact ih _ _

end InternerClient

theorem Interns.of_prefix {us vs : List BitVecValue} (h : Interns vs) (hp : us <+: vs) : Interns us := by
  obtain ⟨ws, rfl⟩ := hp
  refine ⟨fun v hv => h.sized v (List.mem_append_left _ hv), Nat.lt_of_le_of_lt ?_ h.fits⟩
  rw [length_internedStore, length_internedStore]
  obtain ⟨t, ht⟩ := distinctWords_prefix us ws
  rw [← ht, List.flatten_append, List.length_append]
  omega

theorem Interns.internable {vs : List BitVecValue} (h : Interns vs) (m : Mode) : ∀ v ∈ vs, Internable m v := by
  intro v hv _
  obtain ⟨h0, h1⟩ := h.sized v hv
  rw [h1, need]
  omega

theorem InternerClient.run_eq {β : Type} (m : Mode) (c : InternerClient β) : ∀ (vs : List BitVecValue) (s : ValueInterner)
    (is : List BitVecValueIndex), internAll m .new vs = ok (s, is) → Interns (c.ideal vs).2 → c.real m s is = ok (c.ideal vs).1 := by
  induction c with
  | done b => intro vs s is _ _; rfl
  | intern v next ih =>
    intro vs s is h hi
    have hi' : Interns (vs ++ [v]) := hi.of_prefix (next.ideal_prefix _)
    obtain ⟨s', h', -⟩ := C113_accepts m (vs ++ [v]) (hi'.internable m)
    have e := h'
    rw [internAll_snoc, h, ok_bind] at e
    show (s.getIndex m v >>= fun q => next.real m q.1 (is ++ [q.2])) = _
    cases hg : s.getIndex m v with
    | panic p => dsimp only at e; rw [hg] at e; cases e
    | ok q =>
      dsimp only at e
      rw [hg, ok_bind] at e
      injection e with e
      injection e with e1 e2
      rw [ok_bind]
      refine ih _ _ _ ?_ hi
      rw [h', e1, e2]
  | read k next ih =>
    intro vs s is h hi
    have hi' : Interns vs := hi.of_prefix ((next vs[k]?).ideal_prefix _)
    have hw := (internAll_ok h).2.1
    rw [InternerClient.real, InternerClient.ideal]
    have hlen : is.length = vs.length := by rw [(internAll_ok h).2.2, List.length_map]
    cases hv : vs[k]? with
    | none =>
      have : is[k]? = none := by
        rw [List.getElem?_eq_none_iff] at hv ⊢
        omega
      rw [this]
      refine ih none vs s is h ?_
      rw [← hv]
      exact hi
    | some v =>
      obtain ⟨i, hk⟩ : ∃ i, is[k]? = some i := by
        have := (List.getElem?_eq_some_iff.mp hv).1
        exact ⟨is[k], List.getElem?_eq_getElem (by omega)⟩
      rw [hk]
      dsimp only
      rw [(C113_same_value m vs s is h (hw ▸ hi'.fits) k v i hv hk).mpr (hi'.sized v (List.mem_of_getElem? hv)).2, ok_bind]
      refine ih (some v) vs s is h ?_
      rw [← hv]
      exact hi
  | same j k next ih =>
    intro vs s is h hi
    have hi' : Interns vs := hi.of_prefix ((next _).ideal_prefix _)
    have hw := (internAll_ok h).2.1
    have hm := (internAll_ok h).2.2
    have e : (is[j]?.bind fun a => is[k]?.map fun b => decide (a = b)) = (vs[j]?.bind fun a => vs[k]?.map fun b => decide (a = b)) := by
      cases hj : vs[j]? with
      | none => simp [hm, hj]
      | some u =>
        cases hk : vs[k]? with
        | none => simp [hm, hj, hk]
        | some v =>
          have ha : is[j]? = some ⟨internedAt vs u % 2 ^ 32, u.width⟩ := by rw [hm, List.getElem?_map, hj]; rfl
          have hb : is[k]? = some ⟨internedAt vs v % 2 ^ 32, v.width⟩ := by rw [hm, List.getElem?_map, hk]; rfl
          rw [ha, hb]
          simp only [Option.bind_some, Option.map_some, Option.some.injEq]
          have ne : ∀ x ∈ vs, x.words ≠ [] := by
            intro x hx e0
            obtain ⟨h0, h1⟩ := hi'.sized x hx
            rw [e0, List.length_nil, need] at h1
            omega
          exact decide_eq_decide.mpr (C113_unique m vs s is h (hw ▸ hi'.fits) j k u v _ _ hj ha hk hb (ne u (List.mem_of_getElem? hj))
            (ne v (List.mem_of_getElem? hk)))
    show (next _).real m s is = ok ((next _).ideal vs).1
    rw [e]
    exact ih _ vs s is h hi
  | width k next ih =>
    intro vs s is h hi
    have e : (is[k]?.map fun i => i.width) = vs[k]?.map fun v => v.width := by
      rw [(internAll_ok h).2.2, List.getElem?_map, Option.map_map]
      rfl
    show (next _).real m s is = ok ((next _).ideal vs).1
    rw [e]
    exact ih _ vs s is h hi
  | isZero k next ih =>
    intro vs s is h hi
    have hi' : Interns vs := hi.of_prefix ((next _).ideal_prefix _)
    have hw := (internAll_ok h).2.1
    have hm := (internAll_ok h).2.2
    have e : is[k]?.map ValueInterner.isZero = vs[k]?.map fun v => decide (v.words = [0#64]) := by
      cases hk : vs[k]? with
      | none => simp [hm, hk]
      | some v =>
        have hb : is[k]? = some ⟨internedAt vs v % 2 ^ 32, v.width⟩ := by rw [hm, List.getElem?_map, hk]; rfl
        rw [hb]
        simp only [Option.map_some, Option.some.injEq]
        rw [Bool.eq_iff_iff, decide_eq_true_iff]
        exact (C113_is_zero_one m vs s is h (hw ▸ hi'.fits) k v _ hk hb).1
    show (next _).real m s is = ok ((next _).ideal vs).1
    rw [e]
    exact ih _ vs s is h hi
  | isOne k next ih =>
    intro vs s is h hi
    have hi' : Interns vs := hi.of_prefix ((next _).ideal_prefix _)
    have hw := (internAll_ok h).2.1
    have hm := (internAll_ok h).2.2
    have e : is[k]?.map ValueInterner.isOne = vs[k]?.map fun v => decide (v.words = [1#64]) := by
      cases hk : vs[k]? with
      | none => simp [hm, hk]
      | some v =>
        have hb : is[k]? = some ⟨internedAt vs v % 2 ^ 32, v.width⟩ := by rw [hm, List.getElem?_map, hk]; rfl
        rw [hb]
        simp only [Option.map_some, Option.some.injEq]
        rw [Bool.eq_iff_iff, decide_eq_true_iff]
        exact (C113_is_zero_one m vs s is h (hw ▸ hi'.fits) k v _ hk hb).2
    show (next _).real m s is = ok ((next _).ideal vs).1
    rw [e]
    exact ih _ vs s is h hi

/-- **C125** No client can tell an interner from a table of the values: whatever values it interns and whatever it asks, in any order, it gets
through without a panic and with the result it would have if each index was the value itself. Indices stay valid while the interner grows. -/
theorem C125_client {β : Type} (m : Mode) (c : InternerClient β) (h : Interns (c.ideal []).2) :
    c.real m .new [] = ok (c.ideal []).1 :=
  InternerClient.run_eq m c [] .new [] rfl h

/-- A client that interns a byte and a wide value, reads the byte back, interns it again with another width and then once more as it was, and
compares: the answers are those for the values. -/
example (m : Mode) :
    (InternerClient.intern (encode 200#8) (.intern (encode (2#70 <<< 68)) (.read 0 fun v =>
      .intern ⟨9, (v.getD (encode 0#8)).words⟩ (.intern (v.getD (encode 0#8)) (.same 0 2 fun a => .same 0 3 fun b =>
        .read 1 fun w => .isZero 0 fun z => .done (a, b, w, z)))))).real m .new [] =
      ok (some false, some true, some (encode (2#70 <<< 68)), some false) := by
  refine (C125_client m _ ⟨?_, ?_⟩).trans ?_ <;> decide +kernel

end Baa

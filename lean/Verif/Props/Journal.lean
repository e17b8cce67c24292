import Verif.Props.Links
import Verif.Spec.Journal

/-!
# C171: writing in transactions
-/

namespace Baa
open Res

variable {iw dw k : Nat}

/-- The journal that ends at `t` says how to get from `f` to what the array was at the start of each open transaction. -/
inductive Journal (C : BitVec k → BitVec iw) (O : BitVec k → BitVec dw) : BitVec k → (BitVec iw → BitVec dw) → List (BitVec k) →
    List (BitVec iw → BitVec dw) → List Nat → Prop where
  | none (t f) : Journal C O t f [] [] []
  | start {t f ms fs cs} : Journal C O t f ms fs cs → Journal C O t f (t :: ms) (f :: fs) (0 :: cs)
  | entry {t f ms fs c cs} (i x) : Journal C O t f ms fs (c :: cs) → C t = i → O t = f i →
      Journal C O (t + 1#k) (update f i x) ms fs ((c + 1) :: cs)

theorem added_zero {t x : BitVec k} (e : t = t + x) : x = 0#k := by
  have := congrArg (· - t) e
  simp only [BitVec.sub_self] at this
  rw [BitVec.add_comm, BitVec.add_sub_cancel] at this
  exact this.symm

/-- An entry in a cell that is not used does not matter. -/
theorem Journal.apart {C : BitVec k → BitVec iw} {O : BitVec k → BitVec dw} {t : BitVec k} {f : BitVec iw → BitVec dw} {ms fs cs}
    (h : Journal C O t f ms fs cs) (i : BitVec iw) (y : BitVec dw) : ∀ (u : BitVec k) (d : Nat), u = t + BitVec.ofNat k d →
    d + cs.sum < 2 ^ k → Journal (update C u i) (update O u y) t f ms fs cs := by
  induction h with
  | none t f => exact fun _ _ _ _ => .none t f
  | start _ ih => exact fun u d e l => .start (ih u d e (by simpa using l))
  | @entry t f ms fs c cs j x h hc ho ih =>
    intro u d e l
    rw [List.sum_cons] at l
    have e' : u = t + BitVec.ofNat k (d + 1) := by
      rw [e, BitVec.add_assoc, Nat.add_comm d 1, BitVec.ofNat_add]
    have ne : t ≠ u := fun z => by
      have : BitVec.ofNat k (d + 1) = 0#k := by
        rw [← z] at e'
        exact added_zero e'
      have := congrArg BitVec.toNat this
      rw [BitVec.toNat_ofNat, Nat.mod_eq_of_lt (by omega)] at this
      simp at this
    exact .entry j x (ih u (d + 1) e' (by rw [List.sum_cons]; omega)) (by rw [update_away ne, hc]) (by rw [update_away ne, ho])

theorem Journal.mark {C : BitVec k → BitVec iw} {O : BitVec k → BitVec dw} {t : BitVec k} {f : BitVec iw → BitVec dw} {ms fs cs}
    (h : Journal C O t f ms fs cs) : ms.length = cs.length ∧ fs.length = cs.length ∧
    ∀ s c, ms.head? = some s → cs.head? = some c → t = s + BitVec.ofNat k c := by
  induction h with
  | none t f => exact ⟨rfl, rfl, fun _ _ h => by cases h⟩
  | start _ ih =>
    refine ⟨by simp [ih.1], by simp [ih.2.1], fun s c e e' => ?_⟩
    cases e; cases e'
    simp
  | entry i x _ _ _ ih =>
    refine ⟨by simpa using ih.1, by simpa using ih.2.1, fun s c e e' => ?_⟩
    cases e'
    rw [ih.2.2 s _ e rfl, BitVec.add_assoc, BitVec.ofNat_add]

theorem Journal.keep {C : BitVec k → BitVec iw} {O : BitVec k → BitVec dw} {t : BitVec k} {f : BitVec iw → BitVec dw} {ms fs cs}
    (h : Journal C O t f ms fs cs) : (∀ c d ds, cs = c :: d :: ds → Journal C O t f ms.tail fs.tail ((c + d) :: ds)) := by
  induction h with
  | none t f => exact fun _ _ _ e => by cases e
  | start h _ =>
    intro c d ds e
    cases e
    rw [Nat.zero_add]
    exact h
  | entry i x _ hc ho ih =>
    intro c d ds e
    cases e
    rw [Nat.add_right_comm]
    exact .entry i x (ih _ _ _ rfl) hc ho

/-- The three arrays and the end of the journal are what they have to be. -/
structure TxMeans (m : Mode) (s : TxState) (f : BitVec iw → BitVec dw) (C : BitVec k → BitVec iw) (O : BitVec k → BitVec dw) (t : BitVec k) :
    Prop where
  data : Means m (.arr iw dw) s.data f
  cells : Means m (.arr k iw) s.cells C
  olds : Means m (.arr k dw) s.olds O
  top : Denotes s.top t

theorem txOne (m : Mode) (h0 : 0 < k) (hk : k < 2 ^ 32) : ∃ r, BitVecValue.fromU64 m 1#64 k = ok r ∧ Denotes r 1#k :=
  C01_from_u64 m h0 hk 1#64 (Nat.one_lt_two_pow (by omega))

theorem txWrite_spec (m : Mode) (env : HashEnv) (h0 : 0 < k) {s : TxState} {f : BitVec iw → BitVec dw} {C : BitVec k → BitVec iw}
    {O : BitVec k → BitVec dw} {t : BitVec k} (h : TxMeans m s f C O t) (i : BitVec iw) (x : BitVec dw) :
    ∃ r, txWrite m env k s (encode i) (encode x) = ok r ∧
      TxMeans m r (update f i x) (update C t i) (update O t (f i)) (t + 1#k) := by
  have hk : k < 2 ^ 32 := Nat.lt_of_le_of_lt h.cells.2.index_le (by decide)
  obtain ⟨o, o1, o2⟩ := txOne m h0 hk
  obtain ⟨c, c1, c2⟩ := h.cells.store_ex m env t i
  obtain ⟨p, p1, p2⟩ := h.olds.store_ex m env t (f i)
  obtain ⟨d, d1, d2⟩ := h.data.store_ex m env i x
  obtain ⟨u, u1, u2⟩ := C06_add m h0 h.top o2
  refine ⟨⟨d, c, p, u⟩, ?_, ⟨d2, c2, p2, u2⟩⟩
  rw [txWrite, h.data.select_eq, ok_bind, h.top.eq_encode, c1, ok_bind, p1, ok_bind, o1, ok_bind, ← h.top.eq_encode, u1, ok_bind, d1, ok_bind]

theorem txUndo_spec (m : Mode) (env : HashEnv) (h0 : 0 < k) {C : BitVec k → BitVec iw} {O : BitVec k → BitVec dw} {v : BitVecValue}
    {b : BitVec k} (hv : Denotes v b) (c : Nat) : ∀ (n : Nat) {s : TxState} {f g : BitVec iw → BitVec dw} {t : BitVec k} {ms fs cs},
    TxMeans m s f C O t → Journal C O t f (b :: ms) (g :: fs) (c :: cs) → c < 2 ^ k → c < n →
    ∃ r, txUndo m env k v n s = ok (some r) ∧ TxMeans m r g C O b ∧ Journal C O b g ms fs cs := by
  induction c with
  | zero =>
    intro n s f g t ms fs cs h hj _ hn
    obtain ⟨n, rfl⟩ : ∃ n', n = n' + 1 := ⟨n - 1, by omega⟩
    cases hj with
    | start hj =>
      refine ⟨s, ?_, h, hj⟩
      rw [txUndo, C15_is_equal m h.top hv, ok_bind, decide_eq_true rfl, if_pos rfl]
  | succ c ih =>
    intro n s f g t ms fs cs h hj hc hn
    obtain ⟨n, rfl⟩ : ∃ n', n = n' + 1 := ⟨n - 1, by omega⟩
    have hk : k < 2 ^ 32 := Nat.lt_of_le_of_lt h.cells.2.index_le (by decide)
    have ht := hj.mark.2.2 _ _ rfl rfl
    have ne : t ≠ b := fun z => by
      rw [z] at ht
      have := congrArg BitVec.toNat (added_zero ht)
      rw [BitVec.toNat_ofNat, Nat.mod_eq_of_lt hc] at this
      simp at this
    cases hj with
    | @entry t f _ _ _ _ i x hj hi hy =>
      obtain ⟨o, o1, o2⟩ := txOne m h0 hk
      obtain ⟨u, u1, u2⟩ := C07_sub m h0 h.top o2
      rw [BitVec.add_sub_cancel] at u2
      obtain ⟨d, d1, d2⟩ := h.data.store_ex m env (C t) (O t)
      have e : update (update f i x) (C t) (O t) = f := by
        rw [hi, hy]
        funext j
        by_cases z : j = i
        · rw [z, update_at]
        · rw [update_away z, update_away z]
      rw [e] at d2
      obtain ⟨r, r1, r2⟩ := ih n (s := { s with data := d, top := u }) ⟨d2, h.cells, h.olds, u2⟩ hj (by omega) (by omega)
      refine ⟨r, ?_, r2⟩
      rw [txUndo, C15_is_equal m h.top hv, ok_bind, decide_eq_false ne, if_neg Bool.false_ne_true, o1, ok_bind, u1, ok_bind]
      rw [u2.eq_encode] at r1 ⊢
      rw [h.cells.select_eq, ok_bind, h.olds.select_eq, ok_bind, d1, ok_bind, r1]

theorem runTx_spec (m : Mode) (env : HashEnv) (h0 : 0 < k) : ∀ (l : List (TxOp iw dw)) {s : TxState} {f : BitVec iw → BitVec dw}
    {C : BitVec k → BitVec iw} {O : BitVec k → BitVec dw} {t : BitVec k} {ms fs cs}, TxMeans m s f C O t → Journal C O t f ms fs cs →
    cs.sum < 2 ^ k → TxFits (2 ^ k) l cs →
    runTx m env k l s (ms.map encode) = ok ((txMeaning l f fs).map fun x => some (encode x))
  | [], _, _, _, _, _, _, _, _, _, _, _, _ => rfl
  | .start :: l, s, f, C, O, t, ms, fs, cs, h, hj, hs, hl => by
    rw [runTx, txMeaning, h.top.eq_encode]
    exact runTx_spec m env h0 l h hj.start (by simpa using hs) hl
  | .write i x :: l, s, f, C, O, t, ms, fs, cs, h, hj, hs, hl => by
    obtain ⟨r, r1, r2⟩ := txWrite_spec m env h0 h i x
    rw [runTx, txMeaning, r1, ok_bind]
    have hj' := hj.apart i (f i) t 0 (by simp) (by omega)
    cases cs with
    | nil =>
      obtain ⟨k1, k2, -⟩ := hj.mark
      obtain rfl := List.eq_nil_of_length_eq_zero k1
      obtain rfl := List.eq_nil_of_length_eq_zero k2
      exact runTx_spec m env h0 l r2 (.none _ _) hs hl
    | cons c cs =>
      exact runTx_spec m env h0 l r2 (.entry i x hj' (update_at _ _ _) (update_at _ _ _)) (by rw [List.sum_cons]; have := hl.1; omega) hl.2
  | .read i :: l, s, f, C, O, t, ms, fs, cs, h, hj, hs, hl => by
    rw [runTx, txMeaning, h.data.select_eq, ok_bind, runTx_spec m env h0 l h hj hs hl, ok_bind]
    rfl
  | .giveUp :: l, s, f, C, O, t, ms, fs, cs, h, hj, hs, hl => by
    obtain ⟨k1, k2, -⟩ := hj.mark
    have hk : k < 2 ^ 32 := Nat.lt_of_le_of_lt h.cells.2.index_le (by decide)
    cases cs with
    | nil =>
      obtain rfl := List.eq_nil_of_length_eq_zero k1
      obtain rfl := List.eq_nil_of_length_eq_zero k2
      exact runTx_spec m env h0 l h hj hs hl
    | cons c cs =>
      obtain ⟨b, ms, rfl⟩ := List.exists_cons_of_length_eq_add_one k1
      obtain ⟨g, fs, rfl⟩ := List.exists_cons_of_length_eq_add_one k2
      rw [List.sum_cons] at hs
      obtain ⟨r, r1, r2, r3⟩ := txUndo_spec m env h0 (encode_denotes b hk) c (2 ^ k) h hj (by omega) (by omega)
      rw [List.map_cons, runTx, r1, ok_bind]
      exact runTx_spec m env h0 l r2 r3 (by omega) hl
  | .keep :: l, s, f, C, O, t, ms, fs, cs, h, hj, hs, hl => by
    obtain ⟨k1, k2, -⟩ := hj.mark
    cases cs with
    | nil =>
      obtain rfl := List.eq_nil_of_length_eq_zero k1
      obtain rfl := List.eq_nil_of_length_eq_zero k2
      exact runTx_spec m env h0 l h hj hs hl
    | cons c cs =>
      obtain ⟨b, ms, rfl⟩ := List.exists_cons_of_length_eq_add_one k1
      obtain ⟨g, fs, rfl⟩ := List.exists_cons_of_length_eq_add_one k2
      cases cs with
      | nil =>
        obtain rfl := List.eq_nil_of_length_eq_zero (Nat.succ.inj k1)
        obtain rfl := List.eq_nil_of_length_eq_zero (Nat.succ.inj k2)
        exact runTx_spec m env h0 l h (.none _ _) (Nat.two_pow_pos k) hl
      | cons d cs => exact runTx_spec m env h0 l h (hj.keep c d cs rfl) (by simp only [List.sum_cons] at hs ⊢; omega) hl

/-- **C171** Writing in transactions. -/
theorem C171_transactions (m : Mode) (env : HashEnv) (h0 : 0 < k) (l : List (TxOp iw dw)) {a c o : ArrayValue} {f : BitVec iw → BitVec dw}
    {C : BitVec k → BitVec iw} {O : BitVec k → BitVec dw} (ha : Means m (.arr iw dw) a f) (hc : Means m (.arr k iw) c C)
    (ho : Means m (.arr k dw) o O) {v : BitVecValue} {t : BitVec k} (hv : Denotes v t) (hl : TxFits (2 ^ k) l []) :
    runTx m env k l ⟨a, c, o, v⟩ [] = ok ((txMeaning l f []).map fun x => some (encode x)) :=
  runTx_spec m env h0 l ⟨ha, hc, ho, hv⟩ (.none t f) (Nat.two_pow_pos k) hl

/-! ## Not empty -/

example : TxFits 4 ([.start, .write 1#2 5#8, .start, .write 1#2 6#8, .write 2#2 7#8, .read 1#2, .giveUp, .read 1#2, .giveUp, .read 1#2] :
    List (TxOp 2 8)) [] := by
  simp [TxFits]

example : txMeaning ([.start, .write 1#2 5#8, .start, .write 1#2 6#8, .write 2#2 7#8, .read 1#2, .giveUp, .read 1#2, .giveUp, .read 1#2] :
    List (TxOp 2 8)) (fun _ => 3#8) [] = [6#8, 5#8, 3#8] := by
  decide

example : (do
    let a ← ArrayValue.newSparse 2 (encode 3#8)
    let c ← ArrayValue.newSparse 2 (encode 0#2)
    runTx .debug listEnv 2 ([.start, .write 1#2 5#8, .start, .write 1#2 6#8, .write 2#2 7#8, .read 1#2, .giveUp, .read 1#2, .giveUp, .read 1#2] :
      List (TxOp 2 8)) ⟨a, c, a, encode 3#2⟩ []) = ok [some (encode 6#8), some (encode 5#8), some (encode 3#8)] := by
  decide +kernel

end Baa

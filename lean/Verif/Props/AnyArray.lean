import Verif.Props.WordMemory
import Verif.SpecAnyArray
import Verif.Props.MalformedObs

/-!
# C110: arrays are predictable whatever values they are given

C89, C93 and C94 are about values that have the number of words of their width. Here the default, the indices and the data are arbitrary:
any width, any number of words (also none), any contents. They come from deserialization. The index width is arbitrary, too.
-/

namespace Baa
open Res BitVecValue

/-! ## Outcomes -/

/-- A call returns something that matches the prediction, or panics as predicted. -/
def Fate {α β : Type} (P : α → β → Prop) (x : Res α) : Option β → Prop
  | some b => ∃ a, x = ok a ∧ P a b
  | none => Panics x

theorem Fate.bind {α β γ δ : Type} {P : α → β → Prop} {Q : γ → δ → Prop} {x : Res α} {o : Option β} {f : α → Res γ} {g : β → Option δ}
    (h : Fate P x o) (hf : ∀ a b, P a b → Fate Q (f a) (g b)) : Fate Q (x >>= f) (o.bind g) := by
  cases o with
  | none => exact panics_bind h f
  | some b =>
    obtain ⟨a, rfl, h2⟩ := h
    exact hf a b h2

theorem Fate.none {α β : Type} {P : α → β → Prop} {x : Res α} {o : Option β} (h : Panics x) (ho : o = none) : Fate P x o := by
  rw [ho]
  exact h

theorem Fate.mono {α β : Type} {P Q : α → β → Prop} {x : Res α} {o : Option β} (h : Fate P x o) (hPQ : ∀ a b, P a b → Q a b) : Fate Q x o := by
  cases o with
  | none => exact h
  | some b =>
    obtain ⟨a, h1, h2⟩ := h
    exact ⟨a, h1, hPQ a b h2⟩

/-- An assertion that only debug builds check. -/
theorem Fate.guard {α β : Type} {Q : α → β → Prop} {m : Mode} {b : Bool} {x : Res α} {o : Option β} (p : Prop) [Decidable p]
    (hb : b = true ↔ ¬ p) (hx : ¬ (m = .debug ∧ p) → Fate Q x o) :
    Fate Q (debugAssert m b >>= fun _ => x) (if m = .debug ∧ p then Option.none else o) := by
  by_cases h : m = .debug ∧ p
  · rw [if_pos h]
    have : b = false := by
      cases b with
      | false => rfl
      | true => exact absurd h.2 (hb.mp rfl)
    rw [h.1, this]
    exact ⟨.debugAssert, rfl⟩
  · rw [if_neg h]
    have : debugAssert m b = ok () := by
      cases m with
      | release => rfl
      | debug => rw [hb.mpr fun hp => h ⟨rfl, hp⟩]; rfl
    rw [this, ok_bind]
    exact hx h

theorem makes_iff (x : Res BitVecValue) (o : Option Shape) :
    Makes x o ↔ Fate (fun r s => r.shape = s ∧ s.width < 2 ^ 32) x o := by
  cases o <;> exact Iff.rfl

variable {iw dw : Nat}

/-- A value read as a 64-bit number. -/
theorem toU64_fate (v : BitVecValue) :
    Fate (fun (w : Word) n => w.toNat = n) (unwrap v.toU64) (if 2 ^ 64 ≤ v.shape.number then none else some v.shape.number) := by
  rw [C106_to_u64]
  unfold Shape.asU64
  by_cases h : v.shape.number < 2 ^ 64
  · rw [if_pos h, if_neg (by omega)]
    exact ⟨_, rfl, ofNat64_toNat h⟩
  · rw [if_neg h, if_pos (by omega)]
    exact ⟨.unwrap, rfl⟩

theorem points_fate (m : Mode) (iw : Nat) (i : BitVecValue) :
    Fate (fun (w : Word) n => w.toNat = n ∧ n < 2 ^ 64) (debugAssert m (i.width == iw) >>= fun _ => unwrap i.toU64) (i.shape.points m iw) := by
  have h := Fate.guard (m := m) (b := i.width == iw) (i.width ≠ iw) (by simp) fun _ => toU64_fate i
  unfold Shape.points
  by_cases h1 : m = .debug ∧ i.width ≠ iw
  · rw [if_pos h1] at h
    rw [if_pos (.inl h1)]
    exact h
  · rw [if_neg h1] at h
    by_cases h2 : 2 ^ 64 ≤ i.shape.number
    · rw [if_pos h2] at h
      rw [if_pos (.inr h2)]
      exact h
    · rw [if_neg h2] at h
      rw [if_neg (fun hh => hh.elim h1 h2)]
      obtain ⟨w, h3, h4⟩ := h
      exact ⟨w, h3, h4, by omega⟩

theorem shownAs_fate (m : Mode) (hdw : dw ≤ 64) (w : Word) : Makes (BitVecValue.fromU64 m w dw) (shownAs m dw w.toNat) := by
  unfold shownAs
  by_cases h0 : dw = 0
  · subst h0
    rw [if_pos rfl]
    exact ⟨.bounds, rfl⟩
  · rw [if_neg h0]
    have h := fromU64_shown m (show 0 < dw by omega) hdw w
    unfold shown at h
    have hs : ∀ {r : BitVecValue} {c : Nat}, Raw r dw c → r.shape = ⟨dw, 1, c⟩ := by
      intro r c hr
      unfold BitVecValue.shape
      rw [hr.width_eq, hr.length_eq, hr.val_eq, show (dw + 63) / 64 = 1 by omega]
    by_cases hc : w.toNat < 2 ^ dw
    · rw [if_neg (by omega)] at h
      rw [if_pos hc]
      obtain ⟨r, h1, h2⟩ := h
      exact ⟨r, h1, hs h2, by show dw < 2 ^ 32; omega⟩
    · rw [if_pos (by omega)] at h
      rw [if_neg hc]
      by_cases hm : m = .debug
      · rw [if_pos hm] at h ⊢
        exact h
      · rw [if_neg hm] at h ⊢
        obtain ⟨r, h1, h2⟩ := h
        exact ⟨r, h1, hs h2, by show dw < 2 ^ 32; omega⟩

/-! ## The dense representation -/

/-- The storage of a dense array holds the cells. -/
def MemRep (m : Mode) (iw dw : Nat) (data : DenseArrayImpl) (mem : Memory) : Prop :=
  match data with
  | .bit v => dw = 1 ∧ ∃ n N, elementCount m iw = some n ∧ Raw v (n % 2 ^ 32) N ∧ mem.count = capacity (n % 2 ^ 32) ∧
      ∀ k, k < mem.count → mem.cell k = (N.testBit k).toNat
  | .u8 l => dw ≠ 1 ∧ dw ≤ 8 ∧ l.length = mem.count ∧ ∀ k, k < mem.count → ∃ b : Byte, l[k]? = some b ∧ b.toNat = mem.cell k
  | .u64 l => 8 < dw ∧ dw ≤ 64 ∧ l.length = mem.count ∧ ∀ k, k < mem.count → ∃ b : Word, l[k]? = some b ∧ b.toNat = mem.cell k
  | .big l => 64 < dw ∧ l.length = mem.count ∧ l.length < 2 ^ 60 ∧ Holds64 l mem.cell

/-- A dense array holds the cells. -/
structure DenseHolds (m : Mode) (iw dw : Nat) (d : DenseArrayValue) (mem : Memory) : Prop where
  indexWidth : d.indexWidth = iw
  dataWidth : d.dataWidth = dw
  data_lt : dw < 2 ^ 32
  rep : MemRep m iw dw d.data mem

theorem DenseHolds.selectUsize_of (m : Mode) {d : DenseArrayValue} {mem : Memory} (h : DenseHolds m iw dw d mem) (I : Nat) :
    Makes (d.selectUsize m I) ((mem.locate m dw I).bind fun n =>
      if dw ≤ 64 then shownAs m dw (mem.cell n) else some ⟨dw, need dw, gather mem.cell n (need dw)⟩) := by
  obtain ⟨hiw, hdw, hlt, hrep⟩ := h
  obtain ⟨_, _, data⟩ := d
  dsimp only at hiw hdw hrep
  replace hiw := hiw.symm
  replace hdw := hdw.symm
  subst hiw hdw
  unfold DenseArrayValue.selectUsize Memory.locate
  dsimp only
  cases data with
  | bit v =>
    obtain ⟨h1, n, N, hn, hN, hc, hf⟩ := hrep
    subst h1
    dsimp only
    rw [if_pos rfl, (C87_bits m hN).2]
    show Makes ((if I % 2 ^ 32 < capacity (n % 2 ^ 32) then _ else _) >>= _) _
    rw [← hc]
    by_cases hk : I % 2 ^ 32 < mem.count
    · rw [if_pos hk, if_pos hk, ok_bind]
      show Makes _ (shownAs m 1 (mem.cell (I % 2 ^ 32)))
      rw [hf _ hk, shownAs, if_neg (by decide), if_pos (Bool.toNat_lt _)]
      obtain ⟨r, hr1, hr2⟩ := raw_from_bool m (N.testBit (I % 2 ^ 32))
      refine ⟨r, hr1, ?_, by show 1 < 2 ^ 32; decide⟩
      unfold BitVecValue.shape
      rw [hr2.width_eq, hr2.length_eq, hr2.val_eq]
    · rw [if_neg hk, if_neg hk]
      exact ⟨_, rfl⟩
  | u8 l =>
    obtain ⟨h1, h2, h3, hf⟩ := hrep
    dsimp only
    rw [if_neg h1, if_pos (show dw ≤ 64 by omega)]
    by_cases hc : I < mem.count
    · obtain ⟨b, hb1, hb2⟩ := hf I hc
      rw [if_pos hc, idx_some hb1, ok_bind]
      show Makes _ (if dw ≤ 64 then shownAs m dw (mem.cell I) else _)
      rw [if_pos (show dw ≤ 64 by omega)]
      have := shownAs_fate m (show dw ≤ 64 by omega) (b.setWidth 64)
      rwa [setWidth64_toNat (by decide), hb2] at this
    · rw [if_neg hc, idx_none (by omega)]
      exact ⟨_, rfl⟩
  | u64 l =>
    obtain ⟨h1, h2, h3, hf⟩ := hrep
    dsimp only
    rw [if_neg (show ¬ dw = 1 by omega), if_pos h2]
    by_cases hc : I < mem.count
    · obtain ⟨b, hb1, hb2⟩ := hf I hc
      rw [if_pos hc, idx_some hb1, ok_bind]
      show Makes _ (if dw ≤ 64 then shownAs m dw (mem.cell I) else _)
      rw [if_pos h2]
      have := shownAs_fate m h2 b
      rwa [hb2] at this
    · rw [if_neg hc, idx_none (by omega)]
      exact ⟨_, rfl⟩
  | big l =>
    obtain ⟨h1, h2, h3, hm⟩ := hrep
    rw [if_neg (show ¬ dw = 1 by omega), if_neg (show ¬ dw ≤ 64 by omega)]
    show Makes (mulC m U64 (need dw) I >>= fun s => addC m U64 s (need dw) >>= fun e => sliceR l s e >>= fun ws => ok ⟨dw, ws⟩) _
    have hp := place_eq m I h3 (c := need dw) (by unfold need; omega) (fun s e => sliceR l s e >>= fun ws => ok (⟨dw, ws⟩ : BitVecValue))
      (fun s e hn => panics_bind ⟨.bounds, by rw [sliceR, if_neg hn]⟩ _)
    rw [h2] at hp
    cases hpl : place m (need dw) mem.count I with
    | none => rw [hpl] at hp; exact hp
    | some s =>
      rw [hpl] at hp
      obtain ⟨h4, h5⟩ := hp
      rw [h5, sliceR_ok (by omega) (by omega), ok_bind]
      show Makes _ (if dw ≤ 64 then _ else _)
      rw [if_neg (show ¬ dw ≤ 64 by omega)]
      refine ⟨_, rfl, ?_, hlt⟩
      unfold BitVecValue.shape
      dsimp only
      rw [Nat.add_sub_cancel_left, gather_eq hm _ _ (by omega)]
      congr 1
      simp
      omega

theorem dense_select_eq (m : Mode) (d : DenseArrayValue) (i : BitVecValue) :
    d.select m i = ((debugAssert m (i.width == d.indexWidth) >>= fun _ => unwrap i.toU64) >>= fun w => d.selectUsize m w.toNat) := by
  unfold DenseArrayValue.select
  cases debugAssert m (i.width == d.indexWidth) <;> rfl

theorem DenseHolds.select_of {m : Mode} {d : DenseArrayValue} {mem : Memory} (h : DenseHolds m iw dw d mem) (i : BitVecValue) :
    Makes (d.select m i) (mem.select m iw dw i.shape) := by
  rw [dense_select_eq, h.indexWidth, makes_iff]
  refine (points_fate m iw i).bind fun w n hw => ?_
  rw [hw.1, ← makes_iff]
  exact h.selectUsize_of m n

theorem Fate.map {α β γ δ : Type} {P : α → β → Prop} {Q : γ → δ → Prop} {x : Res α} {o : Option β} {f : α → Res γ} {g : β → δ}
    (h : Fate P x o) (hf : ∀ a b, P a b → ∃ c, f a = ok c ∧ Q c (g b)) : Fate Q (x >>= f) (o.map g) := by
  cases o with
  | none => exact panics_bind h f
  | some b =>
    obtain ⟨a, rfl, h2⟩ := h
    exact hf a b h2

/-- The bit that a dense array makes from data. -/
theorem tru_fate (v : BitVecValue) : Fate (fun (t : Bool) c => c = t.toNat) v.isTru (v.shape.datum 1) := by
  have h : Answers v.isTru _ := C105_test (a := v) .release .tru
  unfold Test.foresee at h
  unfold Shape.datum
  rw [if_pos rfl]
  by_cases h1 : v.shape.width ≠ 1
  · rw [if_pos h1] at h ⊢
    exact ⟨false, h, rfl⟩
  · rw [if_neg h1] at h ⊢
    by_cases h2 : v.shape.words = 0
    · rw [if_pos h2] at h ⊢
      exact h
    · rw [if_neg h2] at h ⊢
      refine ⟨_, h, ?_⟩
      by_cases h3 : v.shape.number % 2 ^ 64 = 1
      · rw [if_pos h3, decide_eq_true h3]; rfl
      · rw [if_neg h3, decide_eq_false h3]; rfl

/-- `store` after the index has been read. -/
def denseStoreAt (m : Mode) (d : DenseArrayValue) (I : Nat) (v : BitVecValue) : Res DenseArrayValue :=
  debugAssert m (v.width == d.dataWidth) >>= fun _ =>
  match d.data with
  | .bit value => v.isTru >>= fun t =>
    (if t then value.setBit (I % U32) else value.clearBit (I % U32)) >>= fun value => ok { d with data := .bit value }
  | .u8 values => unwrap v.toU64 >>= fun w => setIdx values I (w.setWidth 8) >>= fun values => ok { d with data := .u8 values }
  | .u64 values => unwrap v.toU64 >>= fun w => setIdx values I w >>= fun values => ok { d with data := .u64 values }
  | .big values =>
    mulC m U64 (need d.dataWidth) I >>= fun s => addC m U64 s (need d.dataWidth) >>= fun e =>
    modifyRange values s e (fun ws => BitVecValue.assign m ⟨d.dataWidth, ws⟩ v >>= fun r => ok r.words) >>= fun values =>
    ok { d with data := .big values }

theorem dense_store_eq (m : Mode) (d : DenseArrayValue) (i v : BitVecValue) :
    d.store m i v = ((debugAssert m (i.width == d.indexWidth) >>= fun _ => unwrap i.toU64) >>= fun w => denseStoreAt m d w.toNat v) := by
  unfold DenseArrayValue.store
  cases debugAssert m (i.width == d.indexWidth) <;> rfl

theorem bind_guard {β γ : Type} (o : Option β) (c : Prop) [Decidable c] (g : β → Option γ) :
    (o.bind fun n => if c then none else g n) = if c then none else o.bind g := by
  by_cases h : c
  · simp only [if_pos h]
    cases o <;> rfl
  · simp only [if_neg h]

/-- Copying words needs as many words. -/
theorem assign_words (m : Mode) (ws : List Word) (v : BitVecValue) (hw : ¬ (m = .debug ∧ v.width ≠ dw)) :
    (ws.length = v.words.length → BitVecValue.assign m ⟨dw, ws⟩ v = ok ⟨dw, v.words⟩) ∧
    (ws.length ≠ v.words.length → Panics (BitVecValue.assign m ⟨dw, ws⟩ v)) := by
  have hun : BitVecValue.assign m ⟨dw, ws⟩ v = (debugAssert m (dw == v.width) >>= fun _ =>
      debugAssert m (ws.length == v.words.length) >>= fun _ =>
      if ws.length = v.words.length then ok ⟨dw, v.words⟩ else panic .lenMismatch) := rfl
  have : debugAssert m (dw == v.width) = ok () := by
    cases m with
    | release => rfl
    | debug =>
      have : v.width = dw := Classical.byContradiction fun hne => hw ⟨rfl, hne⟩
      rw [this]
      simp [debugAssert]
  rw [hun, this, ok_bind]
  constructor
  · intro h
    rw [if_pos h, h]
    cases m <;> simp [debugAssert]
  · intro h
    rw [if_neg h]
    exact panics_bind_of _ fun _ _ => ⟨.lenMismatch, rfl⟩

theorem DenseHolds.storeAt_of {m : Mode} {d : DenseArrayValue} {mem : Memory} (h : DenseHolds m iw dw d mem) (I : Nat) (v : BitVecValue) :
    Fate (DenseHolds m iw dw) (denseStoreAt m d I v) ((mem.locate m dw I).bind fun n =>
      if m = .debug ∧ v.shape.width ≠ dw then none
      else if dw ≤ 64 then (v.shape.datum dw).map fun c => { mem with cell := setCell mem.cell n c }
      else if v.shape.words = need dw then some { mem with cell := scatter mem.cell n (need dw) v.shape.number }
      else none) := by
  obtain ⟨hiw, hdw, hlt, hrep⟩ := h
  obtain ⟨_, _, data⟩ := d
  dsimp only at hiw hdw hrep
  replace hiw := hiw.symm
  replace hdw := hdw.symm
  subst hiw hdw
  rw [bind_guard]
  unfold denseStoreAt
  refine Fate.guard (v.shape.width ≠ dw) (by simp [BitVecValue.shape]) fun hd => ?_
  unfold Memory.locate
  cases data with
  | bit b =>
    obtain ⟨h1, n, N, hn, hN, hc, hf⟩ := hrep
    subst h1
    dsimp only
    rw [if_pos rfl]
    have hsc := C87_set_clear_bit hN (I % 2 ^ 32)
    rw [← hc] at hsc
    by_cases hk : I % 2 ^ 32 < mem.count
    · rw [if_pos hk] at hsc ⊢
      obtain ⟨⟨r, M, hr1, hr2, hr3⟩, ⟨s, L, hs1, hs2, hs3⟩⟩ := hsc
      rw [Option.bind_some, if_pos (show 1 ≤ 64 by decide)]
      refine (tru_fate v).map fun t c htc => ?_
      subst htc
      cases t with
      | true =>
        refine ⟨⟨iw, 1, .bit r⟩, ?_, rfl, rfl, hlt, rfl, n, M, hn, hr2, hc, fun k hk' => ?_⟩
        · show (BitVecValue.setBit b (I % 2 ^ 32) >>= _) = _
          rw [hr1, ok_bind]
        · dsimp only
          rw [hr3, setCell_apply]
          by_cases hne : k = I % 2 ^ 32
          · rw [if_pos hne, if_pos hne]
          · rw [if_neg hne, if_neg hne, hf k hk']
      | false =>
        refine ⟨⟨iw, 1, .bit s⟩, ?_, rfl, rfl, hlt, rfl, n, L, hn, hs2, hc, fun k hk' => ?_⟩
        · show (BitVecValue.clearBit b (I % 2 ^ 32) >>= _) = _
          rw [hs1, ok_bind]
        · dsimp only
          rw [hs3, setCell_apply]
          by_cases hne : k = I % 2 ^ 32
          · rw [if_pos hne, if_pos hne]
          · rw [if_neg hne, if_neg hne, hf k hk']
    · rw [if_neg hk] at hsc ⊢
      refine panics_bind_of _ fun t _ => ?_
      cases t with
      | true =>
        show Panics (BitVecValue.setBit b (I % 2 ^ 32) >>= _)
        rw [hsc.1]
        exact ⟨_, rfl⟩
      | false =>
        show Panics (BitVecValue.clearBit b (I % 2 ^ 32) >>= _)
        rw [hsc.2]
        exact ⟨_, rfl⟩
  | u8 l =>
    obtain ⟨h1, h2, h3, hf⟩ := hrep
    dsimp only
    rw [if_neg h1, if_pos (show dw ≤ 64 by omega)]
    by_cases hc : I < mem.count
    · rw [if_pos hc]
      show Fate _ _ (if dw ≤ 64 then _ else _)
      rw [if_pos (show dw ≤ 64 by omega), Shape.datum, if_neg h1, if_pos h2]
      have h := toU64_fate v
      by_cases hb : 2 ^ 64 ≤ v.shape.number
      · rw [if_pos hb] at h ⊢
        exact panics_bind h _
      · rw [if_neg hb] at h ⊢
        obtain ⟨w, hw1, hw2⟩ := h
        rw [hw1, ok_bind]
        obtain ⟨l', hl1, hl2, hl3⟩ := setIdx_spec (l := l) (i := I) (by omega) (w.setWidth 8)
        rw [hl1, ok_bind]
        refine ⟨_, rfl, rfl, rfl, hlt, h1, h2, by rw [hl2, h3], fun n hn => ?_⟩
        by_cases hne : n = I
        · exact ⟨_, by rw [hl3, if_pos hne], by
            dsimp only
            rw [setCell_apply, if_pos hne, BitVec.toNat_setWidth, hw2]⟩
        · obtain ⟨b, hb1, hb2⟩ := hf n hn
          exact ⟨b, by rw [hl3, if_neg hne, hb1], by dsimp only; rw [setCell_apply, if_neg hne, hb2]⟩
    · rw [if_neg hc]
      refine panics_bind_of _ fun w _ => ?_
      rw [setIdx_none (by omega)]
      exact ⟨_, rfl⟩
  | u64 l =>
    obtain ⟨h1, h2, h3, hf⟩ := hrep
    dsimp only
    rw [if_neg (show ¬ dw = 1 by omega), if_pos h2]
    by_cases hc : I < mem.count
    · rw [if_pos hc]
      show Fate _ _ (if dw ≤ 64 then _ else _)
      rw [if_pos h2, Shape.datum, if_neg (show ¬ dw = 1 by omega), if_neg (show ¬ dw ≤ 8 by omega)]
      have h := toU64_fate v
      by_cases hb : 2 ^ 64 ≤ v.shape.number
      · rw [if_pos hb] at h ⊢
        exact panics_bind h _
      · rw [if_neg hb] at h ⊢
        obtain ⟨w, hw1, hw2⟩ := h
        rw [hw1, ok_bind]
        obtain ⟨l', hl1, hl2, hl3⟩ := setIdx_spec (l := l) (i := I) (by omega) w
        rw [hl1, ok_bind]
        refine ⟨_, rfl, rfl, rfl, hlt, h1, h2, by rw [hl2, h3], fun n hn => ?_⟩
        by_cases hne : n = I
        · exact ⟨_, by rw [hl3, if_pos hne], by dsimp only; rw [setCell_apply, if_pos hne, hw2]⟩
        · obtain ⟨b, hb1, hb2⟩ := hf n hn
          exact ⟨b, by rw [hl3, if_neg hne, hb1], by dsimp only; rw [setCell_apply, if_neg hne, hb2]⟩
    · rw [if_neg hc]
      refine panics_bind_of _ fun w _ => ?_
      rw [setIdx_none (by omega)]
      exact ⟨_, rfl⟩
  | big l =>
    obtain ⟨h1, h2, h3, hm⟩ := hrep
    dsimp only
    rw [if_neg (show ¬ dw = 1 by omega), if_neg (show ¬ dw ≤ 64 by omega)]
    have hp := place_eq m I h3 (c := need dw) (by unfold need; omega)
      (fun s e => modifyRange l s e (fun ws => BitVecValue.assign m ⟨dw, ws⟩ v >>= fun r => ok r.words) >>= fun l' =>
        ok (⟨iw, dw, .big l'⟩ : DenseArrayValue))
      (fun s e hn => panics_bind (panics_bind ⟨.bounds, by rw [sliceR, if_neg hn]⟩ _) _)
    rw [h2] at hp
    cases hpl : place m (need dw) mem.count I with
    | none => rw [hpl] at hp; exact hp
    | some s =>
      rw [hpl] at hp
      obtain ⟨h4, h5⟩ := hp
      rw [h5]
      show Fate _ _ (if dw ≤ 64 then _ else _)
      rw [if_neg (show ¬ dw ≤ 64 by omega)]
      have hlen : ((l.drop s).take (s + need dw - s)).length = need dw := by simp; omega
      unfold modifyRange
      rw [sliceR_ok (by omega) (by omega), ok_bind]
      dsimp only
      by_cases hc : v.shape.words = need dw
      · have hc' : v.words.length = need dw := hc
        rw [if_pos hc, (assign_words m _ v hd).1 (by rw [hlen, hc'])]
        refine ⟨_, rfl, rfl, rfl, hlt, h1, ?_, ?_, scatter_eq hm hc' (by omega)⟩
        · simp
          omega
        · simp
          omega
      · rw [if_neg hc]
        exact panics_bind (panics_bind (panics_bind ((assign_words m _ v hd).2 (by rw [hlen]; exact fun h => hc h.symm)) _) _) _

theorem DenseHolds.store_of {m : Mode} {d : DenseArrayValue} {mem : Memory} (h : DenseHolds m iw dw d mem) (i v : BitVecValue) :
    Fate (DenseHolds m iw dw) (d.store m i v) (mem.store m iw dw i.shape v.shape) := by
  rw [dense_store_eq, h.indexWidth]
  refine (points_fate m iw i).bind fun w n hw => ?_
  rw [hw.1]
  exact h.storeAt_of n v

theorem DenseHolds.clear_of {m : Mode} {d : DenseArrayValue} {mem : Memory} (h : DenseHolds m iw dw d mem) :
    DenseHolds m iw dw d.clear mem.clear := by
  obtain ⟨hiw, hdw, hdl, hrep⟩ := h
  obtain ⟨_, _, data⟩ := d
  dsimp only at hiw hdw hrep
  replace hiw := hiw.symm
  replace hdw := hdw.symm
  subst hiw hdw
  unfold DenseArrayValue.clear
  cases data with
  | bit v =>
    obtain ⟨h1, n, N, hn, hN, hc, hf⟩ := hrep
    have := (C26_clear ⟨hN.width_lt, hN.width_eq, hN.length_eq⟩ : Denotes (BitVecValue.clear v) _).raw
    exact ⟨rfl, rfl, hdl, h1, n, _, hn, this, hc, fun n _ => by simp [Memory.clear]⟩
  | u8 l =>
    obtain ⟨h1, h2, h3, hf⟩ := hrep
    refine ⟨rfl, rfl, hdl, h1, h2, by simpa [Memory.clear] using h3, fun n hn => ⟨0#8, ?_, rfl⟩⟩
    obtain ⟨b, hb, -⟩ := hf n hn
    rw [List.getElem?_map, hb]
    rfl
  | u64 l =>
    obtain ⟨h1, h2, h3, hf⟩ := hrep
    refine ⟨rfl, rfl, hdl, h1, h2, by simpa [Memory.clear] using h3, fun n hn => ⟨0#64, ?_, rfl⟩⟩
    obtain ⟨b, hb, -⟩ := hf n hn
    rw [List.getElem?_map, hb]
    rfl
  | big l =>
    obtain ⟨h1, h2, h3, hf⟩ := hrep
    refine ⟨rfl, rfl, hdl, h1, by simpa [Memory.clear] using h2, by simpa using h3, fun k x hx => ?_⟩
    rw [List.getElem?_map] at hx
    cases hk : l[k]? with
    | none => rw [hk] at hx; cases hx
    | some y => rw [hk] at hx; cases hx; rfl

theorem numElements_fate (m : Mode) (iw : Nat) : Fate (fun n n' => n = n') (numElements m iw) (elementCount m iw) := by
  unfold numElements shiftAmount64 elementCount
  by_cases h : iw < 64
  · rw [if_pos h, if_pos h]
    exact ⟨_, rfl, rfl⟩
  · rw [if_neg h, if_neg h]
    cases m with
    | debug => exact ⟨.overflow, rfl⟩
    | release => exact ⟨_, rfl, rfl⟩

/-- A product that is too large for debug builds is over the limit. -/
theorem guard_mul {α β : Type} {Q : α → β → Prop} {m : Mode} {x : Res α} {o : Option β} (a b : Nat)
    (hx : Fate Q x o) :
    Fate Q (mulC m U64 a b >>= fun s => debugAssert m (decide (s ≤ 1024 * 1024 * 1024)) >>= fun _ => x)
      (if m = .debug ∧ 2 ^ 30 < a * b then none else o) := by
  cases m with
  | release =>
    rw [if_neg (by simp)]
    unfold mulC
    by_cases h : a * b < U64
    · rw [if_pos h]; exact hx
    · rw [if_neg h]; exact hx
  | debug =>
    by_cases h : a * b < U64
    · rw [mulC_ok h, ok_bind]
      exact Fate.guard _ (by simp) fun _ => hx
    · have h' : ¬ a * b < 18446744073709551616 := h
      rw [if_pos ⟨rfl, by omega⟩]
      unfold mulC
      rw [if_neg h]
      exact ⟨.overflow, rfl⟩

theorem guard_fate {α β : Type} {Q : α → β → Prop} {m : Mode} {n : Nat} (hn : numElements m iw = ok n) {x : Res α} {o : Option β}
    (hx : Fate Q x o) :
    Fate Q (DenseArrayValue.approxStorageSize m iw dw >>= fun s => debugAssert m (decide (s ≤ DenseArrayValue.maxBytes)) >>= fun _ => x)
      (if m = .debug ∧ 2 ^ 30 < guardBytes n dw then none else o) := by
  unfold DenseArrayValue.approxStorageSize guardBytes
  rw [hn, ok_bind]
  by_cases h1 : dw = 1
  · simp only [if_pos h1]
    rw [ok_bind]
    exact Fate.guard (2 ^ 30 < (n + 7) / 8) (by rw [decide_eq_true_iff]; show (n + 7) / 8 ≤ 1073741824 ↔ ¬ 1073741824 < (n + 7) / 8; omega) fun _ => hx
  · simp only [if_neg h1]
    by_cases h2 : dw ≤ 8
    · simp only [if_pos h2]
      rw [ok_bind]
      exact Fate.guard _ (by simp) fun _ => hx
    · simp only [if_neg h2]
      by_cases h3 : dw ≤ 64
      · simp only [if_pos h3]
        exact guard_mul n 8 hx
      · simp only [if_neg h3]
        exact guard_mul n (need dw) hx

/-- The storage of a new array. -/
def denseStorage (m : Mode) (n : Nat) (v : BitVecValue) : Res DenseArrayImpl :=
  if v.width = 1 then do
    let t ← v.isTru
    if t then do
      let v ← BitVecValue.ones m (n % U32)
      ok (DenseArrayImpl.bit v)
    else do
      match m with
      | .debug => do
        let f ← v.isFals
        debugAssert .debug f
      | .release => ok ()
      ok (.bit (BitVecValue.zero (n % U32)))
  else if v.width ≤ 8 then do
    let d ← unwrap v.toU64
    ok (.u8 (List.replicate n (d.setWidth 8)))
  else if v.width ≤ 64 then do
    let d ← unwrap v.toU64
    ok (.u64 (List.replicate n d))
  else do
    let _ ← mulC m U64 n v.words.length
    ok (.big (List.replicate n v.words).flatten)

theorem flatten_replicate_get (ws : List Word) (n k : Nat) (x : Word) (h : (List.replicate n ws).flatten[k]? = some x) :
    ws[k % ws.length]? = some x := by
  induction n generalizing k with
  | zero => simp at h
  | succ n ih =>
    rw [List.replicate_succ, List.flatten_cons] at h
    by_cases hk : k < ws.length
    · rw [List.getElem?_append_left hk] at h
      rwa [Nat.mod_eq_of_lt hk]
    · rw [List.getElem?_append_right (by omega)] at h
      have := ih _ h
      rwa [← Nat.mod_eq_sub_mod (by omega)] at this

theorem denseStorage_fate (m : Mode) {n : Nat} (hn : elementCount m iw = some n) (v : BitVecValue) (hs : 64 < v.width → n * v.words.length < 2 ^ 60) :
    Fate (MemRep m iw v.width) (denseStorage m n v)
      (if v.shape.width = 1 then (v.shape.datum 1).bind fun c =>
        if c = 1 then
          if n % 2 ^ 32 = 0 then none else some ⟨64 * need (n % 2 ^ 32), fun k => if k < n % 2 ^ 32 then 1 else 0⟩
        else if m = .debug ∧ v.shape.number % 2 ^ 64 ≠ 0 then none
        else some ⟨64 * need (n % 2 ^ 32), fun _ => 0⟩
      else if v.shape.width ≤ 64 then (v.shape.datum v.shape.width).map fun c => ⟨n, fun _ => c⟩
      else some ⟨n * v.shape.words, fun k => v.shape.number / 2 ^ (64 * (k % v.shape.words)) % 2 ^ 64⟩) := by
  unfold denseStorage
  change Fate _ _ (if v.width = 1 then _ else if v.width ≤ 64 then Option.map _ (v.shape.datum v.width) else _)
  have hp : n % 2 ^ 32 < 2 ^ 32 := Nat.mod_lt _ (by decide)
  have hU : n % U32 = n % 2 ^ 32 := rfl
  rw [hU]
  by_cases h1 : v.width = 1
  · rw [if_pos h1, if_pos h1]
    have h0 : ¬ v.shape.width ≠ 1 := fun h => h h1
    by_cases h2 : v.shape.words = 0
    · have h := tru_fate v
      rw [show v.shape.datum 1 = none by rw [Shape.datum, if_pos rfl, if_neg h0, if_pos h2]] at h ⊢
      exact panics_bind h _
    refine (tru_fate v).bind fun t c htc => ?_
    subst htc
    cases t with
    | true =>
      rw [if_pos rfl, if_pos (show true.toNat = 1 from rfl)]
      by_cases hz : n % 2 ^ 32 = 0
      · rw [if_pos hz, hz]
        refine panics_bind ?_ _
        cases m <;> exact ⟨_, rfl⟩
      · rw [if_neg hz]
        obtain ⟨r, hr, hd⟩ := C01_ones m (show 0 < n % 2 ^ 32 by omega) hp
        rw [hr, ok_bind]
        refine ⟨_, rfl, h1, n, _, hn, hd.raw, rfl, fun k hk => ?_⟩
        dsimp only
        rw [BitVec.testBit_toNat, BitVec.getLsbD_allOnes]
        by_cases hk : k < n % 2 ^ 32
        · rw [if_pos hk, decide_eq_true hk]; rfl
        · rw [if_neg hk, decide_eq_false hk]; rfl
    | false =>
      rw [if_neg (by simp), if_neg (by simp)]
      have hz : MemRep m iw v.width (.bit (BitVecValue.zero (n % 2 ^ 32))) ⟨64 * need (n % 2 ^ 32), fun _ => 0⟩ :=
        ⟨h1, n, _, hn, (C01_zero hp).raw, rfl, fun k hk => by simp⟩
      cases m with
      | release =>
        rw [if_neg (by simp)]
        exact ⟨_, rfl, hz⟩
      | debug =>
        have h : Answers v.isFals (if v.shape.width ≠ 1 then some false else if v.shape.words = 0 then none
            else some (decide (v.shape.number % 2 ^ 64 = 0))) := C105_test (a := v) .release .fals
        rw [if_neg h0, if_neg h2] at h
        replace h : v.isFals = ok (decide (v.shape.number % 2 ^ 64 = 0)) := h
        dsimp only
        rw [h, ok_bind]
        by_cases h3 : v.shape.number % 2 ^ 64 = 0
        · rw [if_neg (fun hh => hh.2 h3), decide_eq_true h3]
          exact ⟨_, rfl, hz⟩
        · rw [if_pos ⟨rfl, h3⟩, decide_eq_false h3]
          exact ⟨_, rfl⟩
  · rw [if_neg h1, if_neg h1]
    by_cases h2 : v.width ≤ 8
    · rw [if_pos h2, if_pos (show v.width ≤ 64 by omega), Shape.datum, if_neg h1, if_pos h2]
      have h := toU64_fate v
      by_cases hb : 2 ^ 64 ≤ v.shape.number
      · rw [if_pos hb] at h ⊢
        exact panics_bind h _
      · rw [if_neg hb] at h ⊢
        obtain ⟨w, hw1, hw2⟩ := h
        rw [hw1, ok_bind]
        refine ⟨_, rfl, h1, h2, by simp, fun k hk => ⟨w.setWidth 8, ?_, ?_⟩⟩
        · rw [List.getElem?_replicate, if_pos hk]
        · rw [BitVec.toNat_setWidth, hw2]
    · rw [if_neg h2]
      by_cases h3 : v.width ≤ 64
      · rw [if_pos h3, if_pos h3, Shape.datum, if_neg h1, if_neg h2]
        have h := toU64_fate v
        by_cases hb : 2 ^ 64 ≤ v.shape.number
        · rw [if_pos hb] at h ⊢
          exact panics_bind h _
        · rw [if_neg hb] at h ⊢
          obtain ⟨w, hw1, hw2⟩ := h
          rw [hw1, ok_bind]
          refine ⟨_, rfl, by omega, h3, by simp, fun k hk => ⟨w, ?_, hw2⟩⟩
          rw [List.getElem?_replicate, if_pos hk]
      · rw [if_neg h3, if_neg h3]
        have hs := hs (by omega)
        rw [mulC_ok (by show _ < 18446744073709551616; omega), ok_bind]
        refine ⟨_, rfl, by omega, by simp [BitVecValue.shape], by simpa using hs, fun k x hx => ?_⟩
        exact digit_of_wordsVal _ _ _ (flatten_replicate_get _ _ _ _ hx)

theorem dense_new_fate (m : Mode) (iw : Nat) {v : BitVecValue} (hv : v.width < 2 ^ 32)
    (hs : ∀ n, elementCount m iw = some n → 64 < v.width → n * v.words.length < 2 ^ 60) :
    Fate (DenseHolds m iw v.width) (DenseArrayValue.new m iw v) (Memory.create m iw v.shape) := by
  have hnew : DenseArrayValue.new m iw v = (DenseArrayValue.approxStorageSize m iw v.width >>= fun s =>
      debugAssert m (decide (s ≤ DenseArrayValue.maxBytes)) >>= fun _ => numElements m iw >>= fun n =>
      denseStorage m n v >>= fun data => ok ⟨iw, v.width, data⟩) := rfl
  rw [hnew]
  have hn := numElements_fate m iw
  unfold Memory.create
  cases hc : elementCount m iw with
  | none =>
    rw [hc] at hn
    refine panics_bind ?_ _
    exact panics_bind hn _
  | some n =>
    rw [hc] at hn
    obtain ⟨_, hn, rfl⟩ := hn
    refine guard_fate hn ?_
    rw [hn, ok_bind]
    have h := denseStorage_fate m hc v (hs _ hc)
    have h2 := h.map (Q := DenseHolds m iw v.width) (f := fun data => ok ⟨iw, v.width, data⟩) (g := id)
      fun data mem hd => ⟨_, rfl, rfl, rfl, hv, hd⟩
    rw [Option.map_id] at h2
    exact h2

/-- Equality of dense arrays compares all cells. -/
theorem DenseHolds.isEqual_of {m : Mode} {a b : DenseArrayValue} {f g : Memory} (ha : DenseHolds m iw dw a f) (hb : DenseHolds m iw dw b g) :
    ∃ r, a.isEqual m b = ok (some r) ∧ (r = true ↔ f.Same g) := by
  obtain ⟨hiw, hdw, hdl, hrep⟩ := ha
  obtain ⟨hiw', hdw', -, hrep'⟩ := hb
  obtain ⟨_, _, data⟩ := a
  obtain ⟨_, _, data'⟩ := b
  dsimp only at hiw hdw hrep hiw' hdw' hrep'
  replace hiw := hiw.symm
  replace hdw := hdw.symm
  subst hiw hdw
  replace hiw' := hiw'.symm
  replace hdw' := hdw'.symm
  subst hiw' hdw'
  unfold DenseArrayValue.isEqual
  rw [if_neg (by simp)]
  dsimp only
  have hex : ∀ {k : Nat} (p q : List (BitVec k)), p.length = f.count → q.length = g.count →
      (∀ n, n < f.count → ∃ b : BitVec k, p[n]? = some b ∧ b.toNat = f.cell n) →
      (∀ n, n < g.count → ∃ b : BitVec k, q[n]? = some b ∧ b.toNat = g.cell n) → (p = q ↔ f.Same g) := by
    intro k p q hp hq hP hQ
    constructor
    · intro h
      have hc : f.count = g.count := by rw [← hp, ← hq, h]
      refine ⟨hc, fun n hn => ?_⟩
      obtain ⟨x, hx, hx'⟩ := hP n hn
      obtain ⟨y, hy, hy'⟩ := hQ n (hc ▸ hn)
      rw [h, hy] at hx
      rw [← hx', ← hy', Option.some.inj hx]
    · rintro ⟨hc, h⟩
      apply List.ext_getElem?
      intro n
      by_cases hn : n < f.count
      · obtain ⟨x, hx, hx'⟩ := hP n hn
        obtain ⟨y, hy, hy'⟩ := hQ n (hc ▸ hn)
        rw [hx, hy, BitVec.eq_of_toNat_eq (hx'.trans ((h n hn).trans hy'.symm))]
      · rw [List.getElem?_eq_none (by omega), List.getElem?_eq_none (by omega)]
  cases data with
  | bit v =>
    obtain ⟨h1, n, N, hn, hN, hc, hf⟩ := hrep
    cases data' with
    | bit v' =>
      obtain ⟨_, n', M, hn', hM, hc', hg⟩ := hrep'
      rw [hn] at hn'
      cases hn'
      dsimp only
      rw [raw_eq m hN hM, ok_bind]
      refine ⟨_, rfl, ?_⟩
      rw [decide_eq_true_iff]
      constructor
      · intro h
        refine ⟨by rw [hc, hc'], fun k hk => ?_⟩
        rw [hf k hk, hg k (by rw [hc', ← hc]; exact hk), h]
      · rintro ⟨hcc, h⟩
        apply Nat.eq_of_testBit_eq
        intro k
        by_cases hk : k < f.count
        · have := h k hk
          rw [hf k hk, hg k (hcc ▸ hk)] at this
          revert this
          cases N.testBit k <;> cases M.testBit k <;> simp
        · rw [Nat.testBit_lt_two_pow (Nat.lt_of_lt_of_le hN.lt (Nat.pow_le_pow_right (by decide) (by omega))),
            Nat.testBit_lt_two_pow (Nat.lt_of_lt_of_le hM.lt (Nat.pow_le_pow_right (by decide) (by omega)))]
    | u8 l => exact absurd h1 hrep'.1
    | u64 l => have := hrep'.1; omega
    | big l => have := hrep'.1; omega
  | u8 l =>
    obtain ⟨h1, h2, h3, hf⟩ := hrep
    cases data' with
    | bit v' => exact absurd hrep'.1 h1
    | u8 l' =>
      obtain ⟨_, _, h3', hf'⟩ := hrep'
      refine ⟨_, rfl, ?_⟩
      rw [beq_iff_eq, hex l l' h3 h3' hf hf']
    | u64 l => have := hrep'.1; omega
    | big l => have := hrep'.1; omega
  | u64 l =>
    obtain ⟨h1, h2, h3, hf⟩ := hrep
    cases data' with
    | bit v' => have := hrep'.1; omega
    | u8 l => have := hrep'.2.1; omega
    | u64 l' =>
      obtain ⟨_, _, h3', hf'⟩ := hrep'
      refine ⟨_, rfl, ?_⟩
      rw [beq_iff_eq, hex l l' h3 h3' hf hf']
    | big l => have := hrep'.1; omega
  | big l =>
    obtain ⟨h1, h2, h3, hf⟩ := hrep
    cases data' with
    | bit v' => have := hrep'.1; omega
    | u8 l => have := hrep'.2.1; omega
    | u64 l' => have := hrep'.2.1; omega
    | big l' =>
      obtain ⟨_, h2', h3', hf'⟩ := hrep'
      refine ⟨_, rfl, ?_⟩
      have hget : ∀ {l : List Word} {M : Memory}, l.length = M.count → Holds64 l M.cell → ∀ n, n < M.count →
          ∃ b : Word, l[n]? = some b ∧ b.toNat = M.cell n := by
        intro l M hl hM n hn
        have hx := List.getElem?_eq_getElem (l := l) (i := n) (by omega)
        exact ⟨_, hx, hM _ _ hx⟩
      rw [beq_iff_eq, hex l l' h2 h2' (hget h2 hf) (hget h2' hf')]

/-! ## The sparse representation -/

/-- A hash map holds the cells that differ from the default `D`; `R v c` says that the stored value `v` is described by `c`. -/
structure MapHolds {V C : Type} (R : V → C → Prop) (map : HMap Word V) (mem : Nat → C) (D : C) : Prop where
  nodup : map.Nodup
  get : ∀ k : Word, (map.get k = none ∧ mem k.toNat = D) ∨ ∃ v, map.get k = some v ∧ R v (mem k.toNat) ∧ mem k.toNat ≠ D

namespace MapHolds
variable {V C : Type} {R : V → C → Prop} {map map' : HMap Word V} {mem mem' : Nat → C} {D c : C}

theorem empty (D : C) : MapHolds R HMap.empty (fun _ => D) D :=
  ⟨HMap.nodup_empty, fun k => .inl ⟨HMap.get_empty k, rfl⟩⟩

theorem insert (h : MapHolds R map mem D) (i : Word) {v : V} (hv : R v c) (hc : c ≠ D) :
    MapHolds R (map.insert i v) (fun k => if k = i.toNat then c else mem k) D := by
  refine ⟨HMap.nodup_insert h.nodup _ _, fun k => ?_⟩
  rw [HMap.get_insert]
  by_cases hk : k = i
  · simp only [if_pos hk, if_pos (congrArg BitVec.toNat hk)]
    exact .inr ⟨v, rfl, hv, hc⟩
  · simp only [if_neg hk, if_neg (fun e => hk (BitVec.eq_of_toNat_eq e))]
    exact h.get k

theorem remove (h : MapHolds R map mem D) (i : Word) : MapHolds R (map.remove i) (fun k => if k = i.toNat then D else mem k) D := by
  refine ⟨HMap.nodup_remove h.nodup _, fun k => ?_⟩
  rw [HMap.get_remove]
  by_cases hk : k = i
  · simp only [if_pos hk, if_pos (congrArg BitVec.toNat hk)]
    exact .inl ⟨trivial, trivial⟩
  · simp only [if_neg hk, if_neg (fun e => hk (BitVec.eq_of_toNat_eq e))]
    exact h.get k

theorem getD (h : MapHolds R map mem D) {d : V} (hd : R d D) (i : Word) : R ((map.get i).getD d) (mem i.toNat) := by
  rcases h.get i with ⟨h1, h2⟩ | ⟨v, h1, h2, -⟩
  · rw [h1, h2]; exact hd
  · rw [h1]; exact h2

theorem eq_iff [DecidableEq V] (h : MapHolds R map mem D) (h' : MapHolds R map' mem' D)
    (hinj : ∀ {u v : V} {c : C}, R u c → R v c → u = v) (hfun : ∀ {u : V} {c e : C}, R u c → R u e → c = e) :
    ∃ r, (if map.len = map'.len then (ok (some (map.beq map')) : Res (Option Bool)) else ok (some false)) = ok (some r) ∧
      (r = true ↔ ∀ n, n < 2 ^ 64 → mem n = mem' n) := by
  have hiff : (∀ k, map.get k = map'.get k) ↔ ∀ n, n < 2 ^ 64 → mem n = mem' n := by
    constructor
    · intro hk n hn
      have h1 := h.get (BitVec.ofNat 64 n)
      have h2 := h'.get (BitVec.ofNat 64 n)
      rw [ofNat64_toNat hn] at h1 h2
      rw [hk] at h1
      rcases h1 with ⟨a1, a2⟩ | ⟨v, a1, a2, -⟩
      · rcases h2 with ⟨b1, b2⟩ | ⟨u, b1, -, -⟩
        · rw [a2, b2]
        · rw [a1] at b1; cases b1
      · rcases h2 with ⟨b1, -⟩ | ⟨u, b1, b2, -⟩
        · rw [a1] at b1; cases b1
        · rw [a1] at b1
          cases b1
          exact hfun a2 b2
    · intro hn k
      have hm := hn k.toNat k.isLt
      rcases h.get k with ⟨a1, a2⟩ | ⟨v, a1, a2, a3⟩
      · rcases h'.get k with ⟨b1, -⟩ | ⟨u, -, -, b3⟩
        · rw [a1, b1]
        · exact absurd (hm.symm.trans a2) b3
      · rcases h'.get k with ⟨-, b2⟩ | ⟨u, b1, b2, -⟩
        · exact absurd (hm.trans b2) a3
        · rw [a1, b1, hinj a2 (hm ▸ b2)]
  by_cases hl : map.len = map'.len
  · rw [if_pos hl]
    exact ⟨_, rfl, (HMap.beq_iff h.nodup h'.nodup).trans hiff⟩
  · rw [if_neg hl]
    refine ⟨_, rfl, ?_⟩
    constructor
    · intro hh; cases hh
    · intro hn
      exact absurd (MapRep.len_le (hiff.mpr hn) h.nodup h'.nodup) hl

end MapHolds

/-- A word as an entry of an array with data of up to 64 bits. -/
def WordEntry (dw : Nat) (v : Word) (s : Shape) : Prop := s = ⟨dw, 1, v.toNat⟩

/-- A value as an entry of an array with wide data. -/
def WideEntry (v : BitVecValue) (s : Shape) : Prop := v.shape = s ∧ v.width < 2 ^ 32

/-- The hash map of a sparse array holds the table. -/
def TableRep (dw : Nat) (data : SparseArrayImpl) (t : Table) : Prop :=
  match data with
  | .u64u64 d map => dw ≤ 64 ∧ WordEntry dw d t.default ∧ MapHolds (WordEntry dw) map t.cell t.default
  | .u64big d map => 64 < dw ∧ d.width = dw ∧ WideEntry d t.default ∧ MapHolds WideEntry map t.cell t.default
  | .bigbig _ _ => False

/-- A sparse array with an index of up to 64 bits holds the table. -/
structure SparseHolds (iw dw : Nat) (s : SparseArrayValue) (t : Table) : Prop where
  indexWidth : s.indexWidth = iw
  dataWidth : s.dataWidth = dw
  data_lt : dw < 2 ^ 32
  rep : TableRep dw s.data t

theorem sparse_new_fate (hi : iw ≤ 64) {v : BitVecValue} (hv : v.width < 2 ^ 32) :
    Fate (SparseHolds iw v.width) (SparseArrayValue.new iw v) (Table.create v.shape) := by
  unfold SparseArrayValue.new Table.create Shape.filed
  have h0 : ¬ iw > BITS := by show ¬ iw > 64; omega
  dsimp only
  rw [if_neg h0]
  change Fate _ _ (Option.map _ (if 64 < v.width then _ else if 2 ^ 64 ≤ v.shape.number then none else some (⟨v.width, 1, v.shape.number⟩ : Shape)))
  by_cases h : v.width ≤ 64
  · have h1 : ¬ v.width > BITS := by show ¬ v.width > 64; omega
    rw [if_neg h1, if_neg (show ¬ 64 < v.width by omega)]
    have hu := toU64_fate v
    by_cases hb : 2 ^ 64 ≤ v.shape.number
    · rw [if_pos hb] at hu ⊢
      exact panics_bind (panics_bind hu _) _
    · rw [if_neg hb] at hu ⊢
      obtain ⟨w, hw1, hw2⟩ := hu
      rw [hw1, ok_bind, ok_bind]
      refine ⟨_, rfl, rfl, rfl, hv, h, ?_, MapHolds.empty _⟩
      unfold WordEntry
      rw [hw2]
  · have h1 : v.width > BITS := by show v.width > 64; omega
    rw [if_pos h1, if_pos (show 64 < v.width by omega)]
    exact ⟨_, rfl, rfl, rfl, hv, by omega, rfl, (show WideEntry v v.shape from ⟨rfl, hv⟩), MapHolds.empty _⟩

theorem SparseHolds.clear_of {s : SparseArrayValue} {t : Table} (h : SparseHolds iw dw s t) : SparseHolds iw dw s.clear (Table.clear dw) := by
  obtain ⟨hiw, hdw, hdl, hrep⟩ := h
  obtain ⟨_, _, data⟩ := s
  dsimp only at hiw hdw hrep
  replace hiw := hiw.symm
  replace hdw := hdw.symm
  subst hiw hdw
  unfold SparseArrayValue.clear
  cases data with
  | u64u64 d map =>
    refine ⟨rfl, rfl, hdl, hrep.1, ?_, MapHolds.empty _⟩
    unfold WordEntry Table.clear zeroFiled
    rw [if_neg (show ¬ 64 < dw by have := hrep.1; omega)]
    rfl
  | u64big d map =>
    have := (C01_zero hdl).raw
    refine ⟨rfl, rfl, hdl, hrep.1, rfl, ⟨?_, hdl⟩, MapHolds.empty _⟩
    unfold Table.clear zeroFiled BitVecValue.shape
    rw [if_pos hrep.1, this.width_eq, this.length_eq, this.val_eq]
    simp [need]
  | bigbig d map => exact hrep.elim

theorem SparseHolds.select_of {s : SparseArrayValue} {t : Table} (h : SparseHolds iw dw s t) (m : Mode) (env : HashEnv) (i : BitVecValue) :
    Makes (s.select m env i) (t.select m iw dw i.shape) := by
  obtain ⟨hiw, hdw, hdl, hrep⟩ := h
  obtain ⟨_, _, data⟩ := s
  dsimp only at hiw hdw hrep
  replace hiw := hiw.symm
  replace hdw := hdw.symm
  subst hiw hdw
  rw [makes_iff]
  cases data with
  | u64u64 d map =>
    obtain ⟨h1, h2, h3⟩ := hrep
    have he : SparseArrayValue.select m env ⟨iw, dw, .u64u64 d map⟩ i = ((debugAssert m (i.width == iw) >>= fun _ => unwrap i.toU64) >>=
        fun w => BitVecValue.fromU64 m ((map.get w).getD d) dw) := by
      unfold SparseArrayValue.select
      dsimp only
      cases debugAssert m (i.width == iw) <;> rfl
    rw [he]
    refine (points_fate m iw i).bind fun w n hw => ?_
    rw [← makes_iff, ← hw.1, show t.cell w.toNat = _ from h3.getD h2 w, Shape.unfiled, if_neg (show ¬ 64 < dw by omega)]
    exact shownAs_fate m h1 _
  | u64big d map =>
    obtain ⟨h1, -, h2, h3⟩ := hrep
    have he : SparseArrayValue.select m env ⟨iw, dw, .u64big d map⟩ i = ((debugAssert m (i.width == iw) >>= fun _ => unwrap i.toU64) >>=
        fun w => ok ((map.get w).getD d)) := by
      unfold SparseArrayValue.select
      dsimp only
      cases debugAssert m (i.width == iw) <;> rfl
    rw [he]
    refine (points_fate m iw i).bind fun w n hw => ?_
    rw [← hw.1, Shape.unfiled, if_pos h1]
    have := h3.getD h2 w
    exact ⟨_, rfl, this.1, by rw [← this.1]; exact this.2⟩
  | bigbig d map => exact hrep.elim

/-- A check between two steps that does not depend on them. -/
theorem Fate.between {α β γ δ : Type} {P : α → β → Prop} {Q : γ → δ → Prop} {x z : Res Unit} {y : Res α} {o : Option β} {f : α → Res γ}
    {g : β → Option δ} (h : Fate P (x >>= fun _ => y) o) (hf : ∀ a b, P a b → Fate Q (z >>= fun _ => f a) (g b)) :
    Fate Q (x >>= fun _ => z >>= fun _ => y >>= f) (o.bind g) := by
  cases o with
  | none =>
    cases x with
    | panic p => exact ⟨p, rfl⟩
    | ok u =>
      show Panics (z >>= fun _ => y >>= f)
      exact panics_bind_of _ fun _ _ => panics_bind (show Panics y from h) f
  | some b =>
    obtain ⟨a, h1, h2⟩ := h
    cases x with
    | panic p => cases h1
    | ok u =>
      replace h1 : y = ok a := h1
      rw [h1]
      exact hf a b h2

theorem equal_word (dw a b : Nat) (ha : a < 2 ^ 64) (hb : b < 2 ^ 64) : Shape.equal ⟨dw, 1, a⟩ ⟨dw, 1, b⟩ = decide (a = b) := by
  unfold Shape.equal
  dsimp only
  rw [show 64 * min 1 1 = 64 from rfl, Nat.mod_eq_of_lt ha, Nat.mod_eq_of_lt hb]

theorem equal_self (s : Shape) : s.equal s = true := by
  unfold Shape.equal
  exact decide_eq_true rfl

theorem SparseHolds.store_of {s : SparseArrayValue} {t : Table} (h : SparseHolds iw dw s t) (m : Mode) (env : HashEnv) (i : BitVecValue)
    {v : BitVecValue} (hv : v.width < 2 ^ 32) :
    Fate (SparseHolds iw dw) (s.store m env i v) (t.store m iw dw i.shape v.shape) := by
  obtain ⟨hiw, hdw, hdl, hrep⟩ := h
  obtain ⟨_, _, data⟩ := s
  dsimp only at hiw hdw hrep
  replace hiw := hiw.symm
  replace hdw := hdw.symm
  subst hiw hdw
  unfold SparseArrayValue.store Table.store
  dsimp only
  cases data with
  | u64u64 d map =>
    obtain ⟨h1, h2, h3⟩ := hrep
    refine Fate.between (points_fate m iw i) fun w n hw => ?_
    replace hw := hw.1.symm
    subst hw
    unfold Shape.filed
    rw [if_neg (show ¬ 64 < dw by omega)]
    have hu := toU64_fate v
    by_cases hb : 2 ^ 64 ≤ v.shape.number
    · rw [if_pos hb] at hu ⊢
      exact panics_bind_of _ fun _ _ => panics_bind hu _
    · rw [if_neg hb] at hu ⊢
      obtain ⟨x, hx1, hx2⟩ := hu
      rw [hx1, Option.bind_eq_bind, Option.bind_some, show t.default = _ from h2, ← hx2, equal_word _ _ _ x.isLt d.isLt]
      refine Fate.guard (v.shape.width ≠ dw ∨ (1 : Nat) ≠ 1) (by simp [BitVecValue.shape]) fun _ => ?_
      rw [ok_bind]
      rw [show t.default = _ from h2] at h3
      by_cases he : x = d
      · subst he
        rw [if_pos rfl]
        simp only [decide_true, if_true]
        exact ⟨_, rfl, rfl, rfl, hdl, h1, rfl, h3.remove w⟩
      · have hne : ¬ x.toNat = d.toNat := fun h => he (BitVec.eq_of_toNat_eq h)
        rw [if_neg he]
        simp only [decide_eq_false hne]
        refine ⟨_, rfl, rfl, rfl, hdl, h1, rfl, h3.insert w (show WordEntry dw x ⟨dw, 1, x.toNat⟩ from rfl) fun h => hne ?_⟩
        injection h
  | u64big d map =>
    obtain ⟨h1, hd, h2, h3⟩ := hrep
    refine Fate.between (points_fate m iw i) fun w n hw => ?_
    replace hw := hw.1.symm
    subst hw
    unfold Shape.filed
    rw [if_pos h1, Option.bind_eq_bind, Option.bind_some]
    have hc : Answers (BitVecValue.isEqual m v d) (if m = .debug ∧ (v.shape.width ≠ d.shape.width ∨ v.shape.words ≠ d.shape.words) then none
        else some (v.shape.equal d.shape)) := C105_comparison (a := v) (b := d) m .equal
    rw [h2.1, ← h2.1, show d.shape.width = dw from hd, h2.1] at hc
    by_cases hg : m = .debug ∧ (v.shape.width ≠ dw ∨ v.shape.words ≠ t.default.words)
    · rw [if_pos hg] at hc ⊢
      exact panics_bind_of _ fun _ _ => panics_bind hc _
    · rw [if_neg hg] at hc ⊢
      replace hc : BitVecValue.isEqual m v d = ok (v.shape.equal t.default) := hc
      have hda : debugAssert m (v.width == dw) = ok () := by
        cases m with
        | release => rfl
        | debug =>
          have : v.width = dw := Classical.byContradiction fun hne => hg ⟨rfl, .inl hne⟩
          rw [this]
          simp [debugAssert]
      rw [hda, ok_bind, hc, ok_bind]
      cases he : v.shape.equal t.default with
      | true =>
        simp only [if_true]
        exact ⟨_, rfl, rfl, rfl, hdl, h1, hd, h2, h3.remove w⟩
      | false =>
        refine ⟨_, rfl, rfl, rfl, hdl, h1, hd, h2, ?_⟩
        exact h3.insert w (c := v.shape) ⟨rfl, hv⟩ fun h => by rw [h, equal_self] at he; cases he
  | bigbig d map => exact hrep.elim

/-- In a debug build all cells of a table with wide data have the width of the array and as many words as the default. -/
def Table.Uniform (m : Mode) (dw : Nat) (t : Table) : Prop :=
  m = .debug → 64 < dw → t.default.width = dw ∧ ∀ k, (t.cell k).width = dw ∧ (t.cell k).words = t.default.words

theorem uniform_create (m : Mode) {s : Shape} {t : Table} (h : Table.create s = some t) : t.Uniform m s.width := by
  intro _ hw
  unfold Table.create Shape.filed at h
  rw [if_pos hw] at h
  cases h
  exact ⟨rfl, fun _ => ⟨rfl, rfl⟩⟩

theorem uniform_clear (m : Mode) (dw : Nat) : (Table.clear dw).Uniform m dw := by
  intro _ hw
  unfold Table.clear zeroFiled
  rw [if_pos hw]
  exact ⟨rfl, fun _ => ⟨rfl, rfl⟩⟩

theorem Table.Uniform.store {m : Mode} {t t' : Table} (h : t.Uniform m dw) {i d : Shape} (hs : t.store m iw dw i d = some t') :
    t'.Uniform m dw := by
  intro hm hdw
  obtain ⟨hd, ht⟩ := h hm hdw
  subst hm
  unfold Table.store at hs
  cases hp : i.points .debug iw with
  | none => rw [hp] at hs; cases hs
  | some I =>
    rw [hp, Shape.filed, if_pos hdw] at hs
    replace hs : (if Mode.debug = .debug ∧ (d.width ≠ dw ∨ d.words ≠ t.default.words) then none else some _) = some t' := hs
    by_cases hg : Mode.debug = .debug ∧ (d.width ≠ dw ∨ d.words ≠ t.default.words)
    · rw [if_pos hg] at hs
      cases hs
    · rw [if_neg hg] at hs
      cases hs
      refine ⟨hd, fun k => ?_⟩
      dsimp only
      by_cases hk : k = I
      · rw [if_pos hk]
        split
        · exact ⟨hd, rfl⟩
        · exact ⟨Classical.byContradiction fun h => hg ⟨rfl, .inl h⟩, Classical.byContradiction fun h => hg ⟨rfl, .inr h⟩⟩
      · rw [if_neg hk]
        exact ht k

theorem MapHolds.entry {V C : Type} {R : V → C → Prop} {map : HMap Word V} {mem : Nat → C} {D : C} (h : MapHolds R map mem D)
    {e : Word × V} (he : e ∈ map.entries) : R e.2 (mem e.1.toNat) := by
  rcases h.get e.1 with ⟨h1, -⟩ | ⟨v, h1, h2, -⟩
  · rw [(HMap.get_eq_some_iff h.nodup e.1 e.2).mpr he] at h1; cases h1
  · rw [(HMap.get_eq_some_iff h.nodup e.1 e.2).mpr he] at h1
    cases h1
    exact h2

/-- Comparing the entries of uniform tables does not panic. -/
theorem MapHolds.fits {m : Mode} {map map' : HMap Word BitVecValue} {f g : Table} (hw : 64 < dw) (hf : f.Uniform m dw) (hg : g.Uniform m dw)
    (h : MapHolds WideEntry map f.cell f.default) (h' : MapHolds WideEntry map' g.cell g.default)
    (hdd : f.default = g.default) : ∀ e ∈ map.entries, ∀ v, map'.get e.1 = some v → Fits m e.2 v := by
  intro e he v hv hm _
  have h1 := (h.entry he).1
  rcases h'.get e.1 with ⟨h3, -⟩ | ⟨v', h3, h4, -⟩
  · rw [hv] at h3; cases h3
  · rw [hv] at h3
    cases h3
    have e1 : e.2.shape.words = f.default.words := by rw [h1]; exact ((hf hm hw).2 _).2
    have e2 : v.shape.words = g.default.words := by rw [h4.1]; exact ((hg hm hw).2 _).2
    exact e1.trans ((congrArg _ hdd).trans e2.symm)

/-- Equality of sparse arrays compares the defaults and all cells. -/
theorem SparseHolds.isEqual_of (m : Mode) (env : HashEnv) {a b : SparseArrayValue} {f g : Table} (ha : SparseHolds iw dw a f)
    (hb : SparseHolds iw dw b g) (hfu : f.Uniform m dw) (hgu : g.Uniform m dw) :
    if m = .debug ∧ 64 < dw ∧ f.default.words ≠ g.default.words then Panics (a.isEqual m env b)
    else ∃ r, a.isEqual m env b = ok (some r) ∧ (r = true ↔ f.Same g) := by
  obtain ⟨hiw, hdw, hd, hrep⟩ := ha
  obtain ⟨hiw', hdw', -, hrep'⟩ := hb
  obtain ⟨_, _, data⟩ := a
  obtain ⟨_, _, data'⟩ := b
  dsimp only at hiw hdw hrep hiw' hdw' hrep'
  replace hiw := hiw.symm
  replace hdw := hdw.symm
  subst hiw hdw
  replace hiw' := hiw'.symm
  replace hdw' := hdw'.symm
  subst hiw' hdw'
  unfold SparseArrayValue.isEqual Table.Same
  rw [if_neg (show ¬ (iw ≠ iw ∨ dw ≠ dw) by simp)]
  dsimp only
  cases data with
  | u64u64 d map =>
    obtain ⟨h1, h2, hm⟩ := hrep
    rw [if_neg (show ¬ (m = .debug ∧ 64 < dw ∧ _) from fun h => by have := h.2.1; omega)]
    cases data' with
    | u64u64 d' map' =>
      obtain ⟨h1', h2', hm'⟩ := hrep'
      dsimp only
      by_cases hxy : d = d'
      · subst hxy
        have he : f.default = g.default := h2.trans h2'.symm
        rw [if_pos rfl]
        obtain ⟨r, hr1, hr2⟩ := hm.eq_iff (he ▸ hm') (fun hu hv => by
          have := hu.symm.trans hv
          injection this with _ _ h
          exact BitVec.eq_of_toNat_eq h) (fun hu hv => hu.trans hv.symm)
        exact ⟨r, hr1, hr2.trans (by simp [he])⟩
      · rw [if_neg hxy]
        refine ⟨_, rfl, ?_⟩
        constructor
        · intro h; cases h
        · rintro ⟨h, -⟩
          rw [show f.default = _ from h2, show g.default = _ from h2'] at h
          injection h with _ _ h
          exact absurd (BitVec.eq_of_toNat_eq h) hxy
    | u64big d' map' => have := hrep'.1; omega
    | bigbig d' map' => exact hrep'.elim
  | u64big d map =>
    obtain ⟨h1, hw, h2, hm⟩ := hrep
    cases data' with
    | u64u64 d' map' => have := hrep'.1; omega
    | u64big d' map' =>
      obtain ⟨h1', hw', h2', hm'⟩ := hrep'
      dsimp only
      have hc : Answers (BitVecValue.eqOwned m d d') (if m = .debug ∧ d.shape.width = d'.shape.width ∧ d.shape.words ≠ d'.shape.words then none
        else some (decide (d.shape = d'.shape))) := C105_comparison (a := d) (b := d') m .eqOwned
      have hww : d.shape.width = d'.shape.width := hw.trans hw'.symm
      rw [h2.1, h2'.1] at hww hc
      by_cases hg : m = .debug ∧ 64 < dw ∧ f.default.words ≠ g.default.words
      · rw [if_pos ⟨hg.1, hww, hg.2.2⟩] at hc
        rw [if_pos hg]
        exact panics_bind hc _
      · rw [if_neg (fun h => hg ⟨h.1, h1, h.2.2⟩)] at hc
        rw [if_neg hg]
        replace hc : BitVecValue.eqOwned m d d' = ok (decide (f.default = g.default)) := hc
        rw [hc, ok_bind]
        by_cases hxy : f.default = g.default
        · rw [decide_eq_true hxy, if_pos rfl, eqMaps_branch (lookup := fun _ => ok ()) env (fun _ _ => rfl) (hm.fits h1 hfu hgu hm' hxy)]
          obtain ⟨r, hr1, hr2⟩ := hm.eq_iff (hxy ▸ hm') (fun hu hv => shape_inj (hu.1.trans hv.1.symm)) (fun hu hv => hu.1.symm.trans hv.1)
          exact ⟨r, hr1, hr2.trans (by simp [hxy])⟩
        · rw [decide_eq_false hxy, if_neg (by simp)]
          exact ⟨_, rfl, by simp [hxy]⟩
    | bigbig d' map' => exact hrep'.elim
  | bigbig d map => exact hrep.elim

/-! ## The claims -/

/-- The array has the kind and holds the contents. -/
inductive Holding (m : Mode) (iw dw : Nat) : Kind → ArrayValue → Contents → Prop
  | dense {d : DenseArrayValue} {mem : Memory} (h : DenseHolds m iw dw d mem) : Holding m iw dw .dense (.dense d) (.dense mem)
  | sparse {s : SparseArrayValue} {t : Table} (h : SparseHolds iw dw s t) (hu : t.Uniform m dw) : Holding m iw dw .sparse (.sparse s) (.sparse t)

variable {k : Kind}

theorem any_new (k : Kind) (m : Mode) {v : BitVecValue} (hv : v.width < 2 ^ 32) (hs : Storable k m iw v.shape) :
    Fate (Holding m iw v.width k) (newOf k m iw v) (Contents.create k m iw v.shape) := by
  cases k with
  | dense => exact (dense_new_fate m iw hv hs).map fun d mem h => ⟨_, rfl, .dense h⟩
  | sparse =>
    have h := sparse_new_fate hs hv
    show Fate _ _ ((Table.create v.shape).map Contents.sparse)
    cases hr : Table.create v.shape with
    | none => rw [hr] at h; exact panics_bind h _
    | some t =>
      rw [hr] at h
      obtain ⟨s, hs1, hs2⟩ := h
      refine ⟨.sparse s, ?_, .sparse hs2 (uniform_create m hr)⟩
      show (SparseArrayValue.new iw v >>= fun s => ok (ArrayValue.sparse s)) = _
      rw [hs1, ok_bind]

theorem Holding.after_of {m : Mode} {a : ArrayValue} {c : Contents} (h : Holding m iw dw k a c) (env : HashEnv) (op : RawOp) (ho : op.Sized) :
    Fate (Holding m iw dw k) (op.run m env a) (c.after m iw dw op) := by
  cases h with
  | dense h =>
    cases op with
    | clear => exact ⟨_, rfl, .dense h.clear_of⟩
    | store i v => exact (h.store_of i v).map fun d mem h => ⟨_, rfl, .dense h⟩
  | @sparse s t h hu =>
    cases op with
    | clear => exact ⟨_, rfl, .sparse h.clear_of (uniform_clear m dw)⟩
    | store i v =>
      have h2 := h.store_of m env i ho
      show Fate _ _ ((t.store m iw dw i.shape v.shape).map Contents.sparse)
      cases hr : t.store m iw dw i.shape v.shape with
      | none => rw [hr] at h2; exact panics_bind h2 _
      | some t' =>
        rw [hr] at h2
        obtain ⟨s', hs1, hs2⟩ := h2
        refine ⟨.sparse s', ?_, .sparse hs2 (hu.store hr)⟩
        show (s.store m env i v >>= fun s => ok (ArrayValue.sparse s)) = _
        rw [hs1, ok_bind]

theorem Holding.history_of {m : Mode} {a : ArrayValue} {c : Contents} (h : Holding m iw dw k a c) (env : HashEnv) (ops : List RawOp)
    (ho : ∀ op ∈ ops, op.Sized) : Fate (Holding m iw dw k) (runRaw m env a ops) (c.history m iw dw ops) := by
  induction ops generalizing a c with
  | nil => exact ⟨a, rfl, h⟩
  | cons op ops ih =>
    refine (h.after_of env op (ho op List.mem_cons_self)).bind fun a' c' h' => ?_
    exact ih h' fun o hm => ho o (List.mem_cons_of_mem _ hm)

theorem any_history (k : Kind) (m : Mode) (env : HashEnv) {v : BitVecValue} (hv : v.width < 2 ^ 32) (hs : Storable k m iw v.shape)
    (ops : List RawOp) (ho : ∀ op ∈ ops, op.Sized) :
    Fate (Holding m iw v.width k) (newOf k m iw v >>= fun a => runRaw m env a ops)
      ((Contents.create k m iw v.shape).bind fun c => c.history m iw v.width ops) :=
  (any_new k m hv hs).bind fun _ _ h => h.history_of env ops ho

theorem Holding.select_of {m : Mode} {a : ArrayValue} {c : Contents} (h : Holding m iw dw k a c) (env : HashEnv) (i : BitVecValue) :
    Makes (a.select m env i) (c.select m iw dw i.shape) := by
  cases h with
  | dense h => exact h.select_of i
  | sparse h => exact h.select_of m env i

/-- **C110** (histories): create an array of either kind with any default, store any data at any indices and clear it, in any order. The
specification predicts whether this panics, and what every later `select` does, for any index. -/
theorem C110_history (k : Kind) (m : Mode) (env : HashEnv) {v : BitVecValue} (hv : v.width < 2 ^ 32) (hs : Storable k m iw v.shape)
    (ops : List RawOp) (ho : ∀ op ∈ ops, op.Sized) :
    match (Contents.create k m iw v.shape).bind fun c => c.history m iw v.width ops with
    | none => Panics (newOf k m iw v >>= fun a => runRaw m env a ops)
    | some c => ∃ a, (newOf k m iw v >>= fun a => runRaw m env a ops) = ok a ∧
        ∀ i, Makes (a.select m env i) (c.select m iw v.width i.shape) := by
  have h := any_history k m env hv hs ops ho
  cases hc : (Contents.create k m iw v.shape).bind fun c => c.history m iw v.width ops with
  | none => rw [hc] at h; exact h
  | some c =>
    rw [hc] at h
    obtain ⟨a, h1, h2⟩ := h
    exact ⟨a, h1, fun i => h2.select_of env i⟩

/-- **C110** (default): the same for the default of a sparse array. -/
theorem C110_default (m : Mode) (env : HashEnv) {v : BitVecValue} (hv : v.width < 2 ^ 32) (hi : iw ≤ 64) (ops : List RawOp)
    (ho : ∀ op ∈ ops, op.Sized) {s : SparseArrayValue}
    (hr : (newOf .sparse m iw v >>= fun a => runRaw m env a ops) = ok (.sparse s)) :
    ∃ t, ((Contents.create .sparse m iw v.shape).bind fun c => c.history m iw v.width ops) = some (.sparse t) ∧
      Makes (s.default m) (t.default.unfiled m v.width) := by
  have h := any_history .sparse m env hv hi ops ho
  cases hc : (Contents.create .sparse m iw v.shape).bind fun c => c.history m iw v.width ops with
  | none =>
    rw [hc] at h
    obtain ⟨p, hp⟩ := h
    rw [hr] at hp
    cases hp
  | some c =>
    rw [hc] at h
    obtain ⟨a, h1, h2⟩ := h
    rw [hr] at h1
    cases h1
    cases h2 with
    | @sparse _ t h2 hu =>
      refine ⟨t, rfl, ?_⟩
      obtain ⟨-, hdw, hdl, hrep⟩ := h2
      unfold SparseArrayValue.default Shape.unfiled
      cases hd : s.data with
      | u64u64 d map =>
        rw [hd] at hrep
        have hle := hrep.1
        rw [if_neg (show ¬ 64 < v.width by omega), show t.default = _ from hrep.2.1]
        dsimp only
        rw [hdw]
        exact shownAs_fate m hle d
      | u64big d map =>
        rw [hd] at hrep
        rw [if_pos hrep.1, ← hrep.2.2.1.1]
        exact ⟨d, rfl, rfl, hrep.2.2.1.2⟩
      | bigbig d map => rw [hd] at hrep; exact hrep.elim

/-- **C110** (equality): two arrays of the same kind and widths, after any two histories, are equal exactly if they hold the same. Comparing
them panics only in a debug build, if they are sparse, the data is wide and the defaults differ in the number of words. -/
theorem C110_equal (k : Kind) (m : Mode) (env : HashEnv) {u v : BitVecValue} (hu : u.width < 2 ^ 32) (huv : u.width = v.width)
    (hsu : Storable k m iw u.shape) (hsv : Storable k m iw v.shape) (ops ops' : List RawOp) (ho : ∀ op ∈ ops ++ ops', op.Sized)
    {a b : ArrayValue} (ha : (newOf k m iw u >>= fun a => runRaw m env a ops) = ok a)
    (hb : (newOf k m iw v >>= fun a => runRaw m env a ops') = ok b) :
    ∃ c e, ((Contents.create k m iw u.shape).bind fun c => c.history m iw u.width ops) = some c ∧
      ((Contents.create k m iw v.shape).bind fun c => c.history m iw v.width ops') = some e ∧
      (c.Clash m u.width e → Panics (a.eq m env b)) ∧
      (¬ c.Clash m u.width e → ∃ r, a.eq m env b = ok r ∧ (r = true ↔ c.Same e)) := by
  have h1 := any_history k m env hu hsu ops fun o h => ho o (List.mem_append_left _ h)
  have h2 := any_history k m env (huv ▸ hu) hsv ops' fun o h => ho o (List.mem_append_right _ h)
  cases hc : (Contents.create k m iw u.shape).bind fun c => c.history m iw u.width ops with
  | none =>
    rw [hc] at h1
    obtain ⟨p, hp⟩ := h1
    rw [ha] at hp
    cases hp
  | some c =>
    cases he : (Contents.create k m iw v.shape).bind fun c => c.history m iw v.width ops' with
    | none =>
      rw [he] at h2
      obtain ⟨p, hp⟩ := h2
      rw [hb] at hp
      cases hp
    | some e =>
      rw [hc, ha] at h1
      rw [he, hb, ← huv] at h2
      obtain ⟨_, hx, h1⟩ := h1
      cases hx
      obtain ⟨_, hx, h2⟩ := h2
      cases hx
      refine ⟨c, e, rfl, rfl, ?_⟩
      cases h1 with
      | dense h1 =>
        cases h2 with
        | @dense d' mem' h2 =>
          obtain ⟨r, hr1, hr2⟩ := h1.isEqual_of h2
          refine ⟨fun h => h.elim, fun _ => ⟨r, ?_, hr2⟩⟩
          show (DenseArrayValue.isEqual m _ d' >>= _) = _
          rw [hr1]
          rfl
      | sparse h1 hu1 =>
        cases h2 with
        | @sparse s' t' h2 hu2 =>
          have h := h1.isEqual_of m env h2 hu1 hu2
          constructor
          · intro hcl
            replace hcl : m = .debug ∧ 64 < u.width ∧ _ := hcl
            rw [if_pos hcl] at h
            exact panics_bind h _
          · intro hcl
            replace hcl : ¬ (m = .debug ∧ 64 < u.width ∧ _) := hcl
            rw [if_neg hcl] at h
            obtain ⟨r, hr1, hr2⟩ := h
            refine ⟨r, ?_, hr2⟩
            show (SparseArrayValue.isEqual m env _ s' >>= _) = _
            rw [hr1]
            rfl

/-- In a debug build all cells of a sparse array have the width of the array and as many words as the default. This is why the comparison of
the entries of two hash maps never meets values with different numbers of words, unless the comparison of the defaults has panicked before. -/
theorem C110_uniform (hdw : 64 < dw) {t : Table} (hd : t.default.width = dw)
    (ht : ∀ k, (t.cell k).width = dw ∧ (t.cell k).words = t.default.words) (ops : List RawOp) {c : Contents}
    (hc : (Contents.sparse t).history .debug iw dw ops = some c) :
    ∃ t', c = .sparse t' ∧ t'.default.width = dw ∧ ∀ k, (t'.cell k).width = dw ∧ (t'.cell k).words = t'.default.words := by
  have hu : t.Uniform .debug dw := fun _ _ => ⟨hd, ht⟩
  clear hd ht
  induction ops generalizing t with
  | nil =>
    cases hc
    exact ⟨t, rfl, hu rfl hdw⟩
  | cons op ops ih =>
    replace hc : ((Contents.sparse t).after .debug iw dw op).bind (fun c => c.history .debug iw dw ops) = some c := hc
    cases op with
    | clear => exact ih (t := Table.clear dw) hc (uniform_clear _ dw)
    | store i d =>
      cases hs : t.store .debug iw dw i.shape d.shape with
      | none => rw [Contents.after, hs] at hc; cases hc
      | some t' =>
        rw [Contents.after, hs] at hc
        exact ih hc (hu.store hs)

/-! ## Concrete cases -/

/-- The hypotheses are met by a default with three words where two belong, an index of width 0 that holds 1, and data without words. -/
example : Storable .dense .debug 1 (BitVecValue.shape ⟨65, [1#64, 2#64, 3#64]⟩) ∧ Storable .sparse .release 3 (BitVecValue.shape ⟨65, [7#64]⟩) ∧
    (RawOp.store ⟨0, [1#64]⟩ ⟨65, []⟩).Sized ∧ RawOp.clear.Sized :=
  ⟨fun n hn _ => by cases hn; decide, by unfold Storable; decide, by unfold RawOp.Sized; decide, trivial⟩

/-- With three words where two belong, a dense array repeats all three, so the second element is made of parts of two copies. -/
example : (do let a ← newOf .dense .debug 1 ⟨65, [1#64, 2#64, 3#64]⟩
              let x ← a.select .debug listEnv (encode 0#1)
              let y ← a.select .debug listEnv (encode 1#1)
              ok (x.words, y.words)) = ok ([1#64, 2#64], [3#64, 1#64]) ∧
    ((Contents.create .dense .debug 1 (BitVecValue.shape ⟨65, [1#64, 2#64, 3#64]⟩)).bind
      fun c => c.select .debug 1 65 (encode 1#1).shape) = some ⟨65, 2, 3 + 2 ^ 64⟩ :=
  ⟨by decide +kernel, by decide +kernel⟩

/-- Storing wide data without words panics, in both builds. A release build takes any index whose number fits. -/
example : Panics (newOf .dense .release 1 (encode 0#65) >>= fun a => a.store .release listEnv ⟨0, [1#64]⟩ ⟨65, []⟩) ∧
    (do let a ← newOf .dense .release 1 (encode 0#65)
        let a ← a.store .release listEnv ⟨0, [1#64]⟩ (encode 9#65)
        a.select .release listEnv (encode 1#1)) = ok (encode 9#65) :=
  ⟨⟨.lenMismatch, by rfl⟩, by decide +kernel⟩

/-- A sparse array whose default has one word drops data that agrees with the default in that word. A debug build refuses the data. -/
example : (do let a ← newOf .sparse .release 3 ⟨65, [7#64]⟩
              let a ← a.store .release listEnv (encode 2#3) ⟨65, [7#64, 1#64]⟩
              a.select .release listEnv (encode 2#3)) = ok ⟨65, [7#64]⟩ ∧
    Panics (newOf .sparse .debug 3 ⟨65, [7#64]⟩ >>= fun a => a.store .debug listEnv (encode 2#3) ⟨65, [7#64, 1#64]⟩) :=
  ⟨by decide +kernel, ⟨.debugAssert, by rfl⟩⟩

/-- Comparing sparse arrays whose defaults differ in the number of words: a panic in a debug build, unequal in a release build. -/
example : Panics (do let a ← newOf .sparse .debug 3 ⟨65, [7#64]⟩
                     let b ← newOf .sparse .debug 3 ⟨65, [7#64, 0#64]⟩
                     a.eq .debug listEnv b) ∧
    (do let a ← newOf .sparse .release 3 ⟨65, [7#64]⟩
        let b ← newOf .sparse .release 3 ⟨65, [7#64, 0#64]⟩
        a.eq .release listEnv b) = ok false :=
  ⟨⟨.debugAssert, by rfl⟩, by decide +kernel⟩

end Baa

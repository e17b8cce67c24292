import Verif.Spec.Unwind
import Verif.Props.MalformedParse
import Verif.Props.MalformedObs
import Verif.Props.DocumentsConv

/-!
# C121: what is left after a panic
-/

namespace Baa
open Res Strings

/-! ## Programs with a state -/

namespace Eff
variable {σ τ α β : Type}

theorem run_pure (a : α) (s : σ) : (Eff.pure a : Eff σ α).run s = ok (s, a) := rfl
theorem run_get (s : σ) : (Eff.get : Eff σ σ).run s = ok (s, s) := rfl
theorem run_set (s t : σ) : (Eff.set t).run s = ok (t, ()) := rfl

theorem run_lift (r : Res α) (s : σ) : (Eff.lift r : Eff σ α).run s = r >>= fun a => ok (s, a) := by
  cases r <;> rfl

theorem run_bind (x : Eff σ α) (f : α → Eff σ β) (s : σ) : (x >>= f).run s = x.run s >>= fun p => (f p.2).run p.1 := by
  show (Eff.bind x f).run s = _
  unfold Eff.run Eff.bind
  cases h : x s with
  | mk r t => cases r <;> rfl

theorem run_pure' (a : α) (s : σ) : (Pure.pure a : Eff σ α).run s = ok (s, a) := rfl

theorem run_zoom (part : τ → σ) (put : τ → σ → τ) (x : Eff σ α) (t : τ) :
    (Eff.zoom part put x).run t = x.run (part t) >>= fun p => ok (put t p.1, p.2) := by
  unfold Eff.run Eff.zoom
  cases h : x (part t) with
  | mk r t => cases r <;> rfl

theorem run_ite (c : Prop) [Decidable c] (x y : Eff σ α) (s : σ) : (if c then x else y).run s = if c then x.run s else y.run s := by
  split <;> rfl

end Eff

namespace Unwind
open Eff

/-! ## The programs do what the functions do -/

macro "eff_same" : tactic => `(tactic|
  simp only [run_bind, run_get, run_set, run_lift, run_pure, run_pure', run_zoom, run_ite, res_bind_assoc, ok_bind, panic_bind, onWords])

theorem run_fill (w : Word) (ws : List Word) : (fill w).run ws = ok (ws.map fun _ => w, ()) := rfl

theorem run_put (i : Nat) (w : Word) (ws : List Word) : (put i w).run ws = setIdx ws i w >>= fun ws => ok (ws, ()) := by
  unfold put
  eff_same

theorem run_maskMsb (m : Mode) (width : Nat) (ws : List Word) : (maskMsb m width).run ws = Arith.maskMsb m ws width >>= fun ws => ok (ws, ()) := by
  unfold maskMsb Arith.maskMsb
  eff_same

theorem run_suffix (start : Nat) (w : Word) (ws : List Word) :
    (suffix start (fill w)).run ws = modifyRange ws start ws.length (fun s => ok (s.map fun _ => w)) >>= fun ws => ok (ws, ()) := by
  unfold suffix modifyRange
  eff_same
  cases h : sliceR ws start ws.length with
  | panic p => rfl
  | ok s =>
    unfold sliceR at h
    split at h
    · cases h
      simp [run_fill, ok_bind]
      rw [List.take_of_length_le (by simp)]
    · cases h

theorem run_signExtend (m : Mode) (source : List Word) (sw dw : Nat) (ws : List Word) :
    (signExtend m source sw dw).run ws = Arith.signExtend m ws source sw dw >>= fun ws => ok (ws, ()) := by
  unfold signExtend Arith.signExtend copy
  eff_same
  congr 1
  funext neg
  cases neg with
  | false =>
    simp only [Bool.false_eq_true, if_false]
    rw [run_suffix]
    rfl
  | true =>
    simp only [if_true]
    by_cases h : sw % BITS > 0
    · simp only [if_pos h]
      eff_same
      simp only [run_put, run_suffix, run_maskMsb]
      eff_same
      rfl
    · simp only [if_neg h]
      eff_same
      simp only [run_suffix, run_maskMsb]
      eff_same
      rfl

theorem run_setBit (pos : Nat) (ws : List Word) : (setBit pos).run ws = Arith.setBit ws pos >>= fun ws => ok (ws, ()) := by
  unfold setBit Arith.setBit
  eff_same
  simp only [run_put]

theorem run_clearBit (pos : Nat) (ws : List Word) : (clearBit pos).run ws = Arith.clearBit ws pos >>= fun ws => ok (ws, ()) := by
  unfold clearBit Arith.clearBit
  eff_same
  simp only [run_put]

theorem run_negateInPlace (m : Mode) (width : Nat) (ws : List Word) :
    (negateInPlace m width).run ws = Arith.negateInPlace m ws width >>= fun ws => ok (ws, ()) := by
  unfold negateInPlace Arith.negateInPlace
  eff_same
  simp only [run_maskMsb]

theorem run_parseLoop (m : Mode) (bits pw : Nat) (dv : Byte → Option Nat) (n : Nat) (cs : List Byte) :
    ∀ (ii outIi : Nat) (word : Word) (ws : List Word),
      (Unwind.parseLoop m bits pw dv n ii outIi word cs).run ws = Strings.parseLoop m bits pw dv n ii ws outIi word cs := by
  induction cs with
  | nil => intro ii outIi word ws; rfl
  | cons c cs ih =>
    intro ii outIi word ws
    unfold Unwind.parseLoop Strings.parseLoop
    eff_same
    congr 1; funext rest
    congr 1; funext rev
    by_cases h : ii > 0
    · simp only [if_pos h]
      eff_same
      congr 1; funext k
      by_cases hk : k % pw = 0
      · simp only [if_pos hk]
        eff_same
        simp only [run_put]
        eff_same
        cases dv c with
        | none => rfl
        | some v => simp only [ih]
      · simp only [if_neg hk]
        eff_same
        cases dv c with
        | none => rfl
        | some v => simp only [ih]
    · simp only [if_neg h]
      eff_same
      cases dv c with
      | none => rfl
      | some v => simp only [ih]

theorem run_parseBase16 (m : Mode) (ds : List Byte) (ws : List Word) : (Unwind.parseBase16 m ds).run ws = Strings.parseBase16 m ds ws := by
  unfold Unwind.parseBase16 Strings.parseBase16
  eff_same
  simp only [run_parseLoop]
  congr 1; funext b
  congr 1; funext i
  congr 1; funext p
  obtain ⟨o, r⟩ := p
  cases r with
  | error e => rfl
  | ok q =>
    dsimp only
    eff_same
    simp only [run_put]
    eff_same

theorem run_parseBase2 (m : Mode) (ds : List Byte) (w : Nat) (ws : List Word) :
    (Unwind.parseBase2 m ds w).run ws = Strings.parseBase2 m ds ws w := by
  unfold Unwind.parseBase2 Strings.parseBase2
  dsimp only
  by_cases h : ds.length % U32 > w
  · simp only [if_pos h]
    rfl
  · simp only [if_neg h]
    eff_same
    simp only [run_parseLoop]
    congr 1; funext i
    congr 1; funext p
    obtain ⟨o, r⟩ := p
    cases r with
    | error e => rfl
    | ok q =>
      dsimp only
      eff_same
      simp only [run_put]
      eff_same

theorem run_parseMagnitude (m : Mode) (t : List Byte) (radix w : Nat) (ws : List Word) :
    (Unwind.parseMagnitude m t radix w).run ws = Strings.parseMagnitude m t radix ws w := by
  unfold Unwind.parseMagnitude
  rw [run_bind, run_get, ok_bind]
  match ws with
  | [a] =>
    dsimp only [Strings.parseMagnitude]
    eff_same
    congr 1; funext _
    congr 1; funext r
    cases r with
    | error e => rfl
    | ok v => rfl
  | [a, b] =>
    dsimp only [Strings.parseMagnitude]
    eff_same
    congr 1; funext _
    congr 1; funext r
    cases r with
    | error e => rfl
    | ok v => rfl
  | [] =>
    dsimp only [Strings.parseMagnitude]
    eff_same
    simp only [run_parseBase2, run_parseBase16]
  | a :: b :: c :: rest =>
    dsimp only [Strings.parseMagnitude]
    eff_same
    simp only [run_parseBase2, run_parseBase16]

theorem run_fromStrRadix (m : Mode) (t : List Byte) (radix w : Nat) (ws : List Word) :
    (Unwind.fromStrRadix m t radix w).run ws = Strings.fromStrRadix m t radix ws w := by
  unfold Unwind.fromStrRadix Strings.fromStrRadix
  dsimp only
  eff_same
  congr 1
  congr 1
  congr 1
  rw [run_parseMagnitude]
  congr 1; funext p
  obtain ⟨o, r⟩ := p
  cases r with
  | error e => rfl
  | ok u =>
    dsimp only
    eff_same
    simp only [run_negateInPlace]
    split
    · eff_same
    · eff_same

end Unwind

/-- **C121** (agreement, values): as long as nothing panics, the programs with a state do the same as the functions that all other claims are about,
and they panic in the same cases. -/
theorem C121_values_agree (m : Mode) (a : BitVecValue) :
    (∀ b, (Unwind.assign m b).run a = a.assign m b >>= fun v => ok (v, ())) ∧
    (Unwind.assignOnes m).run a = a.assignOnes m >>= (fun v => ok (v, ())) ∧
    (∀ v, (Unwind.assignFromU64 m v).run a = a.assignFromU64 m v >>= fun v => ok (v, ())) ∧
    (∀ v, (Unwind.assignFromI64 m v).run a = a.assignFromI64 m v >>= fun v => ok (v, ())) ∧
    (∀ t radix, (Unwind.assignFromStrRadix m t radix).run a = a.assignFromStrRadix m t radix) ∧
    (∀ pos, (Unwind.onWords (Unwind.setBit pos)).run a = a.setBit pos >>= fun v => ok (v, ())) ∧
    (∀ pos, (Unwind.onWords (Unwind.clearBit pos)).run a = a.clearBit pos >>= fun v => ok (v, ())) ∧
    (Unwind.onWords (Unwind.maskMsb m a.width)).run a = a.maskMsb m >>= (fun v => ok (v, ())) ∧
    (Unwind.onWords (Unwind.fill 0#64)).run a = ok (a.clear, ()) := by
  open Unwind Eff in
  refine ⟨fun b => ?_, ?_, fun v => ?_, fun v => ?_, fun t radix => ?_, fun pos => ?_, fun pos => ?_, ?_, rfl⟩
  · unfold Unwind.assign BitVecValue.assign
    eff_same
    congr 1; funext _
    congr 1; funext _
    split <;> rfl
  · unfold Unwind.assignOnes BitVecValue.assignOnes BitVecValue.maskMsb
    eff_same
    simp only [run_fill, run_maskMsb]
    eff_same
  · unfold Unwind.assignFromU64 BitVecValue.assignFromU64 BitVecValue.maskMsb BitVecValue.clear
    eff_same
    simp only [run_fill, run_maskMsb, run_put]
    eff_same
  · unfold Unwind.assignFromI64 BitVecValue.assignFromI64 BitVecValue.clear
    eff_same
    simp only [run_fill]
    eff_same
    split
    · eff_same
      simp only [run_put]
      eff_same
    · eff_same
      simp only [run_signExtend]
      eff_same
  · unfold Unwind.assignFromStrRadix BitVecValue.assignFromStrRadix
    eff_same
    rw [run_fromStrRadix]
  · unfold BitVecValue.setBit
    eff_same
    rw [run_setBit]
    eff_same
  · unfold BitVecValue.clearBit
    eff_same
    rw [run_clearBit]
    eff_same
  · unfold BitVecValue.maskMsb
    eff_same
    rw [run_maskMsb]
    eff_same

theorem run_storeDense (m : Mode) (i d : BitVecValue) (a : DenseArrayValue) :
    (Unwind.storeDense m i d).run a = a.store m i d >>= fun a => ok (a, ()) := by
  open Unwind Eff in
  unfold Unwind.storeDense DenseArrayValue.store
  eff_same
  congr 1; funext _
  congr 1; funext _
  congr 1; funext _
  obtain ⟨iw, dw, data⟩ := a
  cases data with
  | bit value =>
    dsimp only
    eff_same
    congr 1; funext t
    cases t
    · simp only [Bool.false_eq_true, if_false, run_clearBit, BitVecValue.clearBit]
      eff_same
    · simp only [if_true, run_setBit, BitVecValue.setBit]
      eff_same
  | u8 values => dsimp only; eff_same
  | u64 values => dsimp only; eff_same
  | big values =>
    dsimp only
    unfold modifyRange
    eff_same
    simp only [(C121_values_agree m _).1]
    eff_same

theorem run_storeSparse (m : Mode) (env : HashEnv) (i d : BitVecValue) (a : SparseArrayValue) :
    (Unwind.storeSparse m env i d).run a = a.store m env i d >>= fun a => ok (a, ()) := by
  open Unwind Eff in
  unfold Unwind.storeSparse SparseArrayValue.store
  eff_same
  congr 1; funext _
  congr 1; funext _
  obtain ⟨iw, dw, data⟩ := a
  cases data with
  | u64u64 e map =>
    dsimp only
    eff_same
    congr 1; funext _
    congr 1; funext _
    split <;> rfl
  | u64big e map =>
    dsimp only
    eff_same
    congr 1; funext _
    congr 1; funext _
    split <;> rfl
  | bigbig e map =>
    dsimp only
    eff_same
    congr 1; funext _
    split <;> eff_same

/-- **C121** (agreement, arrays and interners). -/
theorem C121_arrays_agree (m : Mode) (env : HashEnv) (a : ArrayValue) :
    (∀ i d, (Unwind.store m env i d).run a = a.store m env i d >>= fun a => ok (a, ())) ∧
    Unwind.clear.run a = ok (a.clear, ()) ∧
    (Unwind.makeDense m env).run a = a.makeDense m env >>= (fun a => ok (a, ())) := by
  open Unwind Eff in
  refine ⟨fun i d => ?_, ?_, ?_⟩
  · unfold Unwind.store
    eff_same
    cases a with
    | sparse v => dsimp only [ArrayValue.store]; eff_same; rw [run_storeSparse]; eff_same
    | dense v => dsimp only [ArrayValue.store]; eff_same; rw [run_storeDense]; eff_same
  · cases a <;> rfl
  · unfold Unwind.makeDense
    eff_same
    cases a with
    | sparse v => dsimp only [ArrayValue.makeDense]; eff_same
    | dense v => rfl

theorem C121_interner_agrees (m : Mode) (s : ValueInterner) (v : BitVecValue) : (Unwind.getIndex m v).run s = s.getIndex m v := by
  open Unwind Eff in
  obtain ⟨w, ws⟩ := v
  unfold Unwind.getIndex ValueInterner.getIndex
  dsimp only
  have many : (do
      lift (debugAssert m (decide (w > BITS)))
      let self ← get
      match self.large.get ws with
      | some index => Eff.pure (⟨index, w⟩ : BitVecValueIndex)
      | none =>
        let index := self.words.length % U32
        set { self with words := self.words ++ ws }
        let self ← get
        set { self with large := self.large.insert ws index }
        Eff.pure ⟨index, w⟩ : Eff ValueInterner BitVecValueIndex).run s = (do
      debugAssert m (decide (w > BITS))
      match s.large.get ws with
      | some index => ok (s, ⟨index, w⟩)
      | none =>
        let index := s.words.length % U32
        ok ({ s with words := s.words ++ ws, large := s.large.insert ws index }, ⟨index, w⟩)) := by
    eff_same
    congr 1; funext _
    cases s.large.get ws with
    | some i => rfl
    | none => rfl
  match ws with
  | [] => exact many
  | [word] =>
    dsimp only
    eff_same
    congr 1; funext _
    split
    · rfl
    · cases s.small.get word with
      | some i => rfl
      | none => rfl
  | a :: b :: rest => exact many

/-! ## What a panic leaves -/

namespace Eff
variable {σ τ α β : Type}

/-- A panic leaves the state as it was. -/
def Keeps (x : Eff σ α) (s : σ) : Prop := ∀ t, x.Leaves s t → t = s

theorem leaves_bind {x : Eff σ α} {f : α → Eff σ β} {s t : σ} (h : (x >>= f).Leaves s t) :
    x.Leaves s t ∨ ∃ a s', x.run s = ok (s', a) ∧ (f a).Leaves s' t := by
  obtain ⟨p, h⟩ := h
  change Eff.bind x f s = _ at h
  unfold Eff.bind at h
  unfold Leaves Eff.run
  cases hx : x s with
  | mk r s' =>
    rw [hx] at h
    cases r with
    | ok a => exact .inr ⟨a, s', rfl, p, h⟩
    | panic q => exact .inl ⟨q, by rw [← (Prod.mk.inj h).2]⟩

theorem leaves_lift {r : Res α} {s t : σ} (h : (lift r : Eff σ α).Leaves s t) : t = s := by
  obtain ⟨p, h⟩ := h
  exact (Prod.mk.inj h).2.symm

theorem leaves_zoom {part : τ → σ} {put : τ → σ → τ} {x : Eff σ α} {t t' : τ} (h : (zoom part put x).Leaves t t') :
    ∃ s', x.Leaves (part t) s' ∧ t' = put t s' := by
  obtain ⟨p, h⟩ := h
  unfold zoom at h
  exact ⟨_, ⟨p, by rw [← (Prod.mk.inj h).1]⟩, (Prod.mk.inj h).2.symm⟩

theorem leaves_pure {a : α} {s t : σ} : ¬ (Eff.pure a : Eff σ α).Leaves s t := by rintro ⟨p, h⟩; cases h
theorem leaves_get {s t : σ} : ¬ (get : Eff σ σ).Leaves s t := by rintro ⟨p, h⟩; cases h
theorem leaves_set {s t u : σ} : ¬ (set u).Leaves s t := by rintro ⟨p, h⟩; cases h

theorem Keeps.lift_bind {r : Res α} {f : α → Eff σ β} {s : σ} (h : ∀ a, r = ok a → (f a).Keeps s) : (lift r >>= f).Keeps s := by
  intro t ht
  rcases leaves_bind ht with ht | ⟨a, s', h1, h2⟩
  · exact leaves_lift ht
  · rw [run_lift] at h1
    cases r with
    | panic p => cases h1
    | ok b => cases h1; exact h _ rfl t h2

theorem Keeps.get_bind {f : σ → Eff σ β} {s : σ} (h : (f s).Keeps s) : (get >>= f).Keeps s := by
  intro t ht
  rcases leaves_bind ht with ht | ⟨a, s', h1, h2⟩
  · exact absurd ht leaves_get
  · cases h1; exact h t h2

theorem Keeps.lift (r : Res α) (s : σ) : (lift r : Eff σ α).Keeps s := fun _ h => leaves_lift h
theorem Keeps.pure (a : α) (s : σ) : (Eff.pure a : Eff σ α).Keeps s := fun _ h => absurd h leaves_pure
theorem Keeps.set (t s : σ) : (set t).Keeps s := fun _ h => absurd h leaves_set

theorem Keeps.zoom {part : τ → σ} {put : τ → σ → τ} {x : Eff σ α} {t : τ} (h : x.Keeps (part t)) (hp : put t (part t) = t) :
    (zoom part put x).Keeps t := by
  intro t' ht
  obtain ⟨s', h1, rfl⟩ := leaves_zoom ht
  rw [h s' h1, hp]

/-- A program that ends with an answer keeps whatever it is asked to keep. -/
theorem Keeps.of_run {x : Eff σ α} {s : σ} {r : σ × α} (h : x.run s = ok r) : x.Keeps s := by
  rintro t ⟨p, ht⟩
  unfold Eff.run at h
  rw [ht] at h
  cases h

theorem leaves_iff {x : Eff σ α} {s : σ} : (∃ t, x.Leaves s t) ↔ Panics (x.run s) := by
  unfold Leaves Eff.run
  cases hx : x s with
  | mk r t =>
    cases r with
    | ok a =>
      constructor
      · rintro ⟨t', p, h⟩; cases h
      · rintro ⟨p, h⟩; cases h
    | panic q => exact ⟨fun _ => ⟨q, rfl⟩, fun _ => ⟨t, q, rfl⟩⟩

end Eff

section
open Unwind Eff

theorem keeps_put (i : Nat) (w : Word) (ws : List Word) : (put i w).Keeps ws := .get_bind (.lift_bind fun _ _ => .set _ _)

theorem keeps_setBit (pos : Nat) (ws : List Word) : (Unwind.setBit pos).Keeps ws := .get_bind (.lift_bind fun _ _ => keeps_put _ _ _)

theorem keeps_clearBit (pos : Nat) (ws : List Word) : (Unwind.clearBit pos).Keeps ws := .get_bind (.lift_bind fun _ _ => keeps_put _ _ _)

theorem keeps_maskMsb (m : Mode) (w : Nat) (ws : List Word) : (Unwind.maskMsb m w).Keeps ws :=
  .get_bind (.lift_bind fun _ _ => .lift_bind fun _ _ => .lift_bind fun _ _ => .set _ _)

theorem keeps_onWords {α : Type} {x : Eff (List Word) α} {a : BitVecValue} (h : x.Keeps a.words) : (onWords x).Keeps a := h.zoom rfl

theorem keeps_assign (m : Mode) (a b : BitVecValue) : (Unwind.assign m b).Keeps a := by
  refine .get_bind (.lift_bind fun _ _ => .lift_bind fun _ _ => ?_)
  split
  · exact keeps_onWords (.set _ _)
  · exact .lift _ _

theorem keeps_storeDense (m : Mode) (i d : BitVecValue) (a : DenseArrayValue) : (storeDense m i d).Keeps a := by
  refine .get_bind (.lift_bind fun _ _ => .lift_bind fun _ _ => .lift_bind fun _ _ => ?_)
  obtain ⟨iw, dw, data⟩ := a
  cases data with
  | bit value =>
    refine .lift_bind fun t _ => Keeps.zoom (keeps_onWords ?_) rfl
    split
    · exact keeps_setBit _ _
    · exact keeps_clearBit _ _
  | u8 values => exact .lift_bind fun _ _ => .lift_bind fun _ _ => .set _ _
  | u64 values => exact .lift_bind fun _ _ => .lift_bind fun _ _ => .set _ _
  | big values =>
    refine .lift_bind fun start _ => .lift_bind fun end_ _ => .lift_bind fun ws hws => Keeps.zoom (keeps_assign _ _ _) ?_
    unfold sliceR at hws
    split at hws
    · rename_i h
      cases hws
      show DenseArrayValue.mk iw dw (.big (values.take start ++ (values.drop start).take (end_ - start) ++ values.drop end_)) = _
      congr 2
      rw [List.append_assoc]
      conv => rhs; rw [← List.take_append_drop start values]
      congr 1
      conv => rhs; rw [← List.take_append_drop (end_ - start) (values.drop start)]
      rw [List.drop_drop, show start + (end_ - start) = end_ by omega]
    · cases hws

theorem keeps_storeSparse (m : Mode) (env : HashEnv) (i d : BitVecValue) (a : SparseArrayValue) : (storeSparse m env i d).Keeps a := by
  refine .get_bind (.lift_bind fun _ _ => .lift_bind fun _ _ => ?_)
  obtain ⟨iw, dw, data⟩ := a
  cases data with
  | u64u64 e map =>
    refine .lift_bind fun _ _ => .lift_bind fun _ _ => ?_
    split <;> exact .set _ _
  | u64big e map =>
    refine .lift_bind fun _ _ => .lift_bind fun _ _ => ?_
    split <;> exact .set _ _
  | bigbig e map =>
    refine .lift_bind fun _ _ => ?_
    split <;> exact .lift_bind fun _ _ => .set _ _

end

/-- **C121** (arrays): an array is as it was before after every call on it that panics, whatever it holds and whatever it was given. -/
theorem C121_arrays (m : Mode) (env : HashEnv) (a b : ArrayValue) :
    (∀ i d, (Unwind.store m env i d).Leaves a b → b = a) ∧ ¬ Unwind.clear.Leaves a b ∧ ((Unwind.makeDense m env).Leaves a b → b = a) := by
  open Eff in
  refine ⟨fun i d => ?_, ?_, ?_⟩
  · have : (Unwind.store m env i d).Keeps a := by
      refine .get_bind ?_
      cases a with
      | sparse v => exact Keeps.zoom (keeps_storeSparse m env i d v) rfl
      | dense v => exact Keeps.zoom (keeps_storeDense m i d v) rfl
    exact this b
  · rintro ⟨p, h⟩
    cases a <;> cases h
  · have : (Unwind.makeDense m env).Keeps a := by
      refine .get_bind ?_
      cases a with
      | sparse v => exact .lift_bind fun _ _ => .set _ _
      | dense v => exact .pure _ _
    exact this b

/-- **C121** (interners): an interner is as it was before after a call that panics. -/
theorem C121_interner (m : Mode) (s t : ValueInterner) (v : BitVecValue) (h : (Unwind.getIndex m v).Leaves s t) : t = s := by
  open Eff in
  obtain ⟨w, ws⟩ := v
  have key : ∀ {x : Eff ValueInterner BitVecValueIndex}, (∃ r, x.run s = ok r) → x.Keeps s := fun ⟨r, hr⟩ => .of_run hr
  have : (Unwind.getIndex m ⟨w, ws⟩).Keeps s := by
    unfold Unwind.getIndex
    dsimp only
    split
    · refine .lift_bind fun _ _ => ?_
      split
      · exact .pure _ _
      · refine .get_bind ?_
        split
        · exact .pure _ _
        · exact key ⟨_, rfl⟩
    · refine .lift_bind fun _ _ => .get_bind ?_
      split
      · exact .pure _ _
      · exact key ⟨_, rfl⟩
  exact this t h

/-- **C121** (values, single writes): `assign`, `set_bit`, `clear_bit` and `mask_msb` leave the value as it was; `clear` does not panic. -/
theorem C121_unchanged (m : Mode) (a b : BitVecValue) :
    (∀ v, (Unwind.assign m v).Leaves a b → b = a) ∧ (∀ pos, (Unwind.onWords (Unwind.setBit pos)).Leaves a b → b = a) ∧
    (∀ pos, (Unwind.onWords (Unwind.clearBit pos)).Leaves a b → b = a) ∧ ((Unwind.onWords (Unwind.maskMsb m a.width)).Leaves a b → b = a) ∧
    ¬ (Unwind.onWords (Unwind.fill 0#64)).Leaves a b :=
  ⟨fun v h => keeps_assign m a v b h, fun pos h => keeps_onWords (keeps_setBit pos _) b h,
    fun pos h => keeps_onWords (keeps_clearBit pos _) b h, fun h => keeps_onWords (keeps_maskMsb m _ _) b h, (fun ⟨_, h⟩ => nomatch h)⟩

theorem leaves_onWords {α : Type} {x : Eff (List Word) α} {a b : BitVecValue} (h : (Unwind.onWords x).Leaves a b) :
    ∃ ws, x.Leaves a.words ws ∧ b = ⟨a.width, ws⟩ := Eff.leaves_zoom h

theorem run_onWords {α : Type} {x : Eff (List Word) α} {a b : BitVecValue} {r : α} (h : (Unwind.onWords x).run a = ok (b, r)) :
    ∃ ws, x.run a.words = ok (ws, r) ∧ b = ⟨a.width, ws⟩ := by
  unfold Unwind.onWords at h
  rw [Eff.run_zoom] at h
  cases hx : x.run a.words with
  | panic p => rw [hx] at h; cases h
  | ok q => rw [hx] at h; cases h; exact ⟨q.1, rfl, rfl⟩

/-- **C121** (`assign_ones`). -/
theorem C121_ones (m : Mode) (a b : BitVecValue) (h : (Unwind.assignOnes m).Leaves a b) : b.shape = a.shape.leftOnes := by
  rcases Eff.leaves_bind h with h | ⟨u, a1, h1, h⟩
  · obtain ⟨ws, ⟨p, h⟩, -⟩ := leaves_onWords h
    cases h
  · obtain ⟨ws, h2, rfl⟩ := run_onWords h1
    rw [Unwind.run_fill] at h2
    cases h2
    rcases Eff.leaves_bind h with h | ⟨u, a1, h1, h⟩
    · exact absurd h Eff.leaves_get
    · cases h1
      have := keeps_onWords (keeps_maskMsb m _ _) b h
      rw [this]
      unfold Shape.leftOnes BitVecValue.shape
      dsimp only
      rw [List.length_map, List.map_const', Arith.wordsVal_ones]

/-- **C121** (`assign_from_u64`). -/
theorem C121_u64 (m : Mode) (v : Word) (a b : BitVecValue) (h : (Unwind.assignFromU64 m v).Leaves a b) : b.shape = a.shape.leftU64 m v.toNat := by
  obtain ⟨w, ws⟩ := a
  have done : ∀ {x : BitVecValue}, (Eff.get >>= fun self : BitVecValue => Eff.lift (idx self.words 0) >>= fun w0 =>
      Eff.lift (debugAssert m (w0 == v)) : Eff BitVecValue Unit).Keeps x := fun {x} => .get_bind (.lift_bind fun _ _ => .lift _ _)
  rcases Eff.leaves_bind h with h | ⟨u, a1, h1, h⟩
  · obtain ⟨ws, ⟨p, h⟩, -⟩ := leaves_onWords h
    cases h
  obtain ⟨ws1, h2, rfl⟩ := run_onWords h1
  rw [Unwind.run_fill] at h2
  cases h2
  clear h1
  dsimp only at h
  unfold Shape.leftU64
  rw [show (BitVecValue.shape ⟨w, ws⟩).words = ws.length from rfl]
  rcases Eff.leaves_bind h with h | ⟨u, a1, h1, h⟩
  · have hb := keeps_onWords (keeps_put _ _ _) b h
    cases ws with
    | nil => rw [hb]; rfl
    | cons x ws =>
      exfalso
      obtain ⟨ws', h, -⟩ := leaves_onWords h
      have := Eff.leaves_iff.mp ⟨_, h⟩
      rw [Unwind.run_put] at this
      obtain ⟨p, hp⟩ := this
      cases hp
  obtain ⟨ws2, h2, rfl⟩ := run_onWords h1
  clear h1
  have h1 := h2
  clear h2
  rw [Unwind.run_put] at h1
  cases ws with
  | nil => cases h1
  | cons x ws =>
    rw [List.map_cons, show setIdx (0#64 :: ws.map fun _ => 0#64) 0 v = ok (v :: ws.map fun _ => 0#64) from rfl, ok_bind] at h1
    cases h1
    rw [List.length_cons, if_neg (by omega)]
    have hm := Arith.maskMsb_any m (v :: ws.map fun _ => 0#64) w
    rw [List.map_const', wordsVal_single_zeros, List.length_cons, List.length_replicate] at hm
    show b.shape = ⟨w, ws.length + 1, (masked m w (ws.length + 1) v.toNat).getD v.toNat⟩
    rcases Eff.leaves_bind h with h | ⟨u, a1, h1, h⟩
    · exact absurd h Eff.leaves_get
    cases h1
    dsimp only at h
    rcases Eff.leaves_bind h with h | ⟨u, a1, h1, h⟩
    · have hb := keeps_onWords (keeps_maskMsb _ _ _) b h
      obtain ⟨ws', h, -⟩ := leaves_onWords h
      have hp := Eff.leaves_iff.mp ⟨_, h⟩
      rw [Unwind.run_maskMsb, List.map_const'] at hp
      cases hK : masked m w (ws.length + 1) v.toNat with
      | some K =>
        rw [hK] at hm
        obtain ⟨r, h1, -⟩ := hm
        rw [h1] at hp
        obtain ⟨p, hp⟩ := hp
        cases hp
      | none =>
        rw [hb]
        unfold BitVecValue.shape
        dsimp only
        rw [List.map_const', wordsVal_single_zeros, List.length_cons, List.length_replicate]
        rfl
    · obtain ⟨ws3, h2, rfl⟩ := run_onWords h1
      clear h1
      have h1 := h2
      clear h2
      rw [Unwind.run_maskMsb, List.map_const'] at h1
      rw [done b h]
      cases hK : masked m w (ws.length + 1) v.toNat with
      | none =>
        rw [hK] at hm
        obtain ⟨p, hp⟩ := hm
        rw [hp] at h1
        cases h1
      | some K =>
        rw [hK] at hm
        obtain ⟨r, h2, h3, h4⟩ := hm
        rw [h2] at h1
        cases h1
        unfold BitVecValue.shape
        dsimp only
        rw [h3, h4]
        rfl


theorem Eff.leaves_bind_ok {σ α β : Type} {x : Eff σ α} {f : α → Eff σ β} {s s' t : σ} {a : α} (hx : x.run s = ok (s', a)) (h : (x >>= f).Leaves s t) :
    (f a).Leaves s' t := by
  rcases Eff.leaves_bind h with h | ⟨b, s'', h1, h⟩
  · obtain ⟨p, hp⟩ := Eff.leaves_iff.mp ⟨_, h⟩
    rw [hx] at hp
    cases hp
  · rw [hx] at h1
    cases h1
    exact h

theorem run_onWords_ok {α : Type} {x : Eff (List Word) α} {a : BitVecValue} {ws : List Word} {r : α} (h : x.run a.words = ok (ws, r)) :
    (Unwind.onWords x).run a = ok (⟨a.width, ws⟩, r) := by
  unfold Unwind.onWords
  rw [Eff.run_zoom, h]
  rfl

theorem leaves_signExtend {m : Mode} {v : Word} {w : Nat} {ws t : List Word} (h : (Unwind.signExtend m [v] 64 w).Leaves ws t) :
    t = if ws = [] then [] else v :: ws.tail.map fun _ => BitVec.allOnes 64 := by
  unfold Unwind.signExtend at h
  replace h := Eff.leaves_bind_ok (s' := Arith.assign ws [v]) rfl h
  rw [wordNeg_spec] at h
  replace h := Eff.leaves_bind_ok (s' := Arith.assign ws [v]) rfl h
  dsimp only at h
  rw [show 64 % BITS = 0 from rfl, if_neg (show ¬ 0 > 0 by decide)] at h
  cases ws with
  | nil =>
    rw [if_pos rfl]
    have key : ∀ x : Word, (Unwind.suffix 1 (Unwind.fill x)).Keeps [] := fun x => .get_bind (.lift_bind fun _ h => nomatch h)
    split at h
    · rcases Eff.leaves_bind h with h | ⟨u, a1, h1, h⟩
      · exact key _ _ h
      · rw [Unwind.run_suffix] at h1
        cases h1
    · exact key _ _ h
  | cons x ws =>
    rw [if_neg (by simp)]
    rw [show Arith.assign (x :: ws) [v] = v :: ws by simp [Arith.assign_eq]] at h
    have run : ∀ y : Word, (Unwind.suffix 1 (Unwind.fill y)).run (v :: ws) = ok (v :: ws.map fun _ => y, ()) := by
      intro y
      rw [Unwind.run_suffix, Arith.modifyRange_tail (by simp)]
      rfl
    split at h
    · have := Eff.leaves_bind_ok (run _) h
      exact keeps_maskMsb m w _ _ this
    · obtain ⟨p, hp⟩ := Eff.leaves_iff.mp ⟨_, h⟩
      rw [show [v].length = 1 from rfl, run] at hp
      cases hp

/-- **C121** (`assign_from_i64`). -/
theorem C121_i64 (m : Mode) (v : Word) (a b : BitVecValue) (h : (Unwind.assignFromI64 m v).Leaves a b) : b.shape = a.shape.leftI64 m v.toNat := by
  obtain ⟨w, ws⟩ := a
  have hw := writeI64_any m v ⟨w, ws⟩
  unfold Unwind.assignFromI64 at h
  replace h := Eff.leaves_bind_ok (Eff.run_get _) h
  replace h := Eff.leaves_bind_ok (run_onWords_ok (Unwind.run_fill _ _)) h
  replace h := Eff.leaves_bind_ok (Eff.run_get _) h
  dsimp only at h
  rw [List.map_const'] at h
  rw [clear_words] at hw
  have done : ∀ {x t : BitVecValue}, (Eff.get >>= fun self : BitVecValue => Eff.lift (BitVecValue.checkI64 m self v) : Eff BitVecValue Unit).Leaves x t →
      t = x := fun {x t} h => (Eff.Keeps.get_bind (.lift _ _) : Eff.Keeps _ x) t h
  rw [List.length_replicate] at h hw
  dsimp only at hw
  unfold Shape.leftI64
  rw [show (BitVecValue.shape ⟨w, ws⟩).words = ws.length from rfl, show (BitVecValue.shape ⟨w, ws⟩).width = w from rfl]
  match hn : ws.length with
  | 0 =>
    rw [if_pos rfl]
    obtain rfl : ws = [] := List.length_eq_zero_iff.mp hn
    rw [if_neg (by decide)] at h hw
    rcases Eff.leaves_bind h with h | ⟨u, a1, h1, h⟩
    · obtain ⟨ws', h2, rfl⟩ := leaves_onWords h
      rw [leaves_signExtend h2]
      rfl
    · obtain ⟨ws', h2, rfl⟩ := run_onWords h1
      rw [Unwind.run_signExtend] at h2
      obtain ⟨p, hp⟩ := Arith.signExtend_long (m := m) (d := []) (src := [v]) 64 w (by simp)
      dsimp only [List.length_nil, List.replicate_zero] at h2
      rw [hp] at h2
      cases h2
  | 1 =>
    rw [hn, if_pos rfl] at h hw
    rw [if_neg (by decide)]
    rcases Eff.leaves_bind h with h | ⟨mk, a1, h1, h⟩
    · rw [Eff.leaves_lift h]
      obtain ⟨p, hp⟩ := Eff.leaves_iff.mp ⟨_, h⟩
      rw [Eff.run_lift] at hp
      cases hK : (BitVecValue.shape ⟨w, ws⟩).writeI64 m v.toNat with
      | none => rfl
      | some K =>
        rw [hK] at hw
        obtain ⟨r, h1, -⟩ := hw
        cases hm : Arith.mask w with
        | panic q => rw [hm] at h1; cases h1
        | ok mk => rw [hm] at hp; cases hp
    · rw [Eff.run_lift] at h1
      cases hm : Arith.mask w with
      | panic q => rw [hm] at h1; cases h1
      | ok mk' =>
        rw [hm] at h1 hw
        cases h1
        have := Eff.leaves_bind_ok (run_onWords_ok (show (Unwind.put 0 (v &&& mk)).run [0#64] = ok ([v &&& mk], ()) from rfl)) h
        rw [done this]
        cases hK : (BitVecValue.shape ⟨w, ws⟩).writeI64 m v.toNat with
        | none => rw [hK] at hw; obtain ⟨p, hp⟩ := hw; cases hp
        | some K =>
          rw [hK] at hw
          obtain ⟨r, h1, h2, h3⟩ := hw
          cases h1
          unfold BitVecValue.shape
          dsimp only
          rw [← h3]
          rfl
  | k + 2 =>
    rw [hn, if_neg (by omega)] at h hw
    rw [if_neg (by omega)]
    rcases Eff.leaves_bind h with h | ⟨u, a1, h1, h⟩
    · obtain ⟨ws', h2, rfl⟩ := leaves_onWords h
      have hp := Eff.leaves_iff.mp ⟨_, h2⟩
      rw [leaves_signExtend h2]
      rw [Unwind.run_signExtend] at hp
      cases hK : (BitVecValue.shape ⟨w, ws⟩).writeI64 m v.toNat with
      | some K =>
        rw [hK] at hw
        obtain ⟨r, h1, -⟩ := hw
        rw [h1] at hp
        obtain ⟨p, hp⟩ := hp
        cases hp
      | none =>
        dsimp only
        rw [if_neg (by simp), if_neg (by omega)]
        unfold BitVecValue.shape
        dsimp only
        have e2 : v.toNat + 2 ^ 64 * (2 ^ (64 * (k + 1)) - 1) = 2 ^ (64 * (k + 2)) - 2 ^ 64 + v.toNat := by
          have := Nat.mul_le_mul_left (2 ^ 64) (Nat.one_le_two_pow (n := 64 * (k + 1)))
          rw [show 64 * (k + 2) = 64 + 64 * (k + 1) by omega, Nat.pow_add, Nat.mul_sub, Nat.mul_one]
          omega
        rw [List.map_const', wordsVal_cons, List.length_tail, List.length_replicate, Arith.wordsVal_ones, List.length_cons, List.length_replicate,
          show k.succ.succ - 1 = k + 1 from rfl, e2]
    · obtain ⟨ws', h2, rfl⟩ := run_onWords h1
      rw [Unwind.run_signExtend] at h2
      rw [done h]
      cases hK : (BitVecValue.shape ⟨w, ws⟩).writeI64 m v.toNat with
      | none => rw [hK] at hw; obtain ⟨p, hp⟩ := hw; rw [hp] at h2; cases h2
      | some K =>
        rw [hK] at hw
        obtain ⟨r, h1, h4, h3⟩ := hw
        rw [h1] at h2
        cases h2
        unfold BitVecValue.shape
        dsimp only
        rw [h3, h4]

section
open Unwind Eff

theorem keeps_parseLoop (m : Mode) (bits pw : Nat) (dv : Byte → Option Nat) (n : Nat) (ws : List Word) (cs : List Byte) :
    ∀ (ii outIi : Nat) (word : Word), ws.length ≤ outIi →
      (Unwind.parseLoop m bits pw dv n ii outIi word cs).Keeps ws ∧
      ∀ ws' r, (Unwind.parseLoop m bits pw dv n ii outIi word cs).run ws = ok (ws', r) → ws' = ws := by
  induction cs with
  | nil => exact fun _ _ _ _ => ⟨.pure _ _, fun _ _ h => by cases h; rfl⟩
  | cons c cs ih =>
    intro ii outIi word h
    have bad : ∀ w : Word, Panics (setIdx ws outIi w) := fun w => by unfold setIdx; rw [if_neg (by omega)]; exact ⟨_, rfl⟩
    have step : ∀ w : Word, (match dv c with
          | none => Eff.pure (.error .invalidDigit)
          | some v => Unwind.parseLoop m bits pw dv n (ii + 1) outIi ((w <<< bits) ||| BitVec.ofNat 64 v) cs :
            Eff (List Word) (Except IntErrorKind (Nat × Word))).Keeps ws ∧
        ∀ ws' r, (match dv c with
          | none => Eff.pure (.error .invalidDigit)
          | some v => Unwind.parseLoop m bits pw dv n (ii + 1) outIi ((w <<< bits) ||| BitVec.ofNat 64 v) cs :
            Eff (List Word) (Except IntErrorKind (Nat × Word))).run ws = ok (ws', r) → ws' = ws := by
      intro w
      cases dv c with
      | none => exact ⟨.pure _ _, fun _ _ h => by cases h; rfl⟩
      | some v => exact ih _ _ _ h
    have mid : ∀ iiRev : Nat, ∀ x, x = (if ii > 0 then do
          let k ← lift (addC m U64 iiRev 1)
          if k % pw = 0 then
            put outIi word
            let outIi ← lift (subC m U64 outIi 1)
            Eff.pure (outIi, 0#64)
          else Eff.pure (outIi, word)
        else Eff.pure (outIi, word) : Eff (List Word) (Nat × Word)) → x.Keeps ws ∧ ∀ ws' p, x.run ws = ok (ws', p) → ws' = ws ∧ p = (outIi, word) := by
      rintro iiRev _ rfl
      split
      · constructor
        · refine .lift_bind fun k _ => ?_
          split
          · intro t ht
            rcases leaves_bind ht with ht | ⟨a, s', h1, -⟩
            · exact keeps_put _ _ _ _ ht
            · rw [run_put] at h1
              obtain ⟨p, hp⟩ := bad word
              rw [hp] at h1
              cases h1
          · exact .pure _ _
        · intro ws' p
          eff_same
          cases addC m U64 iiRev 1 with
          | panic p => intro h; cases h
          | ok k =>
            rw [ok_bind, run_put]
            obtain ⟨p, hp⟩ := bad word
            rw [hp]
            split
            · intro h; cases h
            · intro h; cases h; exact ⟨rfl, rfl⟩
      · exact ⟨.pure _ _, fun _ _ h => by cases h; exact ⟨rfl, rfl⟩⟩
    unfold Unwind.parseLoop
    constructor
    · refine .lift_bind fun rest _ => .lift_bind fun iiRev _ => ?_
      intro t ht
      rcases leaves_bind ht with ht | ⟨a, s', h1, h2⟩
      · exact (mid iiRev _ rfl).1 t ht
      · obtain ⟨rfl, rfl⟩ := (mid iiRev _ rfl).2 _ _ h1
        exact (step word).1 t h2
    · intro ws' r hr
      rw [run_bind, run_lift] at hr
      cases h1 : subC m U64 n ii with
      | panic p => rw [h1] at hr; cases hr
      | ok rest =>
        rw [h1, ok_bind, ok_bind, run_bind, run_lift] at hr
        cases h2 : subC m U64 rest 1 with
        | panic p => rw [h2] at hr; cases hr
        | ok iiRev =>
          rw [h2, ok_bind, ok_bind, run_bind] at hr
          cases h3 : (if ii > 0 then do
              let k ← lift (addC m U64 iiRev 1)
              if k % pw = 0 then
                put outIi word
                let outIi ← lift (subC m U64 outIi 1)
                Eff.pure (outIi, 0#64)
              else Eff.pure (outIi, word)
            else Eff.pure (outIi, word) : Eff (List Word) (Nat × Word)).run ws with
          | panic p => rw [h3] at hr; cases hr
          | ok q =>
            rw [h3, ok_bind] at hr
            obtain ⟨rfl, h4⟩ := (mid iiRev _ rfl).2 _ _ h3
            rw [h4] at hr
            exact (step word).2 _ _ hr

/-- A digit loop with the code after it. -/
theorem keeps_loop {m : Mode} {bits pw n o : Nat} {dv : Byte → Option Nat} {ws : List Word} {cs : List Byte}
    {f : Except IntErrorKind (Nat × Word) → Eff (List Word) (Except IntErrorKind Unit)} (h : ws.length ≤ o) (hf : ∀ r, (f r).Keeps ws) :
    (Unwind.parseLoop m bits pw dv n 0 o 0#64 cs >>= f).Keeps ws := by
  intro t ht
  obtain ⟨h1, h2⟩ := keeps_parseLoop m bits pw dv n ws cs 0 o 0#64 h
  rcases leaves_bind ht with ht | ⟨a, s', h3, h4⟩
  · exact h1 t ht
  · obtain rfl := h2 _ _ h3
    exact hf a t h4

/-- If the words are enough for the digits, reading them does not panic. -/
theorem readInto_runs {bits n old : Nat} {ds : List Byte} {x : Res (List Word × Except IntErrorKind Unit)} (hn : (bits * ds.length + 63) / 64 ≤ n)
    (h : LeavesWords n x (readInto bits n old ds)) : ∃ r, x = ok r := by
  unfold readInto at h
  dsimp only at h
  rw [if_neg (by omega)] at h
  split at h <;> exact ⟨_, h.choose_spec.1⟩

theorem keeps_parseBase16 (m : Mode) {ds : List Byte} (hd : ds ≠ []) (hlen : 4 * ds.length < 2 ^ 32) (ws : List Word) :
    (Unwind.parseBase16 m ds).Keeps ws := by
  have hU : (U32 : Nat) = 4294967296 := rfl
  have hpos : 0 < ds.length := List.length_pos_iff.mpr hd
  by_cases hn : (4 * ds.length + 63) / 64 ≤ ws.length
  · obtain ⟨r, hr⟩ := readInto_runs hn (parseBase16_any m hd hlen ws)
    rw [← run_parseBase16] at hr
    exact .of_run hr
  · refine .lift_bind fun b hb => .lift_bind fun o ho => ?_
    rw [Nat.mod_eq_of_lt (show ds.length < U32 by omega), mulC_ok (by omega)] at hb
    cases hb
    rw [show divCeil (ds.length * 4) BITS = (4 * ds.length + 63) / 64 by show (ds.length * 4 + 63) / 64 = _; rw [Nat.mul_comm], subC_ok (by omega)] at ho
    cases ho
    refine keeps_loop (by omega) fun r => ?_
    cases r with
    | error e => exact .pure _ _
    | ok p =>
      refine .lift_bind fun _ _ => ?_
      · intro t ht
        rcases leaves_bind ht with ht | ⟨a, s', h1, h2⟩
        · exact keeps_put _ _ _ _ ht
        · rw [Nat.mod_eq_of_lt (show ds.length < U32 by omega), mulC_ok (by omega)] at h2
          obtain ⟨p, hp⟩ := h2
          cases hp

theorem keeps_parseBase2 (m : Mode) {ds : List Byte} (hd : ds ≠ []) (hlen : ds.length < 2 ^ 32) (w : Nat) (ws : List Word) :
    (Unwind.parseBase2 m ds w).Keeps ws := by
  have hU : (U32 : Nat) = 4294967296 := rfl
  have hpos : 0 < ds.length := List.length_pos_iff.mpr hd
  by_cases hw : w < ds.length
  · unfold Unwind.parseBase2
    dsimp only
    rw [Nat.mod_eq_of_lt (show ds.length < U32 by omega), if_pos hw]
    exact .pure _ _
  by_cases hn : (1 * ds.length + 63) / 64 ≤ ws.length
  · have h := parseBase2_any m hd hlen ws w
    rw [if_neg hw] at h
    obtain ⟨r, hr⟩ := readInto_runs hn h
    rw [← run_parseBase2] at hr
    exact .of_run hr
  · unfold Unwind.parseBase2
    dsimp only
    rw [Nat.mod_eq_of_lt (show ds.length < U32 by omega), if_neg hw]
    refine .lift_bind fun o ho => ?_
    rw [show divCeil ds.length BITS = (ds.length + 63) / 64 from rfl, subC_ok (by omega)] at ho
    cases ho
    refine keeps_loop (by omega) fun r => ?_
    cases r with
    | error e => exact .pure _ _
    | ok p =>
      refine .lift_bind fun _ _ => ?_
      · intro t ht
        rcases leaves_bind ht with ht | ⟨a, s', h1, h2⟩
        · exact keeps_put _ _ _ _ ht
        · obtain ⟨p, hp⟩ := h2
          cases hp

theorem keeps_parseMagnitude (m : Mode) (radix w : Nat) (ws : List Word) (t : List Byte) (ht : stripMinus t ≠ [])
    (hbin : ws.length ≠ 1 → ws.length ≠ 2 → radix = 2 → (numeralDigits t).length < 2 ^ 32)
    (hhex : ws.length ≠ 1 → ws.length ≠ 2 → radix = 16 → 4 * (numeralDigits t).length < 2 ^ 32) :
    (Unwind.parseMagnitude m (stripMinus t) radix w).Keeps ws := by
  have many : ws.length ≠ 1 → ws.length ≠ 2 → (do
      lift (debugAssert m (divCeil w BITS == ws.length))
      if stripMinus t = [ch '+'] then Eff.pure (.error .invalidDigit)
      else
        let digits := if (stripMinus t).head? = some (ch '+') then (stripMinus t).drop 1 else stripMinus t
        if radix = 2 then Unwind.parseBase2 m digits w
        else if radix = 10 then lift (.panic .todo)
        else if radix = 16 then Unwind.parseBase16 m digits
        else lift (.panic .todo) : Eff (List Word) (Except IntErrorKind Unit)).Keeps ws := by
    intro h1 h2
    have e : (if (stripMinus t).head? = some (ch '+') then (stripMinus t).drop 1 else stripMinus t) = numeralDigits t := by
      unfold numeralDigits stripPlus
      simp only [List.drop_one]
    refine .lift_bind fun _ _ => ?_
    rw [e]
    split
    · exact .pure _ _
    · rename_i hp
      have hd : numeralDigits t ≠ [] := stripPlus_ne_nil ht hp
      split
      · exact keeps_parseBase2 m hd (hbin h1 h2 ‹_›) w ws
      · split
        · exact .lift _ _
        · split
          · exact keeps_parseBase16 m hd (hhex h1 h2 ‹_›) ws
          · exact .lift _ _
  refine .get_bind ?_
  match ws with
  | [] => exact many (by decide) (by decide)
  | [x] =>
    refine .lift_bind fun _ _ => .lift_bind fun r _ => ?_
    cases r with
    | error e => exact .pure _ _
    | ok v => exact .of_run (r := ([BitVec.ofNat 64 v], .ok ())) rfl
  | [x, y] =>
    refine .lift_bind fun _ _ => .lift_bind fun r _ => ?_
    cases r with
    | error e => exact .pure _ _
    | ok v => exact .of_run (r := ([BitVec.ofNat 64 v, BitVec.ofNat 64 (v >>> 64)], .ok ())) rfl
  | x :: y :: z :: rest => exact many (by simp) (by simp)

end

/-- **C121** (`assign_from_str_radix`). (Unless there are one or two words, the digit count must fit into the 32 bits the code keeps for it,
`4 * digits` for hexadecimal. For other texts see C137.) -/
theorem C121_parse (m : Mode) (radix : Nat) (a b : BitVecValue) (t : List Byte)
    (hbin : a.words.length ≠ 1 → a.words.length ≠ 2 → radix = 2 → (numeralDigits t).length < 2 ^ 32)
    (hhex : a.words.length ≠ 1 → a.words.length ≠ 2 → radix = 16 → 4 * (numeralDigits t).length < 2 ^ 32)
    (h : (Unwind.assignFromStrRadix m t radix).Leaves a b) : b.shape = a.shape.leftParse m radix t := by
  open Eff in
  obtain ⟨w, ws⟩ := a
  replace h := leaves_bind_ok (run_get _) h
  obtain ⟨ws', h', rfl⟩ := leaves_onWords h
  clear h
  have h := h'
  clear h'
  dsimp only at h
  unfold Unwind.fromStrRadix at h
  dsimp only at h
  have e : (if t.head? == some (ch '-') then t.drop 1 else t) = stripMinus t := by
    unfold stripMinus
    simp only [beq_iff_eq, List.drop_one]
  rw [e] at h
  split at h
  · exact absurd h leaves_pure
  split at h
  · split at h <;> exact absurd h leaves_pure
  split at h
  · exact absurd h leaves_pure
  rename_i ht0 hw0 ht
  have hm := magnitude_any m radix ⟨w, ws⟩ t ht hbin hhex
  unfold Shape.leftParse
  rcases leaves_bind h with h | ⟨r, ws1, h1, h⟩
  · rw [keeps_parseMagnitude m radix w ws t ht hbin hhex _ h]
    have hp := leaves_iff.mp ⟨_, h⟩
    rw [Unwind.run_parseMagnitude] at hp
    obtain ⟨p, hp⟩ := hp
    cases hmag : Shape.magnitude m (BitVecValue.shape ⟨w, ws⟩) radix t with
    | stores N =>
      rw [hmag] at hm
      obtain ⟨o, h1, -⟩ := hm
      rw [h1] at hp
      cases hp
    | invalid N => rfl
    | exceeds N => rfl
    | panics => rfl
  · cases r with
    | error e => exact absurd h leaves_pure
    | ok u =>
      rw [Unwind.run_parseMagnitude] at h1
      dsimp only at h
      split at h
      · rcases leaves_bind h with h | ⟨r, ws2, h2, h⟩
        · replace h := leaves_bind_ok (run_get _) h
          replace h := leaves_bind_ok (run_set _ _) h
          rw [keeps_maskMsb m w _ _ h]
          cases hmag : Shape.magnitude m (BitVecValue.shape ⟨w, ws⟩) radix t with
          | stores N =>
            rw [hmag] at hm
            obtain ⟨o, h2, h3, h4⟩ := hm
            rw [h1] at h2
            cases h2
            unfold BitVecValue.shape
            dsimp only
            rw [Arith.negateLoop_length, Arith.negateLoop_val, h3, h4]
          | invalid N => rw [hmag] at hm; obtain ⟨o, h2, -⟩ := hm; rw [h1] at h2; cases h2
          | exceeds N => rw [hmag] at hm; obtain ⟨o, h2, -⟩ := hm; rw [h1] at h2; cases h2
          | panics => rw [hmag] at hm; obtain ⟨o, h2⟩ := hm; rw [h1] at h2; cases h2
        · exact absurd h leaves_pure
      · exact absurd h leaves_pure

/-- With the number of words that the width calls for, masking works for every width but zero. -/
theorem masked_sized {m : Mode} {w N : Nat} (h0 : w ≠ 0) : masked m w (need w) N = some (N % 2 ^ fitted w (need w)) := by
  unfold masked
  rw [if_neg]
  rintro (h | h)
  · unfold need at h; omega
  · exact h.2 rfl

/-- **C121** (values of the right size): if the value has the number of words that its width calls for, then a panicking parse or fill leaves it as
it was, and so does a panicking assignment of a number to a value without bits. With at least one bit, the assignment of a number
leaves what a release build assigns. -/
theorem C121_sized (m : Mode) (a b : BitVecValue) (hl : a.words.length = need a.width) (hw : a.width < 2 ^ 32) :
    ((Unwind.assignOnes m).Leaves a b → b = a) ∧
    (∀ radix t, (128 < a.width → radix = 2 → (numeralDigits t).length < 2 ^ 32) →
      (128 < a.width → radix = 16 → 4 * (numeralDigits t).length < 2 ^ 32) →
      (Unwind.assignFromStrRadix m t radix).Leaves a b → b = a) ∧
    (∀ v, (Unwind.assignFromU64 m v).Leaves a b → if a.width = 0 then b = a else a.assignFromU64 .release v = ok b) ∧
    (∀ v, (Unwind.assignFromI64 m v).Leaves a b → if a.width = 0 then b = a else a.assignFromI64 .release v = ok b) := by
  have hn : a.width ≠ 0 → need a.width ≠ 0 := by unfold need; omega
  have h0 : a.width = 0 → a.shape.words = 0 := by
    intro h
    show a.words.length = 0
    rw [hl, h]
    rfl
  have hs : a.shape = ⟨a.width, need a.width, wordsVal a.words⟩ := by
    unfold BitVecValue.shape
    rw [hl]
  have made : ∀ {x : Res BitVecValue} {s : Shape}, Makes x (some s) → b.shape = s → x = ok b := by
    rintro x s ⟨r, h1, h2, -⟩ h3
    rw [h1, shape_inj (h2.trans h3.symm)]
  refine ⟨fun h => ?_, fun radix t hbin hhex h => ?_, fun v h => ?_, fun v h => ?_⟩
  · have e := C121_ones m a b h
    by_cases hz : a.width = 0
    · apply shape_inj
      have hb : a.words = [] := List.length_eq_zero_iff.mp (h0 hz)
      rw [e]
      unfold Shape.leftOnes BitVecValue.shape
      dsimp only
      rw [hb]
      rfl
    · exfalso
      have hp := Eff.leaves_iff.mp ⟨_, h⟩
      rw [(C121_values_agree m a).2.1] at hp
      have ho := Arith.maskMsb_any m (a.words.map fun _ => BitVec.allOnes 64) a.width
      rw [List.length_map, hl, masked_sized hz] at ho
      obtain ⟨r, h1, -⟩ := ho
      unfold BitVecValue.assignOnes BitVecValue.maskMsb at hp
      dsimp only at hp
      rw [h1] at hp
      obtain ⟨p, hp⟩ := hp
      cases hp
  · have hp := Eff.leaves_iff.mp ⟨_, h⟩
    rw [(C121_values_agree m a).2.2.2.2.1] at hp
    by_cases hz : a.width = 0
    · exfalso
      replace h := Eff.leaves_bind_ok (Eff.run_get _) h
      obtain ⟨ws', h', rfl⟩ := leaves_onWords h
      unfold Unwind.fromStrRadix at h'
      dsimp only at h'
      split at h'
      · exact Eff.leaves_pure h'
      split at h' <;> (split at h' <;> exact Eff.leaves_pure h')
    have big : a.words.length ≠ 1 → a.words.length ≠ 2 → 128 < a.width := by
      intro h1 h2
      rw [hl] at h1 h2
      unfold need at h1 h2
      omega
    have e := C121_parse m radix a b t (fun h1 h2 => hbin (big h1 h2)) (fun h1 h2 => hhex (big h1 h2)) h
    have hc := C107_assign_from_str_radix m radix a t (fun h1 h2 => hbin (big h1 h2)) (fun h1 h2 => hhex (big h1 h2))
    apply shape_inj
    rw [e]
    unfold Shape.leftParse
    cases hmag : Shape.magnitude m a.shape radix t with
    | stores N =>
      exfalso
      obtain ⟨p, hp⟩ := hp
      have out : ∀ {o : AssignOutcome}, o ≠ .panics → ¬ LeavesIn a (BitVecValue.assignFromStrRadix m a t radix) o := by
        intro o ho hk
        cases o with
        | panics => exact ho rfl
        | stores N => obtain ⟨r, h, -⟩ := hk; rw [hp] at h; cases h
        | invalid N => obtain ⟨r, h, -⟩ := hk; rw [hp] at h; cases h
        | exceeds N => obtain ⟨r, h, -⟩ := hk; rw [hp] at h; cases h
      refine out ?_ hc
      unfold Shape.parse
      by_cases h1 : t = []
      · rw [if_pos h1]; nofun
      rw [if_neg h1]
      by_cases h2 : a.shape.width = 0
      · rw [if_pos h2]; split <;> nofun
      rw [if_neg h2]
      by_cases h3 : stripMinus t = []
      · rw [if_pos h3]; nofun
      rw [if_neg h3, hmag]
      dsimp only
      rw [show a.shape.words = need a.shape.width from hl, masked_sized h2]
      split <;> nofun
    | invalid N => rfl
    | exceeds N => rfl
    | panics => rfl
  · have e := C121_u64 m v a b h
    unfold Shape.leftU64 at e
    by_cases hz : a.width = 0
    · rw [if_pos hz]
      rw [if_pos (h0 hz)] at e
      exact shape_inj e
    · rw [if_neg hz]
      rw [if_neg (by rw [hs]; exact hn hz)] at e
      have hc := C106_assign_from_u64 (a := a) .release v hw
      unfold Shape.setU64 at hc
      rw [hs] at e hc
      dsimp only at e hc
      rw [masked_sized hz] at e hc
      exact made (by simpa using hc) e
  · have e := C121_i64 m v a b h
    unfold Shape.leftI64 at e
    by_cases hz : a.width = 0
    · rw [if_pos hz]
      rw [if_pos (h0 hz)] at e
      exact shape_inj e
    · rw [if_neg hz]
      rw [if_neg (by rw [hs]; exact hn hz)] at e
      have hc := C106_assign_from_i64 (a := a) .release v hw
      have hwr : ∀ m', ∃ K, a.shape.writeI64 m' v.toNat = some K ∧ a.shape.writeI64 .release v.toNat = some K := by
        intro m'
        rw [hs]
        unfold Shape.writeI64
        dsimp only
        rw [if_neg (hn hz), if_neg (hn hz), masked_sized hz, masked_sized hz]
        split
        · rw [if_neg (by rename_i h; unfold need at h; omega)]
          exact ⟨_, rfl, rfl⟩
        · split <;> exact ⟨_, rfl, rfl⟩
      obtain ⟨K, k1, k2⟩ := hwr m
      rw [k1] at e
      unfold Shape.setI64 at hc
      rw [k2] at hc
      rw [hs] at e hc
      exact made (by simpa using hc) e

/-- A debug build panics when 300 is assigned to eight bits; 44 is there afterwards. -/
example : (Unwind.assignFromU64 .debug 300#64).Leaves ⟨8, [7#64]⟩ ⟨8, [44#64]⟩ := ⟨_, rfl⟩
example : BitVecValue.assignFromU64 .release ⟨8, [7#64]⟩ 300#64 = ok ⟨8, [44#64]⟩ := rfl

/-- -200 does not fit into eight bits either. -/
example : (Unwind.assignFromI64 .debug (-200)).Leaves ⟨8, [7#64]⟩ ⟨8, [56#64]⟩ := ⟨_, rfl⟩

/-- Decimal numerals cannot be read into three words; the contents stay. -/
example : (Unwind.assignFromStrRadix .release [ch '4', ch '2'] 10).Leaves ⟨130, [1#64, 2#64, 3#64]⟩ ⟨130, [1#64, 2#64, 3#64]⟩ := ⟨_, rfl⟩

/-- A value with two words and only eight bits, as it can come out of a document: the debug build negates before it notices. -/
example : (Unwind.assignFromStrRadix .debug [ch '-', ch '1'] 10).Leaves ⟨8, [7#64, 0#64]⟩ ⟨8, [BitVec.allOnes 64, BitVec.allOnes 64]⟩ := ⟨_, rfl⟩

/-- Storing behind the end of an array changes nothing. -/
example : (Unwind.store .debug listEnv ⟨2, [3#64]⟩ ⟨8, [9#64]⟩).Leaves (.dense ⟨2, 8, .u8 [1#8, 2#8, 3#8]⟩) (.dense ⟨2, 8, .u8 [1#8, 2#8, 3#8]⟩) :=
  ⟨_, rfl⟩

/-- Nor does interning a value with a word too many. -/
example : (Unwind.getIndex .debug ⟨8, [1#64, 0#64]⟩).Leaves ValueInterner.new ValueInterner.new := ⟨_, rfl⟩

end Baa

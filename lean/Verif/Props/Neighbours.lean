import Verif.Spec.Neighbours
import Verif.Props.Unwind
import Verif.Props.Indexed

/-!
# C123: values in one word buffer are as good as values in variables
-/

namespace Baa
open Res

/-! ## Nothing changes the size of a value -/

namespace Eff
variable {σ τ α β ρ : Type}

/-- Started with `s`, the program does not change `f` of the state, whether it panics or not. -/
def Fixes (f : σ → ρ) (s : σ) (x : Eff σ α) : Prop := f (x s).2 = f s

variable {f : σ → ρ} {s : σ}

theorem Fixes.pure (a : α) : Fixes f s (Eff.pure a : Eff σ α) := rfl
theorem Fixes.lift (r : Res α) : Fixes f s (Eff.lift r : Eff σ α) := rfl
theorem Fixes.set {t : σ} (h : f t = f s) : Fixes f s (Eff.set t) := h

theorem Fixes.bind {x : Eff σ α} {g : α → Eff σ β} (hx : Fixes f s x) (hg : ∀ a t, f t = f s → Fixes f t (g a)) : Fixes f s (x >>= g) := by
  unfold Fixes at hx
  show f (Eff.bind x g s).2 = f s
  unfold Eff.bind
  cases h : x s with
  | mk r t =>
    rw [h] at hx
    cases r with
    | ok a => exact (hg a t hx).trans hx
    | panic p => exact hx

theorem Fixes.get_bind {g : σ → Eff σ β} (hg : Fixes f s (g s)) : Fixes f s (get >>= g) := hg

theorem Fixes.lift_bind {r : Res α} {g : α → Eff σ β} (hg : ∀ a, r = ok a → Fixes f s (g a)) : Fixes f s (Eff.lift r >>= g) := by
  cases r with
  | ok a => exact hg a rfl
  | panic p => rfl

theorem Fixes.zoom {f : τ → ρ} {g : σ → α} {t : τ} {part : τ → σ} {put : τ → σ → τ} {x : Eff σ β} (hx : Fixes g (part t) x)
    (hp : ∀ v, g v = g (part t) → f (put t v) = f t) : Fixes f t (Eff.zoom part put x) := hp _ hx

end Eff

section
open Unwind Eff

theorem setIdx_sameLength {ws r : List Word} {i : Nat} {w : Word} (h : setIdx ws i w = ok r) : r.length = ws.length := by
  unfold setIdx at h
  split at h
  · cases h; exact List.length_set ..
  · cases h

theorem fixes_put (i : Nat) (w : Word) (ws : List Word) : Fixes List.length ws (put i w) :=
  .get_bind (.lift_bind fun _ h => .set (setIdx_sameLength h))

theorem fixes_fill (w : Word) (ws : List Word) : Fixes List.length ws (fill w) := .get_bind (.set (List.length_map ..))

theorem fixes_copy (source ws : List Word) : Fixes List.length ws (copy source) := by
  refine .get_bind (.set ?_)
  induction ws generalizing source with
  | nil => rfl
  | cons d ds ih =>
    cases source with
    | nil => rfl
    | cons s ss => exact congrArg (· + 1) (ih ss)

theorem fixes_maskMsb (m : Mode) (w : Nat) (ws : List Word) : Fixes List.length ws (Unwind.maskMsb m w) := by
  refine .get_bind (.lift_bind fun _ _ => .lift_bind fun _ _ => .lift_bind fun l hl => .set ?_)
  cases ws with
  | nil => cases hl
  | cons d ds => simp

theorem fixes_suffix {start : Nat} {x : Eff (List Word) Unit} {ws : List Word} (hx : Fixes List.length (ws.drop start) x) :
    Fixes List.length ws (suffix start x) := by
  refine .get_bind (.lift_bind fun a h => .zoom hx fun v hv => ?_)
  rw [List.length_append, hv, ← List.length_append, List.take_append_drop]

theorem fixes_setBit (pos : Nat) (ws : List Word) : Fixes List.length ws (Unwind.setBit pos) :=
  .get_bind (.lift_bind fun _ _ => fixes_put _ _ _)

theorem fixes_clearBit (pos : Nat) (ws : List Word) : Fixes List.length ws (Unwind.clearBit pos) :=
  .get_bind (.lift_bind fun _ _ => fixes_put _ _ _)

theorem fixes_signExtend (m : Mode) (source : List Word) (sw dw : Nat) (ws : List Word) :
    Fixes List.length ws (Unwind.signExtend m source sw dw) := by
  refine .bind (fixes_copy _ _) fun _ t _ => .lift_bind fun neg _ => ?_
  split
  · have rest : ∀ t, Fixes List.length t (do suffix source.length (fill (BitVec.allOnes 64)); Unwind.maskMsb m dw) := fun t =>
      .bind (fixes_suffix (fixes_fill _ _)) fun _ t' _ => fixes_maskMsb _ _ _
    dsimp only
    split
    · exact .lift_bind fun _ _ => .lift_bind fun _ _ => .get_bind (.lift_bind fun _ _ => .bind (fixes_put _ _ _) fun _ t' _ => rest t')
    · exact rest t
  · exact fixes_suffix (fixes_fill _ _)

theorem negateLoop_length (c : Nat) (ws : List Word) : (Arith.negateLoop c ws).length = ws.length := by
  induction ws generalizing c with
  | nil => rfl
  | cons d ds ih => exact congrArg (· + 1) (ih _)

theorem fixes_negateInPlace (m : Mode) (w : Nat) (ws : List Word) : Fixes List.length ws (Unwind.negateInPlace m w) :=
  .get_bind (.bind (.set (negateLoop_length _ _)) fun _ _ _ => fixes_maskMsb _ _ _)

theorem fixes_parseLoop (m : Mode) (bits pw : Nat) (dv : Byte → Option Nat) (n : Nat) (cs : List Byte) :
    ∀ (ii o : Nat) (w : Word) (ws : List Word), Fixes List.length ws (Unwind.parseLoop m bits pw dv n ii o w cs) := by
  induction cs with
  | nil => exact fun _ _ _ _ => rfl
  | cons c cs ih =>
    intro ii o w ws
    refine .lift_bind fun _ _ => .lift_bind fun _ _ => .bind ?_ fun p t _ => ?_
    · split
      · refine .lift_bind fun _ _ => ?_
        split
        · exact .bind (fixes_put _ _ _) fun _ _ _ => .lift_bind fun _ _ => .pure _
        · exact .pure _
      · exact .pure _
    · dsimp only
      split
      · exact .pure _
      · exact ih _ _ _ _

theorem fixes_parseBase16 (m : Mode) (ds : List Byte) (ws : List Word) : Fixes List.length ws (Unwind.parseBase16 m ds) := by
  refine .lift_bind fun _ _ => .lift_bind fun _ _ => .bind (fixes_parseLoop ..) fun p t _ => ?_
  split
  · exact .pure _
  · exact .lift_bind fun _ _ => .bind (fixes_put _ _ _) fun _ _ _ => .lift_bind fun _ _ => .pure _

theorem fixes_parseBase2 (m : Mode) (ds : List Byte) (w : Nat) (ws : List Word) : Fixes List.length ws (Unwind.parseBase2 m ds w) := by
  unfold Unwind.parseBase2
  dsimp only
  split
  · exact .pure _
  refine .lift_bind fun _ _ => .bind (fixes_parseLoop ..) fun p t _ => ?_
  split
  · exact .pure _
  · exact .lift_bind fun _ _ => .bind (fixes_put _ _ _) fun _ _ _ => .pure _

theorem fixes_parseMagnitude (m : Mode) (value : List Byte) (radix w : Nat) (ws : List Word) :
    Fixes List.length ws (Unwind.parseMagnitude m value radix w) := by
  refine .get_bind ?_
  split
  · refine .lift_bind fun _ _ => .lift_bind fun p _ => ?_
    split
    · exact .bind (fixes_put _ _ _) fun _ _ _ => .pure _
    · exact .pure _
  · refine .lift_bind fun _ _ => .lift_bind fun p _ => ?_
    split
    · exact .bind (fixes_put _ _ _) fun _ _ _ => .bind (fixes_put _ _ _) fun _ _ _ => .pure _
    · exact .pure _
  · refine .lift_bind fun _ _ => ?_
    dsimp only
    split
    · exact .pure _
    · split
      · exact fixes_parseBase2 _ _ _ _
      · split
        · exact .lift _
        · split
          · exact fixes_parseBase16 _ _ _
          · exact .lift _

theorem fixes_fromStrRadix (m : Mode) (value : List Byte) (radix w : Nat) (ws : List Word) :
    Fixes List.length ws (Unwind.fromStrRadix m value radix w) := by
  unfold Unwind.fromStrRadix
  split
  · exact .pure _
  dsimp only
  generalize (if (value.head? == some (ch '-')) = true then value.drop 1 else value) = v
  split
  · split <;> exact .pure _
  split
  · exact .pure _
  refine .bind (fixes_parseMagnitude ..) fun p t _ => ?_
  split
  · exact .pure _
  · split
    · exact .bind (fixes_negateInPlace _ _ _) fun _ _ _ => .pure _
    · exact .pure _

/-- Width and number of words. -/
def sizeOfValue (v : BitVecValue) : Nat × Nat := (v.width, v.words.length)

theorem fixes_onWords {α : Type} {x : Eff (List Word) α} {v : BitVecValue} (h : ∀ ws, Fixes List.length ws x) : Fixes sizeOfValue v (onWords x) :=
  .zoom (h _) fun ws hw => by unfold sizeOfValue; rw [hw]

theorem fixes_assign (m : Mode) (a v : BitVecValue) : Fixes sizeOfValue v (Unwind.assign m a) := by
  refine .get_bind (.lift_bind fun _ _ => .lift_bind fun _ _ => ?_)
  split
  · rename_i h
    exact .zoom (f := sizeOfValue) (g := List.length) (.set h.symm) fun ws hw => by unfold sizeOfValue; rw [hw]
  · exact .lift _

theorem fixes_assignFromI64 (m : Mode) (n : Word) (v : BitVecValue) : Fixes sizeOfValue v (Unwind.assignFromI64 m n) := by
  refine .get_bind (.bind (fixes_onWords (fixes_fill _)) fun _ t _ => .get_bind ?_)
  dsimp only
  have rest : ∀ t, Fixes sizeOfValue t (do let self ← get; lift (BitVecValue.checkI64 m self n)) := fun t => .get_bind (.lift _)
  split
  · exact .lift_bind fun _ _ => .bind (fixes_onWords (fixes_put _ _)) fun _ t' _ => rest t'
  · exact .bind (fixes_onWords (fixes_signExtend _ _ _ _)) fun _ t' _ => rest t'

/-- **C123** (sizes): an operation in place changes neither the width nor the number of words, also if it fails or panics. -/
theorem C123_size (m : Mode) (op : InPlace) (v : BitVecValue) :
    ((op.run m v).2).width = v.width ∧ ((op.run m v).2).words.length = v.words.length := by
  have h : Fixes sizeOfValue v (op.run m) := by
    cases op with
    | clear => exact .bind (fixes_onWords (fixes_fill _)) fun _ _ _ => .pure _
    | ones => exact .bind (.bind (fixes_onWords (fixes_fill _)) fun _ _ _ => .get_bind (fixes_onWords (fixes_maskMsb _ _))) fun _ _ _ => .pure _
    | mask => exact .get_bind (.bind (fixes_onWords (fixes_maskMsb _ _)) fun _ _ _ => .pure _)
    | setBit pos => exact .bind (fixes_onWords (fixes_setBit _)) fun _ _ _ => .pure _
    | clearBit pos => exact .bind (fixes_onWords (fixes_clearBit _)) fun _ _ _ => .pure _
    | u64 n =>
      exact .bind (.bind (fixes_onWords (fixes_fill _)) fun _ _ _ => .bind (fixes_onWords (fixes_put _ _)) fun _ _ _ =>
        .get_bind (.bind (fixes_onWords (fixes_maskMsb _ _)) fun _ _ _ => .get_bind (.lift_bind fun _ _ => .lift _))) fun _ _ _ => .pure _
    | i64 n => exact .bind (fixes_assignFromI64 _ _ _) fun _ _ _ => .pure _
    | parse t radix => exact .get_bind (fixes_onWords (fixes_fromStrRadix _ _ _ _))
    | assign a => exact .bind (fixes_assign _ _ _) fun _ _ _ => .pure _
  exact Prod.mk.inj h

end

/-! ## One value in a buffer -/

section
open Unwind Eff

theorem through_run {α : Type} {data : List Word} {i : BitVecValueIndex} {v : BitVecValue} (h : Indexed.getMutRef data i = ok v) (x : Eff BitVecValue α) :
    through i x data = ((x v).1, Indexed.writeBack data i.index (x v).2.words) := by
  have e : through i x data = (Eff.lift (Indexed.getMutRef data i) >>= fun ri =>
    Eff.zoom (fun _ => ri) (fun data v => Indexed.writeBack data i.index v.words) x : Eff (List Word) α) data := rfl
  rw [e, h]
  rfl

theorem through2_run {α : Type} {data : List Word} {i a : BitVecValueIndex} {v va : BitVecValue} (h : Indexed.getMutRef2 data i a = ok (v, va))
    (x : BitVecValue → Eff BitVecValue α) :
    through2 i a x data = ((x va v).1, Indexed.writeBack data i.index (x va v).2.words) := by
  have e : through2 i a x data = (Eff.lift (Indexed.getMutRef2 data i a) >>= fun p =>
    Eff.zoom (fun _ => p.1) (fun data v => Indexed.writeBack data i.index v.words) (x p.2) : Eff (List Word) α) data := rfl
  rw [e, h]
  rfl

theorem through3_run {α : Type} {data : List Word} {i a b : BitVecValueIndex} {v va vb : BitVecValue}
    (h : Indexed.getMutRef3 data i a b = ok (v, va, vb)) (x : BitVecValue → BitVecValue → Eff BitVecValue α) :
    through3 i a b x data = ((x va vb v).1, Indexed.writeBack data i.index (x va vb v).2.words) := by
  have e : through3 i a b x data = (Eff.lift (Indexed.getMutRef3 data i a b) >>= fun p =>
    Eff.zoom (fun _ => p.1) (fun data v => Indexed.writeBack data i.index v.words) (x p.2.1 p.2.2) : Eff (List Word) α) data := rfl
  rw [e, h]
  rfl

theorem through_panics {α : Type} {data : List Word} {i : BitVecValueIndex} (h : Panics (Indexed.getMutRef data i)) (x : Eff BitVecValue α) :
    ∃ p, through i x data = (.panic p, data) := by
  obtain ⟨p, h⟩ := h
  have e : through i x data = (Eff.lift (Indexed.getMutRef data i) >>= fun ri =>
    Eff.zoom (fun _ => ri) (fun data v => Indexed.writeBack data i.index v.words) x : Eff (List Word) α) data := rfl
  exact ⟨p, by rw [e, h]; rfl⟩

theorem through2_panics {α : Type} {data : List Word} {i a : BitVecValueIndex} (h : Panics (Indexed.getMutRef2 data i a))
    (x : BitVecValue → Eff BitVecValue α) : ∃ p, through2 i a x data = (.panic p, data) := by
  obtain ⟨p, h⟩ := h
  have e : through2 i a x data = (Eff.lift (Indexed.getMutRef2 data i a) >>= fun p =>
    Eff.zoom (fun _ => p.1) (fun data v => Indexed.writeBack data i.index v.words) (x p.2) : Eff (List Word) α) data := rfl
  exact ⟨p, by rw [e, h]; rfl⟩

theorem through3_panics {α : Type} {data : List Word} {i a b : BitVecValueIndex} (h : Panics (Indexed.getMutRef3 data i a b))
    (x : BitVecValue → BitVecValue → Eff BitVecValue α) : ∃ p, through3 i a b x data = (.panic p, data) := by
  obtain ⟨p, h⟩ := h
  have e : through3 i a b x data = (Eff.lift (Indexed.getMutRef3 data i a b) >>= fun p =>
    Eff.zoom (fun _ => p.1) (fun data v => Indexed.writeBack data i.index v.words) (x p.2.1 p.2.2) : Eff (List Word) α) data := rfl
  exact ⟨p, by rw [e, h]; rfl⟩

theorem leaves_done {σ α β : Type} {x : Eff σ α} {b : β} {s t : σ} (h : (x >>= fun _ => Eff.pure b : Eff σ β).Leaves s t) : x.Leaves s t := by
  rcases Eff.leaves_bind h with h | ⟨_, _, -, h⟩
  · exact h
  · exact absurd h leaves_pure

/-- **C123** (what is left in a value): a panicking operation on a value with the number of words that its width calls for leaves the value as it was,
except that a number may have been assigned as a release build does. -/
theorem C123_left (m : Mode) (op : InPlace) (a b : BitVecValue) (hl : a.words.length = need a.width) (hw : a.width < 2 ^ 32) (ho : op.Short)
    (h : (op.run m).Leaves a b) : op.Left a b := by
  have hs := C121_sized m a b hl hw
  have hu := C121_unchanged m a b
  cases op with
  | clear => exact absurd (leaves_done h) hu.2.2.2.2
  | ones => exact hs.1 (leaves_done h)
  | mask => exact hu.2.2.2.1 (leaves_done (show (Unwind.onWords (Unwind.maskMsb m a.width) >>= fun _ => Eff.pure (.ok ()) : Eff _ (Except IntErrorKind Unit)).Leaves a b from h))
  | setBit pos => exact hu.2.1 _ (leaves_done h)
  | clearBit pos => exact hu.2.2.1 _ (leaves_done h)
  | u64 n => exact hs.2.2.1 _ (leaves_done h)
  | i64 n => exact hs.2.2.2 _ (leaves_done h)
  | parse t radix => exact hs.2.1 radix t (fun _ => ho.1) (fun _ => ho.2) h
  | assign v => exact hu.1 _ (leaves_done h)

/-- **C123** (neighbours): if an operation on the value at `i` panics, then the buffer has its old length and its old words outside of the range of that
value, every value stored apart from it reads as before, and the value itself reads as C123_left says. If the range is not in the
buffer, the operation panics and the buffer is as before. -/
theorem C123_neighbours (m : Mode) (data : List Word) (i : BitVecValueIndex) (op : InPlace) :
    (¬ InBounds data i → ∃ p, through i (op.run m) data = (.panic p, data)) ∧
    (InBounds data i → ∀ data', (through i (op.run m)).Leaves data data' →
      data'.length = data.length ∧
      (∀ k, k < i.index ∨ pastEnd i ≤ k → data'[k]? = data[k]?) ∧
      (∀ j, InBounds data j → Apart i j → Indexed.getRef data' j = Indexed.getRef data j) ∧
      ∃ a b, Indexed.getRef data i = ok a ∧ Indexed.getRef data' i = ok b ∧ (op.run m).Leaves a b ∧
        (i.width < 2 ^ 32 → op.Short → op.Left a b)) := by
  refine ⟨fun h => through_panics ((C44_get_mut_ref data i).2 h) _, fun h data' hd => ?_⟩
  obtain ⟨a, h1, h2⟩ := (C44_get_mut_ref data i).1 h
  obtain ⟨p, hp⟩ := hd
  rw [through_run h1] at hp
  obtain ⟨hp1, hp2⟩ := Prod.mk.inj hp
  subst hp2
  obtain ⟨s1, s2⟩ := C123_size m op a
  obtain ⟨e1, e2, e3, e4⟩ := C45_write data i h (op.run m a).2.words (s2.trans h2.length_eq)
  have hleft : (op.run m).Leaves a (op.run m a).2 := ⟨p, by rw [← hp1]⟩
  refine ⟨e1, e3, fun j => e4 j, a, (op.run m a).2, h1, ?_, hleft, fun hw ho => ?_⟩
  · rw [e2, ← h2.width_eq, ← s1]
  · exact C123_left m op a _ (h2.length_eq.trans (by rw [← h2.width_eq]; rfl)) (h2.width_eq ▸ hw) ho hleft

end

/-! ## All values in a buffer -/

section
open Unwind Eff
variable {n : Nat} {L : Fin n → BitVecValueIndex} {data : List Word} {ρ : Fin n → BitVecValue}

theorem OnlyWithin.refl (data : List Word) : OnlyWithin L data data := ⟨rfl, fun _ _ => rfl⟩

theorem OnlyWithin.trans {a b c : List Word} (h1 : OnlyWithin L a b) (h2 : OnlyWithin L b c) : OnlyWithin L a c :=
  ⟨h2.1.trans h1.1, fun k hk => (h2.2 k hk).trans (h1.2 k hk)⟩

theorem Placed.within {data' : List Word} (h : Placed L data) (hd : OnlyWithin L data data') : Placed L data' :=
  ⟨fun k => by have := h.inBounds k; unfold InBounds at this ⊢; rwa [hd.1], h.apart⟩

theorem Mirrors.stored (hp : Placed L data) (h : Mirrors L data ρ) (k : Fin n) : StoredAt data (L k) (ρ k) := by
  obtain ⟨v, h1, h2⟩ := (C44_get_ref data (L k)).1 (hp.inBounds k)
  rw [h k] at h1
  cases h1
  exact h2

/-- Writing a variable of the same size. -/
theorem Mirrors.write (hp : Placed L data) (h : Mirrors L data ρ) (r : Fin n) {v : BitVecValue} (hs : sizeOfValue v = sizeOfValue (ρ r)) :
    Mirrors L (Indexed.writeBack data (L r).index v.words) (fun k => if k = r then v else ρ k) ∧
    OnlyWithin L data (Indexed.writeBack data (L r).index v.words) := by
  have st := h.stored hp r
  obtain ⟨s1, s2⟩ := Prod.mk.inj hs
  obtain ⟨e1, e2, e3, e4⟩ := C45_write data (L r) (hp.inBounds r) v.words (s2.trans st.length_eq)
  refine ⟨fun k => ?_, e1, fun k hk => e3 k (hk r)⟩
  by_cases hk : k = r
  · subst hk
    dsimp only
    rw [e2, if_pos rfl, ← st.width_eq, ← s1]
  · dsimp only
    rw [e4 (L k) (hp.inBounds k) (hp.apart r k (Ne.symm hk)), if_neg hk, h k]

/-- Both give the same answer, or both panic. -/
def Agreed {α : Type} (x y : Res α) : Prop := (∃ a, x = ok a ∧ y = ok a) ∨ (Panics x ∧ Panics y)

theorem Agreed.refl {α : Type} (x : Res α) : Agreed x x := by
  cases x with
  | ok a => exact .inl ⟨a, rfl, rfl⟩
  | panic p => exact .inr ⟨⟨p, rfl⟩, ⟨p, rfl⟩⟩

theorem alike_done {σ τ α β : Type} {x : Eff σ α} {y : Eff τ α} (g : α → β) {s : σ} {t : τ} (h : Agreed (x s).1 (y t).1) :
    Agreed ((x >>= fun a => Eff.pure (g a) : Eff σ β) s).1 ((y >>= fun a => Eff.pure (g a) : Eff τ β) t).1 ∧
    ((x >>= fun a => Eff.pure (g a) : Eff σ β) s).2 = (x s).2 ∧ ((y >>= fun a => Eff.pure (g a) : Eff τ β) t).2 = (y t).2 := by
  show Agreed (Eff.bind x _ s).1 (Eff.bind y _ t).1 ∧ (Eff.bind x _ s).2 = _ ∧ (Eff.bind y _ t).2 = _
  unfold Eff.bind
  cases hx : x s with
  | mk r s' =>
    cases hy : y t with
    | mk r' t' =>
      rw [hx, hy] at h
      rcases h with ⟨a, h1, h2⟩ | ⟨⟨p, h1⟩, ⟨q, h2⟩⟩
      · dsimp only at h1 h2; subst h1 h2
        exact ⟨.inl ⟨_, rfl, rfl⟩, rfl, rfl⟩
      · dsimp only at h1 h2; subst h1 h2
        exact ⟨.inr ⟨⟨p, rfl⟩, ⟨q, rfl⟩⟩, rfl, rfl⟩

theorem apart_self {i : BitVecValueIndex} : Apart i i ↔ i.width = 0 := by
  unfold Apart pastEnd
  omega

theorem overwrite_self {β : Type} (ρ : Fin n → β) (r : Fin n) : (fun k => if k = r then ρ r else ρ k) = ρ := by
  funext k
  split
  · subst_vars; rfl
  · rfl

theorem getMutRef_of (h : Mirrors L data ρ) (r : Fin n) : Indexed.getMutRef data (L r) = ok (ρ r) := h r

theorem getMutRef2_of (hp : Placed L data) (h : Mirrors L data ρ) {r a : Fin n} (ha : ¬ (r = a ∧ (ρ r).width ≠ 0)) :
    Indexed.getMutRef2 data (L r) (L a) = ok (ρ r, ρ a) := by
  have hra : Apart (L r) (L a) := by
    by_cases e : r = a
    · subst e
      exact apart_self.mpr ((h.stored hp r).width_eq ▸ Classical.not_not.mp fun hn => ha ⟨rfl, hn⟩)
    · exact hp.apart r a e
  obtain ⟨u, v, h1, h2, h3⟩ := (C45_get_mut_ref_pair data (L r) (L a)).1 ⟨hp.inBounds r, hp.inBounds a, hra⟩
  rw [h1, h2.unique (h.stored hp r), h3.unique (h.stored hp a)]

theorem getMutRef3_of (hp : Placed L data) (h : Mirrors L data ρ) {r a b : Fin n} (ha : ¬ ((r = a ∨ r = b) ∧ (ρ r).width ≠ 0)) :
    Indexed.getMutRef3 data (L r) (L a) (L b) = ok (ρ r, ρ a, ρ b) := by
  have hra : ∀ c, c = a ∨ c = b → Apart (L r) (L c) := by
    intro c hc
    by_cases e : r = c
    · subst e
      exact apart_self.mpr ((h.stored hp r).width_eq ▸ Classical.not_not.mp fun hn => ha ⟨hc, hn⟩)
    · exact hp.apart r c e
  obtain ⟨u, v, w, h1, h2, h3, h4⟩ := (C45_get_mut_ref_triple data (L r) (L a) (L b)).1
    ⟨hp.inBounds r, hp.inBounds a, hp.inBounds b, hra a (.inl rfl), hra b (.inr rfl)⟩
  rw [h1, h2.unique (h.stored hp r), h3.unique (h.stored hp a), h4.unique (h.stored hp b)]

/-- A program on the words of one value, in the buffer and in a variable. -/
theorem served_alike {α : Type} (hp : Placed L data) (h : Mirrors L data ρ) (r : Fin n) {x : Eff BitVecValue α} (hx : Fixes sizeOfValue (ρ r) x)
    {y : Eff (List Word) α} (hy : y data = ((x (ρ r)).1, Indexed.writeBack data (L r).index (x (ρ r)).2.words)) (g : α → Reply) :
    let z : Eff (Fin n → BitVecValue) Reply := do
      let a ← Eff.zoom (fun ρ => ρ r) (fun ρ v k => if k = r then v else ρ k) x
      Eff.pure (g a)
    let w : Eff (List Word) Reply := do
      let a ← y
      Eff.pure (g a)
    Agreed (w data).1 (z ρ).1 ∧ Mirrors L (w data).2 (z ρ).2 ∧ OnlyWithin L data (w data).2 := by
  intro z w
  have hd := alike_done (x := y) (y := Eff.zoom (fun ρ : Fin n → BitVecValue => ρ r) (fun ρ v k => if k = r then v else ρ k) x) g (s := data) (t := ρ)
    (by rw [hy]; exact .refl _)
  refine ⟨hd.1, ?_⟩
  show Mirrors L (w data).2 (z ρ).2 ∧ OnlyWithin L data (w data).2
  rw [hd.2.1, hd.2.2, hy]
  exact h.write hp r hx

/-- One request. -/
theorem serve_alike (m : Mode) (hp : Placed L data) (h : Mirrors L data ρ) (q : Request n) :
    Agreed (q.onBuffer L m data).1 (q.onVariables m ρ).1 ∧ Mirrors L (q.onBuffer L m data).2 (q.onVariables m ρ).2 ∧
    OnlyWithin L data (q.onBuffer L m data).2 := by
  have calc_assign : ∀ (r : Fin n) (y : Eff (List Word) Unit) (o : Res BitVecValue),
      y data = (((do let v ← Eff.lift o; Unwind.assign m v : Eff BitVecValue Unit) (ρ r)).1,
        Indexed.writeBack data (L r).index ((do let v ← Eff.lift o; Unwind.assign m v : Eff BitVecValue Unit) (ρ r)).2.words) →
      let z : Eff (Fin n → BitVecValue) Reply := do
        let v ← Eff.lift o
        Eff.zoom (fun ρ => ρ r) (fun ρ v k => if k = r then v else ρ k) (Unwind.assign m v)
        Eff.pure .done
      let w : Eff (List Word) Reply := do
        y
        Eff.pure .done
      Agreed (w data).1 (z ρ).1 ∧ Mirrors L (w data).2 (z ρ).2 ∧ OnlyWithin L data (w data).2 := by
    intro r y o hy
    cases o with
    | ok v => exact served_alike hp h r (x := Unwind.assign m v) (fixes_assign _ _ _) hy fun _ => .done
    | panic p =>
      have hs := served_alike hp h r (x := Eff.lift (.panic p : Res Unit)) (.lift _) hy fun _ => .done
      refine ⟨hs.1, ?_, hs.2.2⟩
      have hm := hs.2.1
      change Mirrors L _ (fun k => if k = r then ρ r else ρ k) at hm
      rwa [overwrite_self] at hm
  cases q with
  | read r =>
    have e : Request.onBuffer L m (.read r) data = (ok (.value (ρ r)), data) := by
      have : Request.onBuffer L m (.read r) data = (Eff.lift (Indexed.getRef data (L r)) >>= fun v => Eff.pure (.value v) : Eff _ Reply) data := rfl
      rw [this, h r]
      rfl
    rw [e]
    exact ⟨.inl ⟨_, rfl, rfl⟩, h, .refl _⟩
  | change r op =>
    refine served_alike hp h r ?_ (through_run (getMutRef_of h r) _) Reply.of
    obtain ⟨s1, s2⟩ := C123_size m op (ρ r)
    exact Prod.ext s1 s2
  | map r a f =>
    by_cases ha : r = a ∧ (ρ r).width ≠ 0
    · have hpan : Panics (Indexed.getMutRef2 data (L r) (L a)) := (C45_get_mut_ref_pair data (L r) (L a)).2 fun hc => by
        rw [ha.1] at hc ha
        exact ha.2 ((h.stored hp a).width_eq.trans (apart_self.mp hc.2.2))
      obtain ⟨p, hb⟩ := through2_panics hpan fun va => (do let v ← Eff.lift (f va); Unwind.assign m v : Eff BitVecValue Unit)
      have e1 : Request.onBuffer L m (.map r a f) data = (.panic p, data) := by
        show Eff.bind _ _ data = _
        unfold Eff.bind
        rw [hb]
      have e2 : Request.onVariables m (.map r a f) ρ = (.panic .bounds, ρ) := by
        show (if r = a ∧ (ρ r).width ≠ 0 then _ else _ : Eff _ Reply) ρ = _
        rw [if_pos ha]
        rfl
      rw [e1, e2]
      exact ⟨.inr ⟨⟨_, rfl⟩, ⟨_, rfl⟩⟩, h, .refl _⟩
    · have hs := calc_assign r _ (f (ρ a)) (through2_run (getMutRef2_of hp h ha) fun va => do let v ← Eff.lift (f va); Unwind.assign m v)
      have e2 : Request.onVariables m (.map r a f) ρ = (do
          let v ← Eff.lift (f (ρ a))
          Eff.zoom (fun ρ => ρ r) (fun ρ v k => if k = r then v else ρ k) (Unwind.assign m v)
          Eff.pure .done : Eff (Fin n → BitVecValue) Reply) ρ := by
        show (if r = a ∧ (ρ r).width ≠ 0 then _ else _ : Eff _ Reply) ρ = _
        rw [if_neg ha]
      rw [e2]
      exact hs
  | combine r a b f =>
    by_cases ha : (r = a ∨ r = b) ∧ (ρ r).width ≠ 0
    · have hpan : Panics (Indexed.getMutRef3 data (L r) (L a) (L b)) := (C45_get_mut_ref_triple data (L r) (L a) (L b)).2 fun hc => by
        obtain ⟨rfl | rfl, h0⟩ := ha
        · exact h0 ((h.stored hp r).width_eq.trans (apart_self.mp hc.2.2.2.1))
        · exact h0 ((h.stored hp r).width_eq.trans (apart_self.mp hc.2.2.2.2))
      obtain ⟨p, hb⟩ := through3_panics hpan fun va vb => (do let v ← Eff.lift (f va vb); Unwind.assign m v : Eff BitVecValue Unit)
      have e1 : Request.onBuffer L m (.combine r a b f) data = (.panic p, data) := by
        show Eff.bind _ _ data = _
        unfold Eff.bind
        rw [hb]
      have e2 : Request.onVariables m (.combine r a b f) ρ = (.panic .bounds, ρ) := by
        show (if (r = a ∨ r = b) ∧ (ρ r).width ≠ 0 then _ else _ : Eff _ Reply) ρ = _
        rw [if_pos ha]
        rfl
      rw [e1, e2]
      exact ⟨.inr ⟨⟨_, rfl⟩, ⟨_, rfl⟩⟩, h, .refl _⟩
    · have hs := calc_assign r _ (f (ρ a) (ρ b)) (through3_run (getMutRef3_of hp h ha) fun va vb => do let v ← Eff.lift (f va vb); Unwind.assign m v)
      have e2 : Request.onVariables m (.combine r a b f) ρ = (do
          let v ← Eff.lift (f (ρ a) (ρ b))
          Eff.zoom (fun ρ => ρ r) (fun ρ v k => if k = r then v else ρ k) (Unwind.assign m v)
          Eff.pure .done : Eff (Fin n → BitVecValue) Reply) ρ := by
        show (if (r = a ∨ r = b) ∧ (ρ r).width ≠ 0 then _ else _ : Eff _ Reply) ρ = _
        rw [if_neg ha]
      rw [e2]
      exact hs

end

/-- **C123** (clients): no client can tell whether its values are in variables or in one word buffer, as long as they do not overlap: it sees the same answers,
the same panics and the same values, also after panics that it catches. Afterwards the buffer holds the values that are in the
variables, and nothing else in it has changed. -/
theorem C123_client {n : Nat} (m : Mode) (L : Fin n → BitVecValueIndex) (data : List Word) (ρ : Fin n → BitVecValue) (hp : Placed L data)
    (h : Mirrors L data ρ) (c : Client n) :
    (c.run (Request.onBuffer L m) data).1 = (c.run (Request.onVariables m) ρ).1 ∧
    Mirrors L (c.run (Request.onBuffer L m) data).2 (c.run (Request.onVariables m) ρ).2 ∧
    OnlyWithin L data (c.run (Request.onBuffer L m) data).2 := by
  induction c generalizing data ρ with
  | stop => exact ⟨rfl, h, .refl _⟩
  | ask q caught next ih =>
    obtain ⟨h1, h2, h3⟩ := serve_alike m hp h q
    unfold Client.run
    cases hb : q.onBuffer L m data with
    | mk r data' =>
      cases hv : q.onVariables m ρ with
      | mk r' ρ' =>
        rw [hb, hv] at h1 h2
        rw [hb] at h3
        dsimp only at h1 h2 h3
        have hp' := hp.within h3
        rcases h1 with ⟨a, rfl, rfl⟩ | ⟨⟨p, rfl⟩, ⟨p', rfl⟩⟩
        · obtain ⟨k1, k2, k3⟩ := ih a data' ρ' hp' h2
          exact ⟨by dsimp only; rw [k1], k2, h3.trans k3⟩
        · cases caught with
          | false => exact ⟨rfl, h2, h3⟩
          | true =>
            obtain ⟨k1, k2, k3⟩ := ih .panicked data' ρ' hp' h2
            exact ⟨by dsimp only [if_true]; rw [if_pos rfl, if_pos rfl, k1], k2, h3.trans k3⟩

section
open Unwind

/-- 300 is too large for 4 bits: in a debug build the assignment panics after the low bits have been written; the words around it and the 70-bit value
after it are untouched -/
example : through ⟨1, 4⟩ (InPlace.run .debug (.u64 300#64)) [9#64, 5#64, 7#64, 1#64, 8#64] = (.panic .debugAssert, [9#64, 12#64, 7#64, 1#64, 8#64]) ∧
    Apart ⟨1, 4⟩ ⟨2, 70⟩ ∧ InBounds [9#64, 5#64, 7#64, 1#64, 8#64] ⟨2, 70⟩ ∧
    Indexed.getRef [9#64, 12#64, 7#64, 1#64, 8#64] ⟨2, 70⟩ = ok ⟨70, [7#64, 1#64]⟩ ∧
    (⟨4, [5#64]⟩ : BitVecValue).assignFromU64 .release 300#64 = ok ⟨4, [12#64]⟩ := by
  refine ⟨by decide +kernel, .inl (by decide), by unfold InBounds; decide, by decide, by decide⟩

/-- a range that is not in the buffer -/
example : through ⟨3, 70⟩ (InPlace.run .release .ones) [9#64, 5#64, 7#64, 1#64] = (.panic .bounds, [9#64, 5#64, 7#64, 1#64]) ∧
    ¬ InBounds [9#64, 5#64, 7#64, 1#64] ⟨3, 70⟩ := by
  refine ⟨by decide +kernel, by unfold InBounds; decide⟩

/-- two variables of 4 and 70 bits with a gap of one word between them -/
abbrev twoPlaces : Fin 2 → BitVecValueIndex := fun k => if k = 0 then ⟨0, 4⟩ else ⟨2, 70⟩

/-- a client that catches the panic of an assignment, reads what is left, and goes on in a way that depends on it -/
abbrev curiousClient : Client 2 :=
  .ask (.change 0 (.u64 300#64)) true fun _ =>
  .ask (.read 0) false fun reply =>
  match reply with
  | .value v => .ask (.change 1 (.assign ⟨70, [v.words.headD 0#64, 1#64]⟩)) false fun _ => .ask (.map 1 1 ok) true fun _ => .stop
  | _ => .stop

example : Placed twoPlaces [5#64, 9#64, 7#64, 1#64] ∧
    Mirrors twoPlaces [5#64, 9#64, 7#64, 1#64] (fun k => if k = 0 then ⟨4, [5#64]⟩ else ⟨70, [7#64, 1#64]⟩) ∧
    curiousClient.run (Request.onBuffer twoPlaces .debug) [5#64, 9#64, 7#64, 1#64] =
      (some [.panicked, .value ⟨4, [12#64]⟩, .done, .panicked], [12#64, 9#64, 12#64, 1#64]) := by
  refine ⟨⟨?_, ?_⟩, ?_, rfl⟩
  · intro k; unfold InBounds pastEnd; revert k; decide
  · intro j k h; unfold Apart pastEnd; revert j k; decide
  · intro k; revert k; decide

end

end Baa

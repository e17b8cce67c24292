import Verif.Props.WordMemory
import Verif.Model.Indexed
import Verif.Spec.Calls

/-!
# C95: every result has the number of words its width needs

No hypothesis on the operands: they may have any width and any list of words (a deserialised value can be malformed, see
C84). Whatever an operation returns has one word for every 64 bits of its width, and an operation that works in place
changes neither the width nor the number of words. So a malformed value can never turn into another malformed value.
-/

namespace Baa
open Res

/-- If the computation returns, the list has length `n`. -/
def Keeps {α : Type} (r : Res (List α)) (n : Nat) : Prop := ∀ ws, r = ok ws → ws.length = n

theorem keeps_ok {α : Type} {ws : List α} {n : Nat} (h : ws.length = n) : Keeps (ok ws) n := by
  intro x hx; cases hx; exact h

theorem keeps_panic {α : Type} {p : Panic} {n : Nat} : Keeps (panic p : Res (List α)) n := by
  intro x hx; cases hx

theorem keeps_bind {α β : Type} {x : Res α} {f : α → Res (List β)} {n : Nat} (h : ∀ a, x = ok a → Keeps (f a) n) :
    Keeps (x >>= f) n := by
  cases x with
  | ok a => exact h a rfl
  | panic p => exact keeps_panic

theorem keeps_modifyRange {α : Type} {l : List α} {lo hi : Nat} {f : List α → Res (List α)}
    (h : ∀ s, Keeps (f s) s.length) : Keeps (modifyRange l lo hi f) l.length := by
  unfold modifyRange
  refine keeps_bind fun s hs => keeps_bind fun t ht => keeps_ok ?_
  unfold sliceR at hs
  split at hs
  · next hc =>
    cases hs
    have := h _ t ht
    simp at this
    simp [this]
    omega
  · cases hs

theorem keeps_setIdx {α : Type} {l : List α} {i : Nat} {x : α} : Keeps (setIdx l i x) l.length := by
  unfold setIdx
  split
  · exact keeps_ok (by simp)
  · exact keeps_panic

namespace Arith

theorem keeps_maskMsb {m : Mode} {d : List Word} {w : Nat} : Keeps (maskMsb m d w) d.length := by
  unfold maskMsb
  refine keeps_bind fun _ _ => keeps_bind fun mk _ => keeps_bind fun l hl => keeps_ok ?_
  have : d ≠ [] := by
    intro h; subst h; cases hl
  have := List.length_pos_iff.2 this
  simp
  omega

theorem length_bitwiseUnOp (op : Word → Word) (d s : List Word) : (bitwiseUnOp op d s).length = d.length := by
  induction d generalizing s with
  | nil => simp [bitwiseUnOp]
  | cons x d ih => cases s <;> simp [bitwiseUnOp, ih]

theorem length_bitwiseBinOp (op : Word → Word → Word) (d a b : List Word) :
    (bitwiseBinOp op d a b).length = d.length := by
  induction d generalizing a b with
  | nil => simp [bitwiseBinOp]
  | cons x d ih => cases a <;> cases b <;> simp [bitwiseBinOp, ih]

theorem length_addLoop (c : Nat) (d a b : List Word) : (addLoop c d a b).length = d.length := by
  induction d generalizing a b c with
  | nil => simp [addLoop]
  | cons x d ih => cases a <;> cases b <;> simp [addLoop, ih]

theorem length_subLoop (c : Nat) (d a b : List Word) : (subLoop c d a b).length = d.length := by
  induction d generalizing a b c with
  | nil => simp [subLoop]
  | cons x d ih => cases a <;> cases b <;> simp [subLoop, ih]

theorem length_negateLoop (c : Nat) (d : List Word) : (negateLoop c d).length = d.length := by
  induction d generalizing c with
  | nil => simp [negateLoop]
  | cons x d ih => simp [negateLoop, ih]

theorem length_clear (d : List Word) : (clear d).length = d.length := by simp [clear]

theorem length_set (d : List Word) : (set d).length = d.length := by simp [set]

theorem keeps_zeroExtend {d s : List Word} : Keeps (zeroExtend d s) d.length := by
  have := @keeps_modifyRange _ (assign d s) s.length (assign d s).length (fun s => ok (clear s))
    (fun s => keeps_ok (length_clear s))
  rw [show Keeps (zeroExtend d s) d.length = Keeps (modifyRange (assign d s) s.length (assign d s).length
    fun s => ok (clear s)) d.length from rfl]
  rw [assign_length] at this
  rw [assign_length]
  exact this

theorem keeps_signExtend {m : Mode} {d s : List Word} {sw dw : Nat} : Keeps (signExtend m d s sw dw) d.length := by
  unfold signExtend
  refine keeps_bind fun neg _ => ?_
  split
  · have key : Keeps (if sw % BITS > 0 then (do
        let mk ← mask (BITS - sw % BITS)
        let i ← subC m U64 s.length 1
        let x ← idx (assign d s) i
        setIdx (assign d s) i (x ||| (mk <<< (sw % BITS))))
      else ok (assign d s)) d.length := by
      split
      · refine keeps_bind fun _ _ => keeps_bind fun _ _ => keeps_bind fun _ _ => ?_
        have := @keeps_setIdx Word (assign d s)
        rw [assign_length] at this
        exact this
      · exact keeps_ok (assign_length d s)
    refine keeps_bind fun d1 h1 => keeps_bind fun d2 h2 => ?_
    have e1 := key d1 h1
    have e2 := keeps_modifyRange (fun s => keeps_ok (length_set s)) d2 h2
    have := @keeps_maskMsb m d2 dw
    rw [e2, e1] at this
    exact this
  · have := @keeps_modifyRange _ (assign d s) s.length (assign d s).length (fun s => ok (clear s))
      (fun s => keeps_ok (length_clear s))
    rw [assign_length] at this
    rw [assign_length]
    exact this

theorem keeps_slice {m : Mode} {d s : List Word} {hi lo : Nat} : Keeps (slice m d s hi lo) d.length := by
  unfold slice
  refine keeps_bind fun src _ => ?_
  dsimp only
  refine keeps_bind fun d1 h1 => keeps_bind fun _ _ => keeps_bind fun rw' _ => ?_
  have e1 : d1.length = d.length := by
    split at h1
    · cases h1; exact assign_length _ _
    · obtain ⟨_, _, h1⟩ := of_bind_ok h1
      obtain ⟨_, _, h1⟩ := of_bind_ok h1
      cases h1
      exact sliceLoop_length _ _ _ _ _ _
  have := @keeps_maskMsb m d1 rw'
  rw [e1] at this
  exact this

theorem keeps_concat {m : Mode} {d a b : List Word} {lw : Nat} : Keeps (concat m d a b lw) d.length := by
  unfold concat
  dsimp only
  split
  · refine keeps_ok ?_
    simp [assign_length]
    omega
  · refine keeps_bind fun _ _ => keeps_bind fun i _ => keeps_bind fun _ _ => keeps_ok ?_
    simp [assign_length, concatLoop_length]
    omega

theorem keeps_not {m : Mode} {d s : List Word} {w : Nat} : Keeps (not m d s w) d.length := by
  have := @keeps_maskMsb m (bitwiseUnOp (fun e => ~~~e) d s) w
  rw [length_bitwiseUnOp] at this
  exact this

theorem keeps_add {m : Mode} {d a b : List Word} {w : Nat} : Keeps (add m d a b w) d.length := by
  have := @keeps_maskMsb m (addLoop 0 d a b) w
  rw [length_addLoop] at this
  exact this

theorem keeps_sub {m : Mode} {d a b : List Word} {w : Nat} : Keeps (sub m d a b w) d.length := by
  have := @keeps_maskMsb m (subLoop 1 d a b) w
  rw [length_subLoop] at this
  exact this

theorem keeps_mul {m : Mode} {d a b : List Word} {w : Nat} : Keeps (mul m d a b w) d.length := by
  unfold mul
  split
  · exact keeps_bind fun _ _ => keeps_bind fun _ _ => keeps_bind fun _ _ => keeps_setIdx
  · exact keeps_panic

theorem keeps_shiftRight {m : Mode} {d a b : List Word} {w : Nat} {r : List Word × Option Nat}
    (h : shiftRight m d a b w = ok r) : r.1.length = d.length := by
  unfold shiftRight at h
  dsimp only at h
  obtain ⟨o, _, h⟩ := of_bind_ok h
  cases o with
  | none => cases h; exact length_clear d
  | some n =>
    dsimp only at h
    obtain ⟨_, _, h⟩ := of_bind_ok h
    obtain ⟨_, _, h⟩ := of_bind_ok h
    obtain ⟨_, _, h⟩ := of_bind_ok h
    obtain ⟨x, hx, h⟩ := of_bind_ok h
    cases h
    have := keeps_modifyRange (fun s => keeps_slice) x hx
    rw [length_clear] at this
    exact this

theorem keeps_arithmeticShiftRight {m : Mode} {d a b : List Word} {w : Nat} :
    Keeps (arithmeticShiftRight m d a b w) d.length := by
  unfold arithmeticShiftRight
  refine keeps_bind fun p hp => ?_
  have e := keeps_shiftRight hp
  obtain ⟨d1, amt⟩ := p
  dsimp only at e ⊢
  refine keeps_bind fun neg _ => ?_
  split
  · cases amt with
    | none =>
      have := @keeps_maskMsb m (set d1) w
      rw [length_set, e] at this
      exact this
    | some n =>
      dsimp only
      split
      · refine keeps_bind fun _ _ => keeps_bind fun r1 _ => ?_
        have key : Keeps (if r1 % BITS < BITS - 1 then (do
            let mk ← mask (BITS - (r1 % BITS + 1))
            let x ← idx d1 (r1 / BITS)
            setIdx d1 (r1 / BITS) (x ||| (mk <<< (r1 % BITS + 1))))
          else ok d1) d1.length := by
          split
          · exact keeps_bind fun _ _ => keeps_bind fun _ _ => keeps_setIdx
          · exact keeps_ok rfl
        refine keeps_bind fun d2 h2 => keeps_bind fun d3 h3 => ?_
        have e2 := key d2 h2
        have e3 := keeps_modifyRange (fun s => keeps_ok (length_set s)) d3 h3
        have := @keeps_maskMsb m d3 w
        rw [e3, e2, e] at this
        exact this
      · exact keeps_ok e
  · exact keeps_ok e

theorem keeps_shiftLeft {m : Mode} {d a b : List Word} {w : Nat} : Keeps (shiftLeft m d a b w) d.length := by
  unfold shiftLeft
  refine keeps_bind fun o _ => ?_
  cases o with
  | none => exact keeps_ok (length_clear d)
  | some n =>
    dsimp only
    split
    · have := @keeps_maskMsb m (shiftLeftLoop (n % BITS) (BITS - n % BITS) 0#64 d
        (List.replicate (n / BITS) 0#64 ++ a)) w
      rw [shiftLeftLoop_length] at this
      exact this
    · exact keeps_ok (shiftLeftLoop_length _ _ _ _ _)

theorem keeps_negateInPlace {m : Mode} {d : List Word} {w : Nat} : Keeps (negateInPlace m d w) d.length := by
  have := @keeps_maskMsb m (negateLoop 1 d) w
  rw [length_negateLoop] at this
  exact this

theorem keeps_negate {m : Mode} {d b : List Word} {w : Nat} : Keeps (negate m d b w) d.length := by
  unfold negate
  split
  · next h => rw [h]; exact keeps_negateInPlace
  · exact keeps_panic

theorem keeps_setBit {d : List Word} {p : Nat} : Keeps (setBit d p) d.length :=
  keeps_bind fun _ _ => keeps_setIdx

theorem keeps_clearBit {d : List Word} {p : Nat} : Keeps (clearBit d p) d.length :=
  keeps_bind fun _ _ => keeps_setIdx

end Arith

namespace Strings

theorem keeps_parseLoop {m : Mode} {bits per : Nat} {dv : Byte → Option Nat} {n : Nat} (cs : List Byte) :
    ∀ (ii : Nat) (out : List Word) (o : Nat) (w : Word) r, parseLoop m bits per dv n ii out o w cs = ok r →
      r.1.length = out.length := by
  induction cs with
  | nil => intro ii out o w r h; cases h; rfl
  | cons c cs ih =>
    intro ii out o w r h
    unfold parseLoop at h
    obtain ⟨rest, _, h⟩ := of_bind_ok h
    obtain ⟨rev, _, h⟩ := of_bind_ok h
    obtain ⟨p, hp, h⟩ := of_bind_ok h
    have e : p.1.length = out.length := by
      split at hp
      · obtain ⟨k, _, hp⟩ := of_bind_ok hp
        split at hp
        · obtain ⟨x, hx, hp⟩ := of_bind_ok hp
          obtain ⟨_, _, hp⟩ := of_bind_ok hp
          cases hp
          exact keeps_setIdx x hx
        · cases hp; rfl
      · cases hp; rfl
    obtain ⟨p1, p2, p3⟩ := p
    dsimp only at e h
    split at h
    · cases h; exact e
    · rw [ih _ _ _ _ _ h, e]

theorem keeps_parseBase16 {m : Mode} {ds : List Byte} {out : List Word} {r : List Word × Except IntErrorKind Unit}
    (h : parseBase16 m ds out = ok r) : r.1.length = out.length := by
  unfold parseBase16 at h
  dsimp only at h
  obtain ⟨_, _, h⟩ := of_bind_ok h
  obtain ⟨_, _, h⟩ := of_bind_ok h
  obtain ⟨p, hp, h⟩ := of_bind_ok h
  have e := keeps_parseLoop _ _ _ _ _ _ hp
  obtain ⟨o, x⟩ := p
  cases x with
  | error e => cases h; exact e
  | ok x =>
    obtain ⟨i, w⟩ := x
    dsimp only at h e
    obtain ⟨_, _, h⟩ := of_bind_ok h
    obtain ⟨y, hy, h⟩ := of_bind_ok h
    obtain ⟨_, _, h⟩ := of_bind_ok h
    cases h
    rw [keeps_setIdx y hy, e]

theorem keeps_parseBase2 {m : Mode} {ds : List Byte} {out : List Word} {w : Nat}
    {r : List Word × Except IntErrorKind Unit} (h : parseBase2 m ds out w = ok r) : r.1.length = out.length := by
  unfold parseBase2 at h
  dsimp only at h
  split at h
  · cases h; rfl
  · obtain ⟨_, _, h⟩ := of_bind_ok h
    obtain ⟨p, hp, h⟩ := of_bind_ok h
    have e := keeps_parseLoop _ _ _ _ _ _ hp
    obtain ⟨o, x⟩ := p
    cases x with
    | error e => cases h; exact e
    | ok x =>
      obtain ⟨i, w⟩ := x
      dsimp only at h e
      obtain ⟨_, _, h⟩ := of_bind_ok h
      obtain ⟨y, hy, h⟩ := of_bind_ok h
      cases h
      rw [keeps_setIdx y hy, e]

theorem keeps_parseMagnitude {m : Mode} {value : List Byte} {radix : Nat} {out : List Word} {w : Nat}
    {r : List Word × Except IntErrorKind Unit} (h : parseMagnitude m value radix out w = ok r) :
    r.1.length = out.length := by
  unfold parseMagnitude at h
  split at h
  · obtain ⟨_, _, h⟩ := of_bind_ok h
    obtain ⟨x, _, h⟩ := of_bind_ok h
    cases x <;> (cases h; rfl)
  · obtain ⟨_, _, h⟩ := of_bind_ok h
    obtain ⟨x, _, h⟩ := of_bind_ok h
    cases x <;> (cases h; rfl)
  · obtain ⟨_, _, h⟩ := of_bind_ok h
    split at h
    · cases h; rfl
    · dsimp only at h
      split at h
      · exact keeps_parseBase2 h
      · split at h
        · cases h
        · split at h
          · exact keeps_parseBase16 h
          · cases h

theorem keeps_fromStrRadix {m : Mode} {value : List Byte} {radix : Nat} {out : List Word} {w : Nat}
    {r : List Word × Except IntErrorKind Unit} (h : fromStrRadix m value radix out w = ok r) :
    r.1.length = out.length := by
  unfold fromStrRadix at h
  split at h
  · cases h; rfl
  · dsimp only at h
    generalize (value.head? == some (ch '-')) = neg at h
    generalize (if neg = true then value.drop 1 else value) = digits at h
    split at h
    · split at h <;> (cases h; rfl)
    · split at h
      · cases h; rfl
      · obtain ⟨p, hp, h⟩ := of_bind_ok h
        have e := keeps_parseMagnitude hp
        obtain ⟨o, x⟩ := p
        cases x with
        | error e => cases h; exact e
        | ok x =>
          dsimp only at h e
          split at h
          · obtain ⟨y, hy, h⟩ := of_bind_ok h
            cases h
            rw [Arith.keeps_negateInPlace y hy, e]
          · cases h; exact e

end Strings

theorem Bytes.keeps_fromLoop (bs : List Byte) : ∀ (ii : Nat) (out : List Word),
    Keeps (Bytes.fromLoop ii bs out) out.length := by
  induction bs with
  | nil => intro ii out; exact keeps_ok rfl
  | cons b bs ih =>
    intro ii out
    unfold Bytes.fromLoop
    refine keeps_bind fun _ _ => keeps_bind fun o ho => ?_
    have := ih (ii + 1) o
    rw [keeps_setIdx o ho] at this
    exact this

theorem Bytes.keeps_fromBytesLe {m : Mode} {bs : List Byte} {w : Nat} {out : List Word} :
    Keeps (Bytes.fromBytesLe m bs w out) out.length := by
  unfold Bytes.fromBytesLe
  refine keeps_bind fun _ _ => ?_
  split
  · exact keeps_ok rfl
  · refine keeps_bind fun o ho => ?_
    have e := Bytes.keeps_fromLoop bs 0 _ o ho
    have := @Arith.keeps_maskMsb m o w
    rw [e, Arith.length_clear] at this
    exact this

theorem Big.keeps_iterToWord {m : Mode} {it : List Word} {w : Nat} {out : List Word} :
    Keeps (Big.iterToWord m it w out) out.length := by
  unfold Big.iterToWord
  split
  · exact keeps_ok rfl
  · refine keeps_bind fun _ _ => ?_
    dsimp only
    split
    · exact keeps_panic
    · split
      · have := @Arith.keeps_maskMsb m (Arith.assign out it) w
        rw [Arith.assign_length] at this
        exact this
      · refine keeps_ok ?_
        simp [Arith.assign_length, Arith.length_clear]
        omega

theorem Big.keeps_fromBigInt {m : Mode} {v : Int} {w : Nat} {out : List Word} :
    Keeps (Big.fromBigInt m v w out) out.length := by
  unfold Big.fromBigInt
  refine keeps_bind fun o ho => ?_
  have e := Big.keeps_iterToWord o ho
  split
  · have := @Arith.keeps_negate m o o w
    rw [e] at this
    exact this
  · exact keeps_ok e

/-! ## Functions that build a value -/

theorem altered_maskMsb {m : Mode} {v r : BitVecValue} (h : BitVecValue.maskMsb m v = ok r) :
    r.width = v.width ∧ r.words.length = v.words.length := by
  obtain ⟨ws, hw, h⟩ := of_bind_ok h
  cases h
  exact ⟨rfl, Arith.keeps_maskMsb ws hw⟩

theorem altered_u64 {m : Mode} {v r : BitVecValue} {x : Word} (h : BitVecValue.assignFromU64 m v x = ok r) :
    r.width = v.width ∧ r.words.length = v.words.length := by
  unfold BitVecValue.assignFromU64 at h
  obtain ⟨ws, hw, h⟩ := of_bind_ok h
  obtain ⟨s, hs, h⟩ := of_bind_ok h
  obtain ⟨_, _, h⟩ := of_bind_ok h
  obtain ⟨_, _, h⟩ := of_bind_ok h
  cases h
  have e1 := keeps_setIdx ws hw
  have e2 := altered_maskMsb hs
  simp only [BitVecValue.clear, List.length_map] at e1 e2
  exact ⟨e2.1, by rw [e2.2, e1]⟩

theorem altered_i64 {m : Mode} {v r : BitVecValue} {x : Word} (h : BitVecValue.assignFromI64 m v x = ok r) :
    r.width = v.width ∧ r.words.length = v.words.length := by
  unfold BitVecValue.assignFromI64 at h
  dsimp only at h
  obtain ⟨s, hs, h⟩ := of_bind_ok h
  obtain ⟨_, _, h⟩ := of_bind_ok h
  cases h
  split at hs
  · obtain ⟨_, _, hs⟩ := of_bind_ok hs
    obtain ⟨ws, hw, hs⟩ := of_bind_ok hs
    cases hs
    have e1 := keeps_setIdx ws hw
    simp only [BitVecValue.clear, List.length_map] at e1
    exact ⟨rfl, e1⟩
  · obtain ⟨ws, hw, hs⟩ := of_bind_ok hs
    cases hs
    have e1 := Arith.keeps_signExtend ws hw
    simp only [BitVecValue.clear, List.length_map] at e1
    exact ⟨rfl, e1⟩

theorem altered_parse {m : Mode} {v r : BitVecValue} {s : List Byte} {radix : Nat} {e : Except IntErrorKind Unit}
    (h : BitVecValue.assignFromStrRadix m v s radix = ok (r, e)) :
    r.width = v.width ∧ r.words.length = v.words.length := by
  obtain ⟨p, hp, h⟩ := of_bind_ok h
  have := Strings.keeps_fromStrRadix hp
  cases h
  exact ⟨rfl, this⟩

/-- An operation that works in place changes neither the width nor the number of words of its target, whatever the target
and the other operands are. -/
theorem C95_in_place {m : Mode} {v r : BitVecValue} (h : Altered m v r) :
    r.width = v.width ∧ r.words.length = v.words.length := by
  cases h with
  | assign h =>
    obtain ⟨_, _, h⟩ := of_bind_ok h
    obtain ⟨_, _, h⟩ := of_bind_ok h
    split at h
    · next e => cases h; exact ⟨rfl, e.symm⟩
    · cases h
  | clear => exact ⟨rfl, by simp [BitVecValue.clear]⟩
  | ones h =>
    have := altered_maskMsb h
    simp only [List.length_map] at this
    exact this
  | u64 h => exact altered_u64 h
  | i64 h => exact altered_i64 h
  | parse h => exact altered_parse h
  | setBit h =>
    obtain ⟨ws, hw, h⟩ := of_bind_ok h
    cases h
    exact ⟨rfl, Arith.keeps_setBit ws hw⟩
  | clearBit h =>
    obtain ⟨ws, hw, h⟩ := of_bind_ok h
    cases h
    exact ⟨rfl, Arith.keeps_clearBit ws hw⟩
  | mask h => exact altered_maskMsb h

example : Altered .release ⟨8, [1#64, 2#64, 3#64]⟩ ⟨8, [7#64, 0#64, 0#64]⟩ :=
  .u64 (x := 7#64) (by decide +kernel)

theorem sized_zero (w : Nat) : Sized (BitVecValue.zero w) := length_valueVecZeros w

theorem sized_of_keeps {w : Nat} {r : BitVecValue} {x : Res (List Word)} (h : (x >>= fun ws => ok (⟨w, ws⟩ : BitVecValue)) = ok r)
    (k : Keeps x ((w + 63) / 64)) : Sized r ∧ r.width = w := by
  obtain ⟨ws, hw, h⟩ := of_bind_ok h
  cases h
  exact ⟨k ws hw, rfl⟩

theorem sized_of_altered {w : Nat} {r : BitVecValue}
    (h : r.width = (BitVecValue.zero w).width ∧ r.words.length = (BitVecValue.zero w).words.length) :
    Sized r ∧ r.width = w := by
  have := sized_zero w
  unfold Sized at this ⊢
  rw [h.1, h.2]
  exact ⟨this, rfl⟩

theorem keeps_ite {α : Type} {c : Prop} [Decidable c] {x y : Res (List α)} {n : Nat} (h1 : Keeps x n) (h2 : Keeps y n) :
    Keeps (if c then x else y) n := by
  split
  · exact h1
  · exact h2

theorem keeps_zeros {w : Nat} {x : Res (List Word)} (h : Keeps x (valueVecZeros w).length) : Keeps x ((w + 63) / 64) := by
  rw [length_valueVecZeros] at h
  exact h

theorem sized_arithBin {m : Mode} {f : List Word → List Word → List Word → Nat → Res (List Word)} {a b r : BitVecValue}
    (hf : ∀ d x y w, Keeps (f d x y w) d.length) (h : BitVecValue.arithBin m f a b = ok r) :
    Sized r ∧ r.width = a.width := by
  obtain ⟨_, _, h⟩ := of_bind_ok h
  obtain ⟨_, _, h⟩ := of_bind_ok h
  exact sized_of_keeps h (keeps_zeros (keeps_ite
    (keeps_modifyRange fun _ => keeps_bind fun _ _ => keeps_bind fun _ _ => hf _ _ _ _) (hf _ _ _ _)))

theorem sized_bitArithBin {m : Mode} {f : List Word → List Word → List Word → List Word} {a b r : BitVecValue}
    (hf : ∀ d x y, (f d x y).length = d.length) (h : BitVecValue.bitArithBin m f a b = ok r) :
    Sized r ∧ r.width = a.width := by
  obtain ⟨_, _, h⟩ := of_bind_ok h
  obtain ⟨_, _, h⟩ := of_bind_ok h
  exact sized_of_keeps h (keeps_zeros (keeps_ite
    (keeps_modifyRange fun _ => keeps_bind fun _ _ => keeps_bind fun _ _ => keeps_ok (hf _ _ _)) (keeps_ok (hf _ _ _))))

/-- The two-operand operations return a value of the width of the left operand. -/
theorem C95_binary {m : Mode} {a b r : BitVecValue}
    (h : BitVecValue.add m a b = ok r ∨ BitVecValue.sub m a b = ok r ∨ BitVecValue.mul m a b = ok r ∨
      BitVecValue.and m a b = ok r ∨ BitVecValue.or m a b = ok r ∨ BitVecValue.xor m a b = ok r ∨
      BitVecValue.shiftLeft m a b = ok r ∨ BitVecValue.shiftRight m a b = ok r ∨
      BitVecValue.arithmeticShiftRight m a b = ok r) : Sized r ∧ r.width = a.width := by
  rcases h with h | h | h | h | h | h | h | h | h
  · exact sized_arithBin (fun _ _ _ _ => Arith.keeps_add) h
  · exact sized_arithBin (fun _ _ _ _ => Arith.keeps_sub) h
  · exact sized_arithBin (fun _ _ _ _ => Arith.keeps_mul) h
  · exact sized_bitArithBin (fun _ _ _ => Arith.length_bitwiseBinOp _ _ _ _) h
  · exact sized_bitArithBin (fun _ _ _ => Arith.length_bitwiseBinOp _ _ _ _) h
  · exact sized_bitArithBin (fun _ _ _ => Arith.length_bitwiseBinOp _ _ _ _) h
  · exact sized_arithBin (fun _ _ _ _ => Arith.keeps_shiftLeft) h
  · refine sized_arithBin (fun d x y w => ?_) h
    intro ws hw
    obtain ⟨p, hp, hw⟩ := of_bind_ok hw
    cases hw
    exact Arith.keeps_shiftRight hp
  · exact sized_arithBin (fun _ _ _ _ => Arith.keeps_arithmeticShiftRight) h

example : BitVecValue.add .release ⟨70, [1#64, 2#64, 3#64, 4#64]⟩ ⟨3, [9#64]⟩ = ok ⟨70, [10#64, 0#64]⟩ := by
  decide +kernel

theorem addC_eq {m : Mode} {M a b n : Nat} (h : addC m M a b = ok n) : n = (a + b) % M := by
  unfold addC at h
  split at h
  · next hl => cases h; exact (Nat.mod_eq_of_lt hl).symm
  · cases m <;> cases h
    rfl

theorem subC_eq {m : Mode} {M a b n : Nat} (ha : a < M) (h : subC m M a b = ok n) : n = (M + a - b) % M := by
  unfold subC at h
  split at h
  · next hl =>
    cases h
    rw [show M + a - b = (a - b) + M from by omega, Nat.add_mod_right, Nat.mod_eq_of_lt (by omega)]
  · cases m <;> cases h
    rfl

/-- The other operations on bit vectors: width and number of words of the result. Sums of widths are 32-bit sums. -/
theorem C95_shapes {m : Mode} {a b r : BitVecValue} {n msb lsb : Nat} :
    (BitVecValue.not m a = ok r → Sized r ∧ r.width = a.width) ∧
    (BitVecValue.negate m a = ok r → Sized r ∧ r.width = a.width) ∧
    (BitVecValue.concat m a b = ok r → Sized r ∧ r.width = (a.width + b.width) % 2 ^ 32) ∧
    (BitVecValue.zeroExtend m a n = ok r → Sized r ∧ r.width = (a.width + n) % 2 ^ 32) ∧
    (BitVecValue.signExtend m a n = ok r → Sized r ∧ r.width = (a.width + n) % 2 ^ 32) ∧
    (BitVecValue.slice m a msb lsb = ok r → msb < 2 ^ 32 →
      Sized r ∧ r.width = ((2 ^ 32 + msb - lsb) % 2 ^ 32 + 1) % 2 ^ 32) := by
  refine ⟨fun h => ?_, fun h => ?_, fun h => ?_, fun h => ?_, fun h => ?_, fun h hl => ?_⟩
  · exact sized_of_keeps h (keeps_zeros (keeps_ite (keeps_modifyRange fun _ => keeps_bind fun _ _ => Arith.keeps_not)
      Arith.keeps_not))
  · exact sized_of_keeps h (keeps_zeros (keeps_ite (keeps_modifyRange fun _ => keeps_bind fun _ _ => Arith.keeps_negate)
      Arith.keeps_negate))
  · obtain ⟨w, hw, h⟩ := of_bind_ok h
    have e := sized_of_keeps h (keeps_zeros (keeps_ite
      (keeps_modifyRange fun _ => keeps_bind fun _ _ => keeps_bind fun _ _ => Arith.keeps_concat) Arith.keeps_concat))
    exact ⟨e.1, by rw [e.2]; exact addC_eq hw⟩
  · obtain ⟨w, hw, h⟩ := of_bind_ok h
    have e := sized_of_keeps h (keeps_zeros (keeps_ite
      (keeps_modifyRange fun _ => keeps_bind fun _ _ => Arith.keeps_zeroExtend) Arith.keeps_zeroExtend))
    exact ⟨e.1, by rw [e.2]; exact addC_eq hw⟩
  · obtain ⟨w, hw, h⟩ := of_bind_ok h
    have e := sized_of_keeps h (keeps_zeros (keeps_ite
      (keeps_modifyRange fun _ => keeps_bind fun _ _ => Arith.keeps_signExtend) Arith.keeps_signExtend))
    exact ⟨e.1, by rw [e.2]; exact addC_eq hw⟩
  · obtain ⟨_, _, h⟩ := of_bind_ok h
    obtain ⟨_, _, h⟩ := of_bind_ok h
    obtain ⟨d, hd, h⟩ := of_bind_ok h
    obtain ⟨w, hw, h⟩ := of_bind_ok h
    have e := sized_of_keeps h (keeps_zeros (keeps_ite (keeps_modifyRange fun _ => Arith.keeps_slice) Arith.keeps_slice))
    refine ⟨e.1, ?_⟩
    rw [e.2, addC_eq hw, subC_eq hl hd]

example : BitVecValue.slice .release ⟨8, [0xabcd#64, 7#64]⟩ 71 4 = ok ⟨68, [0x7000000000000abc#64, 0#64]⟩ ∧
    BitVecValue.concat .debug ⟨60, [1#64, 5#64]⟩ ⟨60, [2#64]⟩ = ok ⟨120, [0x1000000000000002#64, 0x5000000000000000#64]⟩ := by
  decide +kernel

theorem sized_sliceR {data ws : List Word} {i : BitVecValueIndex} (h : sliceR data i.toRange.1 i.toRange.2 = ok ws) :
    Sized ⟨i.width, ws⟩ := by
  unfold sliceR at h
  split at h
  · next hc =>
    cases h
    simp only [BitVecValueIndex.toRange, BitVecValueIndex.words, divCeil, Sized, List.length_take, List.length_drop] at hc ⊢
    change i.index ≤ i.index + (i.width + 64 - 1) / 64 ∧ i.index + (i.width + 64 - 1) / 64 ≤ data.length at hc
    change min (i.index + (i.width + 64 - 1) / 64 - i.index) (data.length - i.index) = _
    omega
  · cases h

theorem sized_parse {m : Mode} {s : List Byte} {radix w : Nat} {r : BitVecValue}
    (h : BitVecValue.fromStrRadix m s radix w = ok (.ok r)) : Sized r := by
  obtain ⟨p, hp, h⟩ := of_bind_ok h
  obtain ⟨o, e⟩ := p
  have := altered_parse hp
  cases e with
  | error e => cases h
  | ok u => cases h; exact (sized_of_altered this).1

/-- Every value a function of the library returns has exactly the number of words its width needs, whatever the operands
are. -/
theorem C95_built {m : Mode} {r : BitVecValue} (h : Built m r) : Sized r := by
  cases h with
  | add h => exact (C95_binary (.inl h)).1
  | sub h => exact (C95_binary (.inr (.inl h))).1
  | mul h => exact (C95_binary (.inr (.inr (.inl h)))).1
  | and h => exact (C95_binary (.inr (.inr (.inr (.inl h))))).1
  | or h => exact (C95_binary (.inr (.inr (.inr (.inr (.inl h)))))).1
  | xor h => exact (C95_binary (.inr (.inr (.inr (.inr (.inr (.inl h))))))).1
  | shl h => exact (C95_binary (.inr (.inr (.inr (.inr (.inr (.inr (.inl h)))))))).1
  | shr h => exact (C95_binary (.inr (.inr (.inr (.inr (.inr (.inr (.inr (.inl h))))))))).1
  | ashr h => exact (C95_binary (.inr (.inr (.inr (.inr (.inr (.inr (.inr (.inr h))))))))).1
  | not h => exact ((C95_shapes (b := r) (n := 0) (msb := 0) (lsb := 0)).1 h).1
  | negate h => exact ((C95_shapes (b := r) (n := 0) (msb := 0) (lsb := 0)).2.1 h).1
  | slice h =>
    obtain ⟨_, _, h⟩ := of_bind_ok h
    obtain ⟨_, _, h⟩ := of_bind_ok h
    obtain ⟨d, hd, h⟩ := of_bind_ok h
    obtain ⟨w, hw, h⟩ := of_bind_ok h
    exact (sized_of_keeps h (keeps_zeros (keeps_ite (keeps_modifyRange fun _ => Arith.keeps_slice) Arith.keeps_slice))).1
  | concat h => exact ((C95_shapes (n := 0) (msb := 0) (lsb := 0)).2.2.1 h).1
  | zext h => exact ((C95_shapes (b := r) (msb := 0) (lsb := 0)).2.2.2.1 h).1
  | sext h => exact ((C95_shapes (b := r) (msb := 0) (lsb := 0)).2.2.2.2.1 h).1
  | zero => exact sized_zero _
  | ones h => exact (sized_of_altered (C95_in_place (.ones h))).1
  | fromU64 h => exact (sized_of_altered (altered_u64 h)).1
  | fromI64 h => exact (sized_of_altered (altered_i64 h)).1
  | @fromBool x r h =>
    cases x
    · exact (sized_of_altered (altered_u64 h)).1
    · exact (sized_of_altered (altered_u64 h)).1
  | fromBytes h => exact (sized_of_keeps h (keeps_zeros Bytes.keeps_fromBytesLe)).1
  | fromBigInt h => exact (sized_of_keeps h (keeps_zeros Big.keeps_fromBigInt)).1
  | fromBigUint h => exact (sized_of_keeps h (keeps_zeros Big.keeps_iterToWord)).1
  | ofBigInt h =>
    obtain ⟨_, _, h⟩ := of_bind_ok h
    exact (sized_of_keeps h (keeps_zeros Big.keeps_fromBigInt)).1
  | ofBigUint h =>
    obtain ⟨_, _, h⟩ := of_bind_ok h
    exact (sized_of_keeps h (keeps_zeros Big.keeps_iterToWord)).1
  | parse h => exact sized_parse h
  | bitStr h =>
    obtain ⟨_, _, h⟩ := of_bind_ok h
    exact sized_parse h
  | hexStr h =>
    obtain ⟨_, _, h⟩ := of_bind_ok h
    exact sized_parse h
  | @denseSelect a i r hd h =>
    obtain ⟨_, _, h⟩ := of_bind_ok h
    obtain ⟨_, _, h⟩ := of_bind_ok h
    unfold DenseArrayValue.selectUsize at h
    split at h
    · obtain ⟨x, _, h⟩ := of_bind_ok h
      cases x
      · exact (sized_of_altered (altered_u64 h)).1
      · exact (sized_of_altered (altered_u64 h)).1
    · obtain ⟨x, _, h⟩ := of_bind_ok h
      exact (sized_of_altered (altered_u64 h)).1
    · obtain ⟨x, _, h⟩ := of_bind_ok h
      exact (sized_of_altered (altered_u64 h)).1
    · obtain ⟨s, hs, h⟩ := of_bind_ok h
      obtain ⟨e, he, h⟩ := of_bind_ok h
      obtain ⟨ws, hw, h⟩ := of_bind_ok h
      cases h
      have hs' : s < 18446744073709551616 := by
        unfold mulC at hs
        split at hs
        · next hl => cases hs; exact hl
        · cases m <;> cases hs
          exact Nat.mod_lt _ (by decide)
      have he' := addC_eq he
      unfold sliceR at hw
      split at hw
      · next hc =>
        cases hw
        simp only [DenseArrayValue.wordsPerElement, divCeil, Sized, List.length_take, List.length_drop] at he' hc ⊢
        have hd' : a.dataWidth < 4294967296 := hd
        change e = (s + (a.dataWidth + 64 - 1) / 64) % 18446744073709551616 at he'
        omega
      · cases hw
  | getRef h =>
    obtain ⟨ws, hw, h⟩ := of_bind_ok h
    cases h
    exact sized_sliceR hw
  | getRefA h =>
    obtain ⟨ws, hw, h⟩ := of_bind_ok h
    obtain ⟨ws2, hw2, h⟩ := of_bind_ok h
    cases h
    exact sized_sliceR hw
  | getRefB h =>
    obtain ⟨ws, hw, h⟩ := of_bind_ok h
    obtain ⟨ws2, hw2, h⟩ := of_bind_ok h
    cases h
    exact sized_sliceR hw2
  | getMutRef h =>
    obtain ⟨ws, hw, h⟩ := of_bind_ok h
    cases h
    exact sized_sliceR hw

example : Built .debug ⟨16, [0xff80#64]⟩ := .sext (a := ⟨8, [0x80#64, 5#64]⟩) (n := 8) (by decide +kernel)

/-! ## Buffers and arrays -/

/-- Writing through a reference into a word buffer does not change the length of the buffer. -/
theorem C95_buffer {m : Mode} {data : List Word} {i j : BitVecValueIndex} {v : BitVecValue} {data' : List Word} :
    (Indexed.assignAt m data i v = ok data' → data'.length = data.length) ∧
    (Indexed.assignFrom m data i j = ok data' → data'.length = data.length) := by
  have back : ∀ {r x : BitVecValue}, i.toRange.2 ≤ data.length → r.words.length = x.words.length → Sized x →
      x.width = i.width → (Indexed.writeBack data i.index r.words).length = data.length := by
    intro r x hl hr hx hw
    unfold Sized at hx
    rw [hw] at hx
    simp only [BitVecValueIndex.toRange, BitVecValueIndex.words, divCeil] at hl
    change i.index + (i.width + 64 - 1) / 64 ≤ data.length at hl
    simp [Indexed.writeBack]
    omega
  constructor
  · intro h
    obtain ⟨x, hx, h⟩ := of_bind_ok h
    obtain ⟨y, hy, h⟩ := of_bind_ok h
    cases h
    have e := (C95_in_place (.assign hy)).2
    obtain ⟨ws, hs, hx⟩ := of_bind_ok hx
    cases hx
    have hl : i.toRange.2 ≤ data.length := by
      unfold sliceR at hs
      split at hs
      · next hc => exact hc.2
      · cases hs
    exact back hl e (sized_sliceR hs) rfl
  · intro h
    obtain ⟨⟨x, y⟩, hx, h⟩ := of_bind_ok h
    obtain ⟨z, hz, h⟩ := of_bind_ok h
    cases h
    have e := (C95_in_place (.assign hz)).2
    obtain ⟨⟨wa, wb⟩, hs, hx⟩ := of_bind_ok hx
    cases hx
    obtain ⟨⟨b1, a1⟩, hs1, hs⟩ := of_bind_ok hs
    obtain ⟨⟨b2, a2⟩, hs2, hs⟩ := of_bind_ok hs
    obtain ⟨_, _, hs⟩ := of_bind_ok hs
    cases hs
    unfold Indexed.splitAt at hs1 hs2
    split at hs1
    · next h1 =>
      cases hs1
      split at hs2
      · next h2 =>
        cases hs2
        simp only [BitVecValueIndex.toRange, BitVecValueIndex.words, divCeil, List.length_drop] at h1 h2
        change i.index + (i.width + 64 - 1) / 64 - i.index ≤ data.length - i.index at h2
        refine back ?_ e ?_ rfl
        · simp only [BitVecValueIndex.toRange, BitVecValueIndex.words, divCeil]
          change i.index + (i.width + 64 - 1) / 64 ≤ data.length
          omega
        · simp only [Sized, BitVecValueIndex.toRange, BitVecValueIndex.words, divCeil, List.length_take, List.length_drop]
          change min (i.index + (i.width + 64 - 1) / 64 - i.index) (data.length - i.index) = _
          omega
      · cases hs2
    · cases hs1

/-- Storing into a dense array and clearing it change neither its widths nor the amount of storage nor its representation,
whatever the operands and the previous contents are. -/
theorem C95_dense {m : Mode} {a : DenseArrayValue} {i v : BitVecValue} :
    (∀ a', DenseArrayValue.store m a i v = ok a' →
      a'.indexWidth = a.indexWidth ∧ a'.dataWidth = a.dataWidth ∧ a'.data.storage = a.data.storage) ∧
    (a.clear.indexWidth = a.indexWidth ∧ a.clear.dataWidth = a.dataWidth ∧ a.clear.data.storage = a.data.storage) := by
  constructor
  · intro a' h
    obtain ⟨_, _, h⟩ := of_bind_ok h
    obtain ⟨n, _, h⟩ := of_bind_ok h
    obtain ⟨_, _, h⟩ := of_bind_ok h
    obtain ⟨iw, dw, d⟩ := a
    cases d with
    | bit value =>
      obtain ⟨t, _, h⟩ := of_bind_ok h
      obtain ⟨x, hx, h⟩ := of_bind_ok h
      cases h
      refine ⟨rfl, rfl, ?_⟩
      cases t
      · exact congrArg (Prod.mk 0) (C95_in_place (m := m) (.clearBit hx)).2
      · exact congrArg (Prod.mk 0) (C95_in_place (m := m) (.setBit hx)).2
    | u8 values =>
      obtain ⟨t, _, h⟩ := of_bind_ok h
      obtain ⟨x, hx, h⟩ := of_bind_ok h
      cases h
      exact ⟨rfl, rfl, congrArg (Prod.mk 1) (keeps_setIdx x hx)⟩
    | u64 values =>
      obtain ⟨t, _, h⟩ := of_bind_ok h
      obtain ⟨x, hx, h⟩ := of_bind_ok h
      cases h
      exact ⟨rfl, rfl, congrArg (Prod.mk 2) (keeps_setIdx x hx)⟩
    | big values =>
      obtain ⟨_, _, h⟩ := of_bind_ok h
      obtain ⟨_, _, h⟩ := of_bind_ok h
      obtain ⟨x, hx, h⟩ := of_bind_ok h
      cases h
      refine ⟨rfl, rfl, congrArg (Prod.mk 3) ?_⟩
      refine keeps_modifyRange (fun s => ?_) x hx
      intro ws hw
      obtain ⟨r, hr, hw⟩ := of_bind_ok hw
      cases hw
      exact (C95_in_place (.assign hr)).2
  · obtain ⟨iw, dw, d⟩ := a
    cases d <;> refine ⟨rfl, rfl, ?_⟩ <;> simp [DenseArrayValue.clear, DenseArrayImpl.storage, BitVecValue.clear]

example : DenseArrayValue.store .release ⟨1, 100, .big [1#64, 2#64, 3#64, 4#64]⟩ ⟨9, [1#64, 0#64, 0#64]⟩ ⟨3, [8#64, 9#64]⟩ =
    ok ⟨1, 100, .big [1#64, 2#64, 8#64, 9#64]⟩ := by rfl

end Baa

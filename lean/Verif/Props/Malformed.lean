import Verif.Proofs.AnyLength

/-!
# C105: values with the wrong number of words

Deserialisation does not check that a value has as many words as its width needs (C84), so such values exist. For every
width and every list of words, in both build modes, the outcome of every operation is the one that `Verif/SpecMalformed.lean` describes.
-/

namespace Baa
open Res BitVecValue

/-! ## From words to values -/

/-- Working on the first word of a fresh list of zeros. -/
theorem modifyRange_first {k : Nat} {o : Option Nat} {f : List Word → Res (List Word)} (h : Fills (f [0#64]) 1 o) :
    Fills (modifyRange (List.replicate k 0#64) 0 1 f) k (if k = 0 then none else o) := by
  cases k with
  | zero => exact modifyRange_nil
  | succ k =>
    rw [if_neg (by omega)]
    unfold modifyRange
    rw [List.replicate_succ, show sliceR (0#64 :: List.replicate k 0#64) 0 1 = ok [0#64] by rw [sliceR, if_pos (by simp)]; rfl, ok_bind]
    cases o with
    | none => exact panics_bind' _ h
    | some K =>
      obtain ⟨r, h1, h2, h3⟩ := h
      refine ⟨[] ++ r ++ List.replicate k 0#64, by rw [h1, ok_bind]; rfl, by simp; omega, ?_⟩
      rw [List.nil_append, wordsVal_append, wordsVal_replicate_zero, h3, Nat.mul_zero, Nat.add_zero]

/-- The first word of a list. -/
theorem sliceR_first (l : List Word) :
    (l.length = 0 → Panics (sliceR l 0 1)) ∧
    (l.length ≠ 0 → ∃ x, sliceR l 0 1 = ok [x] ∧ wordsVal [x] = wordsVal l % 2 ^ 64) := by
  cases l with
  | nil => exact ⟨fun _ => ⟨.bounds, rfl⟩, fun h => absurd rfl h⟩
  | cons x xs =>
    refine ⟨fun h => by simp at h, fun _ => ⟨x, by rw [sliceR, if_pos (by simp)]; rfl, ?_⟩⟩
    rw [Arith.wordsVal_singleton, wordsVal_cons, Nat.add_mul_mod_self_left, Nat.mod_eq_of_lt x.isLt]

theorem makes_of_fills {x : Res (List Word)} {k w : Nat} {o : Option Nat} (h : Fills x k o) (hw : w < 2 ^ 32) :
    Makes (do let out ← x; ok ⟨w, out⟩) (o.map fun K => ⟨w, k, K⟩) := by
  cases o with
  | none => exact panics_bind' _ h
  | some K =>
    obtain ⟨r, h1, h2, h3⟩ := h
    exact ⟨⟨w, r⟩, by rw [h1, ok_bind], by unfold BitVecValue.shape; rw [h2, h3], hw⟩

theorem valueVecZeros_need (w : Nat) : valueVecZeros w = List.replicate (need w) 0#64 := by
  unfold valueVecZeros
  rw [show divCeil w BITS = need w from divCeil_64 w]

theorem need_zero_iff (w : Nat) : need w = 0 ↔ w = 0 := by unfold need; omega

theorem need_word {w : Nat} (h0 : w ≠ 0) (h : w ≤ 64) : need w = 1 := by unfold need; omega

variable {a b : BitVecValue}

/-! ## Binary operations -/

theorem debugAssert_split {m : Mode} {c : Bool} (h : ¬ (m = .debug ∧ c = false)) : debugAssert m c = ok () := by
  cases m with
  | release => rfl
  | debug => exact debugAssert_of (by simpa using h)

/-- The frame of all binary operations. -/
theorem arithBin_any (m : Mode) {f : List Word → List Word → List Word → Nat → Res (List Word)} {F : Nat → Nat → Nat → Nat → Nat → Option Nat}
    (hw : a.width < 2 ^ 32)
    (hf : ∀ k x y, (k = need a.width ∧ x.length ≠ 1) ∨ (k = 1 ∧ x.length = 1 ∧ a.width ≠ 0) →
      Fills (f (List.replicate k 0#64) x y a.width) k (F k x.length y.length (wordsVal x) (wordsVal y))) :
    Makes (arithBin m f a b)
      (if m = .debug ∧ (a.shape.width ≠ b.shape.width ∨ a.shape.words ≠ b.shape.words) then none
        else if a.shape.words = 1 ∧ (a.shape.width = 0 ∨ b.shape.words = 0) then none
        else (F (if a.shape.words = 1 then 1 else need a.shape.width) a.shape.words (a.shape.sees b.shape).words a.shape.number
          (a.shape.sees b.shape).number).map fun K => ⟨a.shape.width, need a.shape.width, K⟩) := by
  unfold BitVecValue.shape Shape.sees
  dsimp only
  unfold arithBin
  by_cases hd : m = .debug ∧ (a.width ≠ b.width ∨ a.words.length ≠ b.words.length)
  · rw [if_pos hd, hd.1]
    rcases hd.2 with h | h
    · exact panics_bind' _ (debugAssert_panics (by simpa using h))
    · exact panics_bind_all _ fun _ => panics_bind' _ (debugAssert_panics (by simpa using h))
  · rw [if_neg hd]
    have h1 : debugAssert m (a.width == b.width) = ok () := debugAssert_split fun h => hd ⟨h.1, .inl (by simpa using h.2)⟩
    have h2 : debugAssert m (a.words.length == b.words.length) = ok () :=
      debugAssert_split fun h => hd ⟨h.1, .inr (by simpa using h.2)⟩
    rw [h1, h2, ok_bind, ok_bind, valueVecZeros_need]
    by_cases hn : a.words.length = 1
    · simp only [if_pos hn]
      obtain ⟨x, hx⟩ := List.length_eq_one_iff.mp hn
      have hxs : sliceR a.words 0 1 = ok [x] := by rw [hx]; rfl
      by_cases hb : b.words.length = 0
      · rw [if_pos ⟨hn, .inr hb⟩]
        refine panics_bind' _ (panics_modifyRange fun o => ?_)
        rw [hxs, ok_bind]
        exact panics_bind' _ ((sliceR_first b.words).1 hb)
      · obtain ⟨y, hy1, hy2⟩ := (sliceR_first b.words).2 hb
        by_cases hw0 : a.width = 0
        · rw [if_pos ⟨hn, .inl hw0⟩, hw0]
          exact panics_bind' _ modifyRange_nil
        · rw [if_neg (by omega)]
          have := modifyRange_first (k := need a.width) (f := fun o => do
            let x ← sliceR a.words 0 1
            let y ← sliceR b.words 0 1
            f o x y a.width) (o := F 1 1 1 (wordsVal [x]) (wordsVal [y]))
            (by rw [hxs, ok_bind, hy1, ok_bind]; exact hf 1 [x] [y] (.inr ⟨rfl, rfl, hw0⟩))
          rw [if_neg (by rw [need_zero_iff]; exact hw0), hy2, ← hx] at this
          rw [hn, show min b.words.length 1 = 1 by omega]
          exact makes_of_fills this hw
    · simp only [if_neg hn]
      rw [if_neg (fun h => hn h.1)]
      exact makes_of_fills (hf _ _ _ (.inl ⟨rfl, hn⟩)) hw

/-- **C105** (binary operations). -/
theorem C105_operation (m : Mode) (op : MixedOp) (ha : a.width < 2 ^ 32) : Makes (op.runIn m a b) (op.foresee m a.shape b.shape) := by
  have hbit : ∀ (f : Word → Word → Word) (g : Bool → Bool → Bool) (G : Nat → Nat → Nat),
      (∀ (x y : Word) i, i < 64 → (f x y).getLsbD i = g (x.getLsbD i) (y.getLsbD i)) → g false false = false →
      (∀ x y i, (G x y).testBit i = g (x.testBit i) (y.testBit i)) →
      ∀ k x y, Fills (ok (Arith.bitwiseBinOp f (List.replicate k 0#64) x y)) k
        (some (G (wordsVal x) (wordsVal y) % 2 ^ (64 * min k (min x.length y.length)))) := by
    intro f g G h1 h2 h3 k x y
    obtain ⟨h4, h5⟩ := Arith.bitwise_zeros (K := G (wordsVal x) (wordsVal y)) h1 h2 k x y fun i => h3 _ _ i
    exact ⟨_, rfl, h4, h5⟩
  cases op with
  | add =>
    refine arithBin_any m (f := Arith.add m) (F := fun k n n' N M => MixedOp.write m a.width k n n' N M .add) ha fun k x y _ => ?_
    have := Arith.maskMsb_any m (Arith.addLoop 0 (List.replicate k 0#64) x y) a.width
    obtain ⟨h1, h2⟩ := Arith.addLoop_zeros (c := 0) (by decide) k x y
    rw [h1, h2] at this
    exact this
  | sub =>
    refine arithBin_any m (f := Arith.sub m) (F := fun k n n' N M => MixedOp.write m a.width k n n' N M .sub) ha fun k x y _ => ?_
    have := Arith.maskMsb_any m (Arith.subLoop 1 (List.replicate k 0#64) x y) a.width
    rw [Arith.subLoop_eq] at this
    obtain ⟨h1, h2⟩ := Arith.addLoop_zeros (c := 1) (by decide) k x (y.map fun e => ~~~e)
    have hlt := wordsVal_lt y
    rw [h1, h2, List.length_map, Arith.wordsVal_map_not, Nat.add_assoc,
      show 2 ^ (64 * y.length) - 1 - wordsVal y + 1 = 2 ^ (64 * y.length) - wordsVal y by omega, ← Arith.subLoop_eq] at this
    exact this
  | mul =>
    refine arithBin_any m (f := Arith.mul m) (F := fun k n n' N M => MixedOp.write m a.width k n n' N M .mul) ha fun k x y hk => ?_
    refine Arith.mul_any m k a.width x y fun h => ?_
    rcases hk with ⟨rfl, _⟩ | ⟨rfl, _, h0⟩
    · unfold need; omega
    · omega
  | and =>
    exact arithBin_any m (f := fun d x y _ => ok (Arith.bitwiseBinOp (fun a b => a &&& b) d x y))
      (F := fun k n n' N M => MixedOp.write m a.width k n n' N M .and) ha fun k x y _ =>
      hbit _ (· && ·) (· &&& ·) (fun x y i _ => BitVec.getLsbD_and) rfl (fun x y i => Nat.testBit_and x y i) k x y
  | or =>
    exact arithBin_any m (f := fun d x y _ => ok (Arith.bitwiseBinOp (fun a b => a ||| b) d x y))
      (F := fun k n n' N M => MixedOp.write m a.width k n n' N M .or) ha fun k x y _ =>
      hbit _ (· || ·) (· ||| ·) (fun x y i _ => BitVec.getLsbD_or) rfl (fun x y i => Nat.testBit_or x y i) k x y
  | xor =>
    exact arithBin_any m (f := fun d x y _ => ok (Arith.bitwiseBinOp (fun a b => a ^^^ b) d x y))
      (F := fun k n n' N M => MixedOp.write m a.width k n n' N M .xor) ha fun k x y _ =>
      hbit _ (fun p q => p ^^ q) (· ^^^ ·) (fun x y i _ => BitVec.getLsbD_xor) rfl (fun x y i => Nat.testBit_xor x y i) k x y
  | shiftLeft =>
    exact arithBin_any m (f := Arith.shiftLeft m) (F := fun k n n' N M => MixedOp.write m a.width k n n' N M .shiftLeft) ha fun k x y _ =>
      Arith.shiftLeft_any m k a.width x y ha
  | shiftRight =>
    refine arithBin_any m (f := fun d x y w => do let r ← Arith.shiftRight m d x y w; ok r.1)
      (F := fun k n n' N M => MixedOp.write m a.width k n n' N M .shiftRight) ha fun k x y hk =>
      Arith.shiftRight_any m k a.width x y ha fun h => ?_
    rcases hk with ⟨rfl, _⟩ | ⟨rfl, h1, h0⟩
    · rfl
    · unfold need at h ⊢; omega
  | arithmeticShiftRight =>
    refine arithBin_any m (f := Arith.arithmeticShiftRight m)
      (F := fun k n n' N M => MixedOp.write m a.width k n n' N M .arithmeticShiftRight) ha fun k x y hk =>
      Arith.arithmeticShiftRight_any m k a.width x y ha fun h => ?_
    rcases hk with ⟨rfl, _⟩ | ⟨rfl, h1, h0⟩
    · rfl
    · unfold need at h ⊢; omega
  | assign =>
    show Makes (BitVecValue.assign m a b) (if _ then none else if a.shape.words = b.shape.words then _ else none)
    unfold BitVecValue.shape
    dsimp only
    unfold BitVecValue.assign
    by_cases hd : m = .debug ∧ (a.width ≠ b.width ∨ a.words.length ≠ b.words.length)
    · rw [if_pos hd, hd.1]
      rcases hd.2 with h | h
      · exact panics_bind' _ (debugAssert_panics (by simpa using h))
      · exact panics_bind_all _ fun _ => panics_bind' _ (debugAssert_panics (by simpa using h))
    · rw [if_neg hd, debugAssert_split (fun h => hd ⟨h.1, .inl (by simpa using h.2)⟩),
        debugAssert_split (fun h => hd ⟨h.1, .inr (by simpa using h.2)⟩), ok_bind, ok_bind]
      by_cases hl : a.words.length = b.words.length
      · rw [if_pos hl, if_pos hl]
        exact ⟨_, rfl, by unfold BitVecValue.shape; rw [hl], ha⟩
      · rw [if_neg hl, if_neg hl]
        exact ⟨_, rfl⟩

/-! ## Comparisons -/

theorem assertSame_any (m : Mode) (a b : BitVecValue) :
    (m = .debug ∧ (a.width ≠ b.width ∨ a.words.length ≠ b.words.length) → Panics (assertSame m a b)) ∧
    (¬ (m = .debug ∧ (a.width ≠ b.width ∨ a.words.length ≠ b.words.length)) → assertSame m a b = ok ()) := by
  unfold assertSame
  constructor
  · rintro ⟨rfl, h | h⟩
    · exact panics_bind' _ (debugAssert_panics (by simpa using h))
    · exact panics_bind_all _ fun _ => debugAssert_panics (by simpa using h)
  · intro hd
    rw [debugAssert_split (fun h => hd ⟨h.1, .inl (by simpa using h.2)⟩), ok_bind]
    exact debugAssert_split fun h => hd ⟨h.1, .inr (by simpa using h.2)⟩

/-- The frame of the order comparisons. -/
theorem compare_any {m : Mode} {f g : List Word → List Word → Res Bool} {F G : Nat → Nat → Nat → Nat → Option Bool}
    (hf : ∀ x y, x.length = 1 → Answers (f x y) (F x.length y.length (wordsVal x) (wordsVal y)))
    (hg : ∀ x y, x.length ≠ 1 → Answers (g x y) (G x.length y.length (wordsVal x) (wordsVal y)))
    (hd : ¬ (m = .debug ∧ (a.width ≠ b.width ∨ a.words.length ≠ b.words.length))) :
    Answers (do
        assertSame m a b
        if a.words.length = 1 then
          let x ← sliceR a.words 0 1
          let y ← sliceR b.words 0 1
          f x y
        else g a.words b.words)
      (if a.shape.words = 1 then if b.shape.words = 0 then none else
          F a.shape.words (a.shape.sees b.shape).words a.shape.number (a.shape.sees b.shape).number
        else G a.shape.words b.shape.words a.shape.number b.shape.number) := by
  rw [(assertSame_any m a b).2 hd, ok_bind]
  unfold BitVecValue.shape Shape.sees
  dsimp only
  by_cases hn : a.words.length = 1
  · simp only [if_pos hn]
    obtain ⟨x, hx⟩ := List.length_eq_one_iff.mp hn
    have hxs : sliceR a.words 0 1 = ok a.words := by rw [hx]; rfl
    rw [hxs, ok_bind]
    by_cases hb : b.words.length = 0
    · rw [if_pos hb]
      exact panics_bind' _ ((sliceR_first b.words).1 hb)
    · obtain ⟨y, hy1, hy2⟩ := (sliceR_first b.words).2 hb
      rw [if_neg hb, hy1, ok_bind, show min b.words.length 1 = [y].length by simp; omega, ← hy2]
      exact hf _ _ hn
  · simp only [if_neg hn]
    exact hg _ _ hn

theorem greater_any {m : Mode} (hd : ¬ (m = .debug ∧ (a.width ≠ b.width ∨ a.words.length ≠ b.words.length))) :
    Answers (BitVecValue.isGreater m a b) (a.shape.greater b.shape) := by
  have := compare_any (f := fun x y => ok (Arith.cmpGreater x y)) (g := fun x y => ok (Arith.cmpGreater x y))
    (F := fun n k N M => some (decide (highest (min n k) k M < highest (min n k) n N)))
    (G := fun n k N M => some (decide (highest (min n k) k M < highest (min n k) n N)))
    (fun x y _ => congrArg ok (Arith.cmp_any x y).1) (fun x y _ => congrArg ok (Arith.cmp_any x y).1) hd
  have e : a.shape.greater b.shape = (if a.shape.words = 1 then if b.shape.words = 0 then none else
        some (decide (highest (min a.shape.words (a.shape.sees b.shape).words) (a.shape.sees b.shape).words (a.shape.sees b.shape).number <
          highest (min a.shape.words (a.shape.sees b.shape).words) a.shape.words a.shape.number))
      else some (decide (highest (min a.shape.words b.shape.words) b.shape.words b.shape.number <
        highest (min a.shape.words b.shape.words) a.shape.words a.shape.number))) := by
    unfold Shape.greater
    by_cases h1 : a.shape.words = 1
    · by_cases h0 : b.shape.words = 0
      · rw [if_pos h1, if_pos h0]; dsimp only; rw [if_pos ⟨h1, h0⟩]
      · rw [if_pos h1, if_neg h0]; dsimp only; rw [if_neg (fun h => h0 h.2)]
    · rw [if_neg h1, show a.shape.sees b.shape = b.shape from if_neg h1]
      dsimp only
      rw [if_neg (fun h => h1 h.1)]
  rw [e]
  exact this

theorem greaterOrEqual_any {m : Mode} (hd : ¬ (m = .debug ∧ (a.width ≠ b.width ∨ a.words.length ≠ b.words.length))) :
    Answers (BitVecValue.isGreaterOrEqual m a b) (a.shape.greaterOrEqual b.shape) := by
  have := compare_any (f := fun x y => ok (Arith.cmpGreaterEqual x y)) (g := fun x y => ok (Arith.cmpGreater x y))
    (F := fun n k N M => some (decide (highest (min n k) k M ≤ highest (min n k) n N)))
    (G := fun n k N M => some (decide (highest (min n k) k M < highest (min n k) n N)))
    (fun x y _ => congrArg ok (Arith.cmp_any x y).2) (fun x y _ => congrArg ok (Arith.cmp_any x y).1) hd
  have e : a.shape.greaterOrEqual b.shape = (if a.shape.words = 1 then if b.shape.words = 0 then none else
        some (decide (highest (min a.shape.words (a.shape.sees b.shape).words) (a.shape.sees b.shape).words (a.shape.sees b.shape).number ≤
          highest (min a.shape.words (a.shape.sees b.shape).words) a.shape.words a.shape.number))
      else some (decide (highest (min a.shape.words b.shape.words) b.shape.words b.shape.number <
        highest (min a.shape.words b.shape.words) a.shape.words a.shape.number))) := by
    unfold Shape.greaterOrEqual
    dsimp only
    by_cases h1 : a.shape.words = 1
    · rw [if_pos h1, if_pos h1]
    · rw [if_neg h1, if_neg h1]
      unfold Shape.greater
      rw [show a.shape.sees b.shape = b.shape from if_neg h1]
      dsimp only
      rw [if_neg (fun h => h1 h.1)]
  rw [e]
  exact this

/-- The signed comparisons of two lists of words. -/
def signedWords (m : Mode) (w : Nat) (strict : Bool) (n k N M : Nat) : Option Bool :=
  if n = 0 ∨ k = 0 ∨ (m = .debug ∧ w = 0) then none
  else if N.testBit (fitted w n - 1) = M.testBit (fitted w k - 1) then
    some (if strict then decide (highest (min n k) k M < highest (min n k) n N) else decide (highest (min n k) k M ≤ highest (min n k) n N))
  else some (M.testBit (fitted w k - 1))

theorem cmpSigned_any (m : Mode) (w : Nat) (x y : List Word) :
    Answers (Arith.cmpGreaterSigned m x y w) (signedWords m w true x.length y.length (wordsVal x) (wordsVal y)) ∧
    Answers (Arith.cmpGreaterEqualSigned m x y w) (signedWords m w false x.length y.length (wordsVal x) (wordsVal y)) := by
  unfold signedWords Arith.cmpGreaterSigned Arith.cmpGreaterEqualSigned
  obtain ⟨a1, a2⟩ := Arith.isNeg_list m x w
  obtain ⟨b1, b2⟩ := Arith.isNeg_list m y w
  by_cases h : x.length = 0 ∨ y.length = 0 ∨ (m = .debug ∧ w = 0)
  · rw [if_pos h, if_pos h]
    by_cases hx : x.length = 0 ∨ (m = .debug ∧ w = 0)
    · exact ⟨panics_bind' _ (a1 hx), panics_bind' _ (a1 hx)⟩
    · have hy : y.length = 0 ∨ (m = .debug ∧ w = 0) := by
        rcases h with h | h
        · exact absurd (.inl h) hx
        · exact h
      exact ⟨panics_bind_all _ fun _ => panics_bind' _ (b1 hy), panics_bind_all _ fun _ => panics_bind' _ (b1 hy)⟩
  · simp only [if_neg h]
    simp only [not_or] at h
    rw [a2 (by simp only [not_or]; exact ⟨h.1, h.2.2⟩),
      b2 (by simp only [not_or]; exact h.2), ok_bind, ok_bind, ok_bind, ok_bind, (Arith.cmp_any x y).1, (Arith.cmp_any x y).2]
    cases (wordsVal x).testBit (fitted w x.length - 1) <;> cases (wordsVal y).testBit (fitted w y.length - 1) <;> exact ⟨rfl, rfl⟩

theorem signed_any {m : Mode} (hd : ¬ (m = .debug ∧ (a.width ≠ b.width ∨ a.words.length ≠ b.words.length))) :
    Answers (BitVecValue.isGreaterSigned m a b) (a.shape.signed m true b.shape) ∧
    Answers (BitVecValue.isGreaterOrEqualSigned m a b) (a.shape.signed m false b.shape) := by
  have h1 := compare_any (f := fun x y => Arith.cmpGreaterSigned m x y a.width) (g := fun x y => Arith.cmpGreaterSigned m x y a.width)
    (fun x y _ => (cmpSigned_any m a.width x y).1) (fun x y _ => (cmpSigned_any m a.width x y).1) hd
  have h2 := compare_any (f := fun x y => Arith.cmpGreaterEqualSigned m x y a.width)
    (g := fun x y => Arith.cmpGreaterEqualSigned m x y a.width)
    (fun x y _ => (cmpSigned_any m a.width x y).2) (fun x y _ => (cmpSigned_any m a.width x y).2) hd
  have e : ∀ strict, a.shape.signed m strict b.shape = (if a.shape.words = 1 then if b.shape.words = 0 then none else
        signedWords m a.width strict a.shape.words (a.shape.sees b.shape).words a.shape.number (a.shape.sees b.shape).number
      else signedWords m a.width strict a.shape.words b.shape.words a.shape.number b.shape.number) := by
    intro strict
    show signedWords m a.width strict a.shape.words (a.shape.sees b.shape).words a.shape.number (a.shape.sees b.shape).number = _
    by_cases h1 : a.shape.words = 1
    · by_cases h0 : b.shape.words = 0
      · rw [if_pos h1, if_pos h0]
        unfold signedWords
        rw [if_pos (.inr (.inl (by unfold Shape.sees; rw [if_pos h1, h0]; rfl)))]
      · rw [if_pos h1, if_neg h0]
    · rw [if_neg h1, show a.shape.sees b.shape = b.shape from if_neg h1]
  rw [e, e]
  exact ⟨h1, h2⟩

theorem equal_any {m : Mode} (hd : ¬ (m = .debug ∧ (a.width ≠ b.width ∨ a.words.length ≠ b.words.length))) :
    BitVecValue.isEqual m a b = ok (a.shape.equal b.shape) := by
  unfold BitVecValue.isEqual
  rw [(assertSame_any m a b).2 hd, ok_bind, Arith.cmpEqual_any]
  rfl

/-- **C105** (comparisons). -/
theorem C105_comparison (m : Mode) (op : MixedCmp) : Answers (op.runIn m a b) (op.foresee m a.shape b.shape) := by
  by_cases ho : op = .eqOwned ∨ op = .eqRef
  · rcases ho with rfl | rfl
    · show Answers (BitVecValue.eqOwned m a b) (if m = .debug ∧ a.width = b.width ∧ a.words.length ≠ b.words.length then none
        else some (decide (a.shape = b.shape)))
      unfold BitVecValue.eqOwned
      by_cases h : m = .debug ∧ a.width = b.width ∧ a.words.length ≠ b.words.length
      · rw [if_pos h, h.1]
        refine panics_bind' _ (debugAssert_panics ?_)
        simp only [Bool.or_eq_false_iff, bne_eq_false_iff_eq, beq_eq_false_iff_ne]
        exact ⟨h.2.1.symm, fun e => h.2.2 e.symm⟩
      · rw [if_neg h, debugAssert_split (fun h' => h ⟨h'.1, by
          have := h'.2
          simp only [Bool.or_eq_false_iff, bne_eq_false_iff_eq, beq_eq_false_iff_ne] at this
          exact ⟨this.1.symm, fun e => this.2 e.symm⟩⟩), ok_bind]
        refine congrArg ok ?_
        rw [Bool.eq_iff_iff]
        simp only [Bool.and_eq_true, beq_iff_eq, decide_eq_true_eq]
        unfold BitVecValue.shape
        rw [Shape.mk.injEq]
        constructor
        · rintro ⟨h1, h2⟩
          rw [h1, h2]
          exact ⟨rfl, rfl, rfl⟩
        · rintro ⟨h1, h2, h3⟩
          exact ⟨h1.symm, (wordsVal_inj h2 h3).symm⟩
    · show Answers (BitVecValue.eqRef m a b) (if a.width ≠ b.width then some false
        else if m = .debug ∧ a.words.length ≠ b.words.length then none else some (a.shape.equal b.shape))
      unfold BitVecValue.eqRef
      by_cases hw : a.width = b.width
      · rw [if_pos hw.symm, if_neg (fun h => h hw)]
        by_cases h : m = .debug ∧ a.words.length ≠ b.words.length
        · rw [if_pos h]
          exact panics_bind' _ ((assertSame_any m a b).1 ⟨h.1, .inr h.2⟩)
        · rw [if_neg h]
          refine equal_any fun h' => h ⟨h'.1, ?_⟩
          rcases h'.2 with h' | h'
          · exact absurd hw h'
          · exact h'
      · rw [if_neg (fun e => hw e.symm), if_pos hw]
        exact rfl
  · by_cases hd : m = .debug ∧ (a.width ≠ b.width ∨ a.words.length ≠ b.words.length)
    · have h1 : op.foresee m a.shape b.shape = none := by
        cases op <;> first
          | exact if_pos hd
          | exact absurd (.inl rfl) ho
          | exact absurd (.inr rfl) ho
      have hd' : m = .debug ∧ (b.width ≠ a.width ∨ b.words.length ≠ a.words.length) :=
        ⟨hd.1, hd.2.imp (fun h e => h e.symm) fun h e => h e.symm⟩
      rw [h1]
      have p1 := (assertSame_any m a b).1 hd
      have p2 := (assertSame_any m b a).1 hd'
      cases op <;> first
        | exact panics_bind' _ p1
        | exact panics_bind' _ (panics_bind' _ p1)
        | exact panics_bind' _ p2
        | exact absurd (.inl rfl) ho
        | exact absurd (.inr rfl) ho
    · have hd' : ¬ (m = .debug ∧ (b.width ≠ a.width ∨ b.words.length ≠ a.words.length)) := fun h =>
        hd ⟨h.1, h.2.imp (fun h e => h e.symm) fun h e => h e.symm⟩
      cases op with
      | equal =>
        rw [show MixedCmp.foresee m a.shape b.shape .equal = some (a.shape.equal b.shape) from if_neg hd]
        exact equal_any hd
      | notEqual =>
        rw [show MixedCmp.foresee m a.shape b.shape .notEqual = some (!a.shape.equal b.shape) from if_neg hd]
        show (do let e ← BitVecValue.isEqual m a b; ok (!e)) = _
        rw [equal_any hd, ok_bind]
      | greater =>
        rw [show MixedCmp.foresee m a.shape b.shape .greater = a.shape.greater b.shape from if_neg hd]
        exact greater_any hd
      | greaterOrEqual =>
        rw [show MixedCmp.foresee m a.shape b.shape .greaterOrEqual = a.shape.greaterOrEqual b.shape from if_neg hd]
        exact greaterOrEqual_any hd
      | less =>
        rw [show MixedCmp.foresee m a.shape b.shape .less = b.shape.greater a.shape from if_neg hd]
        exact greater_any hd'
      | lessOrEqual =>
        rw [show MixedCmp.foresee m a.shape b.shape .lessOrEqual = b.shape.greaterOrEqual a.shape from if_neg hd]
        exact greaterOrEqual_any hd'
      | greaterSigned =>
        rw [show MixedCmp.foresee m a.shape b.shape .greaterSigned = a.shape.signed m true b.shape from if_neg hd]
        exact (signed_any hd).1
      | greaterOrEqualSigned =>
        rw [show MixedCmp.foresee m a.shape b.shape .greaterOrEqualSigned = a.shape.signed m false b.shape from if_neg hd]
        exact (signed_any hd).2
      | lessSigned =>
        rw [show MixedCmp.foresee m a.shape b.shape .lessSigned = b.shape.signed m true a.shape from if_neg hd]
        exact (signed_any hd').1
      | lessOrEqualSigned =>
        rw [show MixedCmp.foresee m a.shape b.shape .lessOrEqualSigned = b.shape.signed m false a.shape from if_neg hd]
        exact (signed_any hd').2
      | eqOwned => exact absurd (.inl rfl) ho
      | eqRef => exact absurd (.inr rfl) ho

/-! ## Questions -/

theorem idx_first (l : List Word) : (l.length = 0 → Panics (idx l 0)) ∧
    (l.length ≠ 0 → ∃ x, idx l 0 = ok x ∧ x.toNat = wordsVal l % 2 ^ 64) := by
  cases l with
  | nil => exact ⟨fun _ => ⟨.bounds, rfl⟩, fun h => absurd rfl h⟩
  | cons x xs =>
    refine ⟨fun h => by simp at h, fun _ => ⟨x, rfl, ?_⟩⟩
    rw [wordsVal_cons, Nat.add_mul_mod_self_left, Nat.mod_eq_of_lt x.isLt]

theorem isBool_any (a : BitVecValue) (x : Word) :
    Answers (if a.width = 1 then do let w ← idx a.words 0; ok (w == x) else ok false)
      (if a.width ≠ 1 then some false else if a.words.length = 0 then none else some (decide (wordsVal a.words % 2 ^ 64 = x.toNat))) := by
  by_cases hw : a.width = 1
  · rw [if_pos hw, if_neg (fun h => h hw)]
    by_cases hl : a.words.length = 0
    · rw [if_pos hl]
      exact panics_bind' _ ((idx_first a.words).1 hl)
    · rw [if_neg hl]
      obtain ⟨y, h1, h2⟩ := (idx_first a.words).2 hl
      rw [h1, ok_bind, ← h2]
      refine congrArg ok ?_
      rw [Bool.eq_iff_iff, beq_iff_eq, decide_eq_true_eq]
      exact ⟨fun h => by rw [h], fun h => BitVec.eq_of_toNat_eq h⟩
  · rw [if_neg hw, if_pos hw]
    exact rfl

/-- **C105** (questions). -/
theorem C105_test (m : Mode) (op : Test) : Answers (op.run m a) (op.foresee m a.shape) := by
  cases op with
  | negative =>
    obtain ⟨h1, h2⟩ := Arith.isNeg_list m a.words a.width
    by_cases h : a.words.length = 0 ∨ (m = .debug ∧ a.width = 0)
    · rw [show Test.foresee m a.shape .negative = none from if_pos h]
      exact h1 h
    · rw [show Test.foresee m a.shape .negative = some _ from if_neg h]
      exact h2 h
  | zero =>
    refine congrArg ok ?_
    show a.words.all (fun w => w == 0#64) = decide (wordsVal a.words = 0)
    rw [all_zero_iff]
  | tru => exact isBool_any a 1#64
  | fals => exact isBool_any a 0#64
  | bit pos =>
    show Answers (Arith.isBitSet a.words pos) (if pos < 64 * a.words.length then some ((wordsVal a.words).testBit pos) else none)
    by_cases h : pos < 64 * a.words.length
    · rw [if_pos h]
      exact Arith.isBitSet_spec (by omega)
    · rw [if_neg h]
      unfold Arith.isBitSet idx
      dsimp only [BITS]
      rw [List.getElem?_eq_none (by omega)]
      exact ⟨_, rfl⟩

/-! ## Operations on one value -/

theorem addC_any (m : Mode) {w n : Nat} (hw : w < 2 ^ 32) (hn : n < 2 ^ 32) :
    (widthSum m w n = none → Panics (addC m U32 w n)) ∧ (∀ W, widthSum m w n = some W → addC m U32 w n = ok W ∧ W < 2 ^ 32) := by
  unfold widthSum
  by_cases h : w + n < 2 ^ 32
  · rw [if_pos h]
    exact ⟨fun h' => (by cases h'), fun W hW => (by cases hW; exact ⟨addC_ok h, h⟩)⟩
  · rw [if_neg h]
    cases m with
    | debug =>
      rw [if_pos rfl]
      exact ⟨fun _ => addC_debug (by omega), fun W hW => by cases hW⟩
    | release =>
      rw [if_neg (by decide)]
      refine ⟨fun h' => (by cases h'), fun W hW => ?_⟩
      have hW := Option.some.inj hW
      exact ⟨by rw [addC_release hn hw (by omega), hW], by omega⟩

/-- The frame of the operations that compute a new width. -/
theorem extend_any (m : Mode) {n : Nat} {f : Nat → Res BitVecValue} {F : Nat → Option Shape} (ha : a.width < 2 ^ 32) (hn : n < 2 ^ 32)
    (hf : ∀ W, W < 2 ^ 32 → Makes (f W) (F W)) : Makes (do let W ← addC m U32 a.width n; f W) ((widthSum m a.width n).bind F) := by
  obtain ⟨h1, h2⟩ := addC_any m ha hn
  cases h : widthSum m a.width n with
  | none => exact panics_bind' _ (h1 h)
  | some W =>
    obtain ⟨h3, h4⟩ := h2 W h
    rw [h3]
    exact hf W h4

/-- Working on one word if the result fits into one, and on all words otherwise. -/
theorem split_any {W : Nat} {f : List Word → Res (List Word)} {g : List Word → Res (List Word)} {F G : Option Nat} (hW : W < 2 ^ 32)
    (hf : W ≠ 0 → W ≤ 64 → Fills (f [0#64]) 1 F) (hg : ¬ W ≤ 64 → Fills (g (List.replicate (need W) 0#64)) (need W) G) :
    Makes (do
        let out ← (if W ≤ BITS then modifyRange (valueVecZeros W) 0 1 f else g (valueVecZeros W))
        ok ⟨W, out⟩)
      (if W = 0 then none else if W ≤ 64 then F.map fun K => ⟨W, 1, K⟩ else G.map fun K => ⟨W, need W, K⟩) := by
  by_cases h0 : W = 0
  · subst h0
    rw [if_pos rfl, if_pos (Nat.zero_le _), words_zero]
    exact panics_bind' _ modifyRange_nil
  · rw [if_neg h0, valueVecZeros_need]
    by_cases h64 : W ≤ 64
    · rw [if_pos (show W ≤ BITS from h64), if_pos h64]
      have := modifyRange_first (k := need W) (hf h0 h64)
      rw [if_neg (by rw [need_zero_iff]; exact h0), need_word h0 h64] at this
      rw [need_word h0 h64]
      exact makes_of_fills this hW
    · rw [if_neg (show ¬ W ≤ BITS from h64), if_neg h64]
      exact makes_of_fills (hg h64) hW

theorem zeroExtend_any (k : Nat) (s : List Word) :
    Fills (Arith.zeroExtend (List.replicate k 0#64) s) k (if k < s.length then none else some (wordsVal s)) := by
  by_cases h : k < s.length
  · rw [if_pos h]
    unfold Arith.zeroExtend modifyRange sliceR
    dsimp only
    rw [if_neg (by rw [Arith.assign_length, List.length_replicate]; omega)]
    exact ⟨_, rfl⟩
  · rw [if_neg h]
    obtain ⟨r, h1, h2, h3⟩ := Arith.zeroExtend_spec (d := List.replicate k 0#64) (src := s) (by simp; omega)
    exact ⟨r, h1, by rw [h2]; simp, wordsVal_eq_of_bit h3⟩

theorem C105_zero_extend (m : Mode) {n : Nat} (ha : a.width < 2 ^ 32) (hn : n < 2 ^ 32) :
    Makes (BitVecValue.zeroExtend m a n) (UnOp.foresee m a.shape (.zeroExtend n)) := by
  refine extend_any m ha hn fun W hW => ?_
  have := split_any (W := W) (f := fun o => do let s ← sliceR a.words 0 1; Arith.zeroExtend o s)
    (g := fun o => Arith.zeroExtend o a.words)
    (F := if a.words.length = 0 then none else some (wordsVal a.words % 2 ^ 64))
    (G := if need W < a.words.length then none else some (wordsVal a.words)) hW ?_ ?_
  · have e : a.shape.zeroExtend W = (if W = 0 then none
        else if W ≤ 64 then (if a.words.length = 0 then none else some (wordsVal a.words % 2 ^ 64)).map fun K => ⟨W, 1, K⟩
        else (if need W < a.words.length then none else some (wordsVal a.words)).map fun K => ⟨W, need W, K⟩) := by
      unfold Shape.zeroExtend BitVecValue.shape
      dsimp only
      by_cases h0 : W = 0
      · rw [if_pos h0, if_pos h0]
      · rw [if_neg h0, if_neg h0]
        by_cases h64 : W ≤ 64
        · rw [if_pos h64, if_pos h64]; split <;> rfl
        · rw [if_neg h64, if_neg h64]; split <;> rfl
    rw [e]
    exact this
  · intro _ _
    by_cases h : a.words.length = 0
    · rw [if_pos h]
      exact panics_bind' _ ((sliceR_first _).1 h)
    · rw [if_neg h]
      obtain ⟨x, h1, h2⟩ := (sliceR_first _).2 h
      rw [h1, ok_bind, ← h2]
      exact zeroExtend_any 1 [x]
  · intro _
    exact zeroExtend_any _ _

theorem C105_sign_extend (m : Mode) {n : Nat} (ha : a.width < 2 ^ 32) (hn : n < 2 ^ 32) :
    Makes (BitVecValue.signExtend m a n) (UnOp.foresee m a.shape (.signExtend n)) := by
  refine extend_any m ha hn fun W hW => ?_
  have := split_any (W := W) (f := fun o => do let s ← sliceR a.words 0 1; Arith.signExtend m o s a.width W)
    (g := fun o => Arith.signExtend m o a.words a.width W)
    (F := if a.words.length = 0 ∨ (m = .debug ∧ a.width = 0) then none else some (signFilled a.width W 1 (wordsVal a.words % 2 ^ 64)))
    (G := if a.words.length = 0 ∨ (m = .debug ∧ a.width = 0) ∨ need W < a.words.length then none
      else some (signFilled a.width W a.words.length (wordsVal a.words))) hW ?_ ?_
  · have e : a.shape.signExtend m W = (if W = 0 then none
        else if W ≤ 64 then (if a.words.length = 0 ∨ (m = .debug ∧ a.width = 0) then none
          else some (signFilled a.width W 1 (wordsVal a.words % 2 ^ 64))).map fun K => ⟨W, 1, K⟩
        else (if a.words.length = 0 ∨ (m = .debug ∧ a.width = 0) ∨ need W < a.words.length then none
          else some (signFilled a.width W a.words.length (wordsVal a.words))).map fun K => ⟨W, need W, K⟩) := by
      unfold Shape.signExtend BitVecValue.shape
      dsimp only
      by_cases h0 : W = 0
      · rw [if_pos (.inl h0), if_pos h0]
      · rw [if_neg h0]
        by_cases h1 : a.words.length = 0 ∨ (m = .debug ∧ a.width = 0)
        · rw [if_pos (.inr h1), if_pos h1, if_pos (show a.words.length = 0 ∨ (m = .debug ∧ a.width = 0) ∨ need W < a.words.length by
            rcases h1 with h1 | h1
            · exact .inl h1
            · exact .inr (.inl h1))]
          split <;> rfl
        · rw [if_neg (by simp only [not_or] at h1 ⊢; exact ⟨h0, h1⟩), if_neg h1]
          by_cases h64 : W ≤ 64
          · rw [if_pos h64, if_pos h64]; rfl
          · rw [if_neg h64, if_neg h64]
            by_cases hl : need W < a.words.length
            · rw [if_pos hl, if_pos (.inr (.inr hl))]; rfl
            · rw [if_neg hl, if_neg (by simp only [not_or] at h1 ⊢; exact ⟨h1.1, h1.2, hl⟩)]; rfl
    rw [e]
    exact this
  · intro h0 h64
    by_cases h : a.words.length = 0
    · rw [if_pos (.inl h)]
      exact panics_bind' _ ((sliceR_first _).1 h)
    · obtain ⟨x, h1, h2⟩ := (sliceR_first _).2 h
      have := Arith.signExtend_any m a.width W [x] (by omega)
      rw [need_word h0 h64] at this
      rw [h1, ok_bind, ← h2]
      have e : (if [x].length = 0 ∨ (m = .debug ∧ a.width = 0) ∨ 1 < [x].length then none else some (signFilled a.width W 1 (wordsVal [x]))) =
          (if a.words.length = 0 ∨ (m = .debug ∧ a.width = 0) then none else some (signFilled a.width W 1 (wordsVal [x]))) := by
        by_cases hd : m = .debug ∧ a.width = 0
        · rw [if_pos (.inr (.inl hd)), if_pos (.inr hd)]
        · rw [if_neg (by simp only [not_or]; exact ⟨by simp, hd, by simp⟩), if_neg (by simp only [not_or]; exact ⟨h, hd⟩)]
      rw [← e]
      unfold signFilled
      rw [need_word h0 h64]
      exact this
  · intro h64
    exact Arith.signExtend_any m a.width W a.words (by omega)

/-- **C105** (`concat`). -/
theorem C105_concat (m : Mode) (ha : a.width < 2 ^ 32) (hb : b.width < 2 ^ 32) :
    Makes (BitVecValue.concat m a b) ((widthSum m a.shape.width b.shape.width).bind (a.shape.concat b.shape)) := by
  refine extend_any m ha hb fun W hW => ?_
  have := split_any (W := W) (f := fun o => do
      let x ← sliceR a.words 0 1
      let y ← sliceR b.words 0 1
      Arith.concat m o x y b.width)
    (g := fun o => Arith.concat m o a.words b.words b.width)
    (F := if a.words.length = 0 ∨ b.words.length = 0 then none
      else some ((wordsVal b.words % 2 ^ 64 ||| (wordsVal a.words % 2 ^ 64) <<< offset b.width 1) % 2 ^ 64))
    (G := if b.width % 64 ≠ 0 ∧ (b.words.length = 0 ∨ need W < b.words.length) then none
      else some ((wordsVal b.words ||| wordsVal a.words <<< offset b.width b.words.length) % 2 ^ (64 * need W))) hW ?_ ?_
  · have e : a.shape.concat b.shape W = (if W = 0 then none
        else if W ≤ 64 then (if a.words.length = 0 ∨ b.words.length = 0 then none
          else some ((wordsVal b.words % 2 ^ 64 ||| (wordsVal a.words % 2 ^ 64) <<< offset b.width 1) % 2 ^ 64)).map fun K => ⟨W, 1, K⟩
        else (if b.width % 64 ≠ 0 ∧ (b.words.length = 0 ∨ need W < b.words.length) then none
          else some ((wordsVal b.words ||| wordsVal a.words <<< offset b.width b.words.length) % 2 ^ (64 * need W))).map
            fun K => ⟨W, need W, K⟩) := by
      unfold Shape.concat BitVecValue.shape
      dsimp only
      by_cases h0 : W = 0
      · rw [if_pos h0, if_pos h0]
      · rw [if_neg h0, if_neg h0]
        by_cases h64 : W ≤ 64
        · rw [if_pos h64, if_pos h64]; split <;> rfl
        · rw [if_neg h64, if_neg h64]; split <;> rfl
    rw [e]
    exact this
  · intro _ _
    by_cases h : a.words.length = 0
    · rw [if_pos (.inl h)]
      exact panics_bind' _ ((sliceR_first _).1 h)
    · obtain ⟨x, h1, h2⟩ := (sliceR_first _).2 h
      rw [h1, ok_bind]
      by_cases h' : b.words.length = 0
      · rw [if_pos (.inr h')]
        exact panics_bind' _ ((sliceR_first _).1 h')
      · obtain ⟨y, h3, h4⟩ := (sliceR_first _).2 h'
        rw [h3, ok_bind, if_neg (by omega), ← h2, ← h4]
        have := Arith.concat_any m 1 b.width [x] [y] (by decide)
        rw [if_neg (by simp)] at this
        exact this
  · intro _
    exact Arith.concat_any m (need W) b.width a.words b.words (by unfold need; omega)

theorem makes_some {x : Res BitVecValue} {W V : Nat} {ws : List Word} (h : x = ok ⟨W, ws⟩) (h1 : W < 2 ^ 32)
    (h2 : ws.length = need W) (h3 : ∀ i, Baa.bit ws i = V.testBit i) : Makes x (some ⟨W, need W, V⟩) :=
  ⟨_, h, by unfold BitVecValue.shape; rw [h2, wordsVal_eq_of_bit h3], h1⟩

theorem C105_slice (m : Mode) {msb lsb : Nat} (h1 : msb < 2 ^ 32) (h2 : lsb < 2 ^ 32) :
    Makes (BitVecValue.slice m a msb lsb) (a.shape.slice m msb lsb) := by
  unfold Shape.slice BitVecValue.shape
  dsimp only
  by_cases hc : 64 * a.words.length ≤ msb
  · rw [if_pos hc]
    refine BitVecValue.slice_panics fun o => ?_
    unfold Arith.slice sliceR
    dsimp only [BITS]
    rw [if_neg (by omega)]
    exact ⟨_, rfl⟩
  · rw [if_neg hc]
    by_cases hle : lsb ≤ msb
    · rw [if_pos hle]
      by_cases hbig : msb - lsb + 1 = 2 ^ 32
      · rw [if_pos (.inr hbig)]
        refine BitVecValue.slice_width_zero (subC_ok hle) fun W hW => ?_
        cases m with
        | debug => obtain ⟨p, hp⟩ := addC_debug (x := msb - lsb) (y := 1) (by omega); rw [hp] at hW; cases hW
        | release =>
          rw [addC_release (by decide) (by omega) (by omega)] at hW
          have := Res.ok.inj hW
          omega
      · by_cases hdbg : m = .debug ∧ a.width < msb
        · rw [if_pos (.inl hdbg)]
          unfold BitVecValue.slice
          rw [hdbg.1, decide_eq_false (by omega)]
          exact panics_bind' _ ⟨_, rfl⟩
        · rw [if_neg (by simp only [not_or]; exact ⟨hdbg, hbig⟩)]
          have hW : msb - lsb + 1 < U32 := by change _ < 4294967296; omega
          obtain ⟨r, hr1, hr2, hr3⟩ := Arith.slice_spec (m := m) (d := valueVecZeros (msb - lsb + 1)) (src := a.words) (hi := msb)
            (lo := lsb) hle (by omega) hW (length_valueVecZeros _)
          rw [length_valueVecZeros] at hr2
          refine makes_some (ws := r) ?_ hW hr2 fun i => ?_
          · unfold BitVecValue.slice
            have hd1 : debugAssert m (decide (msb ≤ a.width)) = ok () := by
              cases m with
              | release => rfl
              | debug => rw [decide_eq_true (by simp at hdbg; exact hdbg)]; rfl
            rw [hd1, ok_bind, decide_eq_true (show msb ≥ lsb from hle)]
            rw [show debugAssert m true = ok () from by cases m <;> rfl, ok_bind, subC_ok hle, ok_bind, addC_ok hW, ok_bind]
            dsimp only
            by_cases h64 : msb - lsb + 1 ≤ 64
            · rw [if_pos (show msb - lsb + 1 ≤ BITS from h64), valueVecZeros_word (by omega) h64]
              rw [valueVecZeros_word (by omega) h64] at hr1
              rw [modifyRange_word hr1, ok_bind]
            · rw [if_neg (show ¬ msb - lsb + 1 ≤ BITS from h64), hr1, ok_bind]
          · rw [hr3, Nat.testBit_mod_two_pow, Nat.testBit_shiftRight, Nat.add_comm i]
            rfl
    · rw [if_neg hle]
      cases m with
      | debug =>
        rw [if_pos (.inl rfl)]
        unfold BitVecValue.slice
        refine panics_bind_all _ fun _ => ?_
        rw [decide_eq_false (show ¬ msb ≥ lsb from hle)]
        exact panics_bind' _ ⟨_, rfl⟩
      | release =>
        have hsub : subC .release U32 msb lsb = ok (2 ^ 32 + msb - lsb) := by
          unfold subC
          rw [if_neg hle]
          change ok ((4294967296 + msb - lsb) % 4294967296) = _
          rw [Nat.mod_eq_of_lt (by omega)]
        by_cases hn : lsb = msb + 1
        · rw [if_pos (.inr (.inl hn))]
          refine BitVecValue.slice_width_zero hsub fun W hW => ?_
          rw [addC_release (by decide) (by omega) (by omega)] at hW
          have := Res.ok.inj hW
          omega
        · by_cases hfar : 64 * (msb / 64 + 1) < lsb
          · rw [if_pos (.inr (.inr hfar))]
            refine BitVecValue.slice_panics fun o => ?_
            unfold Arith.slice
            dsimp only [BITS]
            by_cases hw : lsb / 64 = msb / 64 + 1
            · rw [sliceR_ok (by omega) (by omega), hw, Nat.sub_self, List.take_zero, ok_bind, if_neg (by omega)]
              exact panics_bind' _ (panics_bind_all _ fun _ => ⟨.bounds, rfl⟩)
            · unfold sliceR
              rw [if_neg (by omega)]
              exact ⟨_, rfl⟩
          · rw [if_neg (by simp only [not_or]; exact ⟨by decide, hn, hfar⟩)]
            generalize hW : 2 ^ 32 + msb + 1 - lsb = W
            obtain ⟨r, hr1, hr2, hr3⟩ := Arith.slice_reversed (src := a.words) (W := W) (hi := msb) (lo := lsb) (by omega) (by omega)
              (by omega) h2 hW.symm hn
            refine makes_some (ws := r) ?_ (by omega) hr2 fun i => ?_
            · unfold BitVecValue.slice
              rw [show ∀ c, debugAssert .release c = ok () from fun _ => rfl, ok_bind,
                show ∀ c, debugAssert .release c = ok () from fun _ => rfl, ok_bind, hsub, ok_bind,
                addC_ok (by change _ < 4294967296; omega), ok_bind]
              dsimp only
              rw [show 2 ^ 32 + msb - lsb + 1 = W by omega, if_neg (show ¬ W ≤ 64 by omega), hr1, ok_bind]
            · rw [hr3, Nat.testBit_shiftRight, Nat.testBit_mod_two_pow]
              rfl

/-- **C105** (operations on one value). -/
theorem C105_unary (m : Mode) (op : UnOp) (hargs : op.Args) (ha : a.width < 2 ^ 32) :
    Makes (op.run m a) (op.foresee m a.shape) := by
  cases op with
  | not =>
    show Makes (BitVecValue.not m a) (if a.words.length = 0 ∨ a.width = 0 then none else _)
    unfold BitVecValue.not
    rw [valueVecZeros_need]
    dsimp only
    have hnot : ∀ k s, Fills (Arith.not m (List.replicate k 0#64) s a.width) k
        (masked m a.width k (2 ^ (64 * min k s.length) - 1 - wordsVal s % 2 ^ (64 * min k s.length))) := by
      intro k s
      have := Arith.maskMsb_any m (Arith.bitwiseUnOp (fun e => ~~~e) (List.replicate k 0#64) s) a.width
      obtain ⟨h1, h2⟩ := Arith.not_zeros k s
      rw [h1, h2] at this
      exact this
    by_cases h0 : a.words.length = 0 ∨ a.width = 0
    · rw [if_pos h0]
      by_cases hw : a.width = 0
      · rw [hw, show need 0 = 0 from rfl]
        refine panics_bind' _ ?_
        by_cases hl : a.words.length ≤ 1
        · rw [if_pos hl]
          exact modifyRange_nil
        · rw [if_neg hl]
          have := hnot 0 a.words
          rw [hw, show ∀ N, masked m 0 0 N = none from fun N => if_pos (.inl rfl)] at this
          exact this
      · have hl : a.words.length = 0 := h0.resolve_right hw
        rw [if_pos (by omega)]
        exact panics_bind' _ (panics_modifyRange fun o => panics_bind' _ ((sliceR_first _).1 hl))
    · rw [if_neg h0]
      simp only [not_or] at h0
      show Makes _ (Option.map _ (masked m a.width (if a.words.length = 1 then 1 else need a.width) _))
      by_cases hl : a.words.length ≤ 1
      · have h1 : a.words.length = 1 := by omega
        rw [if_pos hl, show (if a.shape.words = 1 then 1 else need a.shape.width) = 1 from if_pos h1, if_pos h1]
        obtain ⟨x, h2, h3⟩ := (sliceR_first a.words).2 h0.1
        have h4 := hnot 1 [x]
        have := modifyRange_first (k := need a.width) (f := fun o => do let s ← sliceR a.words 0 1; Arith.not m o s a.width)
          (o := masked m a.width 1 (2 ^ (64 * min 1 [x].length) - 1 - wordsVal [x] % 2 ^ (64 * min 1 [x].length)))
          (by rw [h2, ok_bind]; exact h4)
        rw [if_neg (by rw [need_zero_iff]; exact h0.2), h3, show 64 * min 1 [x].length = 64 from rfl, Nat.mod_mod] at this
        have e : a.shape.words = 1 := h1
        rw [e]
        exact makes_of_fills this ha
      · have h1 : ¬ a.words.length = 1 := by omega
        rw [if_neg hl, show (if a.shape.words = 1 then 1 else need a.shape.width) = need a.width from if_neg h1, if_neg h1]
        exact makes_of_fills (hnot _ _) ha
  | negate =>
    show Makes (BitVecValue.negate m a) (if a.words.length = 0 ∨ a.width = 0 ∨ (a.words.length ≠ 1 ∧ a.words.length ≠ need a.width) then none
      else Option.map _ (masked m a.width a.words.length ((2 ^ (64 * a.words.length) - wordsVal a.words) % 2 ^ (64 * a.words.length))))
    unfold BitVecValue.negate
    rw [valueVecZeros_need]
    dsimp only
    have hneg : ∀ k s, Fills (Arith.negate m (List.replicate k 0#64) s a.width) k
        (if k = s.length then masked m a.width s.length ((2 ^ (64 * s.length) - wordsVal s) % 2 ^ (64 * s.length)) else none) := by
      intro k s
      unfold Arith.negate
      rw [List.length_replicate]
      by_cases hk : k = s.length
      · rw [if_pos hk, if_pos hk]
        have := Arith.maskMsb_any m (Arith.negateLoop 1 s) a.width
        rw [Arith.negateLoop_length, Arith.negateLoop_val] at this
        rw [hk]
        exact this
      · rw [if_neg hk, if_neg hk]
        exact ⟨_, rfl⟩
    by_cases h0 : a.words.length = 0
    · simp only [h0, true_or, if_true]
      exact panics_bind' _ (panics_modifyRange fun o => panics_bind' _ ((sliceR_first _).1 h0))
    · by_cases hl : a.words.length ≤ 1
      · have h1 : a.words.length = 1 := by omega
        rw [if_pos hl]
        obtain ⟨x, h2, h3⟩ := (sliceR_first a.words).2 h0
        have h4 := hneg 1 [x]
        have := modifyRange_first (k := need a.width) (f := fun o => do let s ← sliceR a.words 0 1; Arith.negate m o s a.width)
          (o := masked m a.width 1 ((2 ^ (64 * 1) - wordsVal [x]) % 2 ^ (64 * 1)))
          (by rw [h2, ok_bind]; exact h4)
        by_cases hw : a.width = 0
        · rw [if_pos (.inr (.inl hw))]
          rw [hw] at this ⊢
          exact panics_bind' _ this
        · have hx : wordsVal [x] = wordsVal a.words := by
            obtain ⟨y, hy⟩ := List.length_eq_one_iff.mp h1
            rw [h3, hy, Arith.wordsVal_singleton, Nat.mod_eq_of_lt y.isLt]
          rw [if_neg (by rw [need_zero_iff]; exact hw), hx] at this
          rw [if_neg (by simp only [not_or]; exact ⟨h0, hw, fun h => h.1 h1⟩), h1]
          exact makes_of_fills this ha
      · rw [if_neg hl]
        have := makes_of_fills (hneg (need a.width) a.words) ha
        by_cases hn : need a.width = a.words.length
        · rw [if_pos hn] at this
          have hw : a.width ≠ 0 := fun h => h0 (by rw [← hn, h]; rfl)
          rw [if_neg (by simp only [not_or]; exact ⟨h0, hw, fun h => h.2 hn.symm⟩)]
          exact this
        · rw [if_neg hn] at this
          rw [if_pos (.inr (.inr ⟨by omega, fun h => hn h.symm⟩))]
          exact this
  | maskMsb => exact makes_of_fills (Arith.maskMsb_any m a.words a.width) ha
  | clear =>
    refine ⟨_, rfl, ?_, ha⟩
    unfold BitVecValue.shape BitVecValue.clear
    dsimp only
    rw [List.map_const', wordsVal_replicate_zero, List.length_replicate]
  | assignOnes =>
    have := makes_of_fills (Arith.maskMsb_any m (a.words.map fun _ => BitVec.allOnes 64) a.width) ha
    rw [List.map_const', Arith.wordsVal_ones, List.length_replicate] at this
    show Makes (BitVecValue.maskMsb m { a with words := a.words.map fun _ => BitVec.allOnes 64 }) _
    rw [List.map_const']
    exact this
  | setBit pos =>
    show Makes (BitVecValue.setBit a pos) (if pos < 64 * a.words.length then some ⟨a.width, a.words.length, wordsVal a.words ||| 2 ^ pos⟩
      else none)
    unfold BitVecValue.setBit
    by_cases hp : pos < 64 * a.words.length
    · rw [if_pos hp]
      obtain ⟨r, h1, h2, h3⟩ := Arith.setBit_spec (dst := a.words) (pos := pos) (by omega)
      refine ⟨_, by rw [h1, ok_bind], ?_, ha⟩
      unfold BitVecValue.shape
      dsimp only
      rw [h2]
      congr 1
      refine wordsVal_eq_of_bit fun i => ?_
      rw [h3, Nat.testBit_or, Nat.testBit_two_pow, show decide (i = pos) = decide (pos = i) from decide_eq_decide.mpr eq_comm]
      rfl
    · rw [if_neg hp]
      unfold Arith.setBit idx
      dsimp only [BITS]
      rw [List.getElem?_eq_none (by omega)]
      exact ⟨_, rfl⟩
  | clearBit pos =>
    show Makes (BitVecValue.clearBit a pos) (if pos < 64 * a.words.length then
      some ⟨a.width, a.words.length, if (wordsVal a.words).testBit pos then wordsVal a.words ^^^ 2 ^ pos else wordsVal a.words⟩ else none)
    unfold BitVecValue.clearBit
    by_cases hp : pos < 64 * a.words.length
    · rw [if_pos hp]
      obtain ⟨r, h1, h2, h3⟩ := Arith.clearBit_spec (dst := a.words) (pos := pos) (by omega)
      refine ⟨_, by rw [h1, ok_bind], ?_, ha⟩
      unfold BitVecValue.shape
      dsimp only
      rw [h2]
      congr 1
      refine wordsVal_eq_of_bit fun i => ?_
      rw [h3, show bit a.words i = (wordsVal a.words).testBit i from rfl]
      by_cases hb : (wordsVal a.words).testBit pos = true
      · rw [if_pos hb, Nat.testBit_xor, Nat.testBit_two_pow]
        by_cases hi : i = pos
        · subst hi; rw [hb]; simp
        · rw [decide_eq_false hi, decide_eq_false (fun h => hi h.symm)]; simp
      · rw [if_neg hb]
        by_cases hi : i = pos
        · subst hi; rw [decide_eq_true rfl]; simpa using hb
        · rw [decide_eq_false hi]; simp
    · rw [if_neg hp]
      unfold Arith.clearBit idx
      dsimp only [BITS]
      rw [List.getElem?_eq_none (by omega)]
      exact ⟨_, rfl⟩
  | zeroExtend n => exact C105_zero_extend m ha hargs
  | signExtend n => exact C105_sign_extend m ha hargs
  | slice msb lsb => exact C105_slice m hargs.1 hargs.2

/-! ## Expressions -/

theorem makes_bind {x : Res BitVecValue} {o : Option Shape} {f : BitVecValue → Res BitVecValue} {g : Shape → Option Shape}
    (hx : Makes x o) (h : ∀ {a : BitVecValue}, a.width < 2 ^ 32 → Makes (f a) (g a.shape)) : Makes (do let a ← x; f a) (do let s ← o; g s) := by
  cases o with
  | none => exact panics_bind' _ hx
  | some s =>
    obtain ⟨a, rfl, rfl, ha⟩ := hx
    exact h ha

theorem makes_of_answers (m : Mode) {x : Res Bool} {o : Option Bool} (h : Answers x o) :
    Makes (do let r ← x; BitVecValue.fromBool m r) (do let r ← o; some ⟨1, 1, r.toNat⟩) := by
  cases o with
  | none => exact panics_bind' _ h
  | some c =>
    rw [show x = ok c from h]
    obtain ⟨r, h1, h2⟩ := raw_from_bool m c
    refine ⟨r, h1, ?_, (by decide : 1 < 2 ^ 32)⟩
    unfold BitVecValue.shape
    rw [h2.width_eq, h2.length_eq, h2.val_eq]

/-- **C105**: the outcome of every expression, for any words at the leaves. -/
theorem C105_term (m : Mode) : (t : Term) → t.Typed → Makes (t.run m) (t.foresee m)
  | .value v, h => ⟨v, rfl, rfl, h⟩
  | .un op a, h => makes_bind (C105_term m a h.2) fun ha => C105_unary m op h.1 ha
  | .bin op a b, h => makes_bind (C105_term m a h.1) fun ha => makes_bind (C105_term m b h.2) fun _ => C105_operation m op ha
  | .concat a b, h => makes_bind (C105_term m a h.1) fun ha => makes_bind (C105_term m b h.2) fun hb => C105_concat m ha hb
  | .cmp op a b, h => makes_bind (C105_term m a h.1) fun _ => makes_bind (C105_term m b h.2) fun _ =>
    makes_of_answers m (C105_comparison m op)
  | .test op a, h => makes_bind (C105_term m a h) fun _ => makes_of_answers m (C105_test m op)
  | .ite c a b, h => makes_bind (C105_term m c h.1) fun {x} _ => by
    have ha := C105_term m a h.2.1
    have hb := C105_term m b h.2.2
    have ht := C105_test m .tru (a := x)
    rw [show Test.run m x .tru = BitVecValue.isTru x from rfl] at ht
    cases hr : Test.foresee m x.shape .tru with
    | none =>
      rw [hr] at ht
      exact panics_bind' _ ht
    | some r =>
      rw [hr] at ht
      rw [show BitVecValue.isTru x = ok r from ht, ok_bind]
      cases r with
      | true => exact ha
      | false => exact hb

theorem shape_inj {v u : BitVecValue} (h : v.shape = u.shape) : v = u := by
  unfold BitVecValue.shape at h
  rw [Shape.mk.injEq] at h
  obtain ⟨w, ws⟩ := v
  obtain ⟨w', ws'⟩ := u
  rw [show w = w' from h.1, show ws = ws' from wordsVal_inj h.2.1 h.2.2]

/-- The description determines the value, so the prediction is complete. -/
theorem C105_result (m : Mode) (t : Term) (h : t.Typed) (r : BitVecValue) : t.run m = ok r ↔ t.foresee m = some r.shape := by
  have := C105_term m t h
  cases hp : t.foresee m with
  | none =>
    rw [hp] at this
    obtain ⟨p, hp⟩ := this
    rw [hp]
    exact ⟨fun h => (by cases h), fun h => (by cases h)⟩
  | some s =>
    rw [hp] at this
    obtain ⟨r', h1, rfl, _⟩ := this
    rw [h1]
    constructor
    · intro h
      cases h
      rfl
    · intro h
      rw [shape_inj (Option.some.inj h)]

/-- Two expressions with the same prediction give the same value, or both panic. -/
theorem C105_equal (m m' : Mode) (s t : Term) (hs : s.Typed) (ht : t.Typed) (h : s.foresee m = t.foresee m') :
    (∃ r, s.run m = ok r ∧ t.run m' = ok r) ∨ (Panics (s.run m) ∧ Panics (t.run m')) := by
  have h1 := C105_term m s hs
  have h2 := C105_term m' t ht
  rw [h] at h1
  cases hp : t.foresee m' with
  | none =>
    rw [hp] at h1 h2
    exact .inr ⟨h1, h2⟩
  | some o =>
    rw [hp] at h1 h2
    obtain ⟨r, hr, hs, _⟩ := h1
    obtain ⟨r', hr', hs', _⟩ := h2
    rw [shape_inj (hs'.trans hs.symm)] at hr'
    exact .inl ⟨r, hr, hr'⟩

/-- On values with the right number of words the prediction is that of C104, in the number of words that the width needs. -/
theorem C105_matches (m : Mode) (t : Term) (h : t.Typed) (hs : t.Sane) :
    t.foresee m = (t.predict m).map fun p => ⟨p.1, need p.1, p.2⟩ := by
  have h1 := C104_term m t hs
  cases hp : t.predict m with
  | none =>
    rw [hp] at h1
    cases hf : t.foresee m with
    | none => rfl
    | some s =>
      have h2 := C105_term m t h
      rw [hf] at h2
      obtain ⟨r, h3, _⟩ := h2
      obtain ⟨p, h4⟩ := h1
      rw [h3] at h4
      cases h4
  | some p =>
    rw [hp] at h1
    obtain ⟨r, h2, h3⟩ := h1
    rw [(C105_result m t h r).mp h2]
    show some r.shape = some _
    unfold BitVecValue.shape
    rw [h3.width_eq, h3.length_eq, h3.val_eq]
    rfl

/-! ## Examples -/

/-- A width of eight bits with two words: `not` sees the first word, `negate` panics. -/
example : Makes (BitVecValue.not .release ⟨8, [1#64, 7#64]⟩) (some ⟨8, 1, 254⟩) := C105_unary .release .not trivial (by decide)

example : Makes (BitVecValue.negate .release ⟨8, [1#64, 7#64]⟩) none := C105_unary .release .negate trivial (by decide)

/-- A width of eight bits without words. -/
example : Makes (BitVecValue.zeroExtend .release ⟨8, []⟩ 64) (some ⟨72, 2, 0⟩) ∧ Makes (BitVecValue.zeroExtend .release ⟨8, []⟩ 8) none :=
  ⟨C105_unary .release (.zeroExtend 64) (show 64 < 2 ^ 32 by decide) (by decide),
    C105_unary .release (.zeroExtend 8) (show 8 < 2 ^ 32 by decide) (by decide)⟩

/-- A width of a hundred bits with one word. -/
def shortSum : Term := .bin .add (.un (.setBit 3) (.value ⟨100, [5#64]⟩)) (.value ⟨100, [1#64, 2#64]⟩)

theorem shortSum_typed : shortSum.Typed := ⟨⟨trivial, show 100 < 2 ^ 32 by decide⟩, show 100 < 2 ^ 32 by decide⟩

example : (Term.un (.setBit 3) (.value ⟨100, [5#64]⟩)).foresee .debug = some ⟨100, 1, 13⟩ := by decide

example : (Term.un (.setBit 64) (.value ⟨100, [5#64]⟩)).foresee .debug = none := by decide

/-- The debug build refuses operands with different numbers of words; the release build adds their first words. -/
example : Panics (shortSum.run .debug) := by
  have := C105_term .debug shortSum shortSum_typed
  rwa [show shortSum.foresee .debug = none by decide] at this

example : shortSum.run .release = ok ⟨100, [14#64, 0#64]⟩ := (C105_result .release shortSum shortSum_typed _).mpr (by decide)

end Baa

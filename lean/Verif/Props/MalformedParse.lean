import Verif.Props.ParseInPlace
import Verif.SpecParse
import Verif.Props.MalformedObs

/-!
# Parsing into values with the wrong number of words (C107)

The outcome of every in-place parse for destinations of any width with any number of words.
-/

namespace Baa
open Res Strings

/-- The result of a parse into `n` words. -/
def LeavesWords (n : Nat) (x : Res (List Word × Except IntErrorKind Unit)) : AssignOutcome → Prop
  | .stores N => ∃ o, x = ok (o, .ok ()) ∧ o.length = n ∧ wordsVal o = N
  | .invalid N => ∃ o, x = ok (o, .error .invalidDigit) ∧ o.length = n ∧ wordsVal o = N
  | .exceeds N => ∃ o, x = ok (o, .error .exceedsWidth) ∧ o.length = n ∧ wordsVal o = N
  | .panics => Panics x

/-- With no words to write, well-formed digits do not lead to an error. -/
theorem parseLoop_nil {m : Mode} {bits pw n : Nat} {dv : Byte → Option Nat} (hdv : ∀ c, dv c = digitOf (2 ^ bits) c) (cs : List Byte) :
    ∀ (ii outIi : Nat) (word : Word) (acc v : Nat), digitsFrom (2 ^ bits) acc cs = some v →
      Panics (parseLoop m bits pw dv n ii [] outIi word cs) ∨
        ∃ i w, parseLoop m bits pw dv n ii [] outIi word cs = ok ([], .ok (i, w)) := by
  induction cs with
  | nil => intro ii outIi word acc v _; exact .inr ⟨_, _, rfl⟩
  | cons c cs ih =>
    intro ii outIi word acc v hv
    rw [digitsFrom] at hv
    cases hd : digitOf (2 ^ bits) c with
    | none => rw [hd] at hv; cases hv
    | some d =>
      rw [hd] at hv
      rw [parseLoop]
      cases subC m U64 n ii with
      | panic p => exact .inl ⟨p, rfl⟩
      | ok r =>
        rw [ok_bind]
        cases subC m U64 r 1 with
        | panic p => exact .inl ⟨p, rfl⟩
        | ok r1 =>
          rw [ok_bind, hdv, hd]
          by_cases h : ii > 0
          · rw [if_pos h]
            cases addC m U64 r1 1 with
            | panic p => exact .inl ⟨p, rfl⟩
            | ok k =>
              rw [ok_bind]
              by_cases hk : k % pw = 0
              · rw [if_pos hk]
                exact .inl ⟨.bounds, rfl⟩
              · rw [if_neg hk, ok_bind]
                exact ih _ _ _ _ _ hv
          · rw [if_neg h, ok_bind]
            exact ih _ _ _ _ _ hv

/-- The digit loops of `parse_base_2` and `parse_base_16` on any number of words. -/
theorem digits_any {m : Mode} {bits pw : Nat} (hbp : bits * pw = 64) (hb : 64 / bits = pw) {dv : Byte → Option Nat}
    (hdv : ∀ c, dv c = digitOf (2 ^ bits) c)
    (hceil : ∀ x, 0 < x → (bits * x + 63) / 64 = (x - 1) / pw + 1) {ds : List Byte} (hd : ds ≠ []) (hlen : ds.length < U64)
    (out : List Word) {tail : List Word × Except IntErrorKind (Nat × Word) → Res (List Word × Except IntErrorKind Unit)}
    (t1 : ∀ o e, tail (o, .error e) = ok (o, .error e))
    (t2 : ∀ o w, 0 < o.length → tail (o, .ok (0, w)) = ok (o.set 0 w, .ok ()))
    (t3 : ∀ i w, Panics (tail ([], .ok (i, w)))) :
    LeavesWords out.length (parseLoop m bits pw dv ds.length 0 out ((ds.length - 1) / pw) 0#64 ds >>= tail)
      (readInto bits out.length (wordsVal out) ds) := by
  have hpos : 0 < ds.length := List.length_pos_iff.mpr hd
  unfold readInto
  dsimp only
  rw [hb, hceil _ hpos]
  cases hv : digitsFrom (2 ^ bits) 0 ds with
  | none =>
    obtain ⟨p, rest, hf⟩ := failsAfter_of_none hv
    obtain ⟨e1, e2, e3⟩ := readDigits_fails hf
    obtain ⟨pre, c, post, e, h1, h2, rfl⟩ := hf
    have elen : ds.length = pre.length + (post.length + 1) := by rw [e]; simp
    rw [e1, e2, if_neg e3]
    by_cases hk : out.length < (ds.length - 1) / pw + 1
    · rw [if_pos hk]
      have hloop := parseLoop_fails_long (m := m) (bits := bits) (pw := pw) hdv (n := ds.length) hlen h2 post (out := out)
        (outIi := (ds.length - 1) / pw) (by omega) pre 0 0#64 (by omega) (fun _ => rfl) (fun h => by omega) ⟨_, h1⟩
      rw [← e] at hloop
      rw [hloop]
      by_cases hr : pw * ((ds.length - 1) / pw) ≤ post.length
      · rw [if_pos hr, if_pos (by omega), ok_bind, t1]
        exact ⟨out, rfl, rfl, rfl⟩
      · rw [if_neg hr, if_neg (by omega)]
        exact ⟨.bounds, rfl⟩
    · rw [if_neg hk]
      obtain ⟨o, g1, g2, g3, g4, g5, g6⟩ := parseLoop_fails (m := m) hbp hdv (n := ds.length) hlen h2 post rfl pre 0 out
        ((ds.length - 1) / pw) 0#64 p (by omega) (by omega) (fun _ => rfl) (fun h => by omega) (by simp [Nat.two_pow_pos]) h1
      rw [← e] at g1
      rw [g1, ok_bind, t1]
      refine ⟨o, rfl, g2, partial_of_loop hbp (by omega) (by omega) rfl rfl g2 (by omega) g5 ?_⟩
      rw [g6]; simp
  | some v =>
    rw [readDigits_some hv]
    dsimp only
    by_cases hk : out.length < (ds.length - 1) / pw + 1
    · rw [if_pos hk, if_neg (by simp)]
      by_cases h0 : out.length = 0
      · rw [List.eq_nil_of_length_eq_zero h0]
        rcases parseLoop_nil (m := m) (pw := pw) (n := ds.length) hdv ds 0 ((ds.length - 1) / pw) 0#64 0 v hv with h | ⟨i, w, h⟩
        · exact panics_bind' _ h
        · rw [h, ok_bind]
          exact t3 i w
      · rw [parseLoop_panics hdv hlen (by omega) (by omega) ds 0 0#64 0 v (by omega) (by omega) (fun _ => rfl) (fun h => by omega) hv]
        exact ⟨.bounds, rfl⟩
    · rw [if_neg hk, if_pos rfl]
      obtain ⟨o, w, g1, g2, g3, g4⟩ := (parseLoop_spec (m := m) hbp hdv (n := ds.length) hlen ds 0 out ((ds.length - 1) / pw) 0#64
        (by omega) (by omega) (by omega) (fun _ => rfl) (fun h => by omega) (by simp [Nat.two_pow_pos])).1 v hv
      generalize hq : (ds.length - 1) / pw = q at *
      rw [g1, ok_bind, t2 _ _ (by omega)]
      refine ⟨o.set 0 w, rfl, by simp [g2], ?_⟩
      rw [wordsVal_of_take_drop (by simp [g2]) (by rw [List.length_set]; omega) g4, g3]
      simp [staleMagnitude]

theorem parseBase2_any (m : Mode) {ds : List Byte} (hd : ds ≠ []) (hlen : ds.length < 2 ^ 32) (out : List Word) (w : Nat) :
    LeavesWords out.length (parseBase2 m ds out w)
      (if w < ds.length then .exceeds (wordsVal out) else readInto 1 out.length (wordsVal out) ds) := by
  have hU : (U32 : Nat) = 4294967296 := rfl
  have hU' : (U64 : Nat) = 18446744073709551616 := rfl
  have hpos : 0 < ds.length := List.length_pos_iff.mpr hd
  unfold parseBase2
  dsimp only
  rw [Nat.mod_eq_of_lt (show ds.length < U32 by omega)]
  by_cases hw : w < ds.length
  · rw [if_pos hw, if_pos hw]
    exact ⟨out, rfl, rfl, rfl⟩
  · rw [if_neg hw, if_neg hw, show divCeil ds.length BITS = (ds.length + 63) / 64 from rfl, subC_ok (by omega), ok_bind,
      show (ds.length + 63) / 64 - 1 = (ds.length - 1) / 64 by omega]
    refine digits_any rfl rfl binDigitValue_eq (fun x hx => by omega) hd (by omega) out (fun o e => rfl) (fun o w h => ?_) (fun i w => ?_)
    · dsimp only
      rw [debugAssert_of (by rfl), ok_bind, setIdx_zero h, ok_bind]
    · exact panics_bind_all _ fun _ => ⟨.bounds, rfl⟩

theorem parseBase16_any (m : Mode) {ds : List Byte} (hd : ds ≠ []) (hlen : 4 * ds.length < 2 ^ 32) (out : List Word) :
    LeavesWords out.length (parseBase16 m ds out) (readInto 4 out.length (wordsVal out) ds) := by
  have hU : (U32 : Nat) = 4294967296 := rfl
  have hU' : (U64 : Nat) = 18446744073709551616 := rfl
  have hpos : 0 < ds.length := List.length_pos_iff.mpr hd
  have hdc : divCeil (ds.length * 4) BITS = (4 * ds.length + 63) / 64 := by
    show (ds.length * 4 + 63) / 64 = _
    rw [Nat.mul_comm]
  unfold parseBase16
  dsimp only
  rw [Nat.mod_eq_of_lt (show ds.length < U32 by omega), mulC_ok (by omega), ok_bind, hdc, subC_ok (by omega), ok_bind,
    show (4 * ds.length + 63) / 64 - 1 = (ds.length - 1) / 16 by omega]
  refine digits_any rfl rfl hexDigitValue_eq (fun x hx => by omega) hd (by omega) out (fun o e => rfl) (fun o w h => ?_) (fun i w => ?_)
  · dsimp only
    rw [debugAssert_of (by rfl), ok_bind, setIdx_zero h, ok_bind, ok_bind]
  · exact panics_bind_all _ fun _ => ⟨.bounds, rfl⟩

/-- With one or two words the width only matters for the debug assertion. -/
theorem parseMagnitude_width {m : Mode} {radix w : Nat} {out : List Word} {s : List Byte} (hl : out.length = 1 ∨ out.length = 2) :
    (m = .debug ∧ 64 * out.length < w → Panics (parseMagnitude m s radix out w)) ∧
    (¬ (m = .debug ∧ 64 * out.length < w) → parseMagnitude m s radix out w = parseMagnitude m s radix out (64 * out.length)) := by
  match out, hl with
  | [o], _ =>
    refine ⟨fun h => ?_, fun h => ?_⟩
    · rw [parseMagnitude, h.1]
      exact panics_bind' _ (debugAssert_panics (decide_eq_false (by have := h.2; simp at this; omega)))
    · rw [parseMagnitude, parseMagnitude, debugAssert_split (fun k => h ⟨k.1, by have := of_decide_eq_false k.2; simp; omega⟩),
        debugAssert_of (by rfl)]
  | [o, o'], _ =>
    refine ⟨fun h => ?_, fun h => ?_⟩
    · rw [parseMagnitude, h.1]
      exact panics_bind' _ (debugAssert_panics (decide_eq_false (by have := h.2; simp at this; omega)))
    · rw [parseMagnitude, parseMagnitude, debugAssert_split (fun k => h ⟨k.1, by have := of_decide_eq_false k.2; simp; omega⟩),
        debugAssert_of (by rfl)]

theorem parseMagnitude_many {m : Mode} {radix w : Nat} {out : List Word} {s : List Byte} (hl : ¬ (out.length = 1 ∨ out.length = 2)) :
    parseMagnitude m s radix out w = (do
      debugAssert m (divCeil w BITS == out.length)
      if s = [ch '+'] then ok (out, .error .invalidDigit)
      else if radix = 2 then parseBase2 m (stripPlus s) out w
      else if radix = 10 then panic .todo
      else if radix = 16 then parseBase16 m (stripPlus s) out
      else panic .todo) := by
  have e : (if s.head? = some (ch '+') then s.drop 1 else s) = stripPlus s := by
    unfold stripPlus
    simp only [List.drop_one]
  match out, hl with
  | [], _ => rw [parseMagnitude]; simp only [e]; all_goals simp
  | [o], hl => exact absurd (.inl rfl) hl
  | [o, o'], hl => exact absurd (.inr rfl) hl
  | a :: b :: c :: t, _ => rw [parseMagnitude]; simp only [e]; all_goals simp

/-- The magnitude, for any number of words. -/
theorem magnitude_any (m : Mode) (radix : Nat) (a : BitVecValue) (t : List Byte) (ht : stripMinus t ≠ [])
    (hbin : a.words.length ≠ 1 → a.words.length ≠ 2 → radix = 2 → (numeralDigits t).length < 2 ^ 32)
    (hhex : a.words.length ≠ 1 → a.words.length ≠ 2 → radix = 16 → 4 * (numeralDigits t).length < 2 ^ 32) :
    LeavesWords a.words.length (parseMagnitude m (stripMinus t) radix a.words a.width) (a.shape.magnitude m radix t) := by
  unfold Shape.magnitude
  dsimp only
  rw [show a.shape.words = a.words.length from rfl, show a.shape.width = a.width from rfl, show a.shape.number = wordsVal a.words from rfl]
  have hplus : numeralDigits t = [] → stripMinus t = [ch '+'] := by
    intro hd
    apply Decidable.byContradiction
    intro hp
    exact stripPlus_ne_nil ht hp hd
  have hplus' : numeralDigits t ≠ [] → stripMinus t ≠ [ch '+'] := by
    intro hd e; exact hd (by unfold numeralDigits; rw [e]; simp [stripPlus])
  by_cases hl : a.words.length = 1 ∨ a.words.length = 2
  · rw [if_pos hl]
    obtain ⟨w1, w2⟩ := parseMagnitude_width (m := m) (radix := radix) (w := a.width) (s := stripMinus t) hl
    by_cases hd : m = .debug ∧ 64 * a.words.length < a.width
    · rw [if_pos hd]
      exact w1 hd
    · rw [if_neg hd, w2 hd]
      have hw1 : 1 ≤ 64 * a.words.length := by omega
      have hw2 : 64 * a.words.length ≤ 128 := by omega
      have hle : a.words.length = (64 * a.words.length + 63) / 64 := by omega
      by_cases hr : radix < 2 ∨ 36 < radix
      · rw [if_pos hr, parseMagnitude_bad_radix hr hw1 hw2 hle]
        exact ⟨_, rfl⟩
      rw [if_neg hr]
      by_cases hn : numeralDigits t = []
      · rw [if_pos hn, hplus hn, parseMagnitude_plus_small (by omega) (by omega) hw1 hw2 hle]
        exact ⟨_, rfl, rfl, rfl⟩
      rw [if_neg hn]
      cases hdv : digitsFrom radix 0 (numeralDigits t) with
      | none =>
        obtain ⟨p, rest, hf⟩ := failsAfter_of_none hdv
        obtain ⟨e1, e2, e3⟩ := readDigits_fails hf
        rw [parseMagnitude_fails (m := m) hw1 hw2 hle (by omega) (by omega) (s := stripMinus t) hf, e1, if_neg e3]
        by_cases hp : p < 2 ^ (64 * a.words.length)
        · rw [if_pos hp, if_neg (by omega)]
          exact ⟨_, rfl, rfl, rfl⟩
        · rw [if_neg hp, if_pos (by omega)]
          exact ⟨_, rfl, rfl, rfl⟩
      | some N =>
        obtain ⟨k1, k2, -⟩ := parseMagnitude_small (m := m) hw1 hw2 hle (radix := radix) (by omega) (by omega) ht
        have hu : unsignedVal radix (stripMinus t) = some N := by
          show digitsVal radix (numeralDigits t) = _
          unfold digitsVal
          rw [if_neg hn, hdv]
        rw [readDigits_some hdv]
        dsimp only
        by_cases hN : 2 ^ (64 * a.words.length) ≤ N
        · rw [if_pos hN, k2 N hu hN]
          exact ⟨_, rfl, rfl, rfl⟩
        · rw [if_neg hN, if_pos rfl]
          exact k1 N hu (by omega)
  · rw [if_neg hl, parseMagnitude_many hl]
    by_cases hd : m = .debug ∧ a.words.length ≠ need a.width
    · rw [if_pos hd, hd.1]
      exact panics_bind' _ (debugAssert_panics (by rw [beq_eq_false_iff_ne]; exact fun h => hd.2 h.symm))
    · rw [if_neg hd, show divCeil a.width BITS = need a.width from rfl,
        debugAssert_split (fun k => hd ⟨k.1, fun h => (beq_eq_false_iff_ne.mp k.2) h.symm⟩), ok_bind]
      by_cases hn : numeralDigits t = []
      · rw [if_pos hn, if_pos (hplus hn)]
        exact ⟨_, rfl, rfl, rfl⟩
      rw [if_neg hn, if_neg (hplus' hn)]
      by_cases h2 : radix = 2
      · rw [if_pos h2, if_pos h2]
        exact parseBase2_any m hn (hbin (fun e => hl (.inl e)) (fun e => hl (.inr e)) h2) a.words a.width
      rw [if_neg h2, if_neg h2]
      by_cases h16 : radix = 16
      · rw [if_neg (by omega), if_pos h16, if_pos h16]
        exact parseBase16_any m hn (hhex (fun e => hl (.inl e)) (fun e => hl (.inr e)) h16) a.words
      rw [if_neg h16, if_neg h16]
      split <;> exact ⟨_, rfl⟩

/-- **C107** The outcome of `assign_from_str_radix` for a destination of any width with any number of words. (Unless there are one or two
words, the digit count must fit into the 32 bits the code keeps for it, `4 * digits` for hexadecimal; see C136 for the others.) -/
theorem C107_assign_from_str_radix (m : Mode) (radix : Nat) (a : BitVecValue) (t : List Byte)
    (hbin : a.words.length ≠ 1 → a.words.length ≠ 2 → radix = 2 → (numeralDigits t).length < 2 ^ 32)
    (hhex : a.words.length ≠ 1 → a.words.length ≠ 2 → radix = 16 → 4 * (numeralDigits t).length < 2 ^ 32) :
    LeavesIn a (BitVecValue.assignFromStrRadix m a t radix) (a.shape.parse m radix t) := by
  unfold Shape.parse
  rw [show a.shape.words = a.words.length from rfl, show a.shape.width = a.width from rfl, show a.shape.number = wordsVal a.words from rfl]
  have keep : ∀ {r}, Strings.fromStrRadix m t radix a.words a.width = ok (a.words, r) →
      ∃ x, BitVecValue.assignFromStrRadix m a t radix = ok (x, r) ∧ x.shape = ⟨a.width, a.words.length, wordsVal a.words⟩ :=
    fun h => ⟨a, assignFromStrRadix_eq h, rfl⟩
  by_cases ht : t = []
  · subst ht
    rw [if_pos rfl]
    exact keep rfl
  rw [if_neg ht]
  by_cases h0 : a.width = 0
  · rw [if_pos h0]
    have e : (if t.head? == some (ch '-') then t.drop 1 else t) = stripMinus t := by
      unfold stripMinus
      simp only [beq_iff_eq, List.drop_one]
    by_cases h : stripMinus t = [ch '0']
    · rw [if_pos h]
      apply keep
      unfold Strings.fromStrRadix
      rw [if_neg ht]
      dsimp only
      rw [e, if_pos h0, if_pos h]
    · rw [if_neg h]
      apply keep
      unfold Strings.fromStrRadix
      rw [if_neg ht]
      dsimp only
      rw [e, if_pos h0, if_neg h]
  rw [if_neg h0]
  by_cases hs : stripMinus t = []
  · rw [if_pos hs]
    exact keep (fromStrRadix_minus (by omega) ht hs)
  rw [if_neg hs]
  have hm := magnitude_any m radix a t hs hbin hhex
  cases hmag : a.shape.magnitude m radix t with
  | panics =>
    rw [hmag] at hm
    obtain ⟨p, hp⟩ := hm
    exact assign_panics (fromStrRadix_panic (by omega) ht hs hp)
  | invalid N =>
    rw [hmag] at hm
    obtain ⟨o, h1, h2, h3⟩ := hm
    exact ⟨⟨a.width, o⟩, assignFromStrRadix_eq (fromStrRadix_err (by omega) ht hs h1), by unfold BitVecValue.shape; dsimp only; rw [h2, h3]⟩
  | exceeds N =>
    rw [hmag] at hm
    obtain ⟨o, h1, h2, h3⟩ := hm
    exact ⟨⟨a.width, o⟩, assignFromStrRadix_eq (fromStrRadix_err (by omega) ht hs h1), by unfold BitVecValue.shape; dsimp only; rw [h2, h3]⟩
  | stores N =>
    rw [hmag] at hm
    obtain ⟨o, h1, h2, h3⟩ := hm
    dsimp only
    have hneg := negate_any m o a.width
    rw [h2, h3] at hneg
    have e := fromStrRadix_eq (m := m) (radix := radix) (out := a.words) (w := a.width) ht (by omega)
    rw [if_neg hs, h1, ok_bind] at e
    dsimp only at e
    by_cases hh : t.head? = some (ch '-')
    · rw [if_pos hh] at e ⊢
      cases hK : masked m a.width a.words.length ((2 ^ (64 * a.words.length) - N) % 2 ^ (64 * a.words.length)) with
      | none =>
        rw [hK] at hneg
        obtain ⟨p, hp⟩ := hneg
        rw [hp] at e
        exact assign_panics e
      | some K =>
        rw [hK] at hneg
        obtain ⟨r, k1, k2, k3⟩ := hneg
        rw [k1, ok_bind] at e
        exact ⟨⟨a.width, r⟩, assignFromStrRadix_eq e, by unfold BitVecValue.shape; dsimp only; rw [k2, k3]⟩
    · rw [if_neg hh] at e ⊢
      exact ⟨⟨a.width, o⟩, assignFromStrRadix_eq e, by unfold BitVecValue.shape; dsimp only; rw [h2, h3]⟩

/-- For destinations of the right size this is C88. -/
theorem C107_matches (m : Mode) (radix : Nat) (a : BitVecValue) (t : List Byte) (hw : a.width < 2 ^ 32) (hl : a.words.length = need a.width)
    (hbin : radix = 2 → (numeralDigits t).length < 2 ^ 32) (hhex : radix = 16 → 4 * (numeralDigits t).length < 2 ^ 32) :
    a.shape.parse m radix t = assignOutcome radix a.width (wordsVal a.words) t := by
  have h1 := C107_assign_from_str_radix m radix a t (fun _ _ => hbin) (fun _ _ => hhex)
  have h2 := C88_assign_total m radix a.width (wordsVal a.words) a t ⟨hw, rfl, hl, rfl⟩ (fun _ => hbin) (fun _ => hhex)
  cases hx : BitVecValue.assignFromStrRadix m a t radix with
  | panic p =>
    rw [hx] at h1 h2
    cases e1 : a.shape.parse m radix t <;> rw [e1] at h1 <;> cases e2 : assignOutcome radix a.width (wordsVal a.words) t <;> rw [e2] at h2 <;>
      first
        | rfl
        | (obtain ⟨_, k, _⟩ := h1; cases k)
        | (obtain ⟨_, k, _⟩ := h2; cases k)
  | ok r =>
    rw [hx] at h1 h2
    cases e1 : a.shape.parse m radix t <;> rw [e1] at h1 <;> cases e2 : assignOutcome radix a.width (wordsVal a.words) t <;> rw [e2] at h2 <;>
      first
        | (obtain ⟨_, k⟩ := h1; cases k; done)
        | (obtain ⟨_, k⟩ := h2; cases k; done)
        | (obtain ⟨_, k1, s1⟩ := h1; obtain ⟨_, k2, _, _, _, s2⟩ := h2; cases k1; cases k2
           have := congrArg Shape.number s1; exact congrArg _ (this.symm.trans s2))
        | (obtain ⟨_, k1, s1⟩ := h1; obtain ⟨_, k2, _, _, _, s2⟩ := h2; cases k1; cases k2; done)

/-! ## Examples -/

/-- Three words for eight bits, release build: the digits go to the first word, the others keep their contents. -/
example : LeavesIn ⟨8, [1#64, 2#64, 3#64]⟩ (BitVecValue.assignFromStrRadix .release ⟨8, [1#64, 2#64, 3#64]⟩ [ch '1', ch '0', ch '1'] 2)
    (.stores (5 + 2 * 2 ^ 64 + 3 * 2 ^ 128)) :=
  C107_assign_from_str_radix .release 2 ⟨8, [1#64, 2#64, 3#64]⟩ [ch '1', ch '0', ch '1'] (fun _ _ _ => by decide) (fun _ _ h => by cases h)

/-- The debug build notices. -/
example : LeavesIn ⟨8, [1#64, 2#64, 3#64]⟩ (BitVecValue.assignFromStrRadix .debug ⟨8, [1#64, 2#64, 3#64]⟩ [ch '1', ch '0', ch '1'] 2)
    .panics :=
  C107_assign_from_str_radix .debug 2 ⟨8, [1#64, 2#64, 3#64]⟩ [ch '1', ch '0', ch '1'] (fun _ _ _ => by decide) (fun _ _ h => by cases h)

/-- One word for a hundred bits. -/
example : LeavesIn ⟨100, [7#64]⟩ (BitVecValue.assignFromStrRadix .release ⟨100, [7#64]⟩ [ch '-', ch '1'] 10) (.stores (2 ^ 36 - 1)) :=
  C107_assign_from_str_radix .release 10 ⟨100, [7#64]⟩ [ch '-', ch '1'] (fun _ _ h => by cases h) (fun _ _ h => by cases h)

/-- No words. -/
example : LeavesIn ⟨8, []⟩ (BitVecValue.assignFromStrRadix .release ⟨8, []⟩ [ch 'f'] 16) .panics :=
  C107_assign_from_str_radix .release 16 ⟨8, []⟩ [ch 'f'] (fun _ _ h => by cases h) (fun _ _ _ => by decide)

end Baa

import Verif.Props.MalformedParse
import Verif.Spec.HugeText

/-!
# Numerals with more digits than a 32-bit counter can count (C136)
-/

namespace Baa
open Res Strings

/-! ## The digit loop in two parts -/

/-- The loop on a text in two parts: an error in the first part ends it, otherwise it goes on with the state that was reached. -/
theorem parseLoop_append {m : Mode} {bits pw n : Nat} {dv : Byte → Option Nat} (ys : List Byte) (xs : List Byte) :
    ∀ (ii : Nat) (out : List Word) (oi : Nat) (word : Word), parseLoop m bits pw dv n ii out oi word (xs ++ ys) =
      (parseLoop m bits pw dv n ii out oi word xs >>= fun r => match r with
        | (o, .error e) => ok (o, .error e)
        | (o, .ok (i, w)) => parseLoop m bits pw dv n (ii + xs.length) o i w ys) := by
  induction xs with
  | nil => intro ii out oi word; rfl
  | cons c xs ih =>
    intro ii out oi word
    rw [List.cons_append, parseLoop, parseLoop]
    cases subC m U64 n ii with
    | panic p => rfl
    | ok r =>
      rw [ok_bind, ok_bind]
      cases subC m U64 r 1 with
      | panic p => rfl
      | ok r1 =>
        rw [ok_bind, ok_bind]
        generalize (if ii > 0 then do
            let k ← addC m U64 r1 1
            if k % pw = 0 then do
              let out ← setIdx out oi word
              let outIi ← subC m U64 oi 1
              ok (out, outIi, 0#64)
            else ok (out, oi, word)
          else ok (out, oi, word) : Res (List Word × Nat × Word)) = st
        cases st with
        | panic p => rfl
        | ok st =>
          obtain ⟨o, i, w⟩ := st
          rw [ok_bind, ok_bind]
          dsimp only
          cases dv c with
          | none => rfl
          | some v =>
            dsimp only
            rw [ih, List.length_cons, show ii + 1 + xs.length = ii + (xs.length + 1) by omega]

/-- The loop looks at the number of digits only modulo the digits per word. -/
theorem parseLoop_congr {m : Mode} {bits pw n n' q : Nat} {dv : Byte → Option Nat} (hn : n < U64) (hq : n = n' + pw * q) (xs : List Byte) :
    ∀ (ii : Nat) (out : List Word) (oi : Nat) (word : Word), ii + xs.length ≤ n' →
      parseLoop m bits pw dv n ii out oi word xs = parseLoop m bits pw dv n' ii out oi word xs := by
  induction xs with
  | nil => intro ii out oi word _; rfl
  | cons c xs ih =>
    intro ii out oi word h1
    rw [List.length_cons] at h1
    have hk : (n - ii) % pw = (n' - ii) % pw := by
      rw [show n - ii = (n' - ii) + pw * q by omega, Nat.add_mul_mod_self_left]
    rw [parseLoop, parseLoop, subC_ok (a := n) (by omega), subC_ok (a := n') (by omega), ok_bind, ok_bind, subC_ok (a := n - ii) (by omega),
      subC_ok (a := n' - ii) (by omega), ok_bind, ok_bind, addC_ok (a := n - ii - 1) (by omega), addC_ok (a := n' - ii - 1) (by omega), ok_bind,
      ok_bind, show n - ii - 1 + 1 = n - ii by omega, show n' - ii - 1 + 1 = n' - ii by omega, hk]
    congr 1
    funext st
    obtain ⟨o, i, w⟩ := st
    dsimp only
    cases dv c with
    | none => rfl
    | some v => exact ih _ _ _ _ (by omega)

/-! ## Past the end of the count -/

/-- One round in a release build, where the counters wrap around. -/
theorem parseLoop_release {bits pw n ii : Nat} {dv : Byte → Option Nat} (hdvd : pw ∣ U64) (hn : n < U64) (out : List Word)
    (oi : Nat) (word : Word) (c : Byte) (cs : List Byte) :
    parseLoop .release bits pw dv n ii out oi word (c :: cs) =
      ((if 0 < ii ∧ (n + U64 - ii) % pw = 0 then do
          let o ← setIdx out oi word
          let i ← subC .release U64 oi 1
          ok (o, i, 0#64)
        else ok (out, oi, word)) >>= fun (st : List Word × Nat × Word) => match dv c with
          | none => ok (st.1, .error .invalidDigit)
          | some v => parseLoop .release bits pw dv n (ii + 1) st.1 st.2.1 ((st.2.2 <<< bits) ||| BitVec.ofNat 64 v) cs) := by
  have hU : (U64 : Nat) = 18446744073709551616 := rfl
  rw [parseLoop]
  obtain ⟨r, hr⟩ : ∃ r, subC .release U64 n ii = ok r := by unfold subC; split <;> exact ⟨_, rfl⟩
  obtain ⟨r1, hr1⟩ : ∃ r1, subC .release U64 r 1 = ok r1 := by unfold subC; split <;> exact ⟨_, rfl⟩
  obtain ⟨k, hk⟩ : ∃ k, addC .release U64 r1 1 = ok k := by unfold addC; split <;> exact ⟨_, rfl⟩
  obtain ⟨a1, a2⟩ := subC_mod hr hn
  obtain ⟨b1, b2⟩ := subC_mod hr1 a1
  have e := addC_mod hk
  have e2 : k % U64 = (n + U64 - ii) % U64 := by
    rw [Nat.mod_eq_of_lt b1] at b2
    rw [Nat.mod_eq_of_lt a1] at a2
    rw [hU] at *
    omega
  have e3 : k % pw = (n + U64 - ii) % pw := by rw [← Nat.mod_mod_of_dvd k hdvd, e2, Nat.mod_mod_of_dvd _ hdvd]
  rw [hr, ok_bind, hr1, ok_bind, hk]
  by_cases h : ii > 0
  · rw [if_pos h, ok_bind, e3]
    by_cases h' : (n + U64 - ii) % pw = 0
    · rw [if_pos h', if_pos ⟨h, h'⟩]; rfl
    · rw [if_neg h', if_neg (fun x => h' x.2)]; rfl
  · rw [if_neg h, if_neg (fun x => h x.1)]; rfl

/-- Some character is no digit. -/
abbrev hasBad (radix : Nat) (cs : List Byte) : Bool := cs.any (fun c => (digitOf radix c).isNone)

/-- Once the write position has left the words, a release build reads on until the next word is full. -/
theorem parseLoop_lost {bits pw n : Nat} {dv : Byte → Option Nat} (hdv : ∀ c, dv c = digitOf (2 ^ bits) c) (hpw : 0 < pw) (hdvd : pw ∣ U64)
    (hn : n < U64) {out : List Word} {oi : Nat} (ho : out.length ≤ oi) (cs : List Byte) :
    ∀ (ii : Nat) (word : Word) (r : Nat), 0 < ii → ii + cs.length < U64 → (n + U64 - ii) % pw = r → r < cs.length →
      (hasBad (2 ^ bits) (cs.take r) = true → parseLoop .release bits pw dv n ii out oi word cs = ok (out, .error .invalidDigit)) ∧
      (hasBad (2 ^ bits) (cs.take r) = false → Panics (parseLoop .release bits pw dv n ii out oi word cs)) := by
  induction cs with
  | nil => intro ii word r _ _ _ h; simp at h
  | cons c cs ih =>
    intro ii word r hpos hlt hr hlen
    simp only [List.length_cons] at hlt hlen
    rw [parseLoop_release hdvd hn]
    by_cases h0 : r = 0
    · subst h0
      rw [if_pos ⟨hpos, hr⟩, List.take_zero]
      refine ⟨fun h => (by cases h), fun _ => ?_⟩
      unfold setIdx
      rw [if_neg (by omega)]
      exact ⟨_, rfl⟩
    · rw [if_neg (by omega), ok_bind]
      dsimp only
      obtain ⟨r', rfl⟩ : ∃ r', r = r' + 1 := ⟨r - 1, by omega⟩
      rw [List.take_succ_cons, hasBad, List.any_cons, hdv]
      cases hd : digitOf (2 ^ bits) c with
      | none => exact ⟨fun _ => rfl, fun h => by simp at h⟩
      | some v =>
        rw [Option.isNone_some, Bool.false_or]
        refine ih (ii + 1) _ r' (by omega) (by omega) ?_ (by omega)
        have h5 := Nat.div_add_mod (n + U64 - ii) pw
        have h6 := Nat.mod_lt (n + U64 - ii) hpw
        rw [hr] at h5 h6
        generalize (n + U64 - ii) / pw = x at *
        rw [show n + U64 - (ii + 1) = r' + pw * x by omega, Nat.add_mul_mod_self_left, Nat.mod_eq_of_lt (by omega)]

/-- After the counted digits: a debug build panics, a release build writes the lowest word and reads the digits of one more word. -/
theorem parseLoop_after {m : Mode} {bits pw n len q : Nat} {dv : Byte → Option Nat} (hdv : ∀ c, dv c = digitOf (2 ^ bits) c) (hpw : 0 < pw)
    (hdvd : pw ∣ U64) (hn : n < U64) (hq : n = len + pw * q) (hpos : 0 < len) (out : List Word) (oi : Nat) (w : Word) (cs : List Byte)
    (hlen : len + cs.length < U64) (hcs : pw < cs.length) (hout : out.length < U64) :
    (m = .debug ∨ out = [] → oi = 0 ∨ out = [] → Panics (parseLoop m bits pw dv n len out oi w cs)) ∧
    (m = .release → oi = 0 → out ≠ [] →
      (hasBad (2 ^ bits) (cs.take pw) = true → parseLoop m bits pw dv n len out oi w cs = ok (out.set 0 w, .error .invalidDigit)) ∧
      (hasBad (2 ^ bits) (cs.take pw) = false → Panics (parseLoop m bits pw dv n len out oi w cs))) := by
  have hU : (U64 : Nat) = 18446744073709551616 := rfl
  cases cs with
  | nil => simp at hcs
  | cons c cs =>
    rw [List.length_cons] at hlen hcs
    have h0 : (n + U64 - len) % pw = 0 := by
      obtain ⟨x, hx⟩ := hdvd
      rw [show n + U64 - len = pw * q + U64 by omega, hx, ← Nat.mul_add, Nat.mul_mod_right]
    refine ⟨fun h hoi => ?_, fun hm hoi ho => ?_⟩
    · cases m with
      | release =>
        have ho : out = [] := by rcases h with h | h; cases h; exact h
        subst ho
        rw [parseLoop_release hdvd hn, if_pos ⟨hpos, h0⟩]
        exact ⟨_, rfl⟩
      | debug =>
        rw [parseLoop, subC_ok (by omega), ok_bind]
        by_cases hq0 : pw * q = 0
        · rw [show n - len = 0 by omega]
          exact ⟨_, rfl⟩
        · rw [subC_ok (by omega), ok_bind, if_pos hpos, addC_ok (by omega), ok_bind,
            if_pos (by rw [show n - len - 1 + 1 = pw * q by omega, Nat.mul_mod_right])]
          by_cases ho : out = []
          · subst ho
            exact ⟨_, rfl⟩
          · have hoi : oi = 0 := by rcases hoi with h | h; exact h; exact absurd h ho
            subst hoi
            rw [setIdx_zero (List.length_pos_iff.mpr ho)]
            exact ⟨_, rfl⟩
    · subst hm
      subst hoi
      rw [parseLoop_release hdvd hn, if_pos ⟨hpos, h0⟩, setIdx_zero (List.length_pos_iff.mpr ho)]
      have e : subC .release U64 0 1 = ok (U64 - 1) := rfl
      rw [ok_bind, e, ok_bind, ok_bind]
      dsimp only
      obtain ⟨p', rfl⟩ : ∃ p', pw = p' + 1 := ⟨pw - 1, by omega⟩
      rw [List.take_succ_cons, hasBad, List.any_cons, hdv]
      cases hd : digitOf (2 ^ bits) c with
      | none => exact ⟨fun _ => rfl, fun h => by simp at h⟩
      | some v =>
        rw [Option.isNone_some, Bool.false_or]
        refine parseLoop_lost hdv hpw hdvd hn (by rw [List.length_set]; omega) cs (len + 1) _ p' (by omega) (by omega) ?_ (by omega)
        obtain ⟨x, hx⟩ := hdvd
        have hx0 : 0 < q + x := Nat.pos_of_ne_zero fun e => by
          have : x = 0 := by omega
          rw [this] at hx; omega
        have e2 : (p' + 1) * (q + x) = (p' + 1) * (q + x - 1) + (p' + 1) := by rw [← Nat.mul_succ]; congr 1; omega
        rw [Nat.mul_add] at e2
        rw [show n + U64 - (len + 1) = p' + (p' + 1) * (q + x - 1) by omega, Nat.add_mul_mod_self_left, Nat.mod_eq_of_lt (by omega)]

/-- The auxiliary continuation that shows the state in which the loop ends. -/
def loopEnd : List Word × Except IntErrorKind (Nat × Word) → Res (List Word × Except IntErrorKind Unit)
  | (o, .error e) => ok (o, .error e)
  | (o, .ok (i, w)) => if o = [] then .panic .bounds else if i = 0 then ok (o.set 0 w, .ok ()) else ok (o, .error .exceedsWidth)

theorem readInto_ne_exceeds (bits n old : Nat) (ds : List Byte) (N : Nat) : readInto bits n old ds ≠ .exceeds N := by
  unfold readInto
  dsimp only
  split
  · split <;> (intro h; cases h)
  · split <;> (intro h; cases h)

/-- Both parsers on more digits than they count. -/
theorem huge_any {m : Mode} {bits pw : Nat} (hbp : bits * pw = 64) (hb : 64 / bits = pw) {dv : Byte → Option Nat}
    (hdv : ∀ c, dv c = digitOf (2 ^ bits) c) (hdvd : pw ∣ U64)
    (hceil : ∀ x, 0 < x → (bits * x + 63) / 64 = (x - 1) / pw + 1) {ds : List Byte} {len n q oi : Nat}
    (hn : n < U64) (hq : n = len + pw * q) (hle : len + pw < ds.length) (hlen : ds.length < U64)
    (out : List Word) (hout : out.length < U64) (hm : m = .debug → 0 < len) (hoi : 0 < len → oi = (len - 1) / pw) (hoi0 : len = 0 → out.length ≤ oi)
    {tail : List Word × Except IntErrorKind (Nat × Word) → Res (List Word × Except IntErrorKind Unit)}
    (t1 : ∀ o e, tail (o, .error e) = ok (o, .error e)) :
    LeavesWords out.length (parseLoop m bits pw dv n 0 out oi 0#64 ds >>= tail)
      (match readInto bits out.length (wordsVal out) (ds.take len) with
        | .stores N => if m = .release ∧ hasBad (2 ^ bits) ((ds.drop len).take (64 / bits)) = true then .invalid N else .panics
        | o => o) := by
  have hpw : 0 < pw := Nat.pos_of_ne_zero fun h => by rw [h] at hbp; omega
  have hU : (U64 : Nat) = 18446744073709551616 := rfl
  rw [hb]
  by_cases h0 : len = 0
  · subst h0
    have hrel : m = .release := by
      cases m with
      | debug => have := hm rfl; omega
      | release => rfl
    subst hrel
    have er : readInto bits out.length (wordsVal out) (ds.take 0) = .stores (wordsVal out) := by
      unfold readInto
      dsimp only
      rw [List.take_zero, List.length_nil, Nat.mul_zero, if_neg (by omega)]
      simp [readDigits, staleMagnitude]
    rw [er, List.drop_zero]
    dsimp only
    have key : (hasBad (2 ^ bits) (ds.take pw) = true → parseLoop .release bits pw dv n 0 out oi 0#64 ds = ok (out, .error .invalidDigit)) ∧
        (hasBad (2 ^ bits) (ds.take pw) = false → Panics (parseLoop .release bits pw dv n 0 out oi 0#64 ds)) := by
      cases ds with
      | nil => simp at hle
      | cons c cs =>
        rw [List.length_cons] at hle hlen
        rw [parseLoop_release hdvd hn, if_neg (by omega), ok_bind]
        dsimp only
        obtain ⟨p', rfl⟩ : ∃ p', pw = p' + 1 := ⟨pw - 1, by omega⟩
        rw [List.take_succ_cons, hasBad, List.any_cons, hdv]
        cases hd : digitOf (2 ^ bits) c with
        | none => exact ⟨fun _ => rfl, fun h => by simp at h⟩
        | some v =>
          rw [Option.isNone_some, Bool.false_or]
          refine parseLoop_lost hdv hpw hdvd hn (hoi0 rfl) cs (0 + 1) _ p' (by omega) (by omega) ?_ ?_
          · obtain ⟨x, hx⟩ := hdvd
            have hx0 : 0 < q + x := Nat.pos_of_ne_zero fun e => by
              have : x = 0 := by omega
              rw [this] at hx; omega
            have e2 : (p' + 1) * (q + x) = (p' + 1) * (q + x - 1) + (p' + 1) := by rw [← Nat.mul_succ]; congr 1; omega
            rw [Nat.mul_add] at e2
            rw [show n + U64 - (0 + 1) = p' + (p' + 1) * (q + x - 1) by omega, Nat.add_mul_mod_self_left, Nat.mod_eq_of_lt (by omega)]
          · omega
    cases hbad : hasBad (2 ^ bits) (ds.take pw) with
    | true =>
      rw [if_pos ⟨rfl, rfl⟩, key.1 hbad, ok_bind, t1]
      exact ⟨out, rfl, rfl, rfl⟩
    | false =>
      rw [if_neg (fun h => by cases h.2)]
      exact panics_bind' _ (key.2 hbad)
  have hpos : 0 < len := by omega
  have htl : (ds.take len).length = len := by rw [List.length_take]; omega
  have hdl : len + (ds.drop len).length = ds.length := by rw [List.length_drop]; omega
  have hne : ds.take len ≠ [] := by intro e; rw [e] at htl; simp at htl; omega
  have hda := digits_any (m := m) hbp hb hdv hceil hne (by omega) out (tail := loopEnd) (fun o e => rfl)
    (fun o w h => by unfold loopEnd; dsimp only; rw [if_neg (List.length_pos_iff.mp h), if_pos rfl])
    (fun i w => by unfold loopEnd; exact ⟨_, rfl⟩)
  rw [htl, ← hoi hpos, ← parseLoop_congr hn hq _ 0 out oi 0#64 (by omega)] at hda
  have hsplit := parseLoop_append (m := m) (bits := bits) (pw := pw) (n := n) (dv := dv) (ds.drop len) (ds.take len) 0 out oi 0#64
  rw [List.take_append_drop, htl, Nat.zero_add] at hsplit
  rw [hsplit]
  cases hL : parseLoop m bits pw dv n 0 out oi 0#64 (ds.take len) with
  | panic p =>
    rw [hL] at hda
    cases hr : readInto bits out.length (wordsVal out) (ds.take len) with
    | panics => exact ⟨p, rfl⟩
    | stores N => rw [hr] at hda; obtain ⟨_, h, _⟩ := hda; cases h
    | invalid N => rw [hr] at hda; obtain ⟨_, h, _⟩ := hda; cases h
    | exceeds N => rw [hr] at hda; obtain ⟨_, h, _⟩ := hda; cases h
  | ok x =>
    obtain ⟨o, e⟩ := x
    rw [hL, ok_bind] at hda
    rw [ok_bind]
    cases e with
    | error e =>
      dsimp only
      rw [ok_bind, t1]
      rw [show loopEnd (o, .error e) = ok (o, .error e) from rfl] at hda
      cases hr : readInto bits out.length (wordsVal out) (ds.take len) with
      | panics => rw [hr] at hda; obtain ⟨_, h⟩ := hda; cases h
      | stores N => rw [hr] at hda; obtain ⟨_, h, _⟩ := hda; cases h
      | invalid N => rw [hr] at hda; exact hda
      | exceeds N => exact absurd hr (readInto_ne_exceeds _ _ _ _ _)
    | ok x =>
      obtain ⟨i, w⟩ := x
      dsimp only
      have hol : o.length = out.length := parseLoop_length _ _ _ _ _ _ _ hL
      obtain ⟨p1, p2⟩ := parseLoop_after (m := m) hdv hpw hdvd hn hq hpos o i w (ds.drop len) (by omega) (by omega) (by omega)
      unfold loopEnd at hda
      dsimp only at hda
      by_cases ho : o = []
      · rw [if_pos ho] at hda
        have hp := panics_bind' tail (p1 (.inr ho) (.inr ho))
        cases hr : readInto bits out.length (wordsVal out) (ds.take len) with
        | panics => exact hp
        | stores N => rw [hr] at hda; obtain ⟨_, h, _⟩ := hda; cases h
        | invalid N => rw [hr] at hda; obtain ⟨_, h, _⟩ := hda; cases h
        | exceeds N => rw [hr] at hda; obtain ⟨_, h, _⟩ := hda; cases h
      · rw [if_neg ho] at hda
        by_cases hi : i = 0
        · rw [if_pos hi] at hda
          cases hr : readInto bits out.length (wordsVal out) (ds.take len) with
          | panics => rw [hr] at hda; obtain ⟨_, h⟩ := hda; cases h
          | invalid N => rw [hr] at hda; obtain ⟨_, h, _⟩ := hda; cases h
          | exceeds N => rw [hr] at hda; obtain ⟨_, h, _⟩ := hda; cases h
          | stores N =>
            rw [hr] at hda
            obtain ⟨o', h1, h2, h3⟩ := hda
            cases h1
            dsimp only
            cases m with
            | debug =>
              rw [if_neg (fun h => by cases h.1)]
              exact panics_bind' _ (p1 (.inl rfl) (.inl hi))
            | release =>
              obtain ⟨k1, k2⟩ := p2 rfl hi ho
              cases hbad : hasBad (2 ^ bits) ((ds.drop len).take pw) with
              | true =>
                rw [if_pos ⟨rfl, rfl⟩, k1 hbad, ok_bind, t1]
                exact ⟨_, rfl, h2, h3⟩
              | false =>
                rw [if_neg (fun h => by cases h.2)]
                exact panics_bind' _ (k2 hbad)
        · rw [if_neg hi] at hda
          cases hr : readInto bits out.length (wordsVal out) (ds.take len) with
          | panics => rw [hr] at hda; obtain ⟨_, h⟩ := hda; cases h
          | invalid N => rw [hr] at hda; obtain ⟨_, h, _⟩ := hda; cases h
          | exceeds N => exact absurd hr (readInto_ne_exceeds _ _ _ _ _)
          | stores N => rw [hr] at hda; obtain ⟨_, h, _⟩ := hda; cases h

theorem parseBase2_huge (m : Mode) {ds : List Byte} (h : 2 ^ 32 ≤ ds.length) (hlen : ds.length < 2 ^ 63) (out : List Word)
    (hout : out.length < 2 ^ 32) (w : Nat) :
    LeavesWords out.length (parseBase2 m ds out w)
      (if w < countedDigits 1 ds then .exceeds (wordsVal out) else hugeInto m 1 out.length (wordsVal out) ds) := by
  have hU : (U32 : Nat) = 4294967296 := rfl
  have hU' : (U64 : Nat) = 18446744073709551616 := rfl
  have hc : countedDigits 1 ds = ds.length % 4294967296 := rfl
  unfold parseBase2 hugeInto
  dsimp only
  rw [hc, hU]
  by_cases hw : w < ds.length % 4294967296
  · rw [if_pos hw, if_pos hw]
    exact ⟨out, rfl, rfl, rfl⟩
  rw [if_neg hw, if_neg hw, show divCeil (ds.length % 4294967296) BITS = (ds.length % 4294967296 + 63) / 64 from rfl]
  generalize hl : ds.length % 4294967296 = len at *
  by_cases hd : m = .debug ∧ (len = 0 ∨ 2 ^ 32 ≤ 1 * len)
  · have h0 : len = 0 := by rcases hd.2 with h | h; exact h; omega
    rw [if_pos hd, hd.1, h0]
    exact ⟨_, rfl⟩
  rw [if_neg hd]
  have hm : m = .debug → 0 < len := fun e => Nat.pos_of_ne_zero fun h => hd ⟨e, .inl h⟩
  obtain ⟨oi, ho, ho1, ho2⟩ : ∃ oi, subC m 4294967296 ((len + 63) / 64) 1 = ok oi ∧ (0 < len → oi = (len - 1) / 64) ∧ (len = 0 → out.length ≤ oi) := by
    by_cases h0 : len = 0
    · cases m with
      | debug => have := hm rfl; omega
      | release => exact ⟨4294967295, by rw [h0]; rfl, fun h => by omega, fun _ => by omega⟩
    · exact ⟨_, subC_ok (by omega), fun _ => by omega, fun h => absurd h h0⟩
  rw [ho, ok_bind]
  exact huge_any (bits := 1) (pw := 64) (q := 0) rfl rfl binDigitValue_eq (by decide) (fun x hx => by omega) (by omega) (by omega) (by omega)
    (by omega) out (by omega) hm ho1 ho2 (fun o e => rfl)

theorem parseBase16_huge (m : Mode) {ds : List Byte} (h : 2 ^ 32 ≤ 4 * ds.length) (hlen : ds.length < 2 ^ 63) (out : List Word)
    (hout : out.length < 2 ^ 32) :
    LeavesWords out.length (parseBase16 m ds out) (hugeInto m 4 out.length (wordsVal out) ds) := by
  have hU : (U32 : Nat) = 4294967296 := rfl
  have hU' : (U64 : Nat) = 18446744073709551616 := rfl
  have hc : countedDigits 4 ds = ds.length % 1073741824 := rfl
  unfold parseBase16 hugeInto
  dsimp only
  rw [hc, hU]
  by_cases hd : m = .debug ∧ (ds.length % 1073741824 = 0 ∨ 2 ^ 32 ≤ 4 * (ds.length % 2 ^ 32))
  · rw [if_pos hd, hd.1]
    unfold mulC
    by_cases hov : ds.length % 4294967296 * 4 < 4294967296
    · have h0 : ds.length % 4294967296 = 0 := by rcases hd.2 with h | h <;> omega
      rw [if_pos hov, h0]
      exact ⟨_, rfl⟩
    · rw [if_neg hov]
      exact ⟨_, rfl⟩
  rw [if_neg hd]
  have hmul : mulC m 4294967296 (ds.length % 4294967296) 4 = ok (4 * (ds.length % 1073741824)) := by
    unfold mulC
    cases m with
    | debug =>
      have : ¬ 2 ^ 32 ≤ 4 * (ds.length % 2 ^ 32) := fun h => hd ⟨rfl, .inr h⟩
      rw [if_pos (by omega)]
      congr 1; omega
    | release =>
      by_cases hov : ds.length % 4294967296 * 4 < 4294967296
      · rw [if_pos hov]
        congr 1; omega
      · rw [if_neg hov]
        show ok (ds.length % 4294967296 * 4 % 4294967296) = ok (4 * (ds.length % 1073741824))
        congr 1; omega
  rw [hmul, ok_bind, show divCeil (4 * (ds.length % 1073741824)) BITS = (4 * (ds.length % 1073741824) + 63) / 64 from rfl]
  have hq : ds.length = ds.length % 1073741824 + 16 * (67108864 * (ds.length / 1073741824)) := by omega
  generalize ds.length % 1073741824 = len at *
  have hm : m = .debug → 0 < len := fun e => Nat.pos_of_ne_zero fun h => hd ⟨e, .inl h⟩
  obtain ⟨oi, ho, ho1, ho2⟩ : ∃ oi, subC m 4294967296 ((4 * len + 63) / 64) 1 = ok oi ∧ (0 < len → oi = (len - 1) / 16) ∧
      (len = 0 → out.length ≤ oi) := by
    by_cases h0 : len = 0
    · cases m with
      | debug => have := hm rfl; omega
      | release => exact ⟨4294967295, by rw [h0]; rfl, fun h => by omega, fun _ => by omega⟩
    · exact ⟨_, subC_ok (by omega), fun _ => by omega, fun h => absurd h h0⟩
  rw [ho, ok_bind]
  exact huge_any (bits := 4) (pw := 16) rfl rfl hexDigitValue_eq (by decide) (fun x hx => by omega) (by omega) hq (by omega)
    (by omega) out (by omega) hm ho1 ho2 (fun o e => rfl)

theorem hugeInto_ne_stores (m : Mode) (bits n old : Nat) (ds : List Byte) (N : Nat) : hugeInto m bits n old ds ≠ .stores N := by
  unfold hugeInto
  dsimp only
  split
  · intro h; cases h
  · split
    · split <;> (intro h; cases h)
    · next h => intro e; exact h N e

/-! ## C136 -/

theorem digits_length_le_text (t : List Byte) : (numeralDigits t).length ≤ t.length := by
  refine Nat.le_trans (stripPlus_length_le _) ?_
  unfold stripMinus
  split <;> simp

/-- The number without its sign. -/
theorem magnitude_huge (m : Mode) (radix : Nat) (a : BitVecValue) (t : List Byte) (ht : TooManyDigits radix t) (hlen : t.length < 2 ^ 63)
    (h1 : a.words.length ≠ 1) (h2 : a.words.length ≠ 2) (hout : a.words.length < 2 ^ 32) :
    LeavesWords a.words.length (parseMagnitude m (stripMinus t) radix a.words a.width)
      (if m = .debug ∧ a.words.length ≠ need a.width then .panics
        else if radix = 2 then if a.width < countedDigits 1 (numeralDigits t) then .exceeds (wordsVal a.words)
          else hugeInto m 1 a.words.length (wordsVal a.words) (numeralDigits t)
        else hugeInto m 4 a.words.length (wordsVal a.words) (numeralDigits t)) := by
  have hnl := digits_length_le_text t
  have hd : numeralDigits t ≠ [] := by
    intro e
    rcases ht with ⟨_, h⟩ | ⟨_, h⟩ <;> (rw [e] at h; simp at h)
  have hplus : stripMinus t ≠ [ch '+'] := by
    intro e; exact hd (by unfold numeralDigits; rw [e]; simp [stripPlus])
  rw [parseMagnitude_many (fun h => by omega)]
  by_cases hdb : m = .debug ∧ a.words.length ≠ need a.width
  · rw [if_pos hdb, hdb.1]
    exact panics_bind' _ (debugAssert_panics (by rw [beq_eq_false_iff_ne]; exact fun h => hdb.2 h.symm))
  rw [if_neg hdb, show divCeil a.width BITS = need a.width from rfl,
    debugAssert_split (fun k => hdb ⟨k.1, fun h => (beq_eq_false_iff_ne.mp k.2) h.symm⟩), ok_bind, if_neg hplus]
  rcases ht with ⟨hr, h⟩ | ⟨hr, h⟩
  · rw [if_pos hr, if_pos hr]
    exact parseBase2_huge m h (by show (numeralDigits t).length < _; omega) a.words hout a.width
  · subst hr
    rw [if_neg (by decide), if_neg (by decide), if_pos rfl, if_neg (by decide)]
    exact parseBase16_huge m h (by show (numeralDigits t).length < _; omega) a.words hout

/-- **C136** The outcome of `assign_from_str_radix` for texts with more digits than the 32-bit count can hold, for a destination of any width
with any number of words other than one and two. -/
theorem C136_huge (m : Mode) (radix : Nat) (a : BitVecValue) (t : List Byte) (ht : TooManyDigits radix t) (hlen : t.length < 2 ^ 63)
    (h1 : a.words.length ≠ 1) (h2 : a.words.length ≠ 2) (hout : a.words.length < 2 ^ 32) :
    LeavesIn a (BitVecValue.assignFromStrRadix m a t radix) (a.shape.parseHuge m radix t) := by
  have hnl := digits_length_le_text t
  have hd : numeralDigits t ≠ [] := by
    intro e
    rcases ht with ⟨_, h⟩ | ⟨_, h⟩ <;> (rw [e] at h; simp at h)
  have hs : stripMinus t ≠ [] := by
    intro e; exact hd (by unfold numeralDigits; rw [e]; rfl)
  have ht0 : t ≠ [] := by
    intro e; exact hs (by rw [e]; rfl)
  unfold Shape.parseHuge
  dsimp only
  rw [show a.shape.words = a.words.length from rfl, show a.shape.width = a.width from rfl, show a.shape.number = wordsVal a.words from rfl]
  by_cases h0 : a.width = 0
  · rw [if_pos h0]
    have hz : stripMinus t ≠ [ch '0'] := by
      intro e
      have : (numeralDigits t).length ≤ 1 := by unfold numeralDigits; rw [e]; exact stripPlus_length_le _
      rcases ht with ⟨_, h⟩ | ⟨_, h⟩ <;> omega
    have e : (if t.head? == some (ch '-') then t.drop 1 else t) = stripMinus t := by
      unfold stripMinus
      simp only [beq_iff_eq, List.drop_one]
    refine ⟨a, assignFromStrRadix_eq ?_, rfl⟩
    unfold Strings.fromStrRadix
    rw [if_neg ht0]
    dsimp only
    rw [e, if_pos h0, if_neg hz]
  rw [if_neg h0]
  -- the magnitude
  have hm := magnitude_huge m radix a t ht hlen h1 h2 hout
  generalize hX : (if m = .debug ∧ a.words.length ≠ need a.width then AssignOutcome.panics
      else if radix = 2 then if a.width < countedDigits 1 (numeralDigits t) then .exceeds (wordsVal a.words)
        else hugeInto m 1 a.words.length (wordsVal a.words) (numeralDigits t)
      else hugeInto m 4 a.words.length (wordsVal a.words) (numeralDigits t)) = X at hm ⊢
  cases X with
  | panics =>
    obtain ⟨p, hp⟩ := hm
    exact assign_panics (fromStrRadix_panic (by omega) ht0 hs hp)
  | invalid N =>
    obtain ⟨o, k1, k2, k3⟩ := hm
    exact ⟨⟨a.width, o⟩, assignFromStrRadix_eq (fromStrRadix_err (by omega) ht0 hs k1), by unfold BitVecValue.shape; dsimp only; rw [k2, k3]⟩
  | exceeds N =>
    obtain ⟨o, k1, k2, k3⟩ := hm
    exact ⟨⟨a.width, o⟩, assignFromStrRadix_eq (fromStrRadix_err (by omega) ht0 hs k1), by unfold BitVecValue.shape; dsimp only; rw [k2, k3]⟩
  | stores N =>
    exfalso
    split at hX
    · cases hX
    · split at hX
      · split at hX
        · cases hX
        · exact hugeInto_ne_stores _ _ _ _ _ _ hX
      · exact hugeInto_ne_stores _ _ _ _ _ _ hX

/-- **C136** The outcome of `assign_from_str_radix` for every text, every radix and every destination. (2^63 bytes are the most a string can
have.) -/
theorem C136_every_text (m : Mode) (radix : Nat) (a : BitVecValue) (t : List Byte) (hlen : t.length < 2 ^ 63) (hout : a.words.length < 2 ^ 32) :
    LeavesIn a (BitVecValue.assignFromStrRadix m a t radix) (a.shape.parseEvery m radix t) := by
  unfold Shape.parseEvery
  rw [show a.shape.words = a.words.length from rfl]
  by_cases h : a.words.length ≠ 1 ∧ a.words.length ≠ 2 ∧ TooManyDigits radix t
  · rw [if_pos h]
    exact C136_huge m radix a t h.2.2 hlen h.1 h.2.1 hout
  · rw [if_neg h]
    refine C107_assign_from_str_radix m radix a t (fun h1 h2 hr => ?_) (fun h1 h2 hr => ?_)
    · exact Nat.lt_of_not_le fun k => h ⟨h1, h2, .inl ⟨hr, k⟩⟩
    · exact Nat.lt_of_not_le fun k => h ⟨h1, h2, .inr ⟨hr, k⟩⟩

/-- **C136** for destinations with the right number of words: this completes C88. -/
theorem C136_assign (m : Mode) (radix w old : Nat) (v : BitVecValue) (s : List Byte) (hv : Raw v w old) (hlen : s.length < 2 ^ 63) :
    Leaves w (BitVecValue.assignFromStrRadix m v s radix) (assignEvery m radix w old s) := by
  unfold assignEvery
  by_cases h : 128 < w ∧ TooManyDigits radix s
  · rw [if_pos h]
    obtain ⟨hw, hwe, hl, hval⟩ := hv
    have hb := C136_huge m radix v s h.2 hlen (by omega) (by omega) (by omega)
    unfold Shape.parseHuge at hb
    dsimp only at hb
    rw [show v.shape.words = v.words.length from rfl, show v.shape.width = v.width from rfl, show v.shape.number = wordsVal v.words from rfl,
      hwe, if_neg (by omega), if_neg (fun k => k.2 hl), hl, hval] at hb
    generalize (if radix = 2 then
      if w < countedDigits 1 (numeralDigits s) then AssignOutcome.exceeds old else hugeInto m 1 ((w + 63) / 64) old (numeralDigits s)
      else hugeInto m 4 ((w + 63) / 64) old (numeralDigits s)) = X at hb ⊢
    have key : ∀ (r : BitVecValue) N, r.shape = ⟨v.width, v.words.length, N⟩ → Raw r w N := by
      intro r N e
      have e1 := congrArg Shape.width e
      have e2 := congrArg Shape.words e
      have e3 := congrArg Shape.number e
      exact ⟨hw, e1.trans hwe, e2.trans hl, e3⟩
    cases X with
    | panics => exact hb
    | stores N => obtain ⟨r, k1, k2⟩ := hb; exact ⟨r, k1, key r N k2⟩
    | invalid N => obtain ⟨r, k1, k2⟩ := hb; exact ⟨r, k1, key r N k2⟩
    | exceeds N => obtain ⟨r, k1, k2⟩ := hb; exact ⟨r, k1, key r N k2⟩
  · rw [if_neg h]
    refine C88_assign_total m radix w old v s hv (fun h1 hr => ?_) (fun h1 hr => ?_)
    · exact Nat.lt_of_not_le fun k => h ⟨h1, .inl ⟨hr, k⟩⟩
    · exact Nat.lt_of_not_le fun k => h ⟨h1, .inr ⟨hr, k⟩⟩

/-- **C136** for `from_str_radix`: this completes C37. -/
theorem C136_from_str_radix (m : Mode) (radix w : Nat) (s : List Byte) (hw : w < 2 ^ 32) (hlen : s.length < 2 ^ 63) :
    Yields w (BitVecValue.fromStrRadix m s radix w) (parseEvery m radix w s) := by
  have h := C136_assign m radix w 0 (BitVecValue.zero w) s ⟨hw, rfl, zero_words_length w, zero_words_val w⟩ hlen
  unfold parseEvery BitVecValue.fromStrRadix
  cases hX : assignEvery m radix w 0 s with
  | panics => rw [hX] at h; exact panics_bind' _ h
  | stores N => rw [hX] at h; obtain ⟨r, k, hr⟩ := h; rw [k, ok_bind]; exact ⟨r, rfl, hr.width_eq, hr.length_eq, hr.val_eq⟩
  | invalid N => rw [hX] at h; obtain ⟨r, k, hr⟩ := h; rw [k, ok_bind]; rfl
  | exceeds N => rw [hX] at h; obtain ⟨r, k, hr⟩ := h; rw [k, ok_bind]; rfl

/-! ## Well-formed numerals -/

theorem digits_all {radix : Nat} (ds : List Byte) : ∀ (acc v : Nat), digitsFrom radix acc ds = some v → ∀ c ∈ ds, (digitOf radix c).isNone = false := by
  induction ds with
  | nil => intro acc v _ c hc; cases hc
  | cons d ds ih =>
    intro acc v h c hc
    rw [digitsFrom] at h
    cases hd : digitOf radix d with
    | none => rw [hd] at h; cases h
    | some k =>
      rw [hd] at h
      rcases List.mem_cons.mp hc with rfl | hc
      · rw [hd]; rfl
      · exact ih _ _ h c hc

theorem all_digits {radix : Nat} (ds : List Byte) (h : ∀ c ∈ ds, (digitOf radix c).isNone = false) : ∀ acc, ∃ v, digitsFrom radix acc ds = some v := by
  induction ds with
  | nil => intro acc; exact ⟨acc, rfl⟩
  | cons d ds ih =>
    intro acc
    rw [digitsFrom]
    have hd := h d List.mem_cons_self
    cases hk : digitOf radix d with
    | none => rw [hk] at hd; cases hd
    | some k => exact ih (fun c hc => h c (List.mem_cons_of_mem _ hc)) _

/-- Too many digits, none of them bad: never an error. -/
theorem hugeInto_wellformed (m : Mode) {bits n old v : Nat} {ds : List Byte} (h : digitsFrom (2 ^ bits) 0 ds = some v) :
    hugeInto m bits n old ds = .panics := by
  have hall := digits_all ds 0 v h
  unfold hugeInto
  dsimp only
  split
  · rfl
  · obtain ⟨u, hu⟩ := all_digits (ds.take (countedDigits bits ds)) (fun c hc => hall c (List.mem_of_mem_take hc)) 0
    have hb : (((ds.drop (countedDigits bits ds)).take (64 / bits)).any (fun c => (digitOf (2 ^ bits) c).isNone)) = false := by
      rw [List.any_eq_false]
      intro c hc
      rw [hall c (List.mem_of_mem_drop (List.mem_of_mem_take hc))]
      decide
    unfold readInto
    dsimp only
    rw [readDigits_some hu, hb]
    dsimp only
    by_cases hk : n < (bits * (ds.take (countedDigits bits ds)).length + 63) / 64
    · rw [if_pos hk, if_neg (by simp)]
    · rw [if_neg hk, if_pos rfl]
      dsimp only
      rw [if_neg (fun k => by cases k.2)]

/-- **C136** A well-formed binary numeral of `2^32` digits or more for a width above 128 is reported as too long only if what the count keeps of
its length exceeds the width. Otherwise the call panics, in both build modes. -/
theorem C136_wellformed_bin (m : Mode) {w v : Nat} {s : List Byte} (h0 : 128 < w) (hw : w < 2 ^ 32) (hlen : s.length < 2 ^ 63)
    (h : 2 ^ 32 ≤ (numeralDigits s).length) (hv : digitsVal 2 (numeralDigits s) = some v) :
    if w < (numeralDigits s).length % 2 ^ 32 then BitVecValue.fromStrRadix m s 2 w = ok (.error .exceedsWidth)
    else Panics (BitVecValue.fromStrRadix m s 2 w) := by
  have hd : numeralDigits s ≠ [] := fun e => by rw [e] at h; simp at h
  have hy := C136_from_str_radix m 2 w s hw hlen
  unfold parseEvery assignEvery at hy
  rw [if_pos ⟨h0, .inl ⟨rfl, h⟩⟩, if_pos rfl] at hy
  unfold digitsVal at hv
  rw [if_neg hd] at hv
  rw [hugeInto_wellformed (bits := 1) m hv, show countedDigits 1 (numeralDigits s) = (numeralDigits s).length % 2 ^ 32 from rfl] at hy
  split
  · next k => rw [if_pos k] at hy; exact hy
  · next k => rw [if_neg k] at hy; exact hy

/-- **C136** A well-formed hexadecimal numeral of `2^30` digits or more for a width above 128 panics, in both build modes. -/
theorem C136_wellformed_hex (m : Mode) {w v : Nat} {s : List Byte} (h0 : 128 < w) (hw : w < 2 ^ 32) (hlen : s.length < 2 ^ 63)
    (h : 2 ^ 30 ≤ (numeralDigits s).length) (hv : digitsVal 16 (numeralDigits s) = some v) : Panics (BitVecValue.fromStrRadix m s 16 w) := by
  have hd : numeralDigits s ≠ [] := fun e => by rw [e] at h; simp at h
  have hy := C136_from_str_radix m 16 w s hw hlen
  unfold parseEvery assignEvery at hy
  rw [if_pos ⟨h0, .inr ⟨rfl, by omega⟩⟩, if_neg (by decide)] at hy
  unfold digitsVal at hv
  rw [if_neg hd] at hv
  rw [hugeInto_wellformed (bits := 4) m hv] at hy
  exact hy

/-! ## Examples -/

theorem numeralDigits_replicate {c : Byte} (h1 : c ≠ ch '-') (h2 : c ≠ ch '+') (n : Nat) : numeralDigits (List.replicate n c) = List.replicate n c := by
  cases n with
  | zero => rfl
  | succ n =>
    have h1 : stripMinus (List.replicate (n + 1) c) = List.replicate (n + 1) c := by
      unfold stripMinus
      rw [if_neg (by rw [List.replicate_succ, List.head?_cons]; exact fun h => h1 (Option.some.inj h))]
    unfold numeralDigits
    rw [h1]
    unfold stripPlus
    rw [if_neg (by rw [List.replicate_succ, List.head?_cons]; exact fun h => h2 (Option.some.inj h))]

theorem numeralDigits_zeros (n : Nat) : numeralDigits (List.replicate n (ch '0')) = List.replicate n (ch '0') :=
  numeralDigits_replicate (by decide) (by decide) n

theorem digitsVal_zeros {radix : Nat} (hr' : digitOf radix (ch '0') = some 0) (n : Nat) :
    digitsVal radix (List.replicate (n + 1) (ch '0')) = some 0 := by
  unfold digitsVal
  rw [if_neg (by simp)]
  induction n + 1 with
  | zero => rfl
  | succ n ih =>
    rw [List.replicate_succ, digitsFrom, hr']
    simpa using ih

/-- `2^32 + 5` zeros do not fit into 129 bits, but the call panics; with `2^32 + 200` of them it reports that they do not fit. -/
example (m : Mode) : Panics (BitVecValue.fromStrRadix m (List.replicate (2 ^ 32 + 4 + 1) (ch '0')) 2 129) ∧
    BitVecValue.fromStrRadix m (List.replicate (2 ^ 32 + 199 + 1) (ch '0')) 2 129 = ok (.error .exceedsWidth) := by
  have key : ∀ n, 2 ^ 32 ≤ n + 1 → n + 1 < 2 ^ 63 → if 129 < (n + 1) % 2 ^ 32 then
      BitVecValue.fromStrRadix m (List.replicate (n + 1) (ch '0')) 2 129 = ok (.error .exceedsWidth)
      else Panics (BitVecValue.fromStrRadix m (List.replicate (n + 1) (ch '0')) 2 129) := by
    intro n h1 h2
    have h := C136_wellformed_bin m (w := 129) (v := 0) (s := List.replicate (n + 1) (ch '0')) (by decide) (by decide)
      (by rw [List.length_replicate]; exact h2) (by rw [numeralDigits_zeros, List.length_replicate]; exact h1)
      (by rw [numeralDigits_zeros]; exact digitsVal_zeros (by decide +kernel) n)
    rw [numeralDigits_zeros, List.length_replicate] at h
    exact h
  have k1 := key (2 ^ 32 + 4) (by decide) (by decide)
  have k2 := key (2 ^ 32 + 199) (by decide) (by decide)
  rw [if_neg (by decide)] at k1
  rw [if_pos (by decide)] at k2
  exact ⟨k1, k2⟩

/-- `2^30 + 3` hexadecimal zeros. -/
example (m : Mode) : Panics (BitVecValue.fromStrRadix m (List.replicate (2 ^ 30 + 2 + 1) (ch '0')) 16 200) := by
  have key : ∀ n, 2 ^ 30 ≤ n + 1 → n + 1 < 2 ^ 63 → Panics (BitVecValue.fromStrRadix m (List.replicate (n + 1) (ch '0')) 16 200) := by
    intro n h1 h2
    exact C136_wellformed_hex m (w := 200) (v := 0) (s := List.replicate (n + 1) (ch '0')) (by decide) (by decide)
      (by rw [List.length_replicate]; exact h2) (by rw [numeralDigits_zeros, List.length_replicate]; exact h1)
      (by rw [numeralDigits_zeros]; exact digitsVal_zeros (by decide +kernel) n)
  exact key _ (by decide) (by decide)

/-- `2^32` characters that are no digits: debug builds panic, release builds report the first one. -/
example : Panics (BitVecValue.fromStrRadix .debug (List.replicate (2 ^ 32) (ch 'x')) 2 129) ∧
    BitVecValue.fromStrRadix .release (List.replicate (2 ^ 32) (ch 'x')) 2 129 = ok (.error .invalidDigit) := by
  have key : ∀ (m : Mode) n, n = 2 ^ 32 → Yields 129 (BitVecValue.fromStrRadix m (List.replicate n (ch 'x')) 2 129)
      (if m = .debug then .panics else .invalid) := by
    intro m n hn
    have h := C136_from_str_radix m 2 129 (List.replicate n (ch 'x')) (by decide) (by rw [List.length_replicate, hn]; decide)
    have hd := numeralDigits_replicate (c := ch 'x') (by decide) (by decide) n
    have hc : countedDigits 1 (List.replicate n (ch 'x')) = 0 := by
      unfold countedDigits
      rw [List.length_replicate, hn]
    unfold parseEvery assignEvery at h
    rw [if_pos ⟨by decide, .inl ⟨rfl, by rw [hd, List.length_replicate, hn]; decide⟩⟩, if_pos rfl, hd, hc, if_neg (by decide)] at h
    unfold hugeInto at h
    dsimp only at h
    rw [hc] at h
    cases m with
    | debug => rw [if_pos ⟨rfl, .inl rfl⟩] at h; rw [if_pos rfl]; exact h
    | release =>
      rw [if_neg (fun k => by cases k.1), List.take_zero, List.drop_zero, List.take_replicate, show min (64 / 1) n = 64 by omega,
        show readInto 1 ((129 + 63) / 64) 0 [] = .stores 0 by decide +kernel] at h
      dsimp only at h
      rw [if_pos ⟨rfl, by decide +kernel⟩] at h
      rw [if_neg (by decide)]
      exact h
  exact ⟨key .debug _ rfl, key .release _ rfl⟩

end Baa

import Verif.Props.HugeText
import Verif.Props.Unwind
import Verif.Spec.HugeLeft

/-!
# C137: what a panic leaves when a text has more digits than a 32-bit counter can count
-/

namespace Baa
open Res Strings

section
open Unwind Eff

/-- The digit loop with a state, on a text in two parts: what a panic leaves once the first part has been read. -/
theorem leaves_parseLoop_append {m : Mode} {bits pw n : Nat} {dv : Byte → Option Nat} {o t : List Word} {i : Nat} {w : Word} (ys : List Byte)
    (xs : List Byte) : ∀ (ii : Nat) (out : List Word) (oi : Nat) (word : Word),
      Strings.parseLoop m bits pw dv n ii out oi word xs = ok (o, .ok (i, w)) →
      (Unwind.parseLoop m bits pw dv n ii oi word (xs ++ ys)).Leaves out t →
      (Unwind.parseLoop m bits pw dv n (ii + xs.length) i w ys).Leaves o t := by
  induction xs with
  | nil => intro ii out oi word h k; cases h; exact k
  | cons c xs ih =>
    intro ii out oi word h k
    rw [List.cons_append, Unwind.parseLoop] at k
    rw [Strings.parseLoop] at h
    cases h1 : subC m U64 n ii with
    | panic p => rw [h1] at h; cases h
    | ok r =>
      rw [h1, ok_bind] at h
      replace k := leaves_bind_ok (s' := out) (a := r) (by rw [run_lift, h1]; rfl) k
      cases h2 : subC m U64 r 1 with
      | panic p => rw [h2] at h; cases h
      | ok r1 =>
        rw [h2, ok_bind] at h
        replace k := leaves_bind_ok (s' := out) (a := r1) (by rw [run_lift, h2]; rfl) k
        have hmid : (if ii > 0 then do
            let k ← lift (addC m U64 r1 1)
            if k % pw = 0 then
              put oi word
              let outIi ← lift (subC m U64 oi 1)
              Eff.pure (outIi, 0#64)
            else Eff.pure (oi, word)
          else Eff.pure (oi, word) : Eff (List Word) (Nat × Word)).run out =
          ((if ii > 0 then do
              let k ← addC m U64 r1 1
              if k % pw = 0 then do
                let out ← setIdx out oi word
                let outIi ← subC m U64 oi 1
                ok (out, outIi, 0#64)
              else ok (out, oi, word)
            else ok (out, oi, word) : Res (List Word × Nat × Word))) := by
          by_cases hii : ii > 0
          · rw [if_pos hii, if_pos hii]
            eff_same
            congr 1
            funext k
            split
            · rw [run_put]
              eff_same
            · rfl
          · rw [if_neg hii, if_neg hii]
            rfl
        cases h3 : (if ii > 0 then do
              let k ← addC m U64 r1 1
              if k % pw = 0 then do
                let out ← setIdx out oi word
                let outIi ← subC m U64 oi 1
                ok (out, outIi, 0#64)
              else ok (out, oi, word)
            else ok (out, oi, word) : Res (List Word × Nat × Word)) with
        | panic p => rw [h3] at h; cases h
        | ok st =>
          obtain ⟨o1, i1, w1⟩ := st
          rw [h3, ok_bind] at h
          rw [h3] at hmid
          replace k := leaves_bind_ok hmid k
          dsimp only at h k
          cases hc : dv c with
          | none => rw [hc] at h; cases h
          | some v =>
            rw [hc] at h k
            have := ih _ _ _ _ h k
            rw [List.length_cons, show ii + (xs.length + 1) = ii + 1 + xs.length by omega]
            exact this

/-- After the counted digits. -/
theorem leaves_after {m : Mode} {bits pw n len q : Nat} {dv : Byte → Option Nat} (hdvd : pw ∣ U64) (hn : n < U64) (hq : n = len + pw * q)
    (hpos : 0 < len) {o t : List Word} (w : Word) (cs : List Byte) (ho : o ≠ []) (hout : o.length < U64)
    (h : (Unwind.parseLoop m bits pw dv n len 0 w cs).Leaves o t) : t = if m = .debug ∧ n = len then o else o.set 0 w := by
  have hU : (U64 : Nat) = 18446744073709551616 := rfl
  cases cs with
  | nil => exact absurd h leaves_pure
  | cons c cs =>
    have hput : (put 0 w).run o = ok (o.set 0 w, ()) := by
      rw [run_put, setIdx_zero (List.length_pos_iff.mpr ho)]
      rfl
    rw [Unwind.parseLoop] at h
    cases m with
    | debug =>
      replace h := leaves_bind_ok (s' := o) (a := n - len) (by rw [run_lift, subC_ok (by omega)]; rfl) h
      by_cases hnl : n = len
      · rw [if_pos ⟨rfl, hnl⟩]
        rw [show n - len = 0 by omega] at h
        rcases leaves_bind h with h | ⟨a, s', h1, _⟩
        · exact leaves_lift h
        · cases h1
      · rw [if_neg fun k => hnl k.2]
        replace h := leaves_bind_ok (s' := o) (a := n - len - 1) (by rw [run_lift, subC_ok (by omega)]; rfl) h
        rw [if_pos hpos] at h
        have hmid : ∀ a s', ¬ (do
            let k ← lift (addC .debug U64 (n - len - 1) 1)
            if k % pw = 0 then
              put 0 w
              let outIi ← lift (subC .debug U64 0 1)
              Eff.pure (outIi, 0#64)
            else Eff.pure (0, w) : Eff (List Word) (Nat × Word)).run o = ok (s', a) := by
          intro a s'
          eff_same
          rw [addC_ok (by omega), ok_bind, if_pos (by rw [show n - len - 1 + 1 = pw * q by omega, Nat.mul_mod_right]), hput, ok_bind]
          intro k
          cases k
        rcases leaves_bind h with h | ⟨a, s', h1, _⟩
        · replace h := leaves_bind_ok (s' := o) (a := n - len) (by
            rw [run_lift, addC_ok (by omega), show n - len - 1 + 1 = n - len by omega]; rfl) h
          rw [if_pos (by rw [show n - len = pw * q by omega, Nat.mul_mod_right])] at h
          replace h := leaves_bind_ok hput h
          rcases leaves_bind h with h | ⟨a, s', h1, _⟩
          · exact leaves_lift h
          · cases h1
        · exact absurd h1 (hmid a s')
    | release =>
      rw [if_neg fun k => by cases k.1]
      obtain ⟨r, hr⟩ : ∃ r, subC .release U64 n len = ok r := by unfold subC; split <;> exact ⟨_, rfl⟩
      obtain ⟨r1, hr1⟩ : ∃ r1, subC .release U64 r 1 = ok r1 := by unfold subC; split <;> exact ⟨_, rfl⟩
      obtain ⟨k, hk⟩ : ∃ k, addC .release U64 r1 1 = ok k := by unfold addC; split <;> exact ⟨_, rfl⟩
      obtain ⟨a1, a2⟩ := subC_mod hr hn
      obtain ⟨b1, b2⟩ := subC_mod hr1 a1
      have e := addC_mod hk
      have e2 : k % U64 = (n + U64 - len) % U64 := by
        rw [Nat.mod_eq_of_lt b1] at b2
        rw [Nat.mod_eq_of_lt a1] at a2
        rw [hU] at *
        omega
      have e3 : k % pw = 0 := by
        rw [← Nat.mod_mod_of_dvd k hdvd, e2, Nat.mod_mod_of_dvd _ hdvd]
        obtain ⟨x, hx⟩ := hdvd
        rw [show n + U64 - len = pw * q + U64 by omega, hx, ← Nat.mul_add, Nat.mul_mod_right]
      replace h := leaves_bind_ok (s' := o) (a := r) (by rw [run_lift, hr]; rfl) h
      replace h := leaves_bind_ok (s' := o) (a := r1) (by rw [run_lift, hr1]; rfl) h
      rw [if_pos hpos] at h
      have hmid : (do
          let k ← lift (addC .release U64 r1 1)
          if k % pw = 0 then
            put 0 w
            let outIi ← lift (subC .release U64 0 1)
            Eff.pure (outIi, 0#64)
          else Eff.pure (0, w) : Eff (List Word) (Nat × Word)).run o = ok (o.set 0 w, (U64 - 1, 0#64)) := by
        eff_same
        rw [hk, ok_bind, if_pos e3, hput, ok_bind]
        rfl
      replace h := leaves_bind_ok hmid h
      dsimp only at h
      cases hc : dv c with
      | none => rw [hc] at h; exact absurd h leaves_pure
      | some v =>
        rw [hc] at h
        exact (keeps_parseLoop .release bits pw dv n (o.set 0 w) cs _ _ _ (by rw [List.length_set]; omega)).1 t h

end

/-- A debug build writes the words from the top down, and not the one at the position where it ends. -/
theorem parseLoop_below {bits pw n : Nat} {dv : Byte → Option Nat} {o : List Word} {i : Nat} {w : Word} (xs : List Byte) :
    ∀ (ii : Nat) (out : List Word) (oi : Nat) (word : Word),
      Strings.parseLoop .debug bits pw dv n ii out oi word xs = ok (o, .ok (i, w)) → i ≤ oi ∧ ∀ j, j ≤ i → o[j]? = out[j]? := by
  induction xs with
  | nil => intro ii out oi word h; cases h; exact ⟨Nat.le_refl _, fun _ _ => rfl⟩
  | cons c xs ih =>
    intro ii out oi word h
    rw [Strings.parseLoop] at h
    cases h1 : subC .debug U64 n ii with
    | panic p => rw [h1] at h; cases h
    | ok r =>
      rw [h1, ok_bind] at h
      cases h2 : subC .debug U64 r 1 with
      | panic p => rw [h2] at h; cases h
      | ok r1 =>
        rw [h2, ok_bind] at h
        have next : ∀ (out : List Word) (oi : Nat) (word : Word), (match dv c with
            | none => ok (out, .error .invalidDigit)
            | some v => Strings.parseLoop .debug bits pw dv n (ii + 1) out oi ((word <<< bits) ||| BitVec.ofNat 64 v) xs :
              Res (List Word × Except IntErrorKind (Nat × Word))) = ok (o, .ok (i, w)) → i ≤ oi ∧ ∀ j, j ≤ i → o[j]? = out[j]? := by
          intro out oi word h
          cases hc : dv c with
          | none => rw [hc] at h; cases h
          | some v => rw [hc] at h; exact ih _ _ _ _ h
        by_cases hii : ii > 0
        · rw [if_pos hii] at h
          cases h3 : addC .debug U64 r1 1 with
          | panic p => rw [h3] at h; cases h
          | ok k =>
            rw [h3, ok_bind] at h
            by_cases hk : k % pw = 0
            · rw [if_pos hk] at h
              unfold setIdx at h
              split at h
              · rw [ok_bind] at h
                unfold subC at h
                split at h
                · obtain ⟨h4, h5⟩ := next _ _ _ h
                  refine ⟨by omega, fun j hj => ?_⟩
                  rw [h5 j hj, List.getElem?_set_ne (by omega)]
                · cases h
              · cases h
            · rw [if_neg hk] at h
              exact next _ _ _ h
        · rw [if_neg hii] at h
          exact next _ _ _ h

/-- A digit loop on too many digits, with the code after it. -/
theorem left_any {m : Mode} {bits pw : Nat} (hbp : bits * pw = 64) (hb : 64 / bits = pw) {dv : Byte → Option Nat}
    (hdv : ∀ c, dv c = digitOf (2 ^ bits) c) (hdvd : pw ∣ U64)
    (hceil : ∀ x, 0 < x → (bits * x + 63) / 64 = (x - 1) / pw + 1) {ds : List Byte} {len n q oi : Nat}
    (hn : n < U64) (hq : n = len + pw * q) (hle : len + pw < ds.length) (hlen : ds.length < U64)
    (out : List Word) (hout : out.length < U64) (hm : m = .debug → 0 < len) (hoi : 0 < len → oi = (len - 1) / pw) (hoi0 : len = 0 → out.length ≤ oi)
    {tail : Except IntErrorKind (Nat × Word) → Eff (List Word) (Except IntErrorKind Unit)}
    (t1 : ∀ e, tail (.error e) = Eff.pure (.error e)) (t2 : ∀ r, (tail r).Keeps out) {t : List Word}
    (h : (Unwind.parseLoop m bits pw dv n 0 oi 0#64 ds >>= tail).Leaves out t) :
    t.length = out.length ∧ wordsVal t = match readInto bits out.length (wordsVal out) (ds.take len) with
      | .stores N => if m = .debug ∧ n = len then N - N % 2 ^ 64 + wordsVal out % 2 ^ 64 else N
      | _ => wordsVal out := by
  have hpw : 0 < pw := Nat.pos_of_ne_zero fun h => by rw [h] at hbp; omega
  by_cases h0 : len = 0
  · have e := keeps_loop (hoi0 h0) t2 t h
    subst h0
    have er : readInto bits out.length (wordsVal out) (ds.take 0) = .stores (wordsVal out) := by
      unfold readInto
      dsimp only
      rw [List.take_zero, List.length_nil, Nat.mul_zero, if_neg (by omega)]
      simp [readDigits, staleMagnitude]
    rw [er, e]
    dsimp only
    refine ⟨rfl, ?_⟩
    split
    · next k => have := hm k.1; omega
    · rfl
  have hpos : 0 < len := by omega
  have htl : (ds.take len).length = len := by rw [List.length_take]; omega
  by_cases hfit : out.length < (bits * len + 63) / 64
  · have hoi1 := hoi hpos
    have e := keeps_loop (by rw [hceil len hpos] at hfit; omega) t2 t h
    rw [e]
    refine ⟨rfl, ?_⟩
    unfold readInto
    dsimp only
    rw [htl, if_pos hfit]
    split
    · next k => split at k <;> cases k
    · rfl
  have hne : ds.take len ≠ [] := by intro e; rw [e] at htl; simp at htl; omega
  have hda := digits_any (m := m) hbp hb hdv hceil hne (by omega) out (tail := loopEnd) (fun o e => rfl)
    (fun o w h => by unfold loopEnd; dsimp only; rw [if_neg (List.length_pos_iff.mp h), if_pos rfl])
    (fun i w => by unfold loopEnd; exact ⟨_, rfl⟩)
  obtain ⟨r, hr⟩ := readInto_runs (by rw [htl]; omega) hda
  rw [htl, ← hoi hpos, ← parseLoop_congr hn hq _ 0 out oi 0#64 (by omega)] at hda hr
  -- the loop as a whole does not end with all digits read
  have hall := huge_any (m := m) hbp hb hdv hdvd hceil hn hq hle hlen out hout hm hoi hoi0
    (tail := fun r => match r with | (o, .error e) => ok (o, .error e) | (o, .ok _) => ok (o, .ok ())) (fun o e => rfl)
  have hloop : (Unwind.parseLoop m bits pw dv n 0 oi 0#64 ds).Leaves out t := by
    rcases Eff.leaves_bind h with h | ⟨a, s', h1, h2⟩
    · exact h
    · exfalso
      cases a with
      | error e => rw [t1] at h2; exact Eff.leaves_pure h2
      | ok x =>
        rw [Unwind.run_parseLoop] at h1
        rw [h1, ok_bind] at hall
        dsimp only at hall
        revert hall
        split
        · split
          · rintro ⟨_, h, _⟩; cases h
          · rintro ⟨_, h⟩; cases h
        · next hns =>
          intro hall
          cases hX : readInto bits out.length (wordsVal out) (ds.take len) with
          | stores N => exact hns N hX
          | invalid N => rw [hX] at hall; obtain ⟨_, h, _⟩ := hall; cases h
          | exceeds N => rw [hX] at hall; obtain ⟨_, h, _⟩ := hall; cases h
          | panics => rw [hX] at hall; obtain ⟨_, h⟩ := hall; cases h
  cases hL : Strings.parseLoop m bits pw dv n 0 out oi 0#64 (ds.take len) with
  | panic p => rw [hL] at hr; cases hr
  | ok x =>
    obtain ⟨o, e⟩ := x
    have hol : o.length = out.length := parseLoop_length _ _ _ _ _ _ _ hL
    cases e with
    | error e =>
      exfalso
      have hp := Eff.leaves_iff.mp ⟨t, hloop⟩
      rw [Unwind.run_parseLoop, ← List.take_append_drop len ds, parseLoop_append, hL] at hp
      obtain ⟨p, hp⟩ := hp
      cases hp
    | ok x =>
      obtain ⟨i, w⟩ := x
      rw [hL, ok_bind] at hda
      unfold loopEnd at hda
      dsimp only at hda
      rw [← List.take_append_drop len ds] at hloop
      have h2 := leaves_parseLoop_append _ _ _ _ _ _ hL hloop
      rw [htl, Nat.zero_add] at h2
      have hN : ∃ N, readInto bits out.length (wordsVal out) (ds.take len) = .stores N ∧ o ≠ [] ∧ i = 0 ∧ wordsVal (o.set 0 w) = N := by
        cases hX : readInto bits out.length (wordsVal out) (ds.take len) with
        | stores N =>
          rw [hX] at hda
          obtain ⟨o', k1, _, k3⟩ := hda
          by_cases ho : o = []
          · rw [if_pos ho] at k1; cases k1
          · rw [if_neg ho] at k1
            by_cases hi : i = 0
            · rw [if_pos hi] at k1
              cases k1
              exact ⟨N, rfl, ho, hi, k3⟩
            · rw [if_neg hi] at k1; cases k1
        | invalid N =>
          rw [hX] at hda
          obtain ⟨o', k1, _, _⟩ := hda
          by_cases ho : o = []
          · rw [if_pos ho] at k1; cases k1
          · rw [if_neg ho] at k1
            by_cases hi : i = 0
            · rw [if_pos hi] at k1; cases k1
            · rw [if_neg hi] at k1; cases k1
        | exceeds N => exact absurd hX (readInto_ne_exceeds _ _ _ _ _)
        | panics =>
          rw [hX] at hda
          rw [hL, ok_bind] at hr
          unfold loopEnd at hr
          dsimp only at hr
          rw [hr] at hda
          obtain ⟨_, k⟩ := hda
          cases k
      obtain ⟨N, e1, ho, hi, e2⟩ := hN
      subst hi
      have e3 := leaves_after hdvd hn hq hpos w _ ho (by omega) h2
      rw [e1]
      dsimp only
      by_cases hc : m = .debug ∧ n = len
      · rw [if_pos hc] at e3 ⊢
        rw [e3]
        refine ⟨hol, ?_⟩
        obtain ⟨rfl, _⟩ := hc
        have hb0 := (parseLoop_below _ _ _ _ _ hL).2 0 (Nat.le_refl _)
        cases o with
        | nil => exact absurd rfl ho
        | cons x o =>
          cases out with
          | nil => simp at hol
          | cons y out =>
            simp only [List.getElem?_cons_zero, Option.some.injEq] at hb0
            subst hb0
            rw [List.set_cons_zero, wordsVal_cons] at e2
            rw [wordsVal_cons, wordsVal_cons]
            have := x.isLt
            have := w.isLt
            omega
      · rw [if_neg hc] at e3 ⊢
        rw [e3, List.length_set]
        exact ⟨hol, e2⟩

theorem left_parseBase2 (m : Mode) {ds : List Byte} (h : 2 ^ 32 ≤ ds.length) (hlen : ds.length < 2 ^ 63) (out : List Word)
    (hout : out.length < 2 ^ 32) (w : Nat) {t : List Word} (hl : (Unwind.parseBase2 m ds w).Leaves out t) :
    t.length = out.length ∧ wordsVal t = hugeLeft m 1 out.length (wordsVal out) ds := by
  have hU : (U32 : Nat) = 4294967296 := rfl
  have hU' : (U64 : Nat) = 18446744073709551616 := rfl
  have hc : countedDigits 1 ds = ds.length % 4294967296 := rfl
  unfold Unwind.parseBase2 at hl
  unfold hugeLeft
  dsimp only at hl ⊢
  rw [hU] at hl
  rw [hc]
  by_cases hw : ds.length % 4294967296 > w
  · rw [if_pos hw] at hl
    exact absurd hl Eff.leaves_pure
  rw [if_neg hw, show divCeil (ds.length % 4294967296) BITS = (ds.length % 4294967296 + 63) / 64 from rfl] at hl
  rw [show (2 : Nat) ^ 32 = 4294967296 from rfl] at *
  generalize hl' : ds.length % 4294967296 = len at *
  by_cases hd : m = .debug ∧ (len = 0 ∨ 4294967296 ≤ 1 * len)
  · have h0 : len = 0 := by rcases hd.2 with h | h; exact h; omega
    rw [if_pos hd]
    rw [hd.1, h0] at hl
    rcases Eff.leaves_bind hl with hl | ⟨a, s', h1, _⟩
    · rw [Eff.leaves_lift hl]; exact ⟨rfl, rfl⟩
    · cases h1
  rw [if_neg hd]
  have hm : m = .debug → 0 < len := fun e => Nat.pos_of_ne_zero fun h => hd ⟨e, .inl h⟩
  obtain ⟨oi, ho, ho1, ho2⟩ : ∃ oi, subC m 4294967296 ((len + 63) / 64) 1 = ok oi ∧ (0 < len → oi = (len - 1) / 64) ∧ (len = 0 → out.length ≤ oi) := by
    by_cases h0 : len = 0
    · cases m with
      | debug => have := hm rfl; omega
      | release => exact ⟨4294967295, by rw [h0]; rfl, fun h => by omega, fun _ => by omega⟩
    · exact ⟨_, subC_ok (by omega), fun _ => by omega, fun h => absurd h h0⟩
  replace hl := Eff.leaves_bind_ok (s' := out) (a := oi) (by rw [Eff.run_lift, ho]; rfl) hl
  have := left_any (bits := 1) (pw := 64) (q := 0) rfl rfl binDigitValue_eq (by decide) (fun x hx => by omega) (by omega) (by omega) (by omega)
    (by omega) out (by omega) hm ho1 ho2 (fun e => rfl) (fun r => by
      cases r with
      | error e => exact .pure _ _
      | ok p =>
        refine .lift_bind fun _ _ => ?_
        intro t ht
        rcases Eff.leaves_bind ht with ht | ⟨a, s', h1, h2⟩
        · exact keeps_put _ _ _ _ ht
        · exact absurd h2 Eff.leaves_pure) hl
  refine ⟨this.1, ?_⟩
  rw [this.2]
  cases readInto 1 out.length (wordsVal out) (ds.take len) <;> simp

theorem left_parseBase16 (m : Mode) {ds : List Byte} (h : 2 ^ 32 ≤ 4 * ds.length) (hlen : ds.length < 2 ^ 63) (out : List Word)
    (hout : out.length < 2 ^ 32) {t : List Word} (hl : (Unwind.parseBase16 m ds).Leaves out t) :
    t.length = out.length ∧ wordsVal t = hugeLeft m 4 out.length (wordsVal out) ds := by
  have hU : (U32 : Nat) = 4294967296 := rfl
  have hU' : (U64 : Nat) = 18446744073709551616 := rfl
  have hc : countedDigits 4 ds = ds.length % 1073741824 := rfl
  unfold Unwind.parseBase16 at hl
  unfold hugeLeft
  dsimp only at hl ⊢
  rw [hU] at hl
  rw [hc]
  by_cases hd : m = .debug ∧ (ds.length % 1073741824 = 0 ∨ 2 ^ 32 ≤ 4 * (ds.length % 2 ^ 32))
  · rw [if_pos hd]
    rw [hd.1] at hl
    suffices h : t = out by rw [h]; exact ⟨rfl, rfl⟩
    refine (Eff.Keeps.lift_bind fun b hb => Eff.Keeps.lift_bind fun o ho => ?_ : Eff.Keeps _ out) t hl
    exfalso
    unfold mulC at hb
    split at hb
    · have h0 : ds.length % 4294967296 = 0 := by rcases hd.2 with h | h <;> omega
      rw [h0] at hb
      cases hb
      cases ho
    · cases hb
  rw [if_neg hd]
  have hmul : mulC m 4294967296 (ds.length % 4294967296) 4 = ok (4 * (ds.length % 1073741824)) := by
    unfold mulC
    cases m with
    | debug =>
      have : ¬ 2 ^ 32 ≤ 4 * (ds.length % 2 ^ 32) := fun h => hd ⟨rfl, .inr h⟩
      rw [if_pos (by omega)]
      congr 1; omega
    | release =>
      by_cases hov : ds.length % 4294967296 * 4 < 4294967296
      · rw [if_pos hov]
        congr 1; omega
      · rw [if_neg hov]
        show ok (ds.length % 4294967296 * 4 % 4294967296) = ok (4 * (ds.length % 1073741824))
        congr 1; omega
  rw [hmul] at hl
  replace hl := Eff.leaves_bind_ok (s' := out) (a := 4 * (ds.length % 1073741824)) rfl hl
  rw [show divCeil (4 * (ds.length % 1073741824)) BITS = (4 * (ds.length % 1073741824) + 63) / 64 from rfl] at hl
  have hq : ds.length = ds.length % 1073741824 + 16 * (67108864 * (ds.length / 1073741824)) := by omega
  generalize ds.length % 1073741824 = len at *
  have hm : m = .debug → 0 < len := fun e => Nat.pos_of_ne_zero fun h => hd ⟨e, .inl h⟩
  obtain ⟨oi, ho, ho1, ho2⟩ : ∃ oi, subC m 4294967296 ((4 * len + 63) / 64) 1 = ok oi ∧ (0 < len → oi = (len - 1) / 16) ∧
      (len = 0 → out.length ≤ oi) := by
    by_cases h0 : len = 0
    · cases m with
      | debug => have := hm rfl; omega
      | release => exact ⟨4294967295, by rw [h0]; rfl, fun h => by omega, fun _ => by omega⟩
    · exact ⟨_, subC_ok (by omega), fun _ => by omega, fun h => absurd h h0⟩
  replace hl := Eff.leaves_bind_ok (s' := out) (a := oi) (by rw [Eff.run_lift, ho]; rfl) hl
  have := left_any (bits := 4) (pw := 16) rfl rfl hexDigitValue_eq (by decide) (fun x hx => by omega) (by omega) hq (by omega)
    (by omega) out (by omega) hm ho1 ho2 (fun e => rfl) (fun r => by
      cases r with
      | error e => exact .pure _ _
      | ok p =>
        refine .lift_bind fun _ _ => ?_
        intro t ht
        rcases Eff.leaves_bind ht with ht | ⟨a, s', h1, h2⟩
        · exact keeps_put _ _ _ _ ht
        · exact absurd (Eff.leaves_bind_ok (s' := s') (a := 4 * len) rfl h2) Eff.leaves_pure) hl
  refine ⟨this.1, ?_⟩
  rw [this.2]
  have : ¬ ds.length = len := by omega
  cases readInto 4 out.length (wordsVal out) (ds.take len) <;> simp [this]

/-! ## C137 -/

/-- **C137** What is left after a panic of `assign_from_str_radix` on a text with more digits than the 32-bit count can hold, in a value of any width
with any number of words other than one and two. -/
theorem C137_huge (m : Mode) (radix : Nat) (a b : BitVecValue) (t : List Byte) (ht : TooManyDigits radix t) (hlen : t.length < 2 ^ 63)
    (h1 : a.words.length ≠ 1) (h2 : a.words.length ≠ 2) (hout : a.words.length < 2 ^ 32)
    (h : (Unwind.assignFromStrRadix m t radix).Leaves a b) : b.shape = a.shape.leftHuge m radix t := by
  have hnl := digits_length_le_text t
  have hd : numeralDigits t ≠ [] := by
    intro e
    rcases ht with ⟨_, h⟩ | ⟨_, h⟩ <;> (rw [e] at h; simp at h)
  have hs : stripMinus t ≠ [] := by
    intro e; exact hd (by unfold numeralDigits; rw [e]; rfl)
  have hplus : stripMinus t ≠ [ch '+'] := by
    intro e; exact hd (by unfold numeralDigits; rw [e]; simp [stripPlus])
  obtain ⟨w, ws⟩ := a
  replace h := Eff.leaves_bind_ok (Eff.run_get _) h
  obtain ⟨ws', h', rfl⟩ := leaves_onWords h
  clear h
  dsimp only at h' h1 h2 hout
  unfold Unwind.fromStrRadix at h'
  dsimp only at h'
  have e : (if t.head? == some (ch '-') then t.drop 1 else t) = stripMinus t := by
    unfold stripMinus
    simp only [beq_iff_eq, List.drop_one]
  rw [e] at h'
  split at h'
  · exact absurd h' Eff.leaves_pure
  split at h'
  · split at h' <;> exact absurd h' Eff.leaves_pure
  have hmag : Unwind.parseMagnitude m (stripMinus t) radix w ws = (do
      Eff.lift (debugAssert m (divCeil w BITS == ws.length))
      if radix = 2 then Unwind.parseBase2 m (numeralDigits t) w
      else if radix = 10 then Eff.lift (.panic .todo)
      else if radix = 16 then Unwind.parseBase16 m (numeralDigits t)
      else Eff.lift (.panic .todo) : Eff (List Word) (Except IntErrorKind Unit)) ws := by
    have e : (if (stripMinus t).head? = some (ch '+') then (stripMinus t).drop 1 else stripMinus t) = numeralDigits t := by
      unfold numeralDigits stripPlus
      simp only [List.drop_one]
    unfold Unwind.parseMagnitude
    dsimp only
    rw [e]
    simp only [if_neg hplus]
    match ws with
    | [] => rfl
    | [x] => exact absurd rfl h1
    | [x, y] => exact absurd rfl h2
    | x :: y :: z :: rest => rfl
  rcases Eff.leaves_bind h' with h | ⟨r, ws1, h3, h⟩
  · unfold Eff.Leaves at h
    rw [hmag] at h
    unfold Shape.leftHuge
    show BitVecValue.shape ⟨w, ws'⟩ = if m = .debug ∧ ws.length ≠ need w then BitVecValue.shape ⟨w, ws⟩
      else ⟨w, ws.length, hugeLeft m (if radix = 2 then 1 else 4) ws.length (wordsVal ws) (numeralDigits t)⟩
    rcases Eff.leaves_bind h with h | ⟨u, s', h3, h⟩
    · rw [Eff.leaves_lift h]
      obtain ⟨p, hp⟩ := h
      rw [if_pos]
      cases m with
      | release => cases hp
      | debug =>
        refine ⟨rfl, fun e => ?_⟩
        rw [show divCeil w BITS = need w from rfl, ← e, beq_self_eq_true] at hp
        cases hp
    · rw [Eff.run_lift] at h3
      cases hda : debugAssert m (divCeil w BITS == ws.length) with
      | panic p => rw [hda] at h3; cases h3
      | ok u' =>
        rw [hda] at h3
        cases h3
        rw [if_neg (by
          rintro ⟨rfl, k⟩
          rw [show (divCeil w BITS == ws.length) = false from beq_eq_false_iff_ne.mpr fun e => k e.symm] at hda
          cases hda)]
        have fin : ∀ {bits}, ws'.length = ws.length ∧ wordsVal ws' = hugeLeft m bits ws.length (wordsVal ws) (numeralDigits t) →
            BitVecValue.shape ⟨w, ws'⟩ = ⟨w, ws.length, hugeLeft m bits ws.length (wordsVal ws) (numeralDigits t)⟩ := by
          rintro bits ⟨k1, k2⟩
          unfold BitVecValue.shape
          dsimp only
          rw [k1, k2]
        rcases ht with ⟨hr, h4⟩ | ⟨hr, h4⟩
        · subst hr
          rw [if_pos rfl] at h ⊢
          exact fin (left_parseBase2 m h4 (by omega) ws hout w h)
        · subst hr
          rw [if_neg (by decide), if_neg (by decide), if_pos rfl] at h
          rw [if_neg (by decide)]
          exact fin (left_parseBase16 m h4 (by omega) ws hout h)
  · -- the magnitude is never accepted
    exfalso
    rw [Unwind.run_parseMagnitude] at h3
    cases r with
    | error e => exact absurd h Eff.leaves_pure
    | ok u =>
      have hm : LeavesWords ws.length (parseMagnitude m (stripMinus t) radix ws w)
          (if m = .debug ∧ ws.length ≠ need w then .panics
            else if radix = 2 then if w < countedDigits 1 (numeralDigits t) then .exceeds (wordsVal ws)
              else hugeInto m 1 ws.length (wordsVal ws) (numeralDigits t)
            else hugeInto m 4 ws.length (wordsVal ws) (numeralDigits t)) := magnitude_huge m radix ⟨w, ws⟩ t ht hlen h1 h2 hout
      rw [h3] at hm
      generalize hX : (if m = .debug ∧ ws.length ≠ need w then AssignOutcome.panics
        else if radix = 2 then if w < countedDigits 1 (numeralDigits t) then .exceeds (wordsVal ws)
          else hugeInto m 1 ws.length (wordsVal ws) (numeralDigits t)
        else hugeInto m 4 ws.length (wordsVal ws) (numeralDigits t)) = X at hm
      cases X with
      | panics => obtain ⟨_, k⟩ := hm; cases k
      | invalid N => obtain ⟨_, k, _⟩ := hm; cases k
      | exceeds N => obtain ⟨_, k, _⟩ := hm; cases k
      | stores N =>
        split at hX
        · cases hX
        · split at hX
          · split at hX
            · cases hX
            · exact hugeInto_ne_stores _ _ _ _ _ _ hX
          · exact hugeInto_ne_stores _ _ _ _ _ _ hX

/-- **C137** What is left after a panic of `assign_from_str_radix`, for every text, every radix and every value. (2^63 bytes are the most a string can
have.) This completes C121. -/
theorem C137_every_text (m : Mode) (radix : Nat) (a b : BitVecValue) (t : List Byte) (hlen : t.length < 2 ^ 63) (hout : a.words.length < 2 ^ 32)
    (h : (Unwind.assignFromStrRadix m t radix).Leaves a b) : b.shape = a.shape.leftEvery m radix t := by
  unfold Shape.leftEvery
  rw [show a.shape.words = a.words.length from rfl]
  by_cases hc : a.words.length ≠ 1 ∧ a.words.length ≠ 2 ∧ TooManyDigits radix t
  · rw [if_pos hc]
    exact C137_huge m radix a b t hc.2.2 hlen hc.1 hc.2.1 hout h
  · rw [if_neg hc]
    refine C121_parse m radix a b t (fun h1 h2 hr => ?_) (fun h1 h2 hr => ?_) h
    · exact Nat.lt_of_not_le fun k => hc ⟨h1, h2, .inl ⟨hr, k⟩⟩
    · exact Nat.lt_of_not_le fun k => hc ⟨h1, h2, .inr ⟨hr, k⟩⟩

/-- **C137** for a value with as many words as its width calls for: only above 128 bits and only for a text with too many digits does a panic leave
anything but the value as it was. -/
theorem C137_sized (m : Mode) (radix : Nat) (a b : BitVecValue) (t : List Byte) (hlen : t.length < 2 ^ 63) (hl : a.words.length = need a.width)
    (hw : a.width < 2 ^ 32) (h : (Unwind.assignFromStrRadix m t radix).Leaves a b) :
    if 128 < a.width ∧ TooManyDigits radix t then
      b.width = a.width ∧ b.words.length = a.words.length ∧
        wordsVal b.words = hugeLeft m (if radix = 2 then 1 else 4) (need a.width) (wordsVal a.words) (numeralDigits t)
    else b = a := by
  have hn : need a.width = (a.width + 63) / 64 := rfl
  by_cases hc : 128 < a.width ∧ TooManyDigits radix t
  · rw [if_pos hc]
    have e := C137_huge m radix a b t hc.2 hlen (by omega) (by omega) (by omega) h
    unfold Shape.leftHuge at e
    rw [if_neg (fun k => k.2 hl)] at e
    rw [← hl]
    exact ⟨congrArg Shape.width e, congrArg Shape.words e, congrArg Shape.number e⟩
  · rw [if_neg hc]
    refine (C121_sized m a b hl hw).2.1 radix t (fun h128 hr => ?_) (fun h128 hr => ?_) h
    · exact Nat.lt_of_not_le fun k => hc ⟨h128, .inl ⟨hr, k⟩⟩
    · exact Nat.lt_of_not_le fun k => hc ⟨h128, .inr ⟨hr, k⟩⟩

/-- **C137** A value of 129 bits can be changed by a parse that panics: `2^32 + 65` zeros, read into a value of ones, leave zeros in the two lower
words in a release build, and in the second word in a debug build. -/
theorem C137_changed (m : Mode) : ∃ b, (Unwind.assignFromStrRadix m (List.replicate (2 ^ 32 + 65) (ch '0')) 2).Leaves (encode (BitVec.allOnes 129)) b ∧
    Denotes b (if m = .debug then BitVec.ofNat 129 (2 ^ 128 + 2 ^ 64 - 1) else BitVec.ofNat 129 (2 ^ 128)) := by
  have key : ∀ n, n % 2 ^ 32 = 65 → 2 ^ 32 ≤ n → n < 2 ^ 63 →
      ∃ b, (Unwind.assignFromStrRadix m (List.replicate n (ch '0')) 2).Leaves (encode (BitVec.allOnes 129)) b ∧
        Denotes b (if m = .debug then BitVec.ofNat 129 (2 ^ 128 + 2 ^ 64 - 1) else BitVec.ofNat 129 (2 ^ 128)) := by
    intro n h1 h2 h3
    have hwf : (encode (BitVec.allOnes 129)).words.length = need (encode (BitVec.allOnes 129)).width := by decide +kernel
    have htm : TooManyDigits 2 (List.replicate n (ch '0')) := .inl ⟨rfl, by rw [numeralDigits_zeros, List.length_replicate]; exact h2⟩
    have hcd : countedDigits 1 (List.replicate n (ch '0')) = 65 := by
      unfold countedDigits
      rw [List.length_replicate]
      exact h1
    have hread : readInto 1 3 (2 ^ 129 - 1) (List.replicate 65 (ch '0')) = .stores (2 ^ 128) := by decide +kernel
    have hpan : Panics ((Unwind.assignFromStrRadix m (List.replicate n (ch '0')) 2).run (encode (BitVec.allOnes 129))) := by
      rw [(C121_values_agree m _).2.2.2.2.1]
      have := C136_huge m 2 (encode (BitVec.allOnes 129)) (List.replicate n (ch '0')) htm (by rw [List.length_replicate]; exact h3)
        (by decide +kernel) (by decide +kernel) (by decide +kernel)
      unfold Shape.parseHuge at this
      rw [show (encode (BitVec.allOnes 129)).shape = ⟨129, 3, 2 ^ 129 - 1⟩ by decide +kernel, numeralDigits_zeros] at this
      dsimp only at this
      rw [hcd, if_neg (by decide), if_neg (fun k => k.2 (by decide)), if_pos rfl, if_neg (by decide)] at this
      unfold hugeInto at this
      dsimp only at this
      rw [hcd, List.length_replicate, h1, if_neg (by omega), List.take_replicate, Nat.min_eq_left (by omega), hread] at this
      dsimp only at this
      rw [List.drop_replicate, List.take_replicate, if_neg (by
        rintro ⟨_, k⟩
        rw [List.any_eq_true] at k
        obtain ⟨c, hc1, hc2⟩ := k
        rw [(List.mem_replicate.mp hc1).2] at hc2
        revert hc2
        decide +kernel)] at this
      exact this
    obtain ⟨b, hb⟩ := Eff.leaves_iff.mpr hpan
    refine ⟨b, hb, ?_⟩
    have h := C137_sized m 2 _ b _ (by rw [List.length_replicate]; exact h3) hwf (by decide +kernel) hb
    rw [if_pos ⟨by decide +kernel, htm⟩, if_pos rfl, numeralDigits_zeros] at h
    obtain ⟨e1, e2, e3⟩ := h
    unfold hugeLeft at e3
    dsimp only at e3
    rw [hcd, List.length_replicate, h1, if_neg (by omega), List.take_replicate, Nat.min_eq_left (by omega),
      show need (encode (BitVec.allOnes 129)).width = 3 by decide +kernel, show wordsVal (encode (BitVec.allOnes 129)).words = 2 ^ 129 - 1 by decide +kernel,
      hread] at e3
    dsimp only at e3
    have hb' : b = encode (if m = .debug then BitVec.ofNat 129 (2 ^ 128 + 2 ^ 64 - 1) else BitVec.ofNat 129 (2 ^ 128)) := by
      apply shape_inj
      unfold BitVecValue.shape
      rw [e1, e2, e3]
      cases m <;> decide +kernel
    rw [hb']
    exact encode_denotes _ (by decide)
  exact key (2 ^ 32 + 65) (by decide) (by decide) (by decide)

/-- The cases in which nothing is left behind: up to 128 bits, and texts with fewer digits. -/
example (m : Mode) (a b : BitVecValue) (hl : a.words.length = need a.width) (hw : a.width ≤ 128)
    (h : (Unwind.assignFromStrRadix m [ch '1', ch '2'] 37).Leaves a b) : b = a := by
  have := C137_sized m 37 a b _ (by decide) hl (by omega) h
  rwa [if_neg (by rintro ⟨k, _⟩; omega)] at this

end Baa

import Verif.Props.ForeignWidth
import Verif.Spec.Histories

/-!
# C94: dense arrays of wide data are a memory of words

Dense arrays with data of more than 64 bits keep the elements one after the other in a list of words. The position of an element is
computed with 64-bit arithmetic, which wraps around in a release build, so an index with stray bits can reach words of two neighbouring
elements. C89 excludes such indices. This file predicts every access, for values of any width with any words, in both build modes.
-/

namespace Baa
open Res BitVecValue

/-! ## Lists of words -/

/-- A list of words holds a memory. -/
def Holds64 (l : List Word) (mem : Nat → Nat) : Prop := ∀ k x, l[k]? = some x → x.toNat = mem k

theorem digit_of_wordsVal (l : List Word) (k : Nat) (x : Word) (h : l[k]? = some x) : x.toNat = wordsVal l / 2 ^ (64 * k) % 2 ^ 64 := by
  induction l generalizing k with
  | nil => simp at h
  | cons w ws ih =>
    rw [wordsVal_cons]
    have hw := w.isLt
    cases k with
    | zero =>
      simp at h
      subst h
      simp
      omega
    | succ k =>
      have h1 : 64 * (k + 1) = 64 + 64 * k := by omega
      rw [h1, Nat.pow_add, ← Nat.div_div_eq_div_mul]
      have h2 : (w.toNat + 2 ^ 64 * wordsVal ws) / 2 ^ 64 = wordsVal ws := by omega
      rw [h2]
      exact ih k (by simpa using h)

theorem gather_eq {l : List Word} {mem : Nat → Nat} (h : Holds64 l mem) (c s : Nat) (hc : s + c ≤ l.length) :
    wordsVal ((l.drop s).take c) = gather mem s c := by
  induction c generalizing s with
  | zero => simp [gather]
  | succ c ih =>
    have hs : s < l.length := by omega
    rw [List.drop_eq_getElem_cons hs, List.take_succ_cons, wordsVal_cons, ih (s + 1) (by omega), gather,
      h s l[s] (List.getElem?_eq_getElem hs)]

theorem scatter_eq {l ws : List Word} {mem : Nat → Nat} (h : Holds64 l mem) {s c : Nat} (hw : ws.length = c) (hc : s + c ≤ l.length) :
    Holds64 (l.take s ++ ws ++ l.drop (s + c)) (scatter mem s c (wordsVal ws)) := by
  intro k x hx
  unfold scatter
  have hts : (l.take s).length = s := by simp; omega
  by_cases h1 : k < s
  · rw [if_neg (by omega)]
    rw [List.getElem?_append_left (by simp; omega), List.getElem?_append_left (by omega), List.getElem?_take_of_lt h1] at hx
    exact h k x hx
  · by_cases h2 : k < s + c
    · rw [if_pos (by omega)]
      rw [List.getElem?_append_left (by simp; omega), List.getElem?_append_right (by omega), hts] at hx
      exact digit_of_wordsVal _ _ _ hx
    · rw [if_neg (by omega)]
      rw [List.getElem?_append_right (by simp; omega), List.getElem?_drop] at hx
      refine h k x ?_
      rw [← hx]
      congr 1
      simp
      omega

/-! ## Positions -/

/-- The checks and the arithmetic of an access compute the place. -/
theorem place_eq {α : Type} (m : Mode) {c : Nat} (I : Nat) {l : List Word} (hl : l.length < 2 ^ 60) (hc : c < 2 ^ 32) (f : Nat → Nat → Res α)
    (hf : ∀ s e, ¬ (s ≤ e ∧ e ≤ l.length) → Panics (f s e)) :
    match place m c l.length I with
    | none => Panics (mulC m U64 c I >>= fun s => addC m U64 s c >>= fun e => f s e)
    | some s => s + c ≤ l.length ∧ (mulC m U64 c I >>= fun s => addC m U64 s c >>= fun e => f s e) = f s (s + c) := by
  have hstep : ∀ s, s < 2 ^ 64 → (s + c ≤ l.length → (addC m U64 s c >>= fun e => f s e) = f s (s + c)) ∧
      (¬ s + c ≤ l.length → Panics (addC m U64 s c >>= fun e => f s e)) := by
    intro s hs
    constructor
    · intro h
      rw [addC_ok (by show _ < 18446744073709551616; omega), ok_bind]
    · intro h
      by_cases h2 : s + c < U64
      · rw [addC_ok h2, ok_bind]
        exact hf _ _ (by omega)
      · unfold addC
        rw [if_neg h2]
        cases m with
        | debug => exact ⟨.overflow, rfl⟩
        | release =>
          refine hf _ _ ?_
          show ¬ (s ≤ (s + c) % 18446744073709551616 ∧ _)
          have h3 : ¬ s + c < 18446744073709551616 := h2
          omega
  unfold place
  cases m with
  | debug =>
    unfold position
    by_cases h1 : c * I < U64
    · rw [mulC_ok h1, ok_bind]
      have := hstep (c * I) h1
      by_cases h2 : c * I + c ≤ l.length
      · rw [if_pos h2]; exact ⟨h2, this.1 h2⟩
      · rw [if_neg h2]; exact this.2 h2
    · have h3 : ¬ c * I < 18446744073709551616 := h1
      rw [if_neg (show ¬ c * I + c ≤ l.length by omega)]
      unfold mulC
      rw [if_neg h1]
      exact ⟨.overflow, rfl⟩
  | release =>
    unfold position
    have hmul : mulC .release U64 c I = ok (c * I % 2 ^ 64) := by
      unfold mulC
      by_cases h1 : c * I < U64
      · rw [if_pos h1, Nat.mod_eq_of_lt h1]
      · rw [if_neg h1]
    rw [hmul, ok_bind]
    have := hstep (c * I % 2 ^ 64) (Nat.mod_lt _ (by decide))
    by_cases h2 : c * I % 2 ^ 64 + c ≤ l.length
    · rw [if_pos h2]; exact ⟨h2, this.1 h2⟩
    · rw [if_neg h2]; exact this.2 h2

/-! ## Histories -/

variable {iw dw : Nat}

/-- The array holds the memory. -/
structure WordRep (iw dw : Nat) (a : ArrayValue) (mem : Nat → Nat) : Prop where
  wide : 64 < dw ∧ dw < 2 ^ 32
  rep : ∃ l, a = .dense ⟨iw, dw, .big l⟩ ∧ l.length = elementWords dw * 2 ^ iw ∧ l.length < 2 ^ 60 ∧ Holds64 l mem

theorem WordRep.select_of (m : Mode) (env : HashEnv) {a : ArrayValue} {mem : Nat → Nat} (h : WordRep iw dw a mem) {i : BitVecValue}
    (hi : Slot i i.width) :
    Outcome (a.select m env i) dw ((addressed m iw dw i).map fun s => gather mem s (elementWords dw)) := by
  obtain ⟨hw, l, rfl, hl, hl60, hm⟩ := h
  have hsel : (ArrayValue.dense ⟨iw, dw, .big l⟩).select m env i = (debugAssert m (i.width == iw) >>= fun _ => unwrap i.toU64 >>= fun j =>
      mulC m U64 (elementWords dw) j.toNat >>= fun s => addC m U64 s (elementWords dw) >>= fun e => sliceR l s e >>= fun ws =>
      ok ⟨dw, ws⟩) := rfl
  rw [hsel, C87_to_u64 hi.raw]
  unfold addressed
  by_cases hd : m = .debug ∧ i.width ≠ iw
  · rw [if_pos hd]
    refine panics_bind ?_ _
    rw [hd.1, show (i.width == iw) = false by simpa using hd.2]
    exact ⟨.debugAssert, rfl⟩
  · rw [if_neg hd]
    have hda : debugAssert m (i.width == iw) = ok () := by
      cases m with
      | release => rfl
      | debug =>
        have : i.width = iw := Classical.byContradiction fun hne => hd ⟨rfl, hne⟩
        rw [this]
        simp [debugAssert]
    rw [hda, ok_bind]
    by_cases hI : wordsVal i.words < 2 ^ 64
    · rw [if_pos hI, if_pos hI, show unwrap (some (BitVec.ofNat 64 (wordsVal i.words))) = ok (BitVec.ofNat 64 (wordsVal i.words)) from rfl,
        ok_bind, ofNat64_toNat hI]
      have hp := place_eq m (wordsVal i.words) hl60 (c := elementWords dw) (by unfold elementWords; omega)
        (fun s e => sliceR l s e >>= fun ws => ok (⟨dw, ws⟩ : BitVecValue))
        (fun s e hn => panics_bind ⟨.bounds, by rw [sliceR, if_neg hn]⟩ _)
      rw [hl] at hp
      cases hpl : place m (elementWords dw) (elementWords dw * 2 ^ iw) (wordsVal i.words) with
      | none => rw [hpl] at hp; exact hp
      | some s =>
        rw [hpl] at hp
        obtain ⟨h1, h2⟩ := hp
        rw [h2, sliceR_ok (by omega) (by omega), ok_bind]
        refine ⟨_, rfl, hw.2, rfl, ?_, ?_⟩
        · show ((l.drop s).take _).length = elementWords dw
          simp
          omega
        · show wordsVal ((l.drop s).take _) = _
          rw [Nat.add_sub_cancel_left]
          exact gather_eq hm _ _ (by omega)
    · rw [if_neg hI, if_neg hI]
      exact ⟨.unwrap, rfl⟩

/-- The outcome of a run: an array that holds the memory, or a panic. -/
def WordOutcome (iw dw : Nat) (r : Res ArrayValue) : Option (Nat → Nat) → Prop
  | none => Panics r
  | some mem => ∃ b, r = ok b ∧ WordRep iw dw b mem

theorem WordOutcome.of_none {r : Res ArrayValue} {o : Option (Nat → Nat)} (h : Panics r) (ho : o = none) : WordOutcome iw dw r o := by
  rw [ho]
  exact h

theorem WordRep.run_op (m : Mode) (env : HashEnv) {a : ArrayValue} {mem : Nat → Nat} (h : WordRep iw dw a mem) (op : RawOp) (hf : op.Words) :
    WordOutcome iw dw (op.run m env a) (op.wordEffect m iw dw mem) := by
  obtain ⟨hw, l, rfl, hl, hl60, hm⟩ := h
  cases op with
  | clear =>
    refine ⟨_, rfl, hw, l.map fun _ => 0#64, rfl, by simpa using hl, by simpa using hl60, ?_⟩
    intro k x hx
    rw [List.getElem?_map] at hx
    cases hk : l[k]? with
    | none => rw [hk] at hx; cases hx
    | some y => rw [hk] at hx; cases hx; rfl
  | store i d =>
    obtain ⟨hi, hd⟩ := hf
    have hrun : (RawOp.store i d).run m env (.dense ⟨iw, dw, .big l⟩) = ((debugAssert m (i.width == iw) >>= fun _ => unwrap i.toU64 >>= fun j =>
        debugAssert m (d.width == dw) >>= fun _ =>
        mulC m U64 (elementWords dw) j.toNat >>= fun s => addC m U64 s (elementWords dw) >>= fun e =>
        modifyRange l s e (fun ws => BitVecValue.assign m ⟨dw, ws⟩ d >>= fun r => ok r.words) >>= fun l' =>
        ok (⟨iw, dw, .big l'⟩ : DenseArrayValue)) >>= fun v => ok (.dense v)) := rfl
    rw [hrun, C87_to_u64 hi.raw]
    unfold RawOp.wordEffect addressed
    dsimp only
    -- the width of the index
    by_cases hdi : m = .debug ∧ i.width ≠ iw
    · have hp : Panics (debugAssert m (i.width == iw)) := by
        rw [hdi.1, show (i.width == iw) = false by simpa using hdi.2]
        exact ⟨.debugAssert, rfl⟩
      rw [if_pos hdi]
      refine .of_none (panics_bind (panics_bind hp _) _) ?_
      split <;> rfl
    rw [if_neg hdi]
    have hda : debugAssert m (i.width == iw) = ok () := by
      cases m with
      | release => rfl
      | debug =>
        have : i.width = iw := Classical.byContradiction fun hne => hdi ⟨rfl, hne⟩
        rw [this]
        simp [debugAssert]
    rw [hda, ok_bind]
    -- the number of the index
    rcases Classical.em (¬ wordsVal i.words < 2 ^ 64) with hI | hI
    · rw [if_neg hI, if_neg hI]
      refine .of_none ⟨.unwrap, rfl⟩ ?_
      split <;> rfl
    replace hI := Classical.not_not.mp hI
    rw [if_pos hI, if_pos hI, show unwrap (some (BitVec.ofNat 64 (wordsVal i.words))) = ok (BitVec.ofNat 64 (wordsVal i.words)) from rfl,
      ok_bind, ofNat64_toNat hI]
    -- the width of the data
    by_cases hdd : m = .debug ∧ d.width ≠ dw
    · rw [if_pos (.inl hdd)]
      refine panics_bind (panics_bind ?_ _) _
      rw [hdd.1, show (d.width == dw) = false by simpa using hdd.2]
      exact ⟨.debugAssert, rfl⟩
    have hdb : debugAssert m (d.width == dw) = ok () := by
      cases m with
      | release => rfl
      | debug =>
        have : d.width = dw := Classical.byContradiction fun hne => hdd ⟨rfl, hne⟩
        rw [this]
        simp [debugAssert]
    rw [hdb, ok_bind]
    have hass : ∀ ws : List Word, (ws.length = d.words.length → BitVecValue.assign m ⟨dw, ws⟩ d = ok ⟨dw, d.words⟩) ∧
        (ws.length ≠ d.words.length → Panics (BitVecValue.assign m ⟨dw, ws⟩ d)) := by
      intro ws
      have hun : BitVecValue.assign m ⟨dw, ws⟩ d = (debugAssert m (dw == d.width) >>= fun _ =>
          debugAssert m (ws.length == d.words.length) >>= fun _ =>
          if ws.length = d.words.length then ok ⟨dw, d.words⟩ else panic .lenMismatch) := rfl
      have : debugAssert m (dw == d.width) = ok () := by
        rw [← hdb]
        congr 1
        exact Bool.beq_comm
      rw [hun, this, ok_bind]
      constructor
      · intro h
        rw [if_pos h, h]
        cases m <;> simp [debugAssert]
      · intro h
        rw [if_neg h]
        refine panics_bind_of _ fun _ _ => ⟨.lenMismatch, rfl⟩
    have hp := place_eq m (wordsVal i.words) hl60 (c := elementWords dw) (by unfold elementWords; omega)
        (fun s e => modifyRange l s e (fun ws => BitVecValue.assign m ⟨dw, ws⟩ d >>= fun r => ok r.words) >>= fun l' =>
          ok (⟨iw, dw, .big l'⟩ : DenseArrayValue))
        (fun s e hn => panics_bind (panics_bind ⟨.bounds, by rw [sliceR, if_neg hn]⟩ _) _)
    rw [hl] at hp
    cases hpl : place m (elementWords dw) (elementWords dw * 2 ^ iw) (wordsVal i.words) with
    | none =>
      rw [hpl] at hp
      refine .of_none (panics_bind hp _) ?_
      split <;> rfl
    | some s =>
      rw [hpl] at hp
      obtain ⟨h1, h2⟩ := hp
      rw [h2]
      have hlen : ((l.drop s).take (s + elementWords dw - s)).length = elementWords dw := by simp; omega
      have hdl : d.words.length = elementWords d.width := hd.length_eq
      unfold modifyRange
      rw [sliceR_ok (by omega) (by omega), ok_bind]
      dsimp only
      by_cases hc : elementWords dw = elementWords d.width
      · rw [(hass _).1 (by rw [hlen, hdl, hc]), if_neg (by
          rintro (h | h)
          · exact hdd h
          · exact h hc.symm)]
        refine ⟨_, rfl, hw, _, rfl, ?_, ?_, scatter_eq hm (by rw [hdl, hc]) (by omega)⟩
        · simp
          omega
        · simp
          omega
      · rw [if_pos (.inr fun h => hc h.symm)]
        exact panics_bind (panics_bind (panics_bind (panics_bind ((hass _).2 (by rw [hlen, hdl]; exact hc)) _) _) _) _

theorem WordRep.run (m : Mode) (env : HashEnv) (ops : List RawOp) {a : ArrayValue} {mem : Nat → Nat} (h : WordRep iw dw a mem)
    (hf : ∀ op ∈ ops, op.Words) : WordOutcome iw dw (runRaw m env a ops) (wordsAfter m iw dw mem ops) := by
  induction ops generalizing a mem with
  | nil => exact ⟨a, rfl, h⟩
  | cons op ops ih =>
    have h1 := h.run_op m env op (hf op List.mem_cons_self)
    unfold wordsAfter runRaw
    cases he : op.wordEffect m iw dw mem with
    | none =>
      rw [he] at h1
      exact panics_bind h1 _
    | some mem' =>
      rw [he] at h1
      obtain ⟨b, h2, h3⟩ := h1
      rw [h2, ok_bind]
      exact ih h3 fun o ho => hf o (List.mem_cons_of_mem _ ho)

theorem DenseCells.wordRep {d : DenseArrayValue} {D : Nat} (hdw : 64 < dw) (h : DenseCells iw dw d (startCells .dense iw dw D)) :
    WordRep iw dw (.dense d) (startWords dw D) := by
  obtain ⟨h1, h2, -, -, h5, h6⟩ := h
  obtain ⟨_, _, data⟩ := d
  dsimp only at h1 h2 h6
  replace h1 := h1.symm
  replace h2 := h2.symm
  subst h1 h2
  refine ⟨⟨hdw, h5⟩, ?_⟩
  cases data with
  | bit l => have := h6.1; omega
  | u8 l => have := h6.2.1; omega
  | u64 l => have := h6.2.1; omega
  | big l =>
    obtain ⟨-, hl, hl60, hcell⟩ := h6
    refine ⟨l, rfl, hl, hl60, fun k x hx => ?_⟩
    have hk : k < l.length := (List.getElem?_eq_some_iff.mp hx).1
    have hc0 : 0 < (dw + 63) / 64 := by omega
    have hn : k / ((dw + 63) / 64) < 2 ^ iw := by
      rw [Nat.div_lt_iff_lt_mul hc0, Nat.mul_comm, ← hl]
      exact hk
    have hD := hcell _ hn
    have hst : startCells .dense iw dw D (k / ((dw + 63) / 64)) = D := by
      unfold startCells kept
      dsimp only
      rw [if_neg (fun h => by have := h.2.1; omega), if_neg (by omega), if_neg (by omega)]
    rw [hst] at hD
    have hmod := Nat.mod_lt k hc0
    have hx' : ((l.drop ((dw + 63) / 64 * (k / ((dw + 63) / 64)))).take ((dw + 63) / 64))[k % ((dw + 63) / 64)]? = some x := by
      rw [List.getElem?_take_of_lt hmod, List.getElem?_drop, Nat.div_add_mod]
      exact hx
    have := digit_of_wordsVal _ _ _ hx'
    rw [hD] at this
    exact this

theorem word_new (m : Mode) (hadm : Admissible .dense iw dw) (hdw : 64 < dw) {v : BitVecValue} (hv : Slot v dw) {a : ArrayValue}
    (hn : newOf .dense m iw v = ok a) : WordRep iw dw a (startWords dw (wordsVal v.words)) := by
  have h := new_holdsCells .dense m hadm hv
  split at h
  · obtain ⟨p, hp⟩ := h
    rw [hn] at hp
    cases hp
  · obtain ⟨b, h1, h2⟩ := h
    rw [hn] at h1
    cases h1
    obtain ⟨d, rfl, hd⟩ := h2.dense rfl
    exact hd.wordRep hdw

/-- **C94** (histories): a dense array with data of more than 64 bits behaves like a memory of words. For every history of stores and
clears with values of any width and any words, in both build modes, the memory predicts the panics and what every `select` returns. -/
theorem C94_history (m : Mode) (env : HashEnv) (hadm : Admissible .dense iw dw) (hdw : 64 < dw) {v : BitVecValue} (hv : Slot v dw)
    {a : ArrayValue} (hn : newOf .dense m iw v = ok a) (ops : List RawOp) (hf : ∀ op ∈ ops, op.Words) :
    match wordsAfter m iw dw (startWords dw (wordsVal v.words)) ops with
    | none => Panics (runRaw m env a ops)
    | some mem => ∃ b, runRaw m env a ops = ok b ∧ ∀ i, Slot i i.width →
        Outcome (b.select m env i) dw ((addressed m iw dw i).map fun s => gather mem s (elementWords dw)) := by
  have h := (word_new m hadm hdw hv hn).run m env ops hf
  cases hc : wordsAfter m iw dw (startWords dw (wordsVal v.words)) ops with
  | none => rw [hc] at h; exact h
  | some mem =>
    rw [hc] at h
    obtain ⟨b, h1, h2⟩ := h
    exact ⟨b, h1, fun i hi => h2.select_of m env hi⟩

/-- **C94** (equality): two such arrays are equal exactly if all their words are. -/
theorem C94_equal (m : Mode) (env : HashEnv) (hadm : Admissible .dense iw dw) (hdw : 64 < dw) {u v : BitVecValue} (hu : Slot u dw)
    (hv : Slot v dw) {a a' b b' : ArrayValue} (ha : newOf .dense m iw u = ok a) (hb : newOf .dense m iw v = ok b) (ops ops' : List RawOp)
    (hf : ∀ op ∈ ops ++ ops', op.Words) (ha' : runRaw m env a ops = ok a') (hb' : runRaw m env b ops' = ok b') :
    ∃ f g r, wordsAfter m iw dw (startWords dw (wordsVal u.words)) ops = some f ∧
      wordsAfter m iw dw (startWords dw (wordsVal v.words)) ops' = some g ∧ a'.eq m env b' = ok r ∧
      (r = true ↔ ∀ k, k < elementWords dw * 2 ^ iw → f k = g k) := by
  have h1 := (word_new m hadm hdw hu ha).run m env ops fun o ho => hf o (List.mem_append_left _ ho)
  have h2 := (word_new m hadm hdw hv hb).run m env ops' fun o ho => hf o (List.mem_append_right _ ho)
  cases hc : wordsAfter m iw dw (startWords dw (wordsVal u.words)) ops with
  | none =>
    rw [hc] at h1
    obtain ⟨p, hp⟩ := h1
    rw [ha'] at hp
    cases hp
  | some f =>
    cases hd : wordsAfter m iw dw (startWords dw (wordsVal v.words)) ops' with
    | none =>
      rw [hd] at h2
      obtain ⟨p, hp⟩ := h2
      rw [hb'] at hp
      cases hp
    | some g =>
      rw [hc, ha'] at h1
      rw [hd, hb'] at h2
      obtain ⟨_, h3, -, l, rfl, hl, -, hlm⟩ := h1
      obtain ⟨_, h4, -, l', rfl, hl', -, hlm'⟩ := h2
      cases h3
      cases h4
      refine ⟨f, g, l == l', rfl, rfl, ?_, ?_⟩
      · show ((if iw ≠ iw ∨ dw ≠ dw then ok none else ok (some (l == l'))) >>= _) = _
        rw [if_neg (by simp)]
        rfl
      · rw [beq_iff_eq]
        constructor
        · rintro rfl k hk
          have hk' : k < l.length := by omega
          rw [← hlm k _ (List.getElem?_eq_getElem hk'), ← hlm' k _ (List.getElem?_eq_getElem hk')]
        · intro hall
          refine List.ext_getElem (by omega) fun k h5 h6 => BitVec.eq_of_toNat_eq ?_
          rw [hlm k _ (List.getElem?_eq_getElem h5), hlm' k _ (List.getElem?_eq_getElem h6)]
          exact hall k (by omega)

/-! ## Concrete cases -/

/-- The hypotheses are met by an index with stray bits and data of another width. -/
example : Admissible .dense 2 130 ∧ (RawOp.store ⟨2, [0x5555555555555556#64]⟩ (encode 7#129)).Words ∧
    ∃ a, newOf .dense .release 2 (encode 0#130) = ok a :=
  ⟨by unfold Admissible Addressable storageBytes; decide, ⟨⟨by decide, rfl, rfl⟩, ⟨by decide, rfl, rfl⟩⟩, _, rfl⟩

/-- Three words per element: 3 * 0x5555555555555556 wraps around to 2, so the store reaches the last word of element 0 and the first two
words of element 1. -/
example : addressed .release 2 130 ⟨2, [0x5555555555555556#64]⟩ = some 2 ∧ addressed .debug 2 130 ⟨2, [0x5555555555555556#64]⟩ = none ∧
    (do let a ← newOf .dense .release 2 (encode 0#130)
        let a ← a.store .release listEnv ⟨2, [0x5555555555555556#64]⟩ ⟨130, [1#64, 2#64, 3#64]⟩
        let x ← a.select .release listEnv (encode 0#2)
        let y ← a.select .release listEnv (encode 1#2)
        ok (x.words, y.words)) = ok ([0#64, 0#64, 1#64], [2#64, 3#64, 0#64]) ∧
    Panics (do let a ← newOf .dense .debug 2 (encode 0#130)
               a.store .debug listEnv ⟨2, [0x5555555555555556#64]⟩ ⟨130, [1#64, 2#64, 3#64]⟩) :=
  ⟨by decide, by decide, by decide, ⟨.overflow, by rfl⟩⟩

end Baa

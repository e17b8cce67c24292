import Verif.Props.Program
import Verif.Props.ArrayLaws
import Verif.Spec.Programs

/-!
# C101: programs with registers, memories, branches and loops

C70 is about straight-line programs over variables in one word buffer, C72 about one array. This file puts them together into the way
a hardware simulator uses the library: registers in one word buffer, memories as array values, commands that move data between them, and
control flow that depends on one-bit registers. `Machine.exec` performs the library calls; `eval` is the meaning in terms of mathematical
variables and functions. Both count commands, because a loop need not end.
-/

namespace Baa
open Res

section
variable {n p : Nat} {L : Fin n → BitVecValueIndex} {T : Fin p → MemType}

/-! ## Proof -/

theorem MemType.Ok.usable {t : MemType} (h : t.Ok) (a : ArrayValue) : Usable a t.indexWidth t.dataWidth :=
  ⟨h.data_pos, h.data_lt, Nat.le_of_lt h.addressable.1, fun _ => h.bits⟩

theorem Reachable.cast {m : Mode} {iw dw iw' dw' : Nat} {a : ArrayValue} {f : BitVec iw → BitVec dw} (h : Reachable m a f)
    (hi : iw' = iw) (hd : dw' = dw) : Reachable m a (fun i : BitVec iw' => (f (i.setWidth iw)).setWidth dw') := by
  subst hi hd
  simpa using h

theorem Represents.setMem {m : Mode} {s : Machine p} {ρ : Env L} {μ : Mems T} (h : Represents m s ρ μ) (k : Fin p) {a : ArrayValue}
    {f : BitVec (T k).indexWidth → BitVec (T k).dataWidth} (ha : HoldsMem m (T k) a f) :
    Represents m (s.setMem k a) ρ (μ.set k f) := by
  refine ⟨h.layout, h.regs, fun j => ?_⟩
  by_cases hj : j = k
  · subst hj
    show HoldsMem m (T j) (if j = j then a else _) _
    rw [if_pos rfl]
    refine ⟨ha.1, ?_⟩
    have e : Mems.set μ j f j = f := by
      funext i
      unfold Mems.set
      rw [dif_pos rfl]
      simp
    rw [e]
    exact ha.2
  · show HoldsMem m (T j) (if j = k then a else _) _
    rw [if_neg hj]
    have e : Mems.set μ k f j = μ j := by
      funext i
      unfold Mems.set
      rw [dif_neg hj]
    rw [e]
    exact h.mems j

theorem convertTo_spec {m : Mode} {env : HashEnv} {t u : MemType} {a : ArrayValue} {f : BitVec u.indexWidth → BitVec u.dataWidth}
    (ht : t.Ok) (hi : t.indexWidth = u.indexWidth) (hd : t.dataWidth = u.dataWidth)
    (hc : t.dense = u.dense ∨ if t.dense then DenseSupported m t else t.dataWidth = 1 ∨ 8 < t.dataWidth) (h : HoldsMem m u a f) :
    ∃ b, convertTo m env t.dense a = ok b ∧ HoldsMem m t b fun i => (f (i.setWidth _)).setWidth _ := by
  obtain ⟨h1, h2⟩ := h
  replace h2 := h2.cast hi hd
  have hlt := ht.addressable.1
  have hiw : t.indexWidth < 2 ^ 32 := by omega
  unfold convertTo
  cases hk : t.dense with
  | true =>
    rw [if_pos rfl]
    rw [hk] at hc
    by_cases hka : a.isDense = true
    · cases a with
      | dense d => exact ⟨.dense d, rfl, hk.symm, h2⟩
      | sparse s => cases hka
    · rw [h1] at hka
      rcases hc with hc | hc
      · exact absurd hc.symm hka
      · rw [if_pos rfl] at hc
        obtain ⟨b, hb1, hb2, -⟩ := C52_make_dense_partial m env ht.data_lt h2 ht.addressable
          (hc.imp id And.left) ht.data_pos ht.bits (hc.elim .inr fun h => .inl h.2)
        exact ⟨b, hb1, hb2.trans hk.symm, .makeDense _ a b ht.addressable h2 hb1⟩
  | false =>
    rw [if_neg (by decide)]
    rw [hk] at hc
    cases a with
    | sparse s => exact ⟨.sparse s, rfl, hk.symm, h2⟩
    | dense d =>
      rcases hc with hc | hc
      · rw [← hc] at h1
        cases h1
      · rw [if_neg (by decide)] at hc
        obtain ⟨s, hs1, -⟩ := C53_to_sparse_partial m env hiw ht.data_lt h2 ht.data_pos ht.bits (hc.elim .inl fun h => .inr (.inl h))
        refine ⟨.sparse s, by rw [hs1, ok_bind], hk.symm, .toSparse _ _ s h2 hs1⟩

theorem equal_spec {m : Mode} {env : HashEnv} {t u : MemType} {a b : ArrayValue} {f : BitVec t.indexWidth → BitVec t.dataWidth}
    {g : BitVec u.indexWidth → BitVec u.dataWidth} (ht : t.Ok) (hi : t.indexWidth = u.indexWidth) (hd : t.dataWidth = u.dataWidth)
    (hc : t.dense = true ∧ u.dense = true ∨ (t.dense ≠ u.dense ∧ DenseSupported m t)) (ha : HoldsMem m t a f) (hb : HoldsMem m u b g) :
    ∃ r, a.eq m env b = ok r ∧ (r = true ↔ ∀ i, f i = (g (i.setWidth _)).setWidth _) := by
  obtain ⟨ha1, ha2⟩ := ha
  obtain ⟨hb1, hb2⟩ := hb
  replace hb2 := hb2.cast hi hd
  have hlt := ht.addressable.1
  have hiw : t.indexWidth < 2 ^ 32 := by omega
  have key : ∀ r : Bool, (r = true ↔ f = fun i => (g (i.setWidth _)).setWidth _) → (r = true ↔ ∀ i, f i = (g (i.setWidth _)).setWidth _) :=
    fun r h => h.trans ⟨fun e i => congrFun e i, fun e => funext e⟩
  have sp : ∀ {c : ArrayValue}, c.isDense = false → c.isSparse = true := by
    intro c h
    cases c with
    | dense d => cases h
    | sparse s => rfl
  rcases hc with ⟨h1, h2⟩ | ⟨h1, h2⟩
  · obtain ⟨r, -, h3, -, h4⟩ := C54_dense_equal m env hiw ht.data_lt ha2 hb2 (ha1.trans h1) (hb1.trans h2)
    exact ⟨r, h3, key r h4⟩
  · cases hk : t.dense with
    | true =>
      have hu : u.dense = false := by cases hu : u.dense <;> simp_all
      obtain ⟨r, -, -, h3, -, h4, -⟩ := C56_mixed_equal_partial m env ht.data_pos ht.data_lt ht.addressable (h2.imp id And.left) ht.bits
        (h2.elim .inr fun h => .inl h.2) ha2 hb2 (ha1.trans hk) (sp (hb1.trans hu))
      exact ⟨r, h3, key r h4⟩
    | false =>
      have hu : u.dense = true := by cases hu : u.dense <;> simp_all
      obtain ⟨r, -, -, -, h3, h4, -⟩ := C56_mixed_equal_partial m env ht.data_pos ht.data_lt ht.addressable (h2.imp id And.left) ht.bits
        (h2.elim .inr fun h => .inl h.2) hb2 ha2 (hb1.trans hu) (sp (ha1.trans hk))
      exact ⟨r, h3, key r (h4.trans eq_comm)⟩

/-- One command. -/
theorem Machine.step_spec {m : Mode} {env : HashEnv} (hT : ∀ k, (T k).Ok) {s : Machine p} {ρ : Env L} {μ : Mems T}
    (h : Represents m s ρ μ) {rest : List (Cmd n p)} (hr : ∀ c ∈ rest, c.Typed L T m) {c : Cmd n p} (hc : c.Typed L T m) :
    ∃ s', s.step L T m env rest c = ok (s', (c.effect ρ μ rest).2.2) ∧
      Represents m s' (c.effect ρ μ rest).1 (c.effect ρ μ rest).2.1 ∧ Frame L s.data s'.data ∧
      ∀ c' ∈ (c.effect ρ μ rest).2.2, c'.Typed L T m := by
  have hl := h.layout
  have frame : Frame L s.data s.data := ⟨rfl, fun _ _ => rfl⟩
  have tru : ∀ r : Fin n, (L r).width = 1 → ∃ x, Indexed.getRef s.data (L r) = ok x ∧
      BitVecValue.isTru x = ok (decide ((ρ r).toNat = 1)) := by
    intro r hw
    obtain ⟨x, h1, h2⟩ := h.regs r
    have h3 := C25_is_tru h2
    simp only [hw, true_and] at h3
    exact ⟨x, h1, h3⟩
  cases c with
  | instr i =>
    obtain ⟨data, h1, h2, h3, h4⟩ := Instr.step m hl h.regs i hc
    exact ⟨⟨data, s.mems⟩, by rw [Machine.step, h1, ok_bind]; rfl, ⟨h2, h4, h.mems⟩, h3, hr⟩
  | load d k i =>
    obtain ⟨hi, hd⟩ := hc
    obtain ⟨x, h1, h2⟩ := h.regs i
    obtain ⟨v, h3, h4⟩ := (C72_any_history_partial m env (h.mems k).2 ((hT k).usable _)).1 _ _ (denotes_setWidth h2 hi)
    obtain ⟨data, h5, h6, h7, h8⟩ := holds_assignAt m hl h.regs d (denotes_setWidth h4 hd.symm)
    exact ⟨⟨data, s.mems⟩, by rw [Machine.step, h1, ok_bind, h3, ok_bind, h5, ok_bind]; rfl, ⟨h6, h8, h.mems⟩, h7, hr⟩
  | store k i v =>
    obtain ⟨hi, hv⟩ := hc
    obtain ⟨x, h1, h2⟩ := h.regs i
    obtain ⟨y, h3, h4⟩ := h.regs v
    have ex := (denotes_setWidth h2 hi).eq_encode
    have ey := (denotes_setWidth h4 hv).eq_encode
    obtain ⟨b, h5, h6, -⟩ := (C72_any_history_partial m env (h.mems k).2 ((hT k).usable _)).2 ((ρ i).setWidth _) ((ρ v).setWidth _)
    refine ⟨s.setMem k b, ?_, h.setMem k ⟨h6.trans (h.mems k).1, .store _ _ _ _ _ (h.mems k).2 h5⟩, frame, hr⟩
    rw [Machine.step, h1, ok_bind, h3, ok_bind, ex, ey, h5, ok_bind]
    rfl
  | clear k =>
    refine ⟨s.setMem k (s.mems k).clear, rfl, h.setMem k ⟨?_, .clear _ _ (h.mems k).2⟩, frame, hr⟩
    rw [← (h.mems k).1]
    cases s.mems k <;> rfl
  | copy k j =>
    obtain ⟨hi, hd, hk⟩ := hc
    obtain ⟨b, h1, h2⟩ := convertTo_spec (env := env) (hT k) hi hd hk (h.mems j)
    exact ⟨s.setMem k b, by rw [Machine.step, h1, ok_bind]; rfl, h.setMem k h2, frame, hr⟩
  | equal d k j =>
    obtain ⟨hw, hi, hd, hk⟩ := hc
    obtain ⟨r, h1, h2⟩ := equal_spec (env := env) (hT k) hi hd hk (h.mems k) (h.mems j)
    obtain ⟨v, h3, h4⟩ := C01_from_bool m r
    obtain ⟨data, h5, h6, h7, h8⟩ := holds_assignAt m hl h.regs d (denotes_setWidth h4 hw.symm)
    refine ⟨⟨data, s.mems⟩, by rw [Machine.step, h1, ok_bind, h3, ok_bind, h5, ok_bind]; rfl, ⟨h6, ?_, h.mems⟩, h7, hr⟩
    have e : (BitVec.ofBool r).setWidth (L d).width =
        if ∀ i, μ k i = (μ j (i.setWidth _)).setWidth _ then 1#(L d).width else 0#(L d).width := by
      cases r with
      | true => rw [if_pos (h2.mp rfl), hw]; rfl
      | false => rw [if_neg (fun e => by cases h2.mpr e), hw]; rfl
    show Holds data (ρ.set d _)
    rw [← e]
    exact h8
  | skip => exact ⟨s, rfl, h, frame, hr⟩
  | seq c c' =>
    refine ⟨s, rfl, h, frame, fun x hx => ?_⟩
    rcases List.mem_cons.mp hx with rfl | hx
    · exact hc.1
    · rcases List.mem_cons.mp hx with rfl | hx
      · exact hc.2
      · exact hr x hx
  | ite r c c' =>
    obtain ⟨hw, hc1, hc2⟩ := hc
    obtain ⟨x, h1, h2⟩ := tru r hw
    refine ⟨s, ?_, h, frame, fun y hy => ?_⟩
    · rw [Machine.step, h1, ok_bind, h2, ok_bind]
      by_cases ht : (ρ r).toNat = 1
      · rw [decide_eq_true ht, if_pos rfl, Cmd.effect, if_pos ht]
      · rw [decide_eq_false ht, if_neg (by decide), Cmd.effect, if_neg ht]
    · rcases List.mem_cons.mp hy with rfl | hy
      · split
        · exact hc1
        · exact hc2
      · exact hr y hy
  | loop r c =>
    have hc' := hc
    obtain ⟨hw, hc1⟩ := hc
    obtain ⟨x, h1, h2⟩ := tru r hw
    refine ⟨s, ?_, h, frame, ?_⟩
    · rw [Machine.step, h1, ok_bind, h2, ok_bind]
      by_cases ht : (ρ r).toNat = 1
      · rw [decide_eq_true ht, if_pos rfl, Cmd.effect, if_pos ht]
      · rw [decide_eq_false ht, if_neg (by decide), Cmd.effect, if_neg ht]
    · intro y hy
      rw [Cmd.effect] at hy
      dsimp only at hy
      split at hy
      · rcases List.mem_cons.mp hy with rfl | hy
        · exact hc1
        · rcases List.mem_cons.mp hy with rfl | hy
          · exact hc'
          · exact hr y hy
      · exact hr y hy

/-- **C101** A program over registers and memories, with branches and loops, never panics in either build mode, whatever the hash tables
do. It takes exactly as many commands as the mathematical program, and if it ends, it leaves exactly the values in the registers and the
memories that the mathematical program gives. Words of the buffer that belong to no register keep their contents. -/
theorem C101_program (m : Mode) (env : Nat → HashEnv) (hT : ∀ k, (T k).Ok) (fuel : Nat) (prog : List (Cmd n p))
    (hp : ∀ c ∈ prog, c.Typed L T m) {s : Machine p} {ρ : Env L} {μ : Mems T} (h : Represents m s ρ μ) :
    match eval fuel prog ρ μ with
    | none => s.exec L T m env fuel prog = ok none
    | some (ρ', μ') => ∃ s', s.exec L T m env fuel prog = ok (some s') ∧ Represents m s' ρ' μ' ∧ Frame L s.data s'.data := by
  induction fuel generalizing prog s ρ μ with
  | zero =>
    cases prog with
    | nil => exact ⟨s, rfl, h, rfl, fun _ _ => rfl⟩
    | cons c rest => rfl
  | succ fuel ih =>
    cases prog with
    | nil => exact ⟨s, rfl, h, rfl, fun _ _ => rfl⟩
    | cons c rest =>
      obtain ⟨s', h1, h2, h3, h4⟩ := Machine.step_spec (env := env fuel) hT h (rest := rest)
        (fun c hc => hp c (List.mem_cons_of_mem _ hc)) (hp c (by simp))
      have h5 := ih _ h4 h2
      rw [eval]
      rw [Machine.exec, h1, ok_bind]
      dsimp only
      split
      · rename_i e; rw [e] at h5; exact h5
      · rename_i e
        rw [e] at h5
        obtain ⟨s'', h6, h7, h8⟩ := h5
        exact ⟨s'', h6, h7, h8.1.trans h3.1, fun k hk => (h8.2 k hk).trans (h3.2 k hk)⟩

/-- Six registers: an index of 2 bits, a value of 9 bits, a condition, and the constants 1 and 0 (2 bits) and 5 (9 bits). -/
def exampleRegs : Fin 6 → BitVecValueIndex
  | 0 => ⟨0, 2⟩
  | 1 => ⟨1, 9⟩
  | 2 => ⟨2, 1⟩
  | 3 => ⟨3, 2⟩
  | 4 => ⟨4, 2⟩
  | 5 => ⟨5, 9⟩

/-- A dense and a sparse memory of four 9-bit elements. -/
def exampleMems : Fin 2 → MemType
  | 0 => ⟨2, 9, true⟩
  | 1 => ⟨2, 9, false⟩

/-- Fill the dense memory with 5, 10, 15, 20 in a loop, copy it to the sparse one, compare them, and read element 1 of the copy. -/
def exampleCmds : List (Cmd 6 2) :=
  [.instr (.const 3 1#64), .instr (.const 5 5#64), .instr (.const 1 5#64), .instr (.const 2 1#64),
   .loop 2 (.seq (.store 0 0 1) (.seq (.instr (.bin .add 1 1 5)) (.seq (.instr (.bin .add 0 0 3)) (.instr (.cmp .ne 2 0 4))))),
   .copy 1 0, .equal 2 1 0, .ite 2 (.load 1 1 3) .skip]

/-- The zeroed machine. -/
def exampleMachine : Machine 2 :=
  ⟨List.replicate 6 0#64, fun
    | 0 => .dense ⟨2, 9, .u64 [0#64, 0#64, 0#64, 0#64]⟩
    | 1 => .sparse ⟨2, 9, .u64u64 0#64 HMap.empty⟩⟩

example : (∀ c ∈ exampleCmds, c.Typed exampleRegs exampleMems .debug) ∧ (∀ k, (exampleMems k).Ok) ∧
    Represents (L := exampleRegs) (T := exampleMems) .debug exampleMachine (fun _ => 0#_) (fun _ _ => 0#_) ∧
    (match exampleMachine.exec exampleRegs exampleMems .debug (fun _ => listEnv) 50 exampleCmds with
      | ok (some s) => s.data == [0#64, 10#64, 1#64, 1#64, 0#64, 5#64]
      | _ => false) = true ∧
    exampleMachine.exec exampleRegs exampleMems .debug (fun _ => listEnv) 20 exampleCmds matches ok none := by
  refine ⟨?_, ?_, ⟨⟨by decide, by decide, ?_, ?_⟩, ?_, ?_⟩, by decide +kernel, by decide +kernel⟩
  · intro c hc
    simp only [exampleCmds, List.mem_cons, List.not_mem_nil, or_false] at hc
    rcases hc with h | h | h | h | h | h | h | h <;> subst h <;>
      simp only [Cmd.Typed, Instr.Typed, BinOp.Supports, DenseSupported] <;> decide
  · intro k
    match k with
    | 0 => exact ⟨by decide, by decide, ⟨by decide, by decide⟩, by decide⟩
    | 1 => exact ⟨by decide, by decide, ⟨by decide, by decide⟩, by decide⟩
  · intro k; revert k; simp only [InBounds]; decide
  · intro j k; revert j k; simp only [Apart]; decide
  · intro k
    refine ⟨encode (0#_), ?_, encode_denotes _ ?_⟩
    · revert k; decide +kernel
    · revert k; decide
  · intro k
    match k with
    | 0 => exact ⟨rfl, .newDense 0#9 _ ⟨by decide, by decide⟩ rfl⟩
    | 1 => exact ⟨rfl, .newSparse 0#9 _ rfl⟩

end

end Baa

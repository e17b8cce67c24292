import Verif.Spec.Rescue
import Verif.Props.Archives
import Verif.Props.Unwind

/-!
# C122: programs that catch panics are predictable, and the predictions are exact
-/

namespace Baa
open Res Serde

variable {m : Mode} {s : Device}

/-! ## Commands -/

section
open Eff

theorem run_inRegister {α : Type} (r : Nat) (x : Eff BitVecValue α) (s : Device) :
    (Device.inRegister r x).run s = x.run (s.reg r) >>= fun p => ok (s.put r p.1, p.2) := run_zoom _ _ _ _

theorem run_inArray (A : Nat) (x : Eff ArrayValue Unit) (s : Device) :
    (Device.inArray A x).run s = unwrap (s.arr A) >>= fun a => x.run a >>= fun p =>
      ok ({ s with arr := fun k => if k = A then some p.1 else s.arr k }, ()) := by
  unfold Device.inArray
  simp only [run_bind, run_get, run_lift, run_zoom, res_bind_assoc, ok_bind]

theorem run_whole (env : HashEnv) (c : Command) (s : Device) : (c.whole m env).run s = c.run m env s >>= fun s => ok (s, ()) := by
  unfold Command.whole
  simp only [run_bind, run_get, run_lift, run_set, res_bind_assoc, ok_bind]

theorem run_advance (s : Device) : Device.advance.run s = ok ({ s with pc := s.pc + 1 }, ()) := rfl

theorem run_inPlace (op : UnOp) (x : Eff BitVecValue Unit) (h : op.inPlace m = some x) (a : BitVecValue) :
    x.run a = op.run m a >>= fun v => ok (v, ()) := by
  obtain ⟨-, h1, -, -, -, h2, h3, h4, h5⟩ := C121_values_agree m a
  cases op <;> cases h
  · exact h4
  · exact h5
  · exact h1
  · exact h2 _
  · exact h3 _

/-- **C122** (agreement): as long as nothing panics, a command that could be caught does what it does in C119, and it panics in the same cases. -/
theorem C122_agrees (m : Mode) (env : HashEnv) (c : Command) (s : Device) : (c.attempt m env).run s = c.run m env s >>= fun s => ok (s, ()) := by
  have place : ∀ (r : Nat) (x : Eff BitVecValue Unit) (y : BitVecValue → Res BitVecValue),
      (∀ v, x.run v = y v >>= fun v => ok (v, ())) →
      (do Device.inRegister r x; Device.advance).run s = (do let v ← y (s.reg r); ok (s.write r v)) >>= fun s => ok (s, ()) := by
    intro r x y h
    rw [run_bind, run_inRegister, h]
    simp only [res_bind_assoc, ok_bind, run_advance]
    rfl
  have array : ∀ (A : Nat) (x : Eff ArrayValue Unit) (y : ArrayValue → Res ArrayValue),
      (∀ a, x.run a = y a >>= fun a => ok (a, ())) →
      (do Device.inArray A x; Device.advance).run s = (do let a ← unwrap (s.arr A); let a ← y a; ok (s.hold A a)) >>= fun s => ok (s, ()) := by
    intro A x y h
    rw [run_bind, run_inArray]
    simp only [res_bind_assoc, ok_bind, run_advance, h]
    rfl
  cases c with
  | act a =>
    cases a with
    | un r op a =>
      unfold Command.attempt
      dsimp only
      cases hx : op.inPlace m with
      | none => exact run_whole _ _ _
      | some x =>
        dsimp only
        split
        · rename_i h
          subst h
          exact place r x (op.run m ·) (run_inPlace op x hx)
        · exact run_whole _ _ _
    | setU64 r v => exact place r _ _ fun a => (C121_values_agree m a).2.2.1 v
    | setI64 r v => exact place r _ _ fun a => (C121_values_agree m a).2.2.2.1 v
    | parse r radix text target =>
      unfold Command.attempt
      rw [run_bind, run_inRegister, (C121_values_agree m _).2.2.2.2.1]
      dsimp only [Command.run, Action.run]
      simp only [res_bind_assoc, ok_bind]
      congr 1
      funext p
      obtain ⟨v, r⟩ := p
      cases r <;> rfl
    | store A i d =>
      unfold Command.attempt
      rw [run_bind, run_get, ok_bind]
      exact array A _ _ fun a => (C121_arrays_agree m env a).1 _ _
    | clear A => exact array A Unwind.clear (fun a => ok a.clear) fun a => (C121_arrays_agree m env a).2.1
    | makeDense A => exact array A _ _ fun a => (C121_arrays_agree m env a).2.2
    | _ => exact run_whole _ _ _
  | _ => exact run_whole _ _ _


/-! ## What a panic leaves -/

theorem keeps_whole (env : HashEnv) (c : Command) (s : Device) : (c.whole m env).Keeps s := .get_bind (.lift_bind fun _ _ => .set _ _)

theorem leaves_advance {s t : Device} : ¬ Device.advance.Leaves s t := by rintro ⟨p, h⟩; cases h

theorem put_self (s : Device) (r : Nat) : s.put r (s.reg r) = s := by
  unfold Device.put
  obtain ⟨pc, reg, arr, out⟩ := s
  congr 1
  funext k
  split
  · rename_i h; rw [h]
  · rfl

theorem leaves_inRegister {r : Nat} {x : Eff BitVecValue Unit} {s t : Device} (h : (do Device.inRegister r x; Device.advance).Leaves s t) :
    ∃ v, x.Leaves (s.reg r) v ∧ t = s.put r v := by
  rcases leaves_bind h with h | ⟨_, s', -, h⟩
  · exact leaves_zoom h
  · exact absurd h leaves_advance

theorem keeps_inArray (A : Nat) (x : Eff ArrayValue Unit) (s : Device) (h : ∀ a, x.Keeps a) : (do Device.inArray A x; Device.advance).Keeps s := by
  intro t ht
  rcases leaves_bind ht with ht | ⟨_, s', -, ht⟩
  · refine Keeps.get_bind (.lift_bind fun a ha => Keeps.zoom (h a) ?_) t ht
    obtain ⟨pc, reg, arr, out⟩ := s
    dsimp only at ha ⊢
    congr 1
    funext k
    split
    · rename_i hk
      subst hk
      cases hA : arr k with
      | none => rw [hA] at ha; cases ha
      | some b => rw [hA] at ha; cases ha; rfl
    · rfl
  · exact absurd ht leaves_advance

end

theorem ledger_put (s : Device) (r : Nat) (v : BitVecValue) : (s.put r v).ledger = s.ledger.put r v.shape := by
  unfold Device.ledger Device.put Ledger.put
  dsimp only
  congr 1
  funext k
  split <;> rfl

theorem Device.Sound.put (h : s.Sound) (r : Nat) {v : BitVecValue} (hv : v.width < 2 ^ 32) : (s.put r v).Sound := by
  refine ⟨fun k => ?_, h.arr⟩
  show (if k = r then v else s.reg k).width < _
  split
  · exact hv
  · exact h.reg k

/-- What is left behind is as the specification says. -/
theorem Device.Sound.left (h : s.Sound) (env : HashEnv) (c : Command) (hs : c.Sized) {t : Device} (ht : (c.attempt m env).Leaves s t) :
    t.Entered (c.Left m s.ledger) := by
  open Eff in
  have keep : t = s → t.Entered s.ledger := by rintro rfl; exact ⟨rfl, h⟩
  have place : ∀ (r : Nat) (x : Eff BitVecValue Unit) (w : Shape), (do Device.inRegister r x; Device.advance).Leaves s t →
      (∀ v, x.Leaves (s.reg r) v → v.shape = w) → w.width = (s.reg r).width → t.Entered (s.ledger.put r w) := by
    intro r x w ht hw hwid
    obtain ⟨v, h1, rfl⟩ := leaves_inRegister ht
    have h2 := hw v h1
    refine ⟨by rw [ledger_put, h2], h.put r ?_⟩
    rw [show v.width = v.shape.width from rfl, h2, hwid]
    exact h.reg r
  have same : ∀ r : Nat, s.ledger.put r (s.reg r).shape = s.ledger := by
    intro r
    rw [← ledger_put, put_self]
  cases c with
  | act a =>
    cases a with
    | un r op a =>
      unfold Command.attempt at ht
      dsimp only at ht
      have out : (Command.whole m env (.act (.un r op a))).Leaves s t → t.Entered s.ledger := fun ht => keep (keeps_whole _ _ _ t ht)
      cases op with
      | assignOnes =>
        dsimp only [UnOp.inPlace] at ht
        dsimp only [Command.Left]
        by_cases hr : r = a
        · rw [if_pos hr] at ht ⊢
          exact place r _ _ ht (fun v hv => C121_ones m _ v hv) rfl
        · rw [if_neg hr] at ht ⊢
          exact out ht
      | maskMsb =>
        dsimp only [UnOp.inPlace] at ht
        show t.Entered s.ledger
        by_cases hr : r = a
        · rw [if_pos hr] at ht
          rw [← same r]
          refine place r _ _ ht (fun v hv => ?_) rfl
          rw [(Keeps.get_bind (keeps_onWords (keeps_maskMsb m _ _)) : Keeps _ (s.reg r)) v hv]
        · rw [if_neg hr] at ht
          exact out ht
      | clear =>
        dsimp only [UnOp.inPlace] at ht
        show t.Entered s.ledger
        by_cases hr : r = a
        · rw [if_pos hr] at ht
          obtain ⟨v, h1, -⟩ := leaves_inRegister ht
          exact absurd h1 (C121_unchanged m _ _).2.2.2.2
        · rw [if_neg hr] at ht
          exact out ht
      | setBit pos =>
        dsimp only [UnOp.inPlace] at ht
        show t.Entered s.ledger
        by_cases hr : r = a
        · rw [if_pos hr] at ht
          rw [← same r]
          refine place r _ _ ht (fun v hv => ?_) rfl
          rw [(C121_unchanged m _ _).2.1 pos hv]
        · rw [if_neg hr] at ht
          exact out ht
      | clearBit pos =>
        dsimp only [UnOp.inPlace] at ht
        show t.Entered s.ledger
        by_cases hr : r = a
        · rw [if_pos hr] at ht
          rw [← same r]
          refine place r _ _ ht (fun v hv => ?_) rfl
          rw [(C121_unchanged m _ _).2.2.1 pos hv]
        · rw [if_neg hr] at ht
          exact out ht
      | _ => exact out ht
    | setU64 r v =>
      refine place r _ _ ht (fun u hu => C121_u64 m v _ u hu) ?_
      unfold Shape.leftU64
      split <;> rfl
    | setI64 r v =>
      refine place r _ _ ht (fun u hu => C121_i64 m v _ u hu) ?_
      unfold Shape.leftI64
      split <;> rfl
    | parse r radix text target =>
      unfold Command.attempt at ht
      rcases leaves_bind ht with ht | ⟨e, s', -, ht⟩
      · obtain ⟨v, h1, rfl⟩ := leaves_zoom ht
        have h2 := C121_parse m radix _ v text (fun _ _ => hs.1) (fun _ _ => hs.2) h1
        refine ⟨by rw [ledger_put, h2]; rfl, h.put r ?_⟩
        rw [show v.width = v.shape.width from rfl, h2]
        have : (Shape.leftParse m (s.reg r).shape radix text).width = (s.reg r).width := by
          unfold Shape.leftParse
          split <;> rfl
        rw [this]
        exact h.reg r
      · exfalso
        cases e with
        | ok u => exact absurd ht leaves_advance
        | error e => obtain ⟨p, ht⟩ := ht; cases ht
    | store A i d =>
      refine keep ((Keeps.get_bind ?_ : Keeps _ s) t ht)
      exact keeps_inArray A _ s fun a b hb => (C121_arrays m env a b).1 _ _ hb
    | clear A => exact keep (keeps_inArray A _ s (fun a b hb => absurd hb (C121_arrays m env a b).2.1) t ht)
    | makeDense A => exact keep (keeps_inArray A _ s (fun a b hb => (C121_arrays m env a b).2.2 hb) t ht)
    | _ => exact keep (keeps_whole _ _ _ t ht)
  | _ => exact keep (keeps_whole _ _ _ t ht)

theorem attempt_cases (env : HashEnv) (c : Command) (s : Device) :
    (∃ s', c.attempt m env s = (ok (), s') ∧ c.run m env s = ok s') ∨ (∃ p t, c.attempt m env s = (.panic p, t) ∧ c.run m env s = .panic p) := by
  have h := C122_agrees m env c s
  unfold Eff.run at h
  cases hx : c.attempt m env s with
  | mk r t =>
    rw [hx] at h
    cases hr : c.run m env s with
    | ok s' =>
      rw [hr, ok_bind] at h
      cases r with
      | ok u => cases h; exact .inl ⟨_, rfl, rfl⟩
      | panic p => cases h
    | panic p =>
      rw [hr, panic_bind] at h
      cases r with
      | ok u => cases h
      | panic q => cases h; exact .inr ⟨_, _, rfl, rfl⟩

/-! ## Programs -/

theorem Device.Sound.endures (prog : List Guarded) (hp : ∀ g ∈ prog, g.command.Sized) (env : Nat → HashEnv) (n : Nat) (h : s.Sound) :
    ∃ e, s.ledger.Endures m prog n e ∧ e.Shows Device.Entered (s.endure m env prog n) := by
  induction n generalizing s with
  | zero => exact ⟨_, rfl, s, rfl, rfl, h⟩
  | succ n ih =>
    unfold Ledger.Endures Device.endure
    rw [show s.ledger.pc = s.pc from rfl]
    cases hc : prog[s.pc]? with
    | none => exact ⟨_, rfl, s, rfl, rfl, h⟩
    | some g =>
      dsimp only
      have hg := hp g (List.mem_of_getElem? hc)
      obtain ⟨mid, h1, h2⟩ := (h.step (m := m) g.command hg).sound (env n)
      rcases attempt_cases (m := m) (env n) g.command s with ⟨s', h3, h4⟩ | ⟨p, t, h3, h4⟩
      · rw [h3]
        cases mid with
        | panic => exact absurd h4 fun h4 => not_panics h2 h4
        | outside => exact ⟨.outside, ⟨_, h1, rfl⟩, trivial⟩
        | value σ' =>
          obtain ⟨s'', hs1, rfl, hs2⟩ := h2
          cases h4.symm.trans hs1
          obtain ⟨e, he1, he2⟩ := ih hs2
          exact ⟨e, ⟨_, h1, he1⟩, he2⟩
      · rw [h3]
        cases mid with
        | outside => exact ⟨.outside, ⟨_, h1, rfl⟩, trivial⟩
        | value σ' =>
          obtain ⟨s'', hs1, -⟩ := h2
          rw [h4] at hs1
          cases hs1
        | panic =>
          dsimp only
          cases hh : g.handler with
          | none => exact ⟨.panic, ⟨_, h1, rfl⟩, p, rfl⟩
          | some target =>
            dsimp only
            obtain ⟨h5, h6⟩ := h.left (env n) g.command hg ⟨p, h3⟩
            obtain ⟨e, he1, he2⟩ := ih (h6.goto target).2
            refine ⟨e, ⟨_, h1, ?_⟩, he2⟩
            dsimp only
            rw [← h5]
            exact he1

theorem Device.endure_congr {env env' : Nat → HashEnv} (prog : List Guarded) (n : Nat) (h : ∀ k, k < n → env k = env' k) (s : Device) :
    s.endure m env prog n = s.endure m env' prog n := by
  induction n generalizing s with
  | zero => rfl
  | succ n ih =>
    unfold Device.endure
    cases prog[s.pc]? with
    | none => rfl
    | some g =>
      dsimp only
      rw [h n (by omega)]
      have := ih (fun k hk => h k (by omega))
      cases g.command.attempt m (env' n) s with
      | mk r t =>
        cases r with
        | ok u => exact this t
        | panic p =>
          dsimp only
          cases g.handler with
          | none => rfl
          | some target => exact this _

theorem Device.Sound.endures_any (prog : List Guarded) (hp : ∀ g ∈ prog, g.command.Sized) (n : Nat) (h : s.Sound) {e : Upshot Ledger}
    (he : s.ledger.Endures m prog n e) : ∃ env : Nat → HashEnv, e.Shows Device.Entered (s.endure m env prog n) := by
  induction n generalizing s with
  | zero =>
    rw [show e = .value s.ledger from he]
    exact ⟨fun _ => listEnv, s, rfl, rfl, h⟩
  | succ n ih =>
    unfold Ledger.Endures at he
    unfold Device.endure
    rw [show s.ledger.pc = s.pc from rfl] at he
    cases hc : prog[s.pc]? with
    | none =>
      rw [hc] at he
      rw [show e = .value s.ledger from he]
      exact ⟨fun _ => listEnv, s, rfl, rfl, h⟩
    | some g =>
      rw [hc] at he
      have hg := hp g (List.mem_of_getElem? hc)
      obtain ⟨mid, h1, h2⟩ := he
      obtain ⟨env₀, h3⟩ := (h.step (m := m) g.command hg).exact _ h1
      dsimp only
      cases mid with
      | outside =>
        rw [show e = .outside from h2]
        exact ⟨fun _ => env₀, trivial⟩
      | value σ' =>
        obtain ⟨s', hs1, rfl, hs2⟩ := h3
        obtain ⟨env, he⟩ := ih hs2 h2
        refine ⟨fun k => if k = n then env₀ else env k, ?_⟩
        dsimp only
        rw [if_pos rfl]
        rcases attempt_cases (m := m) env₀ g.command s with ⟨s'', h4, h5⟩ | ⟨p, t, h4, h5⟩
        · cases h5.symm.trans hs1
          rw [h4]
          dsimp only
          rw [Device.endure_congr (env' := env) prog n fun k hk => if_neg (by omega)]
          exact he
        · rw [h5] at hs1
          cases hs1
      | panic =>
        rcases attempt_cases (m := m) env₀ g.command s with ⟨s'', h4, h5⟩ | ⟨p, t, h4, h5⟩
        · exact absurd h5 fun h5 => not_panics h3 h5
        dsimp only at h2
        cases hh : g.handler with
        | none =>
          rw [hh] at h2
          rw [show e = .panic from h2]
          refine ⟨fun _ => env₀, p, ?_⟩
          rw [h4]
        | some target =>
          rw [hh] at h2
          obtain ⟨h6, h7⟩ := h.left env₀ g.command hg ⟨p, h4⟩
          dsimp only at h2
          rw [← h6] at h2
          obtain ⟨env, he⟩ := ih (h7.goto target).2 h2
          refine ⟨fun k => if k = n then env₀ else env k, ?_⟩
          dsimp only
          rw [if_pos rfl, h4]
          dsimp only
          rw [Device.endure_congr (env' := env) prog n fun k hk => if_neg (by omega)]
          exact he

/-- **C122** Any program with handlers, on registers with any values and arrays from any documents: what happens is something that the specification
allows. It panics if the specification says so, and otherwise output, program counter, registers and arrays are what the specification says. -/
theorem C122_program (m : Mode) (env : Nat → HashEnv) (prog : List Guarded) (hp : ∀ g ∈ prog, g.command.Sized) (n : Nat) (s : Device) (hs : s.Ready) :
    ∃ e, s.ledger.Endures m prog n e ∧ e.Reports (s.endure m env prog n) := by
  obtain ⟨e, h1, h2⟩ := hs.sound.endures prog hp env n
  exact ⟨e, h1, reports_of_shows h2⟩

/-- **C122** (exactness): every outcome that the specification leaves open occurs. -/
theorem C122_exact (m : Mode) (prog : List Guarded) (hp : ∀ g ∈ prog, g.command.Sized) (n : Nat) (s : Device) (hs : s.Ready) {e : Upshot Ledger}
    (he : s.ledger.Endures m prog n e) : ∃ env : Nat → HashEnv, e.Reports (s.endure m env prog n) := by
  obtain ⟨env, h⟩ := hs.sound.endures_any prog hp n he
  exact ⟨env, reports_of_shows h⟩

/-- **C122** (states): a program whose dense arrays fit into the address space can reach exactly the states that the specification says. A device that
was reached can be started again. -/
theorem C122_states (m : Mode) (prog : List Guarded) (hp : ∀ g ∈ prog, g.command.Sized) (n : Nat) (s : Device) (hs : s.Ready)
    (hfit : ¬ s.ledger.Endures m prog n .outside) (σ : Ledger) :
    (∃ (env : Nat → HashEnv) (s' : Device), s.endure m env prog n = ok s' ∧ s'.Ready ∧ s'.ledger = σ) ↔ s.ledger.Endures m prog n (.value σ) := by
  constructor
  · rintro ⟨env, s', h1, -, rfl⟩
    obtain ⟨e, h3, h4⟩ := hs.sound.endures (m := m) prog hp env n
    cases e with
    | panic => exact absurd h1 fun h1 => not_panics h4 h1
    | outside => exact absurd h3 hfit
    | value σ =>
      obtain ⟨s'', h5, rfl, -⟩ := h4
      cases h1.symm.trans h5
      exact h3
  · intro h
    obtain ⟨env, s', h1, h2, h3⟩ := hs.sound.endures_any prog hp n h
    exact ⟨env, s', h1, h3.ready, h2⟩

/-- **C122** (no handlers): without handlers this is C119. -/
theorem C122_unguarded (m : Mode) (env : Nat → HashEnv) (prog : List Command) (n : Nat) (s : Device) :
    s.endure m env (prog.map fun c => ⟨c, none⟩) n = s.obey m env prog n := by
  induction n generalizing s with
  | zero => rfl
  | succ n ih =>
    unfold Device.endure Device.obey
    rw [List.getElem?_map]
    cases prog[s.pc]? with
    | none => rfl
    | some c =>
      rcases attempt_cases (m := m) (env n) c s with ⟨s', h3, h4⟩ | ⟨p, t, h3, h4⟩
      · show (match c.attempt m (env n) s with
          | (ok (), s) => Device.endure m env (prog.map fun c => ⟨c, none⟩) n s
          | (.panic p, s) => .panic p) = _
        rw [h3]
        dsimp only
        rw [h4]
        exact ih s'
      · show (match c.attempt m (env n) s with
          | (ok (), s) => Device.endure m env (prog.map fun c => ⟨c, none⟩) n s
          | (.panic p, s) => .panic p) = _
        rw [h3]
        dsimp only
        rw [h4]
        rfl

/-- **C122** (handlers everywhere): a program in which every command has a handler does not panic. -/
theorem C122_guarded (m : Mode) (env : Nat → HashEnv) (prog : List Guarded) (hp : ∀ g ∈ prog, g.handler ≠ none) (n : Nat) (s : Device) :
    ∃ s', s.endure m env prog n = ok s' := by
  induction n generalizing s with
  | zero => exact ⟨s, rfl⟩
  | succ n ih =>
    unfold Device.endure
    cases hc : prog[s.pc]? with
    | none => exact ⟨s, rfl⟩
    | some g =>
      dsimp only
      have hg := hp g (List.mem_of_getElem? hc)
      cases g.command.attempt m (env n) s with
      | mk r t =>
        cases r with
        | ok u => exact ih t
        | panic p =>
          dsimp only
          cases hh : g.handler with
          | none => exact absurd hh hg
          | some target => exact ih _

/-! ## A concrete case -/

/-- A program for eight bits and an array of bytes: a number that is too large, a number that is written behind the end of a value without bits, an
array that cannot be made dense, and the contents afterwards. All commands that can panic go on with the next one. -/
def carefulProgram : List Guarded :=
  [⟨.act (.setU64 0 300#64), some 1⟩, ⟨.act (.print 0), none⟩,
   ⟨.load 0 (givenSparse 1 4 (.variant "U64U64" (.seq [.num 300, .map []]))) 9, none⟩, ⟨.act (.makeDense 0), some 4⟩, ⟨.standard 1 0 9, some 5⟩,
   ⟨.act (.un 2 .assignOnes 2), some 6⟩, ⟨.act (.clear 0), none⟩, ⟨.act (.makeDense 0), none⟩, ⟨.act (.select 1 0 3), none⟩, ⟨.act (.print 1), none⟩]

def carefulStart : Device := ⟨0, fun r => if r = 2 then encode 0#0 else if r = 3 then encode 1#1 else encode 7#8, fun _ => none, []⟩

example : carefulStart.Ready :=
  ⟨fun r => by
    show (if r = 2 then encode 0#0 else if r = 3 then encode 1#1 else encode 7#8).width < 2 ^ 32
    split
    · decide
    · split <;> decide,
   fun A a h => by cases h⟩

example : ∀ g ∈ carefulProgram, g.command.Sized := by
  intro g h
  simp only [carefulProgram, List.mem_cons, List.not_mem_nil, or_false] at h
  rcases h with rfl | rfl | rfl | rfl | rfl | rfl | rfl | rfl | rfl | rfl <;> trivial

/-- The debug build panics four times and prints 44, the remainder of 300, and the zero of the cleared array. -/
example : (match Device.endure .debug (fun _ => listEnv) carefulProgram 10 carefulStart with
    | .ok s => some s.out
    | .panic _ => none) =
      some [[ch '0', ch '0', ch '1', ch '0', ch '1', ch '1', ch '0', ch '0'], [ch '0', ch '0', ch '0', ch '0']] := by
  decide +kernel

/-- After the first command, whose panic is caught, the specification knows the register. -/
example : carefulStart.ledger.Endures .debug carefulProgram 1 (.value { carefulStart.ledger.put 0 ⟨8, 1, 44⟩ with pc := 1 }) := by
  refine ⟨.panic, ?_, ?_⟩
  · exact ⟨.panic, rfl, rfl⟩
  · show Upshot.value _ = Upshot.value _
    rfl

end Baa

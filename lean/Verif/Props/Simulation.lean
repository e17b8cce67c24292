import Verif.Props.Smt
import Verif.Spec.Simulation

/-!
# C144: a clocked system simulated with the library does what it means
-/

namespace Baa
open Res

theorem setVar_same (V : (s : Srt) → Nat → s.Obj) (s : Srt) (n : Nat) (x : s.Obj) : setVar V s n x s n = x := by
  simp [setVar]

theorem setVar_other (V : (s : Srt) → Nat → s.Obj) (s : Srt) (n : Nat) (x : s.Obj) (s' : Srt) (n' : Nat) (h : (s', n') ≠ (s, n)) :
    setVar V s n x s' n' = V s' n' := by
  unfold setVar
  by_cases h1 : s = s'
  · subst h1
    by_cases h2 : n = n'
    · exact absurd (by rw [h2]) h
    · simp [h2]
  · simp [h1]

/-- A tick of the library is a tick. -/
theorem tick_means (m : Mode) (env : HashEnv) (value : (r : Register) → SmtTerm r.srt) (σ ι : (s : Srt) → Nat → s.Val)
    (V I : (s : Srt) → Nat → s.Obj) (hV : ∀ s n, s.Sane → Means m s (V s n) (σ s n)) (hI : ∀ s n, s.Sane → Means m s (I s n) (ι s n)) :
    ∀ (rs : List Register), (rs.map Register.slot).Nodup → (∀ r ∈ rs, (value r).Legal) →
      ∃ W, tick m env value V I rs = ok W ∧
        ∀ τ, Follows rs value σ ι τ → ∀ s n, s.Sane → Means m s (W s n) (τ s n)
  | [], _, _ => ⟨I, rfl, fun τ h s n hs => by
      rw [h.2 s n (by simp)]
      exact hI s n hs⟩
  | r :: rs, hn, hl => by
    rw [List.map_cons, List.nodup_cons] at hn
    obtain ⟨x, h1, h2⟩ := C143_eval m env σ V hV (value r) (hl r (List.mem_cons_self ..))
    obtain ⟨W, h3, h4⟩ := tick_means m env value σ ι V I hV hI rs hn.2 (fun q hq => hl q (List.mem_cons_of_mem _ hq))
    refine ⟨setVar W r.srt r.num x, by rw [tick, h1, ok_bind, h3]; rfl, fun τ h s n hs => ?_⟩
    by_cases e : (s, n) = (r.srt, r.num)
    · cases e
      rw [setVar_same, h.1 r (List.mem_cons_self ..)]
      exact h2
    · rw [setVar_other _ _ _ _ _ _ e]
      -- compare with the valuation in which `r` holds the input
      have key : ∀ s' n', (∃ τ', Follows rs value σ ι τ' ∧ τ' s' n' = τ s' n') ∨ (s', n') = r.slot := by
        intro s' n'
        by_cases e' : (s', n') = r.slot
        · exact .inr e'
        · classical
          refine .inl ⟨fun s n => if (s, n) = r.slot then ι s n else τ s n, ⟨fun q hq => ?_, fun s2 n2 h2 => ?_⟩, by simp [e']⟩
          · have : (q.srt, q.num) ≠ r.slot := fun c => hn.1 (c ▸ List.mem_map_of_mem hq)
            simp only [this, if_false]
            exact h.1 q (List.mem_cons_of_mem _ hq)
          · by_cases e2 : (s2, n2) = r.slot
            · simp [e2]
            · simp only [e2, if_false]
              exact h.2 s2 n2 (by simp [e2, h2])
      rcases key s n with ⟨τ', h5, h6⟩ | h5
      · rw [← h6]
        exact h4 τ' h5 s n hs
      · exact absurd h5 e

theorem observe_eq (m : Mode) (env : HashEnv) (σ : (s : Srt) → Nat → s.Val) (V : (s : Srt) → Nat → s.Obj)
    (hV : ∀ s n, s.Sane → Means m s (V s n) (σ s n)) :
    ∀ os : List ((w : Nat) × SmtTerm (.bv w)), (∀ o ∈ os, o.2.Legal) → observe m env V os = ok (os.map fun o => encode (o.2.denote σ))
  | [], _ => rfl
  | o :: os, h => by
    obtain ⟨x, h1, h2⟩ := C143_eval m env σ V hV o.2 (h o (List.mem_cons_self ..))
    rw [observe, h1, ok_bind, observe_eq m env σ V hV os (fun q hq => h q (List.mem_cons_of_mem _ hq)), ok_bind,
      Denotes.eq_encode h2, List.map_cons]

theorem steps_eq (m : Mode) (env : HashEnv) (sys : ClockedSystem) (hl : sys.Legal) (ι σ : Nat → (s : Srt) → Nat → s.Val)
    (I : Nat → (s : Srt) → Nat → s.Obj) (hI : ∀ k s n, s.Sane → Means m s (I k s n) (ι k s n)) (hr : sys.IsRun ι σ) :
    ∀ (n k : Nat) (V : (s : Srt) → Nat → s.Obj), (∀ s n, s.Sane → Means m s (V s n) (σ k s n)) →
      sys.steps m env I n k V = ok ((List.range' k n).map fun j => sys.outputs.map fun o => encode (o.2.denote (σ j)))
  | 0, _, _, _ => rfl
  | n + 1, k, V, hV => by
    obtain ⟨W, h1, h2⟩ := tick_means m env Register.next (σ k) (ι (k + 1)) V (I (k + 1)) hV (hI (k + 1)) sys.registers hl.2.2
      (fun r hr => (hl.1 r hr).2)
    rw [ClockedSystem.steps, observe_eq m env (σ k) V hV sys.outputs hl.2.1, ok_bind, h1, ok_bind,
      steps_eq m env sys hl ι σ I hI hr n (k + 1) W (h2 _ (hr.2 k)), ok_bind, List.range'_succ, List.map_cons]

/-- C144: the outputs that the simulation reports are those of the run. -/
theorem C144_simulation (m : Mode) (env : HashEnv) (sys : ClockedSystem) (hl : sys.Legal) (ι σ : Nat → (s : Srt) → Nat → s.Val)
    (hr : sys.IsRun ι σ) (I : Nat → (s : Srt) → Nat → s.Obj) (hI : ∀ k s n, s.Sane → Means m s (I k s n) (ι k s n)) (n : Nat) :
    sys.simulate m env I n = ok ((List.range n).map fun k => sys.outputs.map fun o => encode (o.2.denote (σ k))) := by
  obtain ⟨W, h1, h2⟩ := tick_means m env Register.init (ι 0) (ι 0) (I 0) (I 0) (hI 0) (hI 0) sys.registers hl.2.2
    (fun r hr => (hl.1 r hr).1)
  rw [ClockedSystem.simulate, h1, ok_bind, steps_eq m env sys hl ι σ I hI hr n 0 W (h2 _ hr.1), List.range_eq_range']

open Classical in
/-- The valuation after a tick. -/
noncomputable def afterTick (registers : List Register) (value : (r : Register) → SmtTerm r.srt) (σ ι : (s : Srt) → Nat → s.Val) :
    (s : Srt) → Nat → s.Val :=
  match registers with
  | [] => ι
  | r :: rs => fun s n =>
    if h : r.srt = s then (if r.num = n then h ▸ (value r).denote σ else afterTick rs value σ ι s n) else afterTick rs value σ ι s n

theorem afterTick_other (r : Register) (rs : List Register) (value : (r : Register) → SmtTerm r.srt) (σ ι : (s : Srt) → Nat → s.Val)
    (s : Srt) (n : Nat) (h : (s, n) ≠ r.slot) : afterTick (r :: rs) value σ ι s n = afterTick rs value σ ι s n := by
  rw [afterTick]
  by_cases h1 : r.srt = s
  · subst h1
    by_cases h2 : r.num = n
    · exact absurd (by rw [← h2]; rfl) h
    · simp [h2]
  · simp [h1]

theorem afterTick_follows (value : (r : Register) → SmtTerm r.srt) (σ ι : (s : Srt) → Nat → s.Val) :
    ∀ rs : List Register, (rs.map Register.slot).Nodup → Follows rs value σ ι (afterTick rs value σ ι)
  | [], _ => ⟨fun _ h => absurd h List.not_mem_nil, fun _ _ _ => rfl⟩
  | r :: rs, hn => by
    rw [List.map_cons, List.nodup_cons] at hn
    obtain ⟨h1, h2⟩ := afterTick_follows value σ ι rs hn.2
    refine ⟨fun q hq => ?_, fun s n h => ?_⟩
    · rcases List.mem_cons.1 hq with e | hq
      · subst e
        simp [afterTick]
      · rw [afterTick_other r rs value σ ι q.srt q.num (fun c => hn.1 (c ▸ List.mem_map_of_mem hq))]
        exact h1 q hq
    · rw [List.map_cons, List.mem_cons, not_or] at h
      rw [afterTick_other r rs value σ ι s n h.1]
      exact h2 s n h.2

theorem follows_unique {registers : List Register} {value : (r : Register) → SmtTerm r.srt} {σ ι τ τ' : (s : Srt) → Nat → s.Val}
    (h : Follows registers value σ ι τ) (h' : Follows registers value σ ι τ') : τ = τ' := by
  funext s n
  by_cases e : (s, n) ∈ registers.map Register.slot
  · obtain ⟨r, h1, h2⟩ := List.mem_map.1 e
    cases h2
    exact (h.1 r h1).trans (h'.1 r h1).symm
  · rw [h.2 s n e, h'.2 s n e]

/-- C144: for every inputs a legal system has exactly one run. -/
theorem C144_one_run (sys : ClockedSystem) (hl : sys.Legal) (ι : Nat → (s : Srt) → Nat → s.Val) :
    ∃ σ, sys.IsRun ι σ ∧ ∀ σ', sys.IsRun ι σ' → σ' = σ := by
  refine ⟨fun k => k.rec (afterTick sys.registers Register.init (ι 0) (ι 0))
    (fun k σ => afterTick sys.registers Register.next σ (ι (k + 1))),
    ⟨afterTick_follows _ _ _ _ hl.2.2, fun k => afterTick_follows _ _ _ _ hl.2.2⟩, fun σ' h => ?_⟩
  funext k
  induction k with
  | zero => exact follows_unique h.1 (afterTick_follows _ _ _ _ hl.2.2)
  | succ k ih =>
    refine follows_unique (h.2 k) ?_
    rw [ih]
    exact afterTick_follows _ _ _ _ hl.2.2

/-- C144: the reports are the same in debug and release builds, for every hash table, and for arrays of either kind as inputs. -/
theorem C144_independent (m m' : Mode) (env env' : HashEnv) (sys : ClockedSystem) (hl : sys.Legal) (ι : Nat → (s : Srt) → Nat → s.Val)
    (I I' : Nat → (s : Srt) → Nat → s.Obj) (hI : ∀ k s n, s.Sane → Means m s (I k s n) (ι k s n))
    (hI' : ∀ k s n, s.Sane → Means m' s (I' k s n) (ι k s n)) (n : Nat) :
    sys.simulate m env I n = sys.simulate m' env' I' n := by
  obtain ⟨σ, h, -⟩ := C144_one_run sys hl ι
  rw [C144_simulation m env sys hl ι σ h I hI n, C144_simulation m' env' sys hl ι σ h I' hI' n]

/-- A fifo of depth 4 with 70-bit entries: a memory, a write pointer and a counter, all written in the same tick. -/
def sampleSystem : ClockedSystem where
  registers := [
    ⟨.arr 2 70, 0, .fill (.const 0#70), .store (.var (.arr 2 70) 0) (.var (.bv 2) 0) (.bin .mul (.var (.bv 70) 0) (.var (.bv 70) 1))⟩,
    ⟨.bv 2, 0, .const 0#2, .bin .add (.var (.bv 2) 0) (.const 1#2)⟩,
    ⟨.bv 70, 1, .const 1#70, .bin .shl (.var (.bv 70) 1) (.const 66#70)⟩]
  outputs := [⟨_, .select (.var (.arr 2 70) 0) (.const 0#2)⟩, ⟨_, .var (.bv 2) 0⟩]

theorem sampleSystem_legal : sampleSystem.Legal := by
  refine ⟨?_, ?_, ?_⟩
  · simp [sampleSystem, SmtTerm.Legal, Srt.Sane]
  · simp [sampleSystem, SmtTerm.Legal, Srt.Sane]
  · simp [sampleSystem, Register.slot]

example : sampleSystem.Legal ∧ (∃ σ, sampleSystem.IsRun (fun _ => fives) σ) ∧
    sampleSystem.simulate .debug listEnv (fun _ => fivesObj) 6 = ok [
      [encode 0#70, encode 0#2], [encode 5#70, encode 1#2], [encode 5#70, encode 2#2], [encode 5#70, encode 3#2],
      [encode 5#70, encode 0#2], [encode 0#70, encode 1#2]] ∧
    ∀ n, sampleSystem.simulate .debug listEnv (fun _ => fivesObj) n = sampleSystem.simulate .release listEnv (fun _ => fivesObj) n :=
  ⟨sampleSystem_legal, (C144_one_run _ sampleSystem_legal _).imp fun _ h => h.1, by decide +kernel,
    C144_independent .debug .release listEnv listEnv sampleSystem sampleSystem_legal (fun _ => fives) _ _
      (fun _ => fives_means .debug) (fun _ => fives_means .release)⟩

end Baa

import Verif.Props.DevicesExact
import Verif.Props.Loading
import Verif.Spec.Archives

/-!
# C119: every program that reads documents is predictable, and the predictions are exact

C112 and C116 are about programs whose arrays are created by the library. Here arrays and values also come from documents, and nothing is known
about a document but that it is accepted. C117 and C118 are about single arrays from documents.
-/

namespace Baa
open Res Serde BitVecValue

variable {m : Mode} {s : Device}

/-! ## Outcomes -/

/-- Executions in all environments have the possible outcomes, and all of them. -/
structure Sharply {α β : Type} (R : α → β → Prop) (run : HashEnv → Res α) (L : Upshot β → Prop) : Prop where
  sound : ∀ env, ∃ u, L u ∧ u.Shows R (run env)
  exact : ∀ u, L u → ∃ env, u.Shows R (run env)

theorem Sharply.of {α β : Type} {R : α → β → Prop} {run : HashEnv → Res α} {L : Upshot β → Prop} (u : Upshot β) (hL : ∀ u', L u' ↔ u' = u)
    (h : ∀ env, u.Shows R (run env)) : Sharply R run L :=
  ⟨fun env => ⟨u, (hL u).mpr rfl, h env⟩, fun u' hu => ⟨listEnv, by rw [(hL u').mp hu]; exact h _⟩⟩

theorem Exactly.sharply {α β : Type} {P : α → β → Prop} {run : HashEnv → Res α} {o : Option β → Prop} (h : Exactly P run o) :
    Sharply P run fun u => ∃ r, o r ∧ u = .of r := by
  refine ⟨fun env => ?_, ?_⟩
  · obtain ⟨r, h1, h2⟩ := h.sound env
    exact ⟨_, ⟨r, h1, rfl⟩, shows_of_fate h2⟩
  · rintro _ ⟨r, hr, rfl⟩
    obtain ⟨env, h1⟩ := h.exact r hr
    exact ⟨env, shows_of_fate h1⟩

theorem Sharply.map {α β γ δ : Type} {R : α → β → Prop} {S : γ → δ → Prop} {run : HashEnv → Res α} {L : Upshot β → Prop}
    (h : Sharply R run L) {f : α → Res γ} {g : β → δ} (hf : ∀ a b, R a b → ∃ c, f a = ok c ∧ S c (g b)) :
    Sharply S (fun env => run env >>= f) fun e => ∃ u, L u ∧ e = u.map g := by
  refine ⟨fun env => ?_, ?_⟩
  · obtain ⟨u, h1, h2⟩ := h.sound env
    exact ⟨_, ⟨u, h1, rfl⟩, h2.bind hf⟩
  · rintro _ ⟨u, hu, rfl⟩
    obtain ⟨env, h1⟩ := h.exact u hu
    exact ⟨env, h1.bind hf⟩

/-- The same, up to equivalence of the outcomes. -/
theorem Sharply.congr {α β : Type} {R : α → β → Prop} {run : HashEnv → Res α} {L L' : Upshot β → Prop} (h : Sharply R run L)
    (hL : ∀ u, L' u ↔ L u) : Sharply R run L' :=
  ⟨fun env => (h.sound env).imp fun u hu => ⟨(hL u).mpr hu.1, hu.2⟩, fun u hu => h.exact u ((hL u).mp hu)⟩

/-- Something is only known under a condition. -/
theorem Sharply.room {α β : Type} {R : α → β → Prop} {run : HashEnv → Res α} {L : Upshot β → Prop} (p : Prop) (h : p → Sharply R run L) :
    Sharply R run fun u => (¬ p ∧ u = .outside) ∨ (p ∧ L u) := by
  by_cases hp : p
  · exact (h hp).congr fun u => by simp [hp]
  · exact Sharply.of .outside (fun u => by simp [hp]) fun _ => trivial

/-! ## Single arrays -/

/-- What is known about an array. -/
def Recorded (a : ArrayValue) (x : Account) : Prop := a.account = x ∧ Acceptable a ∧ x.InMemory

theorem dense_iff (a : ArrayValue) : a.account.Dense ↔ a.isDense = true := by
  cases a with
  | dense d =>
    obtain ⟨iw, dw, data⟩ := d
    cases data <;> simp [ArrayValue.account, DenseArrayImpl.hoard, Account.Dense, ArrayValue.isDense]
  | sparse s =>
    obtain ⟨iw, dw, data⟩ := s
    cases data <;> simp [ArrayValue.account, SparseArrayImpl.hoard, Account.Dense, ArrayValue.isDense]

theorem entriesOf_empty {V α : Type} (f : V → α) : entriesOf f HMap.empty = fun _ => none := by
  funext k
  unfold entriesOf
  split <;> rfl

theorem recorded_new (k : Kind) {iw : Nat} (hi : iw < 2 ^ 32) {v : BitVecValue} (hv : v.width < 2 ^ 32) :
    Sharply Recorded (fun _ => newOf k m iw v) (Account.Created k m iw v.shape) := by
  cases k with
  | dense =>
    refine Sharply.room (L := fun u => u = _) _ fun hs => Sharply.of _ (fun _ => Iff.rfl) fun env => shows_of_fate ?_
    show Fate _ (DenseArrayValue.new m iw v >>= fun d => ok (ArrayValue.dense d)) _
    cases hn : elementCount m iw with
    | none =>
      refine panics_bind ?_ _
      unfold DenseArrayValue.new
      refine panics_bind (panics_bind ?_ _) _
      have := numElements_fate m iw
      rw [hn] at this
      exact this
    | some n =>
      have h := laid_new (m := m) hi hv hn (hs n hn)
      rw [Option.bind_some]
      cases hmem : Memory.create m iw v.shape with
      | none =>
        rw [hmem] at h
        exact panics_bind h _
      | some mem =>
        rw [hmem] at h
        obtain ⟨d, hd1, hd2⟩ := h
        rw [hd1, ok_bind]
        exact ⟨_, rfl, hd2.1.account, hd2.1.acceptable, hd2.2⟩
  | sparse =>
    refine Sharply.of _ (fun _ => Iff.rfl) fun env => ?_
    show Upshot.Shows _ (SparseArrayValue.new iw v >>= fun s => ok (ArrayValue.sparse s)) _
    unfold SparseArrayValue.new
    dsimp only
    by_cases h1 : 64 < iw
    · rw [if_pos h1, if_pos (show iw > BITS from h1)]
      exact ⟨_, rfl, rfl, ⟨hi, hv, hv, HMap.nodup_empty, fun e he => by cases he⟩, trivial⟩
    · rw [if_neg h1, if_neg (show ¬ iw > BITS from h1)]
      by_cases h2 : 64 < v.width
      · rw [if_pos (show 64 < v.shape.width from h2), if_pos (show v.width > BITS from h2)]
        refine ⟨_, rfl, ?_, ⟨hi, hv, hv, HMap.nodup_empty, fun e he => by cases he⟩, trivial⟩
        show (⟨_, _, .broad ⟨_, entriesOf _ HMap.empty⟩⟩ : Account) = _
        rw [entriesOf_empty]
        rfl
      · rw [if_neg (show ¬ 64 < v.shape.width from h2), if_neg (show ¬ v.width > BITS from h2)]
        have h := toU64_fate v
        by_cases h3 : 2 ^ 64 ≤ v.shape.number
        · rw [if_pos h3] at h ⊢
          exact panics_bind (panics_bind (panics_bind h _) _) _
        · rw [if_neg h3] at h ⊢
          obtain ⟨w, hw1, hw2⟩ := h
          rw [hw1]
          refine ⟨_, rfl, ?_, ⟨hi, hv, HMap.nodup_empty⟩, trivial⟩
          show (⟨_, _, .narrow ⟨_, entriesOf _ HMap.empty⟩⟩ : Account) = _
          rw [hw2, entriesOf_empty]
          rfl

theorem recorded_eq {a b : ArrayValue} {x y : Account} (ha : Recorded a x) (hb : Recorded b y) :
    Sharply Eq (fun env => a.eq m env b) (x.Answers m y) := by
  obtain ⟨rfl, ha1, ha2⟩ := ha
  obtain ⟨rfl, hb1, hb2⟩ := hb
  have hwa : a.account.iw = a.indexWidth ∧ a.account.dw = a.dataWidth := by cases a <;> exact ⟨rfl, rfl⟩
  have hwb : b.account.iw = b.indexWidth ∧ b.account.dw = b.dataWidth := by cases b <;> exact ⟨rfl, rfl⟩
  unfold Account.Answers
  by_cases hw : a.account.iw = b.account.iw ∧ a.account.dw = b.account.dw
  · simp only [if_pos hw, dense_iff]
    cases hda : a.isDense <;> cases hdb : b.isDense
    · refine (doc_eq m ha1 hb1 (hda.trans hdb.symm)).sharply.congr fun u => ?_
      simp
    · cases a with
      | dense d => cases hda
      | sparse s =>
        cases b with
        | sparse s => cases hdb
        | dense d =>
          refine (Sharply.room _ fun hr => (doc_mixed m ha1 hb1 hr).sharply).congr fun u => ?_
          simp
    · cases b with
      | dense d => cases hdb
      | sparse s =>
        cases a with
        | sparse s => cases hda
        | dense d =>
          refine Sharply.congr (L := fun u => (¬ (ArrayValue.sparse s).account.Roomy m ∧ u = .outside) ∨ ((ArrayValue.sparse s).account.Roomy m ∧ _))
            (Sharply.room _ fun hr => (show Sharply Eq (fun env => ArrayValue.eq m env (.dense d) (.sparse s)) _ from (doc_mixed m hb1 ha1 hr).sharply)) fun u => ?_
          simp
    · refine (doc_eq m ha1 hb1 (hda.trans hdb.symm)).sharply.congr fun u => ?_
      simp
  · simp only [if_neg hw]
    refine Sharply.of _ (fun _ => Iff.rfl) fun env => ⟨false, eq_of_widths env a b ?_, rfl⟩
    rw [← hwa.1, ← hwa.2, ← hwb.1, ← hwb.2]
    exact hw

theorem entriesOf_perm {V α : Type} (f : V → α) {map map' : HMap Word V} (h : map.Nodup) (hp : map'.entries.Perm map.entries) :
    entriesOf f map' = entriesOf f map := by
  have hn : map'.Nodup := (hp.map Prod.fst).nodup_iff.mpr h
  funext k
  unfold entriesOf
  split
  · congr 1
    apply Option.ext
    intro v
    rw [HMap.get_eq_some_iff hn, HMap.get_eq_some_iff h, hp.mem_iff]
  · rfl

theorem valuesOf_perm {map map' : HMap BitVecValue BitVecValue} (h : map.Nodup) (hp : map'.entries.Perm map.entries) :
    valuesOf map' = valuesOf map := by
  have hn : map'.Nodup := (hp.map Prod.fst).nodup_iff.mpr h
  have hg : ∀ k, map'.get k = map.get k := by
    intro k
    apply Option.ext
    intro v
    rw [HMap.get_eq_some_iff hn, HMap.get_eq_some_iff h, hp.mem_iff]
  funext s
  have h1 := valuesOf_tabled h
  have h2 := valuesOf_tabled hn
  by_cases hs : ∃ k : BitVecValue, s = k.shape
  · obtain ⟨k, rfl⟩ := hs
    rw [h1.get, h2.get, hg]
  · have key : ∀ {map : HMap BitVecValue BitVecValue}, Tabled BitVecValue.shape BitVecValue.shape map (valuesOf map) → valuesOf map s = none := by
      intro map ht
      apply Classical.byContradiction
      intro hne
      obtain ⟨k, hk⟩ := ht.named s hne
      exact hs ⟨k, hk.symm⟩
    rw [key h1, key h2]

/-- An array that is written and read again. -/
theorem recorded_resent (env : HashEnv) {a : ArrayValue} (ha : Acceptable a) :
    ∃ b, readArray (ofArray env a) = some b ∧ b.account = a.account ∧ Acceptable b := by
  have key : ∃ b, readArray (ofArray env a) = some b ∧ b.account = a.account := by
    cases a with
    | dense d =>
      obtain ⟨h1, h2, h3⟩ := ha
      refine ⟨.dense d, ?_, rfl⟩
      have hi : readDenseImpl (ofDenseImpl d.data) = some d.data := by
        unfold ofDenseImpl readDenseImpl
        cases hdata : d.data with
        | bit v =>
          rw [hdata] at h3
          dsimp only
          rw [if_pos rfl, readBitVec_ofBitVec v h3]
          rfl
        | u8 l =>
          dsimp only
          rw [if_neg (by decide), if_pos rfl, readList_ofList readByte_ofByte]
          rfl
        | u64 l =>
          dsimp only
          rw [if_neg (by decide), if_neg (by decide), if_pos rfl, readList_ofList readWord_ofWord]
          rfl
        | big l =>
          dsimp only
          rw [if_neg (by decide), if_neg (by decide), if_neg (by decide), if_pos rfl, readList_ofList readWord_ofWord]
          rfl
      unfold ofArray readArray
      dsimp only
      rw [show ∀ x : Serde, field [("data", x)] "data" = some x from fun _ => rfl, Option.bind_some, readArrayImpl,
        if_neg (by decide), if_pos rfl, readDense, ofDense, readArrayFields_of h1 h2 hi]
      rfl
    | sparse s =>
      obtain ⟨h1, h2, h3⟩ := ha
      have hi : ∃ data, readSparseImpl (ofSparseImpl env s.data) = some data ∧ data.hoard = s.data.hoard := by
        unfold ofSparseImpl readSparseImpl
        cases hdata : s.data with
        | u64u64 x map =>
          rw [hdata] at h3
          obtain ⟨map', hm1, hm2⟩ := readHMap_ofHMap env (wk := ofWord) (wv := ofWord) (rk := readWord) (rv := readWord) h3
            fun e _ => ⟨readWord_ofWord _, readWord_ofWord _⟩
          refine ⟨.u64u64 x map', ?_, ?_⟩
          · dsimp only
            rw [if_pos rfl, readWord_ofWord, hm1]
            rfl
          · show Hoard.narrow ⟨_, _⟩ = _
            rw [entriesOf_perm _ h3 hm2]
            rfl
        | u64big x map =>
          rw [hdata] at h3
          obtain ⟨map', hm1, hm2⟩ := readHMap_ofHMap env (wk := ofWord) (wv := ofBitVec) (rk := readWord) (rv := readBitVec) h3.2.1
            fun e he => ⟨readWord_ofWord _, readBitVec_ofBitVec _ (h3.2.2 e he)⟩
          refine ⟨.u64big x map', ?_, ?_⟩
          · dsimp only
            rw [if_neg (by decide), if_pos rfl, readBitVec_ofBitVec x h3.1, hm1]
            rfl
          · show Hoard.broad ⟨_, _⟩ = _
            rw [entriesOf_perm _ h3.2.1 hm2]
            rfl
        | bigbig x map =>
          rw [hdata] at h3
          obtain ⟨map', hm1, hm2⟩ := readHMap_ofHMap env (wk := ofBitVec) (wv := ofBitVec) (rk := readBitVec) (rv := readBitVec) h3.2.1
            fun e he => ⟨readBitVec_ofBitVec _ (h3.2.2 e he).1, readBitVec_ofBitVec _ (h3.2.2 e he).2⟩
          refine ⟨.bigbig x map', ?_, ?_⟩
          · dsimp only
            rw [if_neg (by decide), if_neg (by decide), if_pos rfl, readBitVec_ofBitVec x h3.1, hm1]
            rfl
          · show Hoard.long ⟨_, _⟩ = _
            rw [valuesOf_perm h3.2.1 hm2]
            rfl
      obtain ⟨data, hd1, hd2⟩ := hi
      refine ⟨.sparse ⟨s.indexWidth, s.dataWidth, data⟩, ?_, ?_⟩
      · unfold ofArray readArray
        dsimp only
        rw [show ∀ x : Serde, field [("data", x)] "data" = some x from fun _ => rfl, Option.bind_some, readArrayImpl, if_pos rfl,
          readSparse, ofSparse, readArrayFields_of h1 h2 hd1]
        rfl
      · show (⟨_, _, _⟩ : Account) = ⟨_, _, _⟩
        rw [hd2]
  obtain ⟨b, h1, h2⟩ := key
  exact ⟨b, h1, h2, (C85_accepts b).mp ⟨_, h1⟩⟩

theorem printEntries_fate (es : List (BitVecValue × BitVecValue)) : Fate Eq (printEntries es) (entryTexts (es.map pairShape)) := by
  have bits : ∀ v : BitVecValue, Fate Eq (toBitStr v) v.shape.bits := by
    intro v
    have h := C106_to_bit_str v
    cases hb : v.shape.bits with
    | none => rw [hb] at h; exact h
    | some t => rw [hb] at h; exact ⟨t, h, rfl⟩
  induction es with
  | nil => exact ⟨_, rfl, rfl⟩
  | cons e es ih =>
    refine (bits e.1).bind fun i i' hi => (bits e.2).bind fun d d' hd => ih.map fun l l' hl => ⟨_, rfl, ?_⟩
    rw [hi, hd, hl]

/-! ## The invariant -/

/-- Widths are 32-bit numbers, and arrays can be read from documents and fit into the address space. -/
structure Device.Sound (s : Device) : Prop where
  reg : ∀ r, (s.reg r).width < 2 ^ 32
  arr : ∀ A a, s.arr A = some a → Acceptable a ∧ a.account.InMemory

/-- What is known about a device. -/
def Device.Entered (s : Device) (σ : Ledger) : Prop := s.ledger = σ ∧ s.Sound

theorem Device.Sound.write (h : s.Sound) (r : Nat) {v : BitVecValue} {w : Shape} (hv : v.shape = w) (hw : v.width < 2 ^ 32) :
    (s.write r v).Entered (s.ledger.write r w) := by
  subst hv
  constructor
  · unfold Device.ledger Device.write Ledger.write
    dsimp only
    congr 1
    funext k
    split <;> rfl
  · refine ⟨fun k => ?_, h.arr⟩
    show (if k = r then v else s.reg k).width < _
    split
    · exact hw
    · exact h.reg k

theorem Device.Sound.hold (h : s.Sound) (A : Nat) {a : ArrayValue} {x : Account} (ha : Recorded a x) :
    (s.hold A a).Entered (s.ledger.hold A x) := by
  obtain ⟨rfl, h1, h2⟩ := ha
  constructor
  · unfold Device.ledger Device.hold Ledger.hold
    dsimp only
    congr 1
    funext k
    split <;> rfl
  · refine ⟨h.reg, fun B b hb => ?_⟩
    replace hb : (if B = A then some a else s.arr B) = some b := hb
    split at hb
    · cases hb
      exact ⟨h1, h2⟩
    · exact h.arr B b hb

theorem Device.Sound.goto (h : s.Sound) (t : Nat) : Device.Entered { s with pc := t } { s.ledger with pc := t } := ⟨rfl, h.reg, h.arr⟩

theorem Device.Sound.recorded (h : s.Sound) {A : Nat} {a : ArrayValue} (ha : s.arr A = some a) : Recorded a a.account :=
  ⟨rfl, (h.arr A a ha).1, (h.arr A a ha).2⟩

theorem ledger_arr (s : Device) (A : Nat) : s.ledger.arr A = (s.arr A).map ArrayValue.account := rfl

theorem Device.Sound.change (h : s.Sound) (A : Nat) (op : ConvOp) {f : Account → Upshot Account → Prop}
    (hf : ∀ a, s.arr A = some a → Recorded a a.account → Sharply Recorded (fun env => op.run m env a) (f a.account)) :
    Sharply Device.Entered (fun env => s.change m env A op) (s.ledger.Changes A f) := by
  unfold Ledger.Changes Device.change
  rw [ledger_arr]
  cases ha : s.arr A with
  | none => exact Sharply.of .panic (fun _ => Iff.rfl) fun env => ⟨_, rfl⟩
  | some a => exact (hf a ha (h.recorded ha)).map fun b x hb => ⟨_, rfl, h.hold A hb⟩

/-! ## Actions without arrays -/

/-- The device without its arrays. -/
def Device.bare (s : Device) : Device := { s with arr := fun _ => none }

theorem Device.Sound.tracks (h : s.Sound) : s.bare.Tracks m s.ledger.desk := ⟨rfl, rfl, fun r => ⟨rfl, h.reg r⟩, fun _ => trivial⟩

theorem Device.Sound.desk (h : s.Sound) {t : Device} {τ : Sketch} (ht : t.Tracks m τ) :
    Device.Entered { t with arr := s.arr } (s.ledger.atDesk τ) := by
  constructor
  · show (⟨t.pc, fun r => (t.reg r).shape, _, t.out⟩ : Ledger) = ⟨τ.pc, τ.reg, _, τ.out⟩
    rw [ht.pc, ht.out, show (fun r => (t.reg r).shape) = τ.reg from funext fun r => (ht.reg r).1]
    rfl
  · exact ⟨fun r => (ht.reg r).2, h.arr⟩

theorem Device.Sound.plain (h : s.Sound) (a : Action) (hs : a.Sized)
    (hrun : ∀ env, a.run m env s = a.run m env s.bare >>= fun t => ok { t with arr := s.arr }) :
    Sharply Device.Entered (fun env => a.run m env s) fun e => ∃ u, a.Leads m s.ledger.desk u ∧ e = u.map s.ledger.atDesk := by
  simp only [hrun]
  refine Sharply.map (R := Device.Tracks m) ⟨fun env => h.tracks.step env a hs, fun u hu => h.tracks.step_any a hs hu⟩ fun t τ ht => ?_
  exact ⟨_, rfl, h.desk ht⟩

/-! ## One command -/

theorem Device.Sound.act (h : s.Sound) (a : Action) (hs : (Command.act a).Sized) :
    Sharply Device.Entered (fun env => a.run m env s) fun e => a.Yields m s.ledger e := by
  cases a with
  | value r v => exact h.plain _ hs fun env => rfl
  | un r op a => exact h.plain _ hs fun env => by dsimp only [Action.run]; rw [res_bind_assoc]; rfl
  | bin r op a b => exact h.plain _ hs fun env => by dsimp only [Action.run]; rw [res_bind_assoc]; rfl
  | concat r a b => exact h.plain _ hs fun env => by dsimp only [Action.run]; rw [res_bind_assoc]; rfl
  | cmp r op a b => exact h.plain _ hs fun env => by dsimp only [Action.run]; simp only [res_bind_assoc]; rfl
  | test r op a => exact h.plain _ hs fun env => by dsimp only [Action.run]; simp only [res_bind_assoc]; rfl
  | setU64 r v => exact h.plain _ hs fun env => by dsimp only [Action.run]; rw [res_bind_assoc]; rfl
  | setI64 r v => exact h.plain _ hs fun env => by dsimp only [Action.run]; rw [res_bind_assoc]; rfl
  | parse r radix text target =>
    refine h.plain _ hs fun env => ?_
    dsimp only [Action.run]
    rw [res_bind_assoc]
    refine congrArg (assignFromStrRadix m (s.reg r) text radix >>= ·) (funext fun p => ?_)
    obtain ⟨v, r⟩ := p
    cases r <;> rfl
  | print a => exact h.plain _ hs fun env => by dsimp only [Action.run]; rw [res_bind_assoc]; rfl
  | jump t => exact h.plain _ hs fun env => rfl
  | branch a t => exact h.plain _ hs fun env => by dsimp only [Action.run]; rw [res_bind_assoc]; rfl
  | create A k iw a => exact (recorded_new k hs (h.reg a)).map fun b x hb => ⟨_, rfl, h.hold A hb⟩
  | copy A B =>
    refine Sharply.of _ (fun _ => Iff.rfl) fun env => ?_
    dsimp only [Action.run]
    rw [ledger_arr]
    cases ha : s.arr B with
    | none => exact ⟨_, rfl⟩
    | some a => exact ⟨_, rfl, h.hold A (h.recorded ha)⟩
  | store A i d =>
    refine h.change A _ fun a ha hr => ?_
    have hst := (doc_step (m := m) hr.2.1 hr.2.2 (op := .base (.store (s.reg i) (s.reg d))) ⟨h.reg i, h.reg d⟩ fun h => by cases h).sharply
    refine hst.congr fun u => ⟨?_, ?_⟩
    · rintro ⟨x, hx, rfl⟩
      exact ⟨_, ⟨x, hx, rfl⟩, rfl⟩
    · rintro ⟨_, ⟨x, hx, rfl⟩, rfl⟩
      exact ⟨x, hx, rfl⟩
  | clear A =>
    refine h.change A _ fun a ha hr => ?_
    have hst := (doc_step (m := m) hr.2.1 hr.2.2 (op := .base .clear) trivial fun h => by cases h).sharply
    refine hst.congr fun u => ⟨?_, ?_⟩
    · rintro rfl
      exact ⟨_, rfl, rfl⟩
    · rintro ⟨_, rfl, rfl⟩
      rfl
  | makeDense A => exact h.change A _ fun a ha hr => Sharply.room _ fun hm => (doc_makeDense hr.2.1 hr.2.2 hm).sharply
  | toSparse A => exact h.change A _ fun a ha hr => (doc_toSparse hr.2.1 hr.2.2).sharply
  | select r A i =>
    dsimp only [Action.run, Action.Yields]
    rw [ledger_arr]
    cases ha : s.arr A with
    | none => exact Sharply.of .panic (fun _ => Iff.rfl) fun env => ⟨_, rfl⟩
    | some a =>
      have hr := h.recorded ha
      refine ((doc_select hr.2.1 hr.2.2.array m (s.reg i)).sharply.map (f := fun v => ok (s.write r v)) (g := s.ledger.write r) fun v w hv => ?_).congr
        fun e => ⟨?_, ?_⟩
      · exact ⟨_, rfl, h.write r hv.1 (show v.shape.width < _ by rw [hv.1]; exact hv.2)⟩
      · rintro ⟨v, hv, rfl⟩
        exact ⟨_, ⟨v, hv, rfl⟩, by cases v <;> rfl⟩
      · rintro ⟨_, ⟨v, hv, rfl⟩, rfl⟩
        exact ⟨v, hv, by cases v <;> rfl⟩
  | same r A B =>
    dsimp only [Action.run, Action.Yields]
    rw [ledger_arr, ledger_arr]
    cases ha : s.arr A with
    | none => exact Sharply.of .panic (fun _ => Iff.rfl) fun env => ⟨_, rfl⟩
    | some a =>
      cases hb : s.arr B with
      | none => exact Sharply.of .panic (fun _ => Iff.rfl) fun env => ⟨_, rfl⟩
      | some b =>
        refine (recorded_eq (m := m) (h.recorded ha) (h.recorded hb)).map fun t t' ht => ?_
        subst ht
        cases m <;> cases t <;> exact ⟨_, rfl, h.write r rfl (by decide)⟩

theorem Device.Sound.step (h : s.Sound) (c : Command) (hs : c.Sized) :
    Sharply Device.Entered (fun env => c.run m env s) fun e => c.Leads m s.ledger e := by
  cases c with
  | act a => exact h.act a hs
  | load A doc target =>
    have hl := loadArray_loading doc
    have go : ∀ env, loadArray m env doc = ok (readArray doc) →
        Sharply Device.Entered (fun _ => (Command.load A doc target).run m env s) (fun e => match readArray doc with
          | some a => (¬ a.account.InMemory ∧ e = .outside) ∨ (a.account.InMemory ∧ e = .value (s.ledger.hold A a.account))
          | none => e = .value { s.ledger with pc := target }) := by
      intro env he
      dsimp only [Command.run]
      rw [he, ok_bind]
      cases hd : readArray doc with
      | none => exact Sharply.of _ (fun _ => Iff.rfl) fun env => ⟨_, rfl, h.goto target⟩
      | some a =>
        refine Sharply.room (L := fun u => u = _) _ fun hm => Sharply.of _ (fun _ => Iff.rfl) fun env => ⟨_, rfl, h.hold A ?_⟩
        exact ⟨rfl, (C85_accepts a).mp ⟨doc, hd⟩, hm⟩
    constructor
    · intro env
      rcases hl.sound m env with he | ⟨hm, hd, hp⟩
      · obtain ⟨u, hu1, hu2⟩ := (go env he).sound env
        exact ⟨u, .inr hu1, hu2⟩
      · exact ⟨.panic, .inl ⟨hm, hd, rfl⟩, panics_bind hp _⟩
    · rintro u (⟨rfl, hd, rfl⟩ | hu)
      · exact ⟨_, panics_bind (hl.crowded hd) _⟩
      · obtain ⟨_, hu2⟩ := (go listEnv (hl.calm m)).exact u hu
        exact ⟨listEnv, hu2⟩
  | read r doc target =>
    dsimp only [Command.run, Command.Leads]
    cases hd : readBitVec doc with
    | none => exact Sharply.of _ (fun _ => Iff.rfl) fun env => ⟨_, rfl, h.goto target⟩
    | some v => exact Sharply.of _ (fun _ => Iff.rfl) fun env => ⟨_, rfl, h.write r rfl ((C84_accepts v).mp ⟨doc, hd⟩)⟩
  | resend A B target =>
    dsimp only [Command.run, Command.Leads]
    rw [ledger_arr]
    cases hb : s.arr B with
    | none => exact Sharply.of .panic (fun _ => Iff.rfl) fun env => ⟨_, rfl⟩
    | some b =>
      have hr := h.recorded hb
      have back : ∀ env, loadArray m env (ofArray env b) = ok (readArray (ofArray env b)) → Upshot.Shows Device.Entered
          (loadArray m env (ofArray env b) >>= fun r => match r with
            | some a => ok (s.hold A a)
            | none => ok { s with pc := target }) (.value (s.ledger.hold A b.account)) := by
        intro env he
        obtain ⟨a, h1, h2, h3⟩ := recorded_resent env hr.2.1
        rw [he, ok_bind, h1]
        exact ⟨_, rfl, h.hold A ⟨h2, h3, hr.2.2⟩⟩
      have disc : ∀ env, Discordant (indicesEntered (ofArray env b)) ↔ b.account.Discordant := by
        intro env
        obtain ⟨a, h1, h2, -⟩ := recorded_resent env hr.2.1
        rw [← h2]
        exact indices_discordant h1
      constructor
      · intro env
        rcases (loadArray_loading (ofArray env b)).sound m env with he | ⟨hm, hd, hp⟩
        · exact ⟨_, .inl rfl, back env he⟩
        · exact ⟨.panic, .inr ⟨hm, (disc env).mp hd, rfl⟩, panics_bind hp _⟩
      · rintro u (rfl | ⟨rfl, hd, rfl⟩)
        · exact ⟨listEnv, back listEnv ((loadArray_loading _).calm m)⟩
        · exact ⟨crowdedEnv 0, panics_bind ((loadArray_loading _).crowded ((disc _).mpr hd)) _⟩
  | reread r a target =>
    refine Sharply.of _ (fun _ => Iff.rfl) fun env => ?_
    dsimp only [Command.run]
    rw [readBitVec_ofBitVec _ (h.reg a)]
    exact ⟨_, rfl, h.write r rfl (h.reg a)⟩
  | standard r A target =>
    dsimp only [Command.run, Command.Leads]
    rw [ledger_arr]
    cases ha : s.arr A with
    | none => exact Sharply.of .panic (fun _ => Iff.rfl) fun env => ⟨_, rfl⟩
    | some a =>
      have hr := h.recorded ha
      simp only [Option.map_some, dense_iff]
      cases a with
      | dense d => exact Sharply.of (.value { s.ledger with pc := target }) (fun u => by simp [ArrayValue.isDense]) fun env => ⟨_, rfl, h.goto target⟩
      | sparse a =>
        refine Sharply.of (.of (((ArrayValue.sparse a).account.standard m).map (s.ledger.write r))) (fun u => by simp [ArrayValue.isDense]) fun env => ?_
        refine shows_of_fate ((standard_fate hr.2.1 m).map fun v w hv => ?_)
        exact ⟨_, rfl, h.write r hv.1 (show v.shape.width < _ by rw [hv.1]; exact hv.2)⟩
  | list A target =>
    dsimp only [Command.run, Command.Leads]
    rw [ledger_arr]
    cases ha : s.arr A with
    | none => exact Sharply.of .panic (fun _ => Iff.rfl) fun env => ⟨_, rfl⟩
    | some a =>
      have hr := h.recorded ha
      simp only [Option.map_some, dense_iff]
      cases a with
      | dense d => exact Sharply.of (.value { s.ledger with pc := target }) (fun u => by simp [ArrayValue.isDense]) fun env => ⟨_, rfl, h.goto target⟩
      | sparse a =>
        have hl := doc_shows hr.2.1 m
        have key : ∀ env r, Fate (fun es ss => es.map pairShape = ss) (a.nonDefaultEntries m env) r →
            (Upshot.of ((r.bind entryTexts).map fun l => { s.ledger with pc := s.ledger.pc + 1, out := s.ledger.out ++ l })).Shows Device.Entered
              (a.nonDefaultEntries m env >>= fun es => printEntries es >>= fun l => ok { s with pc := s.pc + 1, out := s.out ++ l }) := by
          intro env r hr
          refine shows_of_fate ?_
          cases r with
          | none => exact panics_bind hr _
          | some ss =>
            obtain ⟨es, h1, rfl⟩ := hr
            rw [h1, ok_bind, Option.bind_some]
            refine (printEntries_fate es).map fun l l' hl => ?_
            subst hl
            exact ⟨_, rfl, rfl, h.reg, h.arr⟩
        constructor
        · intro env
          obtain ⟨r, h1, h2⟩ := hl.sound env
          exact ⟨_, .inr ⟨by simp [ArrayValue.isDense], r, h1, rfl⟩, key env r h2⟩
        · rintro e (⟨h1, -⟩ | ⟨-, r, h1, rfl⟩)
          · cases h1
          · obtain ⟨env, h2⟩ := hl.exact r h1
            exact ⟨env, key env r h2⟩

/-! ## Programs -/

theorem Device.Sound.runs (prog : List Command) (hp : ∀ c ∈ prog, c.Sized) (env : Nat → HashEnv) (n : Nat) (h : s.Sound) :
    ∃ e, s.ledger.Runs m prog n e ∧ e.Shows Device.Entered (s.obey m env prog n) := by
  induction n generalizing s with
  | zero => exact ⟨_, rfl, s, rfl, rfl, h⟩
  | succ n ih =>
    unfold Ledger.Runs Device.obey
    rw [show s.ledger.pc = s.pc from rfl]
    cases hc : prog[s.pc]? with
    | none => exact ⟨_, rfl, s, rfl, rfl, h⟩
    | some c =>
      dsimp only
      obtain ⟨mid, h1, h2⟩ := (h.step (m := m) c (hp c (List.mem_of_getElem? hc))).sound (env n)
      cases mid with
      | panic => exact ⟨.panic, ⟨_, h1, rfl⟩, panics_bind h2 _⟩
      | outside => exact ⟨.outside, ⟨_, h1, rfl⟩, trivial⟩
      | value σ' =>
        obtain ⟨s', hs1, rfl, hs2⟩ := h2
        obtain ⟨e, he1, he2⟩ := ih hs2
        refine ⟨e, ⟨_, h1, he1⟩, ?_⟩
        rw [hs1, ok_bind]
        exact he2

/-- Later behaviours of hash tables do not matter. -/
theorem Device.obey_congr {env env' : Nat → HashEnv} (prog : List Command) (n : Nat) (h : ∀ k, k < n → env k = env' k) (s : Device) :
    s.obey m env prog n = s.obey m env' prog n := by
  induction n generalizing s with
  | zero => rfl
  | succ n ih =>
    unfold Device.obey
    cases prog[s.pc]? with
    | none => rfl
    | some c =>
      dsimp only
      rw [h n (by omega)]
      congr 1
      funext s'
      exact ih (fun k hk => h k (by omega)) s'

theorem Device.Sound.runs_any (prog : List Command) (hp : ∀ c ∈ prog, c.Sized) (n : Nat) (h : s.Sound) {e : Upshot Ledger}
    (he : s.ledger.Runs m prog n e) : ∃ env : Nat → HashEnv, e.Shows Device.Entered (s.obey m env prog n) := by
  induction n generalizing s with
  | zero =>
    rw [show e = .value s.ledger from he]
    exact ⟨fun _ => listEnv, s, rfl, rfl, h⟩
  | succ n ih =>
    unfold Ledger.Runs at he
    unfold Device.obey
    rw [show s.ledger.pc = s.pc from rfl] at he
    cases hc : prog[s.pc]? with
    | none =>
      rw [hc] at he
      rw [show e = .value s.ledger from he]
      exact ⟨fun _ => listEnv, s, rfl, rfl, h⟩
    | some c =>
      rw [hc] at he
      obtain ⟨mid, h1, h2⟩ := he
      obtain ⟨env₀, h3⟩ := (h.step (m := m) c (hp c (List.mem_of_getElem? hc))).exact _ h1
      dsimp only
      cases mid with
      | panic =>
        rw [show e = .panic from h2]
        exact ⟨fun _ => env₀, panics_bind h3 _⟩
      | outside =>
        rw [show e = .outside from h2]
        exact ⟨fun _ => env₀, trivial⟩
      | value σ' =>
        obtain ⟨s', hs1, rfl, hs2⟩ := h3
        obtain ⟨env, he⟩ := ih hs2 h2
        refine ⟨fun k => if k = n then env₀ else env k, ?_⟩
        dsimp only
        rw [if_pos rfl, hs1, ok_bind, Device.obey_congr (env' := env) prog n fun k hk => if_neg (by omega)]
        exact he

theorem Device.Ready.sound (h : s.Ready) : s.Sound := ⟨h.reg, fun A a ha => ⟨(C85_accepts a).mp (h.arr A a ha).1, (h.arr A a ha).2⟩⟩

theorem Device.Sound.ready (h : s.Sound) : s.Ready := ⟨h.reg, fun A a ha => ⟨(C85_accepts a).mpr (h.arr A a ha).1, (h.arr A a ha).2⟩⟩

theorem reports_of_shows {x : Res Device} {e : Upshot Ledger} (h : e.Shows Device.Entered x) : e.Reports x := by
  cases e with
  | value σ =>
    obtain ⟨s, h1, h2, -⟩ := h
    exact ⟨s, h1, h2⟩
  | panic => exact h
  | outside => trivial

/-- **C119** Any program, on registers with any values and arrays from any documents: what happens is something that the specification allows. It
panics if the specification says so, and otherwise output, program counter, registers and arrays are what the specification says. -/
theorem C119_program (m : Mode) (env : Nat → HashEnv) (prog : List Command) (hp : ∀ c ∈ prog, c.Sized) (n : Nat) (s : Device) (hs : s.Ready) :
    ∃ e, s.ledger.Runs m prog n e ∧ e.Reports (s.obey m env prog n) := by
  obtain ⟨e, h1, h2⟩ := hs.sound.runs prog hp env n
  exact ⟨e, h1, reports_of_shows h2⟩

/-- **C119** (exactness): every outcome that the specification leaves open occurs. -/
theorem C119_exact (m : Mode) (prog : List Command) (hp : ∀ c ∈ prog, c.Sized) (n : Nat) (s : Device) (hs : s.Ready) {e : Upshot Ledger}
    (he : s.ledger.Runs m prog n e) : ∃ env : Nat → HashEnv, e.Reports (s.obey m env prog n) := by
  obtain ⟨env, h⟩ := hs.sound.runs_any prog hp n he
  exact ⟨env, reports_of_shows h⟩

/-- **C119** (panics): a program whose dense arrays fit into the address space can panic exactly if the specification says so. -/
theorem C119_panics (m : Mode) (prog : List Command) (hp : ∀ c ∈ prog, c.Sized) (n : Nat) (s : Device) (hs : s.Ready)
    (hfit : ¬ s.ledger.Runs m prog n .outside) :
    (∃ env : Nat → HashEnv, Panics (s.obey m env prog n)) ↔ s.ledger.Runs m prog n .panic := by
  refine ⟨fun ⟨env, h⟩ => ?_, fun h => C119_exact m prog hp n s hs h⟩
  obtain ⟨e, h1, h2⟩ := C119_program m env prog hp n s hs
  cases e with
  | panic => exact h1
  | outside => exact absurd h1 hfit
  | value σ =>
    obtain ⟨s', h3, -⟩ := h2
    exact absurd h3 fun h3 => not_panics h h3

/-- **C119** (states): such a program can reach exactly the states that the specification says. A device that was reached can be started again. -/
theorem C119_states (m : Mode) (prog : List Command) (hp : ∀ c ∈ prog, c.Sized) (n : Nat) (s : Device) (hs : s.Ready)
    (hfit : ¬ s.ledger.Runs m prog n .outside) (σ : Ledger) :
    (∃ (env : Nat → HashEnv) (s' : Device), s.obey m env prog n = ok s' ∧ s'.Ready ∧ s'.ledger = σ) ↔ s.ledger.Runs m prog n (.value σ) := by
  constructor
  · rintro ⟨env, s', h1, -, rfl⟩
    obtain ⟨e, h3, h4⟩ := hs.sound.runs (m := m) prog hp env n
    cases e with
    | panic => exact absurd h1 fun h1 => not_panics h4 h1
    | outside => exact absurd h3 hfit
    | value σ =>
      obtain ⟨s'', h5, rfl, -⟩ := h4
      cases h1.symm.trans h5
      exact h3
  · intro h
    obtain ⟨env, s', h1, h2, h3⟩ := hs.sound.runs_any prog hp n h
    exact ⟨env, s', h1, h3.ready, h2⟩

/-! ## Builds -/

theorem loadArray_le (env : HashEnv) (d : Serde) : Le (loadArray .debug env d) (loadArray .release env d) := by
  refine ⟨fun r hr => ?_⟩
  rw [(C129_exact .debug d).2.2 env r hr]
  exact C129_loading_partial .release env d fun h => nomatch h

theorem Command_run_le (env : HashEnv) (s : Device) (c : Command) : Le (c.run .debug env s) (c.run .release env s) := by
  cases c with
  | act a => exact Action_run_le env s a
  | load A doc target => exact (loadArray_le env doc).bind fun _ => Le.refl _
  | read r doc target => exact Le.refl _
  | resend A B target => exact Le.bind (Le.refl _) fun b => (loadArray_le env _).bind fun _ => Le.refl _
  | reread r a target => exact Le.refl _
  | standard r A target => dsimp only [Command.run]; le_auto
  | list A target => dsimp only [Command.run]; le_auto

/-- **C119** (builds): a program that runs without a panic in a debug build does exactly the same in a release build. -/
theorem C119_builds (env : Nat → HashEnv) (prog : List Command) (n : Nat) (s s' : Device) (h : s.obey .debug env prog n = ok s') :
    s.obey .release env prog n = ok s' := by
  have key : ∀ s : Device, Le (s.obey .debug env prog n) (s.obey .release env prog n) := by
    clear h
    induction n with
    | zero => exact fun s => Le.refl _
    | succ n ih =>
      intro s
      unfold Device.obey
      cases prog[s.pc]? with
      | none => exact Le.refl _
      | some c => exact (Command_run_le _ s c).bind ih
  exact (key s).of_ok s' h

/-! ## A concrete case -/

/-- A sparse array with two index bits and two entries, one of them for the index 5. -/
def strayDoc : Serde := givenSparse 2 4 (.variant "U64U64" (.seq [.num 7, .map [(.num 5, .num 3), (.num 2, .num 1)]]))

/-- A program that reads this array, lists it, writes and reads it, compares the two, makes one of them dense and prints the answer. A document that
is not accepted ends it. -/
def strayProgram : List Command :=
  [.load 0 strayDoc 9, .read 0 (.num 5) 2, .list 0 9, .resend 1 0 9, .act (.same 1 0 1), .act (.print 1), .act (.makeDense 1)]

def strayStart : Device := ⟨0, fun _ => encode 0#1, fun _ => none, []⟩

example : strayStart.Ready := ⟨fun _ => by show 1 < 2 ^ 32; decide, fun A a h => by cases h⟩

example : ∀ c ∈ strayProgram, c.Sized := by
  intro c h
  simp only [strayProgram, List.mem_cons, List.not_mem_nil, or_false] at h
  rcases h with rfl | rfl | rfl | rfl | rfl | rfl | rfl <;> trivial

/-- No dense array is created before the last command. -/
example : ¬ strayStart.ledger.Runs .release strayProgram 3 .outside := by
  rintro ⟨_, ⟨hm, -⟩ | ⟨hm, -⟩ | ⟨-, rfl⟩, h⟩
  · cases hm
  · exact hm trivial
  · obtain ⟨_, rfl, _, ⟨h, -⟩ | ⟨-, r, -, rfl⟩, h'⟩ := h
    · exact h
    · cases hr : r.bind entryTexts with
      | none =>
        rw [hr] at h'
        cases h'
      | some l =>
        rw [hr] at h'
        cases h'

/-- The output after six commands, in two environments. The index 5 is cut to two bits. A debug build panics instead, and so does a release build
at the seventh command. -/
example : (match Device.obey .release (fun _ => listEnv) strayProgram 6 strayStart with
    | .ok s => some s.out
    | .panic _ => none) = some [[ch '1', ch '0'], [ch '0', ch '0', ch '0', ch '1'], [ch '0', ch '1'], [ch '0', ch '0', ch '1', ch '1'], [ch '1']] := by
  decide +kernel
example : (match Device.obey .release (fun _ => reverseEnv) strayProgram 6 strayStart with
    | .ok s => some s.out
    | .panic _ => none) = some [[ch '0', ch '1'], [ch '0', ch '0', ch '1', ch '1'], [ch '1', ch '0'], [ch '0', ch '0', ch '0', ch '1'], [ch '1']] := by
  decide +kernel
example : (match Device.obey .debug (fun _ => listEnv) strayProgram 6 strayStart with
    | .ok _ => none
    | .panic p => some p) ≠ none := by
  decide +kernel
example : (match Device.obey .release (fun _ => listEnv) strayProgram 7 strayStart with
    | .ok _ => none
    | .panic p => some p) = some .bounds := by
  decide +kernel

/-- Reading a document with discordant indices, and sending the array once more: three outcomes in a debug build. -/
example : (match Device.obey .debug (fun _ => listEnv) [.load 0 discordDoc 9, .resend 1 0 9] 2 strayStart with
    | .ok s => some s.pc
    | .panic _ => none) = some 2 := by
  decide +kernel
example : (match Device.obey .debug (fun n => if n = 0 then crowdedEnv 0 else listEnv) [.load 0 discordDoc 9, .resend 1 0 9] 1 strayStart with
    | .ok _ => none
    | .panic p => some p) = some .debugAssert := by
  decide +kernel
example : (match Device.obey .debug (fun n => if n = 0 then crowdedEnv 0 else listEnv) [.load 0 discordDoc 9, .resend 1 0 9] 2 strayStart with
    | .ok _ => none
    | .panic p => some p) = some .debugAssert := by
  decide +kernel

end Baa

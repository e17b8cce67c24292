import Verif.Props.DocumentsSparse

/-!
# C118: conversions of arrays from documents are predictable: histories and comparisons
-/

namespace Baa
open Res BitVecValue Serde

variable {m : Mode}

/-! ## Histories -/

theorem Account.InMemory.follows {x y : Account} (h : x.InMemory) {op : RawOp} (hf : x.Follows m op (some y)) : y.InMemory := by
  obtain ⟨iw, dw, hoard⟩ := x
  cases op with
  | clear =>
    replace hf : some y = some _ := hf
    cases hf
    cases hoard with
    | dense l span mem => cases l <;> exact h
    | _ => trivial
  | store i d =>
    obtain ⟨o, ho, hy⟩ := hf
    cases o with
    | none => cases hy
    | some o =>
      cases hy
      cases hoard with
      | dense l span mem =>
        replace ho := Eq.symm ho
        obtain ⟨I, -, ho⟩ := Option.bind_eq_some_iff.mp ho
        obtain ⟨n, -, ho⟩ := Option.bind_eq_some_iff.mp ho
        split at ho
        · cases ho
        · obtain ⟨cell, -, rfl⟩ := Option.map_eq_some_iff.mp ho
          cases l <;> exact h
      | narrow t =>
        replace ho := Eq.symm ho
        obtain ⟨I, -, ho⟩ := Option.bind_eq_some_iff.mp ho
        split at ho
        · cases ho
        · cases ho; trivial
      | broad t =>
        replace ho := Eq.symm ho
        dsimp only at ho
        split at ho
        · cases ho
        · obtain ⟨I, -, rfl⟩ := Option.map_eq_some_iff.mp ho
          trivial
      | long t =>
        rcases ho with ⟨-, ho⟩ | ⟨-, -, ho⟩
        · cases ho
        · split at ho
          · rcases ho with ⟨-, ho⟩ | ⟨-, ho⟩ <;> cases ho
            trivial
          · rcases ho with ⟨-, ho⟩ | ho <;> cases ho
            trivial

theorem doc_step {a : ArrayValue} (ha : Acceptable a) (hm : a.account.InMemory) {op : ConvOp} (ho : op.Typed)
    (hr : op = .makeDense → a.account.Roomy m) : Exactly Known118 (fun env => op.run m env a) (a.account.Steps m op) := by
  cases op with
  | base op =>
    have h := doc_op ha hm.array m (op := op) ho
    have key : ∀ env r, a.account.Follows m op r → Fate Known117 (op.run m env a) r → Fate Known118 (op.run m env a) r := by
      intro env r hf hr
      cases r with
      | none => exact hr
      | some y =>
        obtain ⟨b, h1, h2, h3, -⟩ := hr
        exact ⟨b, h1, h2, h3, hm.follows hf⟩
    exact ⟨fun env => (h.sound env).imp fun r hr => ⟨hr.1, key env r hr.1 hr.2⟩, fun r hr => (h.exact r hr).imp fun env he => key env r hr he⟩
  | makeDense => exact doc_makeDense ha hm (hr rfl)
  | toSparse => exact doc_toSparse ha hm

theorem doc_travels (m : Mode) {ops : List ConvOp} : ∀ {a : ArrayValue}, Acceptable a → a.account.InMemory → (∀ op ∈ ops, op.Typed) →
    a.account.RoomyAlong m ops →
    (∀ env, ∃ r, a.account.Travels m ops r ∧ Fate Known118 (runConvEach m env a ops) r) ∧
    (∀ r, a.account.Travels m ops r → ∃ env, Fate Known118 (runConvEach m env a ops) r) := by
  induction ops with
  | nil =>
    intro a ha hm _ _
    refine ⟨fun env => ⟨_, rfl, a, rfl, rfl, ha, hm⟩, ?_⟩
    rintro _ rfl
    exact ⟨fun _ => listEnv, a, rfl, rfl, ha, hm⟩
  | cons op ops ih =>
    intro a ha hm ho hr
    have h := doc_step ha hm (ho op List.mem_cons_self) hr.1
    replace ih := fun {b} (h1 : Acceptable b) h2 => ih h1 h2 fun op hop => ho op (List.mem_cons_of_mem _ hop)
    constructor
    · intro env
      obtain ⟨mid, hm1, hm2⟩ := h.sound (env ops.length)
      cases mid with
      | none => exact ⟨none, ⟨none, hm1, rfl⟩, panics_bind hm2 _⟩
      | some y =>
        obtain ⟨b, hb1, rfl, hb2, hb3⟩ := hm2
        obtain ⟨r, hr1, hr2⟩ := (ih hb2 hb3 (hr.2 _ hm1)).1 env
        refine ⟨r, ⟨some _, hm1, hr1⟩, ?_⟩
        unfold runConvEach
        rw [hb1, ok_bind]
        exact hr2
    · rintro r ⟨mid, hm1, hr'⟩
      obtain ⟨e, he⟩ := h.exact mid hm1
      cases mid with
      | none =>
        replace hr' : r = none := hr'
        subst hr'
        exact ⟨fun _ => e, panics_bind he _⟩
      | some y =>
        obtain ⟨b, hb1, rfl, hb2, hb3⟩ := he
        obtain ⟨env, henv⟩ := (ih hb2 hb3 (hr.2 _ hm1)).2 r hr'
        refine ⟨fun n => if n = ops.length then e else env n, ?_⟩
        unfold runConvEach
        rw [if_pos rfl, hb1, ok_bind]
        have : ∀ (l : List ConvOp) (c : ArrayValue), l.length ≤ ops.length →
            runConvEach m (fun n => if n = ops.length then e else env n) c l = runConvEach m env c l := by
          intro l
          induction l with
          | nil => intro c _; rfl
          | cons o l ihl =>
            intro c hl
            have hl' : l.length + 1 ≤ ops.length := hl
            unfold runConvEach
            rw [if_neg (by omega)]
            congr 1
            funext c
            exact ihl c (by omega)
        rw [this ops b (Nat.le_refl _)]
        exact henv

/-! ## Room -/

theorem Account.Plain.roomy {x : Account} (h : x.Plain) (m : Mode) : x.Roomy m := by
  obtain ⟨iw, dw, hoard⟩ := x
  obtain ⟨-, h2, h3⟩ := h
  intro d n hd hn hw
  cases hoard with
  | dense l span mem => cases hd
  | narrow t =>
    have : d.width = dw := by
      replace hd : numberAs m dw t.default = some d := hd
      unfold numberAs at hd
      split at hd
      · cases hd
      · split at hd
        · cases hd; rfl
        · split at hd
          · cases hd
          · cases hd; rfl
    dsimp only at h2
    omega
  | broad t => exact h3.elim
  | long t => exact h3.elim

theorem Account.Plain.steps {x y : Account} (h : x.Plain) {op : ConvOp} (hs : x.Steps m op (some y)) : y.Plain := by
  obtain ⟨iw, dw, hoard⟩ := x
  obtain ⟨h1, h2, h3⟩ := h
  dsimp only at h1 h2 h3
  have hnum : ∀ {c : Nat} {d : Shape}, numberAs m dw c = some d → d.width = dw := by
    intro c d hd
    unfold numberAs at hd
    split at hd
    · cases hd
    · split at hd
      · cases hd; rfl
      · split at hd
        · cases hd
        · cases hd; rfl
  cases op with
  | base op =>
    cases op with
    | clear =>
      cases show some y = some _ from hs
      cases hoard with
      | dense l span mem => exact ⟨h1, h2, trivial⟩
      | narrow t => exact ⟨h1, h2, trivial⟩
      | broad t => exact h3.elim
      | long t => exact h3.elim
    | store i d =>
      obtain ⟨o, ho, hy⟩ := hs
      cases o with
      | none => cases hy
      | some o =>
        cases hy
        cases hoard with
        | dense l span mem =>
          replace ho := Eq.symm ho
          obtain ⟨I, -, ho⟩ := Option.bind_eq_some_iff.mp ho
          obtain ⟨n, -, ho⟩ := Option.bind_eq_some_iff.mp ho
          split at ho
          · cases ho
          · obtain ⟨cell, -, rfl⟩ := Option.map_eq_some_iff.mp ho
            exact ⟨h1, h2, trivial⟩
        | narrow t =>
          replace ho := Eq.symm ho
          obtain ⟨I, -, ho⟩ := Option.bind_eq_some_iff.mp ho
          split at ho
          · cases ho
          · cases ho
            exact ⟨h1, h2, trivial⟩
        | broad t => exact h3.elim
        | long t => exact h3.elim
  | makeDense =>
    cases hoard with
    | dense l span mem =>
      cases show some y = some _ from hs
      exact ⟨h1, h2, trivial⟩
    | narrow t =>
      obtain ⟨L, -, hL⟩ := hs
      obtain ⟨d, hd, hL⟩ := Option.bind_eq_some_iff.mp hL.symm
      obtain ⟨n, -, hL⟩ := Option.bind_eq_some_iff.mp hL
      obtain ⟨mem, -, hL⟩ := Option.bind_eq_some_iff.mp hL
      split at hL
      · cases hL
      · obtain ⟨mem', -, rfl⟩ := Option.map_eq_some_iff.mp hL
        refine ⟨h1, ?_, trivial⟩
        dsimp only
        rw [hnum (c := t.default) hd]
        exact h2
    | broad t => exact h3.elim
    | long t => exact h3.elim
  | toSparse =>
    cases hoard with
    | dense l span mem =>
      rcases hs with ⟨hr, -⟩ | ⟨n, c, -, -, -, hr⟩
      · cases hr
      · obtain ⟨d, hd, hr⟩ := Option.bind_eq_some_iff.mp hr.symm
        obtain ⟨h, hg, rfl⟩ := Option.map_eq_some_iff.mp hr
        have hdw : d.width ≤ 64 := by
          cases l with
          | bits => cases show some _ = some d from hd; (show 1 ≤ 64; decide)
          | bytes => rw [hnum (c := c) hd]; exact h2
          | words => rw [hnum (c := c) hd]; exact h2
          | wide => cases show some _ = some d from hd; exact h2
        refine ⟨h1, hdw, ?_⟩
        unfold gathered at hg
        dsimp only at hg
        rw [if_neg (by omega), if_neg (by omega)] at hg
        cases hg
        trivial
    | narrow t =>
      cases show some y = some _ from hs
      exact ⟨h1, h2, trivial⟩
    | broad t => exact h3.elim
    | long t => exact h3.elim

/-! ## Comparing a sparse array with a dense one -/

theorem mixed_same (m : Mode) (env : HashEnv) {s : SparseArrayValue} {d : DenseArrayValue} (h1 : s.indexWidth = d.indexWidth) (h2 : s.dataWidth = d.dataWidth) :
    ArrayValue.eq m env (.sparse s) (.dense d) = ((ArrayValue.sparse s).makeDense m env >>= fun b => ArrayValue.eq m env b (.dense d)) := by
  show (isEqualMixed m env d s >>= _) = _
  unfold isEqualMixed
  rw [if_neg (by rw [h1, h2]; simp)]
  unfold ArrayValue.makeDense
  dsimp only
  rw [res_bind_assoc, res_bind_assoc]
  rfl

theorem makeDense_isDense {a b : ArrayValue} {env : HashEnv} (h : a.makeDense m env = ok b) : ∃ d, b = .dense d := by
  cases a with
  | dense d => cases h; exact ⟨d, rfl⟩
  | sparse s =>
    obtain ⟨d, -, hd⟩ := of_bind_ok h
    cases hd
    exact ⟨d, rfl⟩

theorem doc_mixed (m : Mode) {s : SparseArrayValue} {d : DenseArrayValue} (hs : Acceptable (.sparse s)) (hd : Acceptable (.dense d))
    (hr : (ArrayValue.sparse s).account.Roomy m) :
    Exactly Eq (fun env => ArrayValue.eq m env (.sparse s) (.dense d)) ((ArrayValue.sparse s).account.ComparesMixed m (ArrayValue.dense d).account) := by
  have hms : (ArrayValue.sparse s).account.InMemory := by
    obtain ⟨iw, dw, data⟩ := s
    cases data <;> exact trivial
  by_cases hw : s.indexWidth = d.indexWidth ∧ s.dataWidth = d.dataWidth
  · have h := doc_makeDense (m := m) hs hms hr
    have hw' : (ArrayValue.sparse s).account.iw = (ArrayValue.dense d).account.iw ∧ (ArrayValue.sparse s).account.dw = (ArrayValue.dense d).account.dw := hw
    unfold Account.ComparesMixed
    simp only [if_pos hw']
    constructor
    · intro env
      obtain ⟨z, hz1, hz2⟩ := h.sound env
      rw [mixed_same m env hw.1 hw.2]
      cases z with
      | none => exact ⟨none, ⟨none, hz1, rfl⟩, panics_bind hz2 _⟩
      | some z =>
        obtain ⟨b, hb1, rfl, hb2, -⟩ := hz2
        obtain ⟨d', rfl⟩ := makeDense_isDense hb1
        obtain ⟨r, hr1, hr2⟩ := (doc_eq m hb2 hd rfl).sound env
        rw [hb1, ok_bind]
        exact ⟨r, ⟨_, hz1, hr1⟩, hr2⟩
    · rintro r ⟨z, hz1, hr⟩
      obtain ⟨env, hz2⟩ := h.exact z hz1
      refine ⟨env, ?_⟩
      rw [mixed_same m env hw.1 hw.2]
      cases z with
      | none =>
        replace hr : r = none := hr
        subst hr
        exact panics_bind hz2 _
      | some z =>
        obtain ⟨b, hb1, rfl, hb2, -⟩ := hz2
        obtain ⟨d', rfl⟩ := makeDense_isDense hb1
        obtain ⟨env', he⟩ := (doc_eq m hb2 hd rfl).exact r hr
        rw [hb1, ok_bind]
        exact he
  · have hw' : ¬ ((ArrayValue.sparse s).account.iw = (ArrayValue.dense d).account.iw ∧ (ArrayValue.sparse s).account.dw = (ArrayValue.dense d).account.dw) := hw
    refine Exactly.of (some false) (fun r => ?_) fun env => ⟨false, ?_, rfl⟩
    · unfold Account.ComparesMixed
      rw [if_neg hw']
    · show (isEqualMixed m env d s >>= _) = _
      unfold isEqualMixed
      rw [if_pos]
      · rfl
      · apply Classical.byContradiction
        intro hn
        exact hw ⟨(Classical.byContradiction fun h => hn (.inl fun e => h e.symm)), (Classical.byContradiction fun h => hn (.inr fun e => h e.symm))⟩

/-! ## Theorems -/

theorem Known118.describes {x : Res ArrayValue} {r : Option Account} (h : Fate Known118 x r) : Account.Describes x r := by
  cases r with
  | none => exact h
  | some y =>
    obtain ⟨b, h1, h2, -⟩ := h
    exact ⟨b, h1, h2⟩

/-- **C118** (dense): making an array dense that some document is read as ends as predicted, and all predictions can happen. -/
theorem C118_make_dense (m : Mode) {doc : Serde} {a : ArrayValue} (hd : readArray doc = some a) (hm : a.account.InMemory) (hr : a.account.Roomy m) :
    (∀ env, ∃ r, a.account.MakesDense m r ∧ Account.Describes (a.makeDense m env) r) ∧
    (∀ r, a.account.MakesDense m r → ∃ env, Account.Describes (a.makeDense m env) r) := by
  have h := doc_makeDense (m := m) ((C85_accepts a).mp ⟨doc, hd⟩) hm hr
  exact ⟨fun env => (h.sound env).imp fun r hr => ⟨hr.1, Known118.describes hr.2⟩, fun r hr => (h.exact r hr).imp fun env hr => Known118.describes hr⟩

/-- **C118** (sparse): converting an array that some document is read as to a sparse array ends as predicted, and all predictions can happen. -/
theorem C118_to_sparse (m : Mode) {doc : Serde} {a : ArrayValue} (hd : readArray doc = some a) (hm : a.account.InMemory) :
    (∀ env, ∃ r, a.account.MakesSparse m r ∧ Account.Describes (do let s ← a.toSparse m env; ok (.sparse s)) r) ∧
    (∀ r, a.account.MakesSparse m r → ∃ env, Account.Describes (do let s ← a.toSparse m env; ok (.sparse s)) r) := by
  have h := doc_toSparse (m := m) ((C85_accepts a).mp ⟨doc, hd⟩) hm
  exact ⟨fun env => (h.sound env).imp fun r hr => ⟨hr.1, Known118.describes hr.2⟩, fun r hr => (h.exact r hr).imp fun env hr => Known118.describes hr⟩

/-- **C118** (histories): every history of stores, clears and conversions of an array that some document is read as ends as predicted, and all
predictions can happen. The result can again be read from a document. -/
theorem C118_history (m : Mode) {doc : Serde} {a : ArrayValue} (hd : readArray doc = some a) (hm : a.account.InMemory) {ops : List ConvOp}
    (ho : ∀ op ∈ ops, op.Typed) (hr : a.account.RoomyAlong m ops) :
    (∀ env, ∃ r, a.account.Travels m ops r ∧ Account.Describes (runConvEach m env a ops) r) ∧
    (∀ r, a.account.Travels m ops r → ∃ env, Account.Describes (runConvEach m env a ops) r) ∧
    (∀ env b, runConvEach m env a ops = ok b → (∃ doc', readArray doc' = some b) ∧ b.account.InMemory) := by
  have h := doc_travels m (ops := ops) ((C85_accepts a).mp ⟨doc, hd⟩) hm ho hr
  refine ⟨fun env => (h.1 env).imp fun r hr => ⟨hr.1, Known118.describes hr.2⟩, fun r hr => (h.2 r hr).imp fun env hr => Known118.describes hr,
    fun env b hb => ?_⟩
  obtain ⟨r, -, hr⟩ := h.1 env
  rw [hb] at hr
  cases r with
  | none =>
    obtain ⟨p, hp⟩ := hr
    cases hp
  | some y =>
    obtain ⟨c, hc, rfl, h2, h3⟩ := hr
    cases hc
    exact ⟨(C85_accepts b).mpr h2, h3⟩

/-- **C118** (room): for indices and data of at most 64 bits in dense storage or a table of numbers, no history runs out of room. -/
theorem C118_room (m : Mode) (ops : List ConvOp) {x : Account} (h : x.Plain) : x.RoomyAlong m ops := by
  induction ops generalizing x with
  | nil => trivial
  | cons op ops ih => exact ⟨fun _ => h.roomy m, fun y hy => ih (h.steps hy)⟩

/-- **C118** (comparing): comparing a sparse array with a dense one, in either order, ends as predicted, and all predictions can happen. -/
theorem C118_equal (m : Mode) {doc doc' : Serde} {a b : ArrayValue} (ha : readArray doc = some a) (hb : readArray doc' = some b)
    (hs : a.isSparse = true) (hd : b.isDense = true) (hr : a.account.Roomy m) :
    (∀ env, ArrayValue.eq m env b a = ArrayValue.eq m env a b) ∧
    (∀ env, ∃ r, a.account.ComparesMixed m b.account r ∧ Answers (ArrayValue.eq m env a b) r) ∧
    (∀ r, a.account.ComparesMixed m b.account r → ∃ env, Answers (ArrayValue.eq m env a b) r) := by
  have ha' := (C85_accepts a).mp ⟨doc, ha⟩
  have hb' := (C85_accepts b).mp ⟨doc', hb⟩
  cases a with
  | dense d => cases hs
  | sparse s =>
    cases b with
    | sparse s' => cases hd
    | dense d =>
      have h := doc_mixed m ha' hb' hr
      have key : ∀ env r, Fate Eq (ArrayValue.eq m env (.sparse s) (.dense d)) r → Answers (ArrayValue.eq m env (.sparse s) (.dense d)) r := by
        intro env r hr
        cases r with
        | none => exact hr
        | some y =>
          obtain ⟨b, h1, rfl⟩ := hr
          exact h1
      exact ⟨fun env => rfl, fun env => (h.sound env).imp fun r hr => ⟨hr.1, key env r hr.2⟩,
        fun r hr => (h.exact r hr).imp fun env he => key env r he⟩

/-! ## Examples -/

/-- An array without index bits and with three words. The hypotheses of `C118_to_sparse` are met. All words are counted and copied, so that there is
an entry no index reaches. -/
example : ∃ a, readArray (givenDense 0 16 (.variant "U64" (.seq [.num 5, .num 5, .num 7]))) = some a ∧ a.account.InMemory ∧
    a.toSparse .debug listEnv = ok ⟨0, 16, .u64u64 5#64 ⟨[(2#64, 7#64)]⟩⟩ :=
  ⟨.dense ⟨0, 16, .u64 [5#64, 5#64, 7#64]⟩, by rfl, by show 3 < 2 ^ 64; decide, by rfl⟩

/-- Of bytes, as many are counted as the index width says, but all are copied. -/
example : ∃ a, readArray (givenDense 0 4 (.variant "U8" (.seq [.num 5, .num 6, .num 200]))) = some a ∧ a.account.InMemory ∧
    a.toSparse .debug listEnv = ok ⟨0, 4, .u64u64 5#64 ⟨[(2#64, 200#64), (1#64, 6#64)]⟩⟩ :=
  ⟨.dense ⟨0, 4, .u8 [5#8, 6#8, 200#8]⟩, by rfl, by show 3 < 2 ^ 64; decide, by rfl⟩

/-- Words for data of 70 bits: words are no wide values, and cannot be stored as such, unless all are the same. -/
example : ∃ a b, readArray (givenDense 1 70 (.variant "U64" (.seq [.num 5, .num 6]))) = some a ∧ a.account.InMemory ∧
    readArray (givenDense 1 70 (.variant "U64" (.seq [.num 5, .num 5]))) = some b ∧
    Panics (a.toSparse .release listEnv) ∧ b.toSparse .release listEnv = ok ⟨1, 70, .u64big ⟨70, [5#64, 0#64]⟩ ⟨[]⟩⟩ :=
  ⟨.dense ⟨1, 70, .u64 [5#64, 6#64]⟩, .dense ⟨1, 70, .u64 [5#64, 5#64]⟩, by rfl, by show 2 < 2 ^ 64; decide, by rfl, ⟨.explicit, by rfl⟩,
    by rfl⟩

/-- A table of numbers for data of 4 bits that holds a larger number. The hypotheses of `C118_make_dense` and `C118_equal` are met. The number is
cut to a byte, and then the array equals the one with that byte. -/
example : ∃ a b, readArray (givenSparse 1 4 (.variant "U64U64" (.seq [.num 7, .map [(.num 0, .num 300)]]))) = some a ∧ a.account.InMemory ∧
    a.account.Roomy .debug ∧ readArray (givenDense 1 4 (.variant "U8" (.seq [.num 44, .num 7]))) = some b ∧ a.isSparse = true ∧ b.isDense = true ∧
    a.makeDense .debug listEnv = ok b ∧ a.eq .debug listEnv b = ok true := by
  refine ⟨.sparse ⟨1, 4, .u64u64 7#64 ⟨[(0#64, 300#64)]⟩⟩, .dense ⟨1, 4, .u8 [44#8, 7#8]⟩, by rfl, trivial, fun d n hd hn hw => ?_, by rfl, rfl, rfl,
    by rfl, by rfl⟩
  cases show some (⟨4, 1, 7⟩ : Shape) = some d from hd
  exact absurd hw (by decide)

/-- An entry beyond the last element: the array cannot be made dense. -/
example : ∃ a, readArray (givenSparse 1 4 (.variant "U64U64" (.seq [.num 7, .map [(.num 5, .num 3)]]))) = some a ∧
    Panics (a.makeDense .release listEnv) :=
  ⟨.sparse ⟨1, 4, .u64u64 7#64 ⟨[(5#64, 3#64)]⟩⟩, by rfl, .bounds, by rfl⟩

/-- A history to which `C118_history` applies: bytes are converted to a table of numbers and back. -/
example : ∃ a, readArray (givenDense 1 4 (.variant "U8" (.seq [.num 5, .num 5]))) = some a ∧ a.account.InMemory ∧
    a.account.RoomyAlong .debug [.toSparse, .base (.store (encode 1#1) (encode 6#4)), .makeDense] ∧
    (∀ op ∈ [ConvOp.toSparse, .base (.store (encode 1#1) (encode 6#4)), .makeDense], op.Typed) ∧
    runConvEach .debug (fun _ => listEnv) a [.toSparse, .base (.store (encode 1#1) (encode 6#4)), .makeDense] =
      ok (.dense ⟨1, 4, .u8 [5#8, 6#8]⟩) := by
  refine ⟨.dense ⟨1, 4, .u8 [5#8, 5#8]⟩, by rfl, by show 2 < 2 ^ 64; decide, ?_, fun op ho => ?_, by rfl⟩
  · exact C118_room _ _ ⟨by decide, by decide, trivial⟩
  · simp only [List.mem_cons, List.not_mem_nil, or_false] at ho
    rcases ho with rfl | rfl | rfl
    · trivial
    · show 1 < 2 ^ 32 ∧ 4 < 2 ^ 32; decide
    · trivial

end Baa

import Verif.Proofs.ArrayConv

/-!
# What every reachable array satisfies
-/

namespace Baa
open Res

variable {iw dw : Nat}

/-- The two shapes of dense arrays that can be made but never read: data of width zero, and 1-bit data with an index of
32 bits or more, for which the number of elements is truncated to zero. -/
def DenseDegenerate (d : DenseArrayValue) (f : BitVec iw → BitVec dw) : Prop :=
  iw < 64 ∧ ((dw = 0 ∧ d = ⟨iw, 0, .u8 (List.replicate (2 ^ iw) 0#8)⟩) ∨
    (dw = 1 ∧ 32 ≤ iw ∧ d = ⟨iw, 1, .bit ⟨0, []⟩⟩ ∧ ∀ i, f i = 0#dw))

/-- All dense arrays. -/
def DenseGen (d : DenseArrayValue) (f : BitVec iw → BitVec dw) : Prop := DenseInv d f ∨ DenseDegenerate d f

theorem of_bind_ok {α β : Type} {x : Res α} {g : α → Res β} {b : β} (h : (x >>= g) = ok b) : ∃ a, x = ok a ∧ g a = ok b := by
  cases x with
  | ok a => exact ⟨a, rfl, h⟩
  | panic p => cases h

theorem bit_cases (x : BitVec 1) : x = 1#1 ∨ x = 0#1 := by
  revert x
  decide

theorem not_panics {α : Type} {x : Res α} {a : α} (h : Panics x) (h' : x = ok a) : False := by
  obtain ⟨p, hp⟩ := h
  rw [hp] at h'
  cases h'

theorem pow_mod_u32 (h : 32 ≤ iw) : 2 ^ iw % U32 = 0 := by
  have : 2 ^ iw = 2 ^ 32 * 2 ^ (iw - 32) := by rw [← Nat.pow_add]; congr 1; omega
  rw [this]
  exact Nat.mul_mod_right _ _

theorem debugAssert_cases {m : Mode} {p : Prop} [Decidable p] (h : debugAssert m (decide p) = ok ()) : m = .release ∨ p := by
  cases m with
  | release => exact .inl rfl
  | debug =>
    by_cases hp : p
    · exact .inr hp
    · rw [decide_eq_false hp] at h
      cases h

theorem ones_zero_panics (m : Mode) : Panics (BitVecValue.ones m 0) := by cases m <;> exact ⟨_, rfl⟩

theorem fromU64_zero_panics (m : Mode) (x : Word) : Panics (BitVecValue.fromU64 m x 0) := ⟨.bounds, rfl⟩

/-- A dense array that was created successfully. -/
theorem dense_new_sound (m : Mode) (x : BitVec dw) (hdl : dw < 2 ^ 32) (ha : Addressable iw dw) {d : DenseArrayValue}
    (h : DenseArrayValue.new m iw (encode x) = ok d) :
    DenseGen d (fun _ : BitVec iw => x) ∧ (m = .release ∨ guardSize iw dw ≤ 2 ^ 30) := by
  have hlt := ha.1
  have hg : m = .release ∨ guardSize iw dw ≤ 2 ^ 30 := by
    unfold DenseArrayValue.new at h
    dsimp only at h
    rw [encode_width, approxStorageSize_ok m ha, ok_bind] at h
    obtain ⟨_, h1, -⟩ := of_bind_ok h
    exact debugAssert_cases h1
  refine ⟨?_, hg⟩
  have hgd : debugAssert m (decide (guardSize iw dw ≤ 2 ^ 30)) = ok () := by
    rcases hg with rfl | hg
    · rfl
    · exact debugAssert_decide_of hg
  by_cases hpos : 0 < dw
  · by_cases hb : dw ≠ 1 ∨ iw < 32
    · obtain ⟨d', h1, h2⟩ := dense_new m x hpos hdl ha hb
      rw [h1, hgd, ok_bind] at h
      cases h
      exact .inl h2
    · have h1 : dw = 1 := by omega
      have h32 : 32 ≤ iw := by omega
      subst h1
      refine .inr ⟨hlt, .inr ⟨rfl, h32, ?_⟩⟩
      unfold DenseArrayValue.new at h
      dsimp only at h
      rw [encode_width, approxStorageSize_ok m ha, ok_bind, numElements_ok m hlt] at h
      obtain ⟨_, -, h⟩ := of_bind_ok h
      rw [ok_bind, if_pos rfl, pow_mod_u32 h32, C25_is_tru (encode_denotes x (by decide)), ok_bind,
        C25_is_fals (encode_denotes x (by decide))] at h
      rcases bit_cases x with rfl | rfl
      · obtain ⟨_, h, -⟩ := of_bind_ok h
        rw [decide_eq_true ⟨rfl, rfl⟩, if_pos rfl] at h
        obtain ⟨_, h, -⟩ := of_bind_ok h
        exact (not_panics (ones_zero_panics m) h).elim
      · refine ⟨?_, fun _ => rfl⟩
        cases m <;> (cases h; rfl)
  · have h0 : dw = 0 := by omega
    subst h0
    refine .inr ⟨hlt, .inl ⟨rfl, ?_⟩⟩
    unfold DenseArrayValue.new at h
    dsimp only at h
    rw [encode_width, approxStorageSize_ok m ha, ok_bind, numElements_ok m hlt, toU64_encode (by decide)] at h
    obtain ⟨_, -, h⟩ := of_bind_ok h
    have hx : x = 0#0 := BitVec.eq_nil x
    subst hx
    cases h
    rfl

theorem set_replicate_self {α : Type} (n i : Nat) (x : α) : (List.replicate n x).set i x = List.replicate n x := by
  apply List.ext_getElem?
  intro j
  rw [List.getElem?_set, List.getElem?_replicate]
  by_cases h : i = j
  · subst h
    rw [if_pos rfl, List.length_replicate]
  · rw [if_neg h]

theorem DenseDegenerate.store_of (m : Mode) {d d' : DenseArrayValue} {f : BitVec iw → BitVec dw} (h : DenseDegenerate d f)
    (i : BitVec iw) (e : BitVec dw) (hs : d.store m (encode i) (encode e) = ok d') : DenseDegenerate d' (update f i e) := by
  obtain ⟨hlt, ⟨rfl, rfl⟩ | ⟨rfl, h32, rfl, hf⟩⟩ := h
  · refine ⟨hlt, .inl ⟨rfl, ?_⟩⟩
    unfold DenseArrayValue.store at hs
    dsimp only at hs
    rw [debugAssert_of (b := (encode i).width == iw) (by simp), ok_bind, toU64_encode (by omega),
      debugAssert_of (b := (encode e).width == 0) (by simp), toU64_encode (by decide)] at hs
    have he : e = 0#0 := BitVec.eq_nil e
    subst he
    obtain ⟨_, h1, h2⟩ := of_bind_ok (show (setIdx (List.replicate (2 ^ iw) 0#8) ((i.setWidth 64).toNat) 0#8 >>= fun values =>
      ok (⟨iw, 0, .u8 values⟩ : DenseArrayValue)) = ok d' from hs)
    rw [setIdx_ok (by rw [setWidth64_toNat (by omega), List.length_replicate]; exact i.isLt), set_replicate_self] at h1
    cases h1
    cases h2
    rfl
  · unfold DenseArrayValue.store at hs
    dsimp only at hs
    rw [debugAssert_of (b := (encode i).width == iw) (by simp), ok_bind, toU64_encode (by omega),
      debugAssert_of (b := (encode e).width == 1) (by simp), C25_is_tru (encode_denotes e (by decide))] at hs
    rcases bit_cases e with rfl | rfl <;> cases hs

theorem DenseDegenerate.clear_of {d : DenseArrayValue} {f : BitVec iw → BitVec dw} (h : DenseDegenerate d f) :
    DenseDegenerate d.clear (fun _ : BitVec iw => 0#dw) := by
  obtain ⟨hlt, ⟨rfl, rfl⟩ | ⟨rfl, h32, rfl, hf⟩⟩ := h
  · refine ⟨hlt, .inl ⟨rfl, ?_⟩⟩
    unfold DenseArrayValue.clear
    dsimp only
    rw [List.map_replicate]
  · exact ⟨hlt, .inr ⟨rfl, h32, rfl, fun _ => rfl⟩⟩

/-- Reading such an array always panics, in the same way at all indices. -/
theorem DenseDegenerate.select_of (m : Mode) {d : DenseArrayValue} {f : BitVec iw → BitVec dw} (h : DenseDegenerate d f)
    (i : BitVec iw) : d.select m (encode i) = Res.panic .bounds := by
  obtain ⟨hlt, ⟨rfl, rfl⟩ | ⟨rfl, h32, rfl, hf⟩⟩ := h
  · unfold DenseArrayValue.select DenseArrayValue.selectUsize
    dsimp only
    rw [debugAssert_of (by simp), ok_bind, toU64_encode (by omega)]
    show (idx (List.replicate (2 ^ iw) 0#8) ((i.setWidth 64).toNat) >>= fun v => BitVecValue.fromU64 m (v.setWidth 64) 0) = _
    rw [setWidth64_toNat (by omega), idx_some (x := 0#8) (by rw [List.getElem?_replicate, if_pos i.isLt]), ok_bind]
    rfl
  · unfold DenseArrayValue.select DenseArrayValue.selectUsize
    dsimp only
    rw [debugAssert_of (by simp), ok_bind, toU64_encode (by omega)]
    rfl

theorem DenseDegenerate.toSparse_of (m : Mode) (env : HashEnv) {d : DenseArrayValue} {f : BitVec iw → BitVec dw}
    (h : DenseDegenerate d f) : Panics (d.toSparse m env) := by
  obtain ⟨hlt, ⟨rfl, rfl⟩ | ⟨rfl, h32, rfl, hf⟩⟩ := h
  · unfold DenseArrayValue.toSparse
    dsimp only
    rw [numElements_ok m hlt, ok_bind]
    generalize DenseArrayValue.countU8 _ _ _ _ = r
    cases r with
    | panic p => exact ⟨p, rfl⟩
    | ok c =>
      rw [ok_bind]
      cases DenseArrayValue.maxByCount ((List.range 8).zip c) with
      | none => exact ⟨_, rfl⟩
      | some mx => exact ⟨.bounds, rfl⟩
  · unfold DenseArrayValue.toSparse
    dsimp only
    rw [numElements_ok m hlt, ok_bind]
    have hp : 0 < 2 ^ iw := Nat.two_pow_pos iw
    obtain ⟨n, hn⟩ : ∃ n, 2 ^ iw = n + 1 := ⟨2 ^ iw - 1, by omega⟩
    rw [hn]
    exact ⟨.bounds, rfl⟩

theorem DenseGen.indexWidth {d : DenseArrayValue} {f : BitVec iw → BitVec dw} (h : DenseGen d f) : d.indexWidth = iw := by
  rcases h with h | ⟨_, ⟨_, rfl⟩ | ⟨_, _, rfl, _⟩⟩
  · exact h.indexWidth
  · rfl
  · rfl

theorem DenseGen.dataWidth {d : DenseArrayValue} {f : BitVec iw → BitVec dw} (h : DenseGen d f) : d.dataWidth = dw := by
  rcases h with h | ⟨_, ⟨rfl, rfl⟩ | ⟨rfl, _, rfl, _⟩⟩
  · exact h.dataWidth
  · rfl
  · rfl

/-- A dense array that was made from a sparse one. -/
theorem ofSparse_sound (m : Mode) (env : HashEnv) {s : SparseArrayValue} {f : BitVec iw → BitVec dw} {x : BitVec dw}
    (h : SparseInv s f x) (ha : Addressable iw dw) {d : DenseArrayValue} (hs : DenseArrayValue.ofSparse m env s = ok d) :
    DenseGen d f := by
  have hlt := ha.1
  by_cases hpos : 0 < dw
  · have hs0 := hs
    unfold DenseArrayValue.ofSparse at hs0
    rw [h.default_of m hpos, ok_bind, h.indexWidth] at hs0
    obtain ⟨d0, hn, hs0⟩ := of_bind_ok hs0
    obtain ⟨hgen, hg⟩ := dense_new_sound m x h.data_lt ha hn
    by_cases hb : dw ≠ 1 ∨ iw < 32
    · by_cases hok : dw ≤ 64 ∨ m = .release ∨ ∀ i, f i = x
      · obtain ⟨d', h1, h2⟩ := ofSparse_spec m env h hpos ha hb hg hok
        rw [hs] at h1
        cases h1
        exact .inl h2
      · exfalso
        have hm : m = .debug := by
          cases m with
          | debug => rfl
          | release => exact absurd (.inr (.inl rfl)) hok
        subst hm
        have : ∃ i, f i ≠ x := by
          apply Classical.byContradiction
          intro hne
          exact hok (.inr (.inr fun i => Classical.byContradiction fun hi => hne ⟨i, hi⟩))
        obtain ⟨i, hi⟩ := this
        exact not_panics (ofSparse_wide_debug env h (by omega) hi ha) hs
    · rcases hgen with hinv | hdeg
      · have hrep := hinv.rep
        have hd1 : dw = 1 := by omega
        subst hd1
        cases hdata : d0.data with
        | bit v => rw [hdata] at hrep; have := hrep.2.1; omega
        | u8 l => rw [hdata] at hrep; exact absurd rfl hrep.1
        | u64 l => rw [hdata] at hrep; have := hrep.1; omega
        | big l => rw [hdata] at hrep; have := hrep.1; omega
      · obtain ⟨-, ⟨rfl, rfl⟩ | ⟨rfl, h32, rfl, hf⟩⟩ := hdeg
        · omega
        · rw [debugAssert_of (by rw [h.dataWidth]; simp), ok_bind, debugAssert_of (by simp), ok_bind] at hs0
          have hrep := h.rep
          cases hdata : s.data with
          | u64u64 d' map =>
            rw [hdata] at hrep hs0
            obtain ⟨-, -, -, hm⟩ := hrep
            dsimp only at hs0
            cases ho : env.order map.entries with
            | nil =>
              rw [ho] at hs0
              cases hs0
              refine .inr ⟨hlt, .inr ⟨rfl, h32, rfl, fun i => ?_⟩⟩
              rw [← hf i]
              apply Classical.byContradiction
              intro hne
              have := (order_map_mem env map.entries Prod.fst _).mpr ((hm.key_mem_iff i).mpr hne)
              rw [ho] at this
              cases this
            | cons e es =>
              rw [ho] at hs0
              unfold DenseArrayValue.putAllU64 at hs0
              obtain ⟨_, hp, -⟩ := of_bind_ok hs0
              unfold DenseArrayValue.putU64 at hp
              dsimp only at hp
              split at hp
              · cases hp
              · obtain ⟨_, -, hp⟩ := of_bind_ok hp
                cases hp
          | u64big d' map =>
            rw [hdata] at hrep
            have := hrep.2.1
            omega
          | bigbig d' map =>
            rw [hdata] at hrep
            have := hrep.1
            omega
  · exfalso
    have h0 : dw = 0 := by omega
    subst h0
    have hrep := h.rep
    unfold DenseArrayValue.ofSparse SparseArrayValue.default at hs
    rw [h.dataWidth] at hs
    cases hdata : s.data with
    | u64u64 d' map =>
      rw [hdata] at hs
      obtain ⟨_, h1, -⟩ := of_bind_ok hs
      exact not_panics (fromU64_zero_panics m _) h1
    | u64big d' map =>
      rw [hdata] at hrep
      have := hrep.2.1
      omega
    | bigbig d' map =>
      rw [hdata] at hrep
      have := hrep.1
      omega

theorem toSparse_sound (m : Mode) (env : HashEnv) {d : DenseArrayValue} {f : BitVec iw → BitVec dw} (h : DenseGen d f)
    {s : SparseArrayValue} (hs : d.toSparse m env = ok s) : ∃ x, SparseInv s f x := by
  rcases h with h | h
  · by_cases hok : dw = 1 ∨ 8 < dw ∨ ∀ i, (f i).toNat < 8
    · obtain ⟨s', x, h1, h2⟩ := toSparse_spec m env h hok
      rw [hs] at h1
      cases h1
      exact ⟨x, h2⟩
    · exfalso
      have : ∃ i, 8 ≤ (f i).toNat := by
        apply Classical.byContradiction
        intro hne
        exact hok (.inr (.inr fun i => Nat.lt_of_not_le fun hi => hne ⟨i, hi⟩))
      obtain ⟨i, hi⟩ := this
      exact not_panics (toSparse_u8_panics m env h (by omega) (by omega) hi) hs
  · exact (not_panics (h.toSparse_of m env) hs).elim

theorem ofBools_go_empty (vs : List Bool) : ∀ (k : Nat) (r : BitVecValue),
    DenseArrayValue.ofBools.go k vs ⟨0, []⟩ = ok r → r = ⟨0, []⟩ ∧ ∀ b ∈ vs, b = false := by
  induction vs with
  | nil =>
    intro k r h
    cases h
    exact ⟨rfl, fun b hb => by cases hb⟩
  | cons v vs ih =>
    intro k r h
    unfold DenseArrayValue.ofBools.go at h
    cases v with
    | true => cases h
    | false =>
      obtain ⟨h1, h2⟩ := ih (k + 1) r h
      refine ⟨h1, fun b hb => ?_⟩
      rcases List.mem_cons.mp hb with rfl | hb
      · rfl
      · exact h2 b hb

theorem ofBools_sound (m : Mode) (vs : List Bool) (hl : vs.length < 2 ^ 63) (hw : LeastWidth iw vs.length)
    {d : DenseArrayValue} (h : DenseArrayValue.ofBools m vs = ok d) :
    DenseGen d (fun i : BitVec iw => BitVec.ofBool (vs.getD i.toNat false)) := by
  by_cases h32 : iw < 32
  · obtain ⟨d', h1, h2⟩ := ofBools_spec m vs hw h32
    rw [h] at h1
    cases h1
    exact .inl h2
  · have he := (indexWidthFromLen_least vs.length).unique hw
    have h64 : iw ≤ 63 := hw.le (by omega)
    unfold DenseArrayValue.ofBools at h
    dsimp only at h
    rw [he, numElements_ok m (by omega), ok_bind, pow_mod_u32 (by omega)] at h
    obtain ⟨r, h1, h2⟩ := of_bind_ok h
    obtain ⟨hr, hb⟩ := ofBools_go_empty vs 0 r h1
    subst hr
    cases h2
    refine .inr ⟨by omega, .inr ⟨rfl, by omega, rfl, fun i => ?_⟩⟩
    have : vs.getD i.toNat false = false := by
      rw [List.getD_eq_getElem?_getD]
      cases hv : vs[i.toNat]? with
      | none => rfl
      | some b => exact hb b (List.mem_of_getElem? hv)
    show BitVec.ofBool (vs.getD i.toNat false) = 0#1
    rw [this]
    rfl

/-- Every reachable array holds the function that it is meant to hold. -/
theorem Reachable.inv {m : Mode} {a : ArrayValue} {f : BitVec iw → BitVec dw} (h : Reachable m a f)
    (hiw : iw < 2 ^ 32) (hdw : dw < 2 ^ 32) :
    (∃ d, a = .dense d ∧ DenseGen d f) ∨ (∃ s x, a = .sparse s ∧ SparseInv s f x) := by
  induction h with
  | newDense x a ha hn =>
    obtain ⟨d, h1, h2⟩ := of_bind_ok hn
    cases h2
    exact .inl ⟨d, rfl, (dense_new_sound m x hdw ha h1).1⟩
  | newSparse x a hn =>
    obtain ⟨s, h1, h2⟩ := sparse_new hiw hdw x
    unfold ArrayValue.newSparse at hn
    rw [h1] at hn
    cases hn
    exact .inr ⟨s, x, rfl, h2⟩
  | @store _ env f a b i e _ hs ih =>
    rcases ih (by assumption) with ⟨d, rfl, hd⟩ | ⟨s, x, rfl, hi⟩
    · obtain ⟨d', h1, h2⟩ := of_bind_ok hs
      cases h2
      refine .inl ⟨d', rfl, ?_⟩
      rcases hd with hd | hd
      · obtain ⟨d'', h3, h4⟩ := hd.store_of m i e
        rw [h1] at h3
        cases h3
        exact .inl h4
      · exact .inr (hd.store_of m i e h1)
    · obtain ⟨s', h1, h2⟩ := of_bind_ok hs
      cases h2
      exact .inr ⟨s', x, rfl, hi.store_sound m env i e h1⟩
  | clear f a _ ih =>
    rcases ih (by assumption) with ⟨d, rfl, hd⟩ | ⟨s, x, rfl, hi⟩
    · exact .inl ⟨_, rfl, hd.elim (fun h => .inl h.clear_of) fun h => .inr h.clear_of⟩
    · exact .inr ⟨_, _, rfl, hi.clear_of⟩
  | @makeDense _ env f a b ha _ hs ih =>
    rcases ih (by assumption) with ⟨d, rfl, hd⟩ | ⟨s, x, rfl, hi⟩
    · cases hs
      exact .inl ⟨d, rfl, hd⟩
    · obtain ⟨d, h1, h2⟩ := of_bind_ok hs
      cases h2
      exact .inl ⟨d, rfl, ofSparse_sound m env hi ha h1⟩
  | @toSparse _ env f a s _ hs ih =>
    rcases ih (by assumption) with ⟨d, rfl, hd⟩ | ⟨s', x, rfl, hi⟩
    · obtain ⟨x, hx⟩ := toSparse_sound m env hd hs
      exact .inr ⟨s, x, rfl, hx⟩
    · cases hs
      exact .inr ⟨s, x, rfl, hi⟩
  | ofBools vs a hl hw hs =>
    obtain ⟨d, h1, h2⟩ := of_bind_ok hs
    cases h2
    exact .inl ⟨d, rfl, ofBools_sound m vs hl hw h1⟩
  | ofU8s vs a hl hw hs =>
    obtain ⟨d, h1, h2⟩ := of_bind_ok hs
    cases h2
    obtain ⟨d', h3, h4⟩ := ofU8s_spec m vs hl hw
    rw [h1] at h3
    cases h3
    exact .inl ⟨d, rfl, .inl h4⟩
  | ofU64s vs a hl hw hs =>
    obtain ⟨d, h1, h2⟩ := of_bind_ok hs
    cases h2
    obtain ⟨d', h3, h4⟩ := ofU64s_spec m vs hl hw
    rw [h1] at h3
    cases h3
    exact .inl ⟨d, rfl, .inl h4⟩

/-- Equality of dense arrays, including those that cannot be read. -/
theorem DenseGen.isEqual_of (m : Mode) {a b : DenseArrayValue} {f g : BitVec iw → BitVec dw} (ha : DenseGen a f)
    (hb : DenseGen b g) : ∃ r, a.isEqual m b = ok (some r) ∧ (r = true ↔ f = g) := by
  have hex : ∀ {a : DenseArrayValue} {f g : BitVec iw → BitVec dw}, DenseInv a f → ¬ DenseDegenerate b g := by
    rintro a f g h ⟨-, ⟨rfl, -⟩ | ⟨rfl, h32, -⟩⟩
    · have := h.data_pos
      omega
    · have hrep := h.rep
      cases hdata : a.data with
      | bit v => rw [hdata] at hrep; have := hrep.2.1; omega
      | u8 l => rw [hdata] at hrep; exact absurd rfl hrep.1
      | u64 l => rw [hdata] at hrep; have := hrep.1; omega
      | big l => rw [hdata] at hrep; have := hrep.1; omega
  have hex' : ∀ {b : DenseArrayValue} {f g : BitVec iw → BitVec dw}, DenseInv b g → ¬ DenseDegenerate a f := by
    rintro b f g h ⟨-, ⟨rfl, -⟩ | ⟨rfl, h32, -⟩⟩
    · have := h.data_pos
      omega
    · have hrep := h.rep
      cases hdata : b.data with
      | bit v => rw [hdata] at hrep; have := hrep.2.1; omega
      | u8 l => rw [hdata] at hrep; exact absurd rfl hrep.1
      | u64 l => rw [hdata] at hrep; have := hrep.1; omega
      | big l => rw [hdata] at hrep; have := hrep.1; omega
  rcases ha with ha | ha
  · rcases hb with hb | hb
    · exact ha.isEqual_of m hb
    · exact absurd hb (hex ha)
  · rcases hb with hb | hb
    · exact absurd ha (hex' hb)
    · obtain ⟨hlt, ⟨rfl, rfl⟩ | ⟨rfl, h32, rfl, hf⟩⟩ := ha
      · obtain ⟨-, ⟨-, rfl⟩ | ⟨h, -⟩⟩ := hb
        · refine ⟨true, ?_, fun _ => ?_, fun _ => rfl⟩
          · unfold DenseArrayValue.isEqual
            simp
          · funext i
            rw [BitVec.eq_nil (f i), BitVec.eq_nil (g i)]
        · omega
      · obtain ⟨-, ⟨h, -⟩ | ⟨-, -, rfl, hg⟩⟩ := hb
        · omega
        · refine ⟨true, ?_, fun _ => ?_, fun _ => rfl⟩
          · unfold DenseArrayValue.isEqual
            rw [if_neg (by simp)]
            cases m <;> rfl
          · funext i
            rw [hf, hg]

end Baa

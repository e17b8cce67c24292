import Verif.Model.Serde
import Verif.Props.ArrayEq

/-!
# C83, C84: serialised values
-/

namespace Baa
open Res Serde

variable {iw dw : Nat}

theorem readWord_ofWord (w : Word) : readWord (ofWord w) = some w := by
  unfold readWord ofWord readNum
  have h : w.toNat < U64 := w.isLt
  dsimp only
  rw [if_pos h]
  simp

theorem readByte_ofByte (b : Byte) : readByte (ofByte b) = some b := by
  unfold readByte ofByte readNum
  have h : b.toNat < 256 := b.isLt
  dsimp only
  rw [if_pos h]
  simp

theorem readList_ofList {α : Type} {w : α → Serde} {r : Serde → Option α} (h : ∀ x, r (w x) = some x) (l : List α) :
    readList r (ofList w l) = some l := by
  unfold readList ofList
  dsimp only
  induction l with
  | nil => rfl
  | cons x l ih => rw [List.map_cons, readAll, h, Option.bind_eq_bind, Option.bind_some, ih]; rfl

theorem readNum_num {bound n : Nat} (h : n < bound) : readNum bound (.num n) = some n := by
  rw [readNum, if_pos h]

theorem field_perm {fs gs : List (String × Serde)} (h : fs.Perm gs) (name : String) : field fs name = field gs name := by
  have hp := h.filter fun f => decide (f.1 = name)
  unfold field
  generalize fs.filter (fun f => decide (f.1 = name)) = a at hp
  generalize gs.filter (fun f => decide (f.1 = name)) = b at hp
  cases a with
  | nil => rw [List.nil_perm.mp hp]
  | cons x a =>
    cases a with
    | nil => rw [List.singleton_perm.mp hp]
    | cons y a =>
      cases b with
      | nil => exact absurd hp (by simp)
      | cons z b =>
        cases b with
        | nil => exact absurd hp.length_eq (by simp)
        | cons w b => rfl

theorem field_append {fs : List (String × Serde)} {name : String} (h : ∀ f ∈ fs, f.1 ≠ name) (gs : List (String × Serde)) :
    field (gs ++ fs) name = field gs name := by
  unfold field
  rw [List.filter_append, show fs.filter (fun f => decide (f.1 = name)) = [] from
    List.filter_eq_nil_iff.mpr (fun f hf => by simpa using h f hf), List.append_nil]

/-- Reading back a serialised bit-vector value (any width and words, also not canonical ones). -/
theorem readBitVec_ofBitVec (v : BitVecValue) (h : v.width < 2 ^ 32) : readBitVec (ofBitVec v) = some v := by
  unfold ofBitVec readBitVec
  dsimp only
  have h1 : field [("width", Serde.num v.width), ("words", ofList ofWord v.words)] "width" = some (.num v.width) := rfl
  have h2 : field [("width", Serde.num v.width), ("words", ofList ofWord v.words)] "words" = some (ofList ofWord v.words) := rfl
  rw [h1, h2, Option.bind_some, Option.bind_some, readNum_num (show _ < 4294967296 from h), readList_ofList readWord_ofWord]
  rfl

/-! ## C83: round trips -/

/-- **C83** A bit-vector value that is serialised and read back is the same value. -/
theorem C83_bit_vec {w : Nat} {a : BitVecValue} {x : BitVec w} (h : Denotes a x) : readBitVec (ofBitVec a) = some a :=
  readBitVec_ofBitVec a (by rw [h.width_eq]; exact h.width_lt)

/-- **C83** Struct fields may come in any order, and unknown fields are ignored; a format that stores structs as sequences works
as well. -/
theorem C83_bit_vec_forms {w : Nat} {a : BitVecValue} {x : BitVec w} (h : Denotes a x) :
    (∀ fs extra : List (String × Serde), (∀ f ∈ extra, f.1 ≠ "width" ∧ f.1 ≠ "words") →
      fs.Perm ([("width", .num a.width), ("words", ofList ofWord a.words)] ++ extra) → readBitVec (.fields fs) = some a) ∧
    readBitVec (.seq [.num a.width, ofList ofWord a.words]) = some a := by
  have hw : a.width < 4294967296 := by rw [h.width_eq]; exact h.width_lt
  constructor
  · intro fs extra he hp
    have h1 := C83_bit_vec h
    unfold ofBitVec at h1
    unfold readBitVec at h1 ⊢
    dsimp only at h1 ⊢
    rw [field_perm hp, field_perm hp, field_append (fun f hf => (he f hf).1), field_append (fun f hf => (he f hf).2)]
    exact h1
  · unfold readBitVec
    dsimp only
    rw [readNum_num hw, readList_ofList readWord_ofWord]
    rfl

theorem readEntries_spec {K V : Type} [DecidableEq K] {wk : K → Serde} {wv : V → Serde} {rk : Serde → Option K}
    {rv : Serde → Option V} : ∀ (l : List (K × V)) (acc : HMap K V),
    (∀ e ∈ l, rk (wk e.1) = some e.1 ∧ rv (wv e.2) = some e.2) → (l.map Prod.fst).Nodup →
    (∀ e ∈ l, e.1 ∉ acc.entries.map Prod.fst) →
    ∃ map, readEntries rk rv acc (l.map fun e => (wk e.1, wv e.2)) = some map ∧ map.entries = l.reverse ++ acc.entries := by
  intro l
  induction l with
  | nil => intro acc _ _ _; exact ⟨acc, rfl, rfl⟩
  | cons e l ih =>
    intro acc hr hn hd
    obtain ⟨h1, h2⟩ := hr e (by simp)
    rw [List.map_cons, List.nodup_cons] at hn
    have hi : (acc.insert e.1 e.2).entries = e :: acc.entries := by
      unfold HMap.insert
      dsimp only
      rw [List.filter_eq_self.mpr]
      intro e' he'
      have := hd e (by simp)
      simp only [decide_not, Bool.not_eq_true', decide_eq_false_iff_not]
      intro heq
      exact this (heq ▸ List.mem_map_of_mem he')
    obtain ⟨map, h3, h4⟩ := ih (acc.insert e.1 e.2) (fun e' he' => hr e' (by simp [he'])) hn.2 (by
      intro e' he' hm
      rw [hi, List.map_cons, List.mem_cons] at hm
      rcases hm with hm | hm
      · exact hn.1 (hm ▸ List.mem_map_of_mem he')
      · exact hd e' (by simp [he']) hm)
    refine ⟨map, ?_, ?_⟩
    · rw [List.map_cons, readEntries, h1, h2]
      exact h3
    · rw [h4, hi, List.reverse_cons, List.append_assoc]
      rfl

/-- A hash map that is serialised and read back has the same entries. -/
theorem readHMap_ofHMap {K V : Type} [DecidableEq K] (env : HashEnv) {wk : K → Serde} {wv : V → Serde} {rk : Serde → Option K}
    {rv : Serde → Option V} {map : HMap K V} (hn : map.Nodup)
    (hr : ∀ e ∈ map.entries, rk (wk e.1) = some e.1 ∧ rv (wv e.2) = some e.2) :
    ∃ map', readHMap rk rv (ofHMap env wk wv map) = some map' ∧ map'.entries.Perm map.entries := by
  have hp := env.order_perm map.entries
  obtain ⟨map', h1, h2⟩ := readEntries_spec (wk := wk) (wv := wv) (rk := rk) (rv := rv) (env.order map.entries) HMap.empty
    (fun e he => hr e (hp.mem_iff.mp he)) ((hp.map Prod.fst).nodup_iff.mpr hn) (fun e _ he => by cases he)
  refine ⟨map', h1, ?_⟩
  rw [h2, show (HMap.empty : HMap K V).entries = [] from rfl, List.append_nil]
  exact (List.reverse_perm _).trans hp

theorem MapRep.perm {K V : Type} [DecidableEq K] {ek : BitVec iw → K} {ev : BitVec dw → V} {map map' : HMap K V}
    {f : BitVec iw → BitVec dw} {x : BitVec dw} (h : MapRep ek ev map f x) (hp : map'.entries.Perm map.entries) :
    MapRep ek ev map' f x := by
  have hn : map'.Nodup := (hp.map Prod.fst).nodup_iff.mpr h.nodup
  refine ⟨h.inj, h.vinj, hn, fun i => ?_, fun e he => h.keys e (hp.mem_iff.mp he)⟩
  rw [← h.get i]
  apply Option.ext
  intro v
  rw [HMap.get_eq_some_iff hn, HMap.get_eq_some_iff h.nodup, hp.mem_iff]

theorem MapRep.entry {K V : Type} [DecidableEq K] {ek : BitVec iw → K} {ev : BitVec dw → V} {map : HMap K V}
    {f : BitVec iw → BitVec dw} {x : BitVec dw} (h : MapRep ek ev map f x) {e : K × V} (he : e ∈ map.entries) :
    ∃ i, e = (ek i, ev (f i)) := by
  obtain ⟨i, hi⟩ := h.keys e he
  have h1 := (HMap.get_eq_some_iff h.nodup e.1 e.2).mpr he
  rw [hi, h.get] at h1
  split at h1
  · cases h1
  · exact ⟨i, Prod.ext hi (Option.some.inj h1).symm⟩

theorem readBitVec_encode (h : dw < 2 ^ 32) (x : BitVec dw) : readBitVec (ofBitVec (encode x)) = some (encode x) :=
  readBitVec_ofBitVec _ (by rw [encode_width]; exact h)

theorem readArrayFields_of {α : Type} {read : Serde → Option α} {d : Serde} {x : α} {i w : Nat} (hi : i < 2 ^ 32) (hw : w < 2 ^ 32)
    (h : read d = some x) : readArrayFields read (ofArrayFields i w d) = some (i, w, x) := by
  unfold ofArrayFields readArrayFields
  dsimp only
  have h1 : field [("index_width", Serde.num i), ("data_width", .num w), ("data", d)] "index_width" = some (.num i) := rfl
  have h2 : field [("index_width", Serde.num i), ("data_width", .num w), ("data", d)] "data_width" = some (.num w) := rfl
  have h3 : field [("index_width", Serde.num i), ("data_width", .num w), ("data", d)] "data" = some d := rfl
  rw [h1, h2, h3, Option.bind_some, Option.bind_some, Option.bind_some, readNum_num (show _ < 4294967296 from hi),
    readNum_num (show _ < 4294967296 from hw), h]
  rfl

/-- A dense array is read back unchanged. -/
theorem readDense_ofDense {d : DenseArrayValue} {f : BitVec iw → BitVec dw} (hd : DenseGen d f) :
    readDense (ofDense d) = some d := by
  have hb : d.indexWidth < 2 ^ 32 ∧ d.dataWidth < 2 ^ 32 ∧ ∀ v, d.data = .bit v → v.width < 2 ^ 32 := by
    rcases hd with hd | ⟨h64, ⟨-, rfl⟩ | ⟨-, -, rfl, -⟩⟩
    · refine ⟨by rw [hd.indexWidth]; have := hd.index_lt; omega, by rw [hd.dataWidth]; exact hd.data_lt, fun v hv => ?_⟩
      have hrep := hd.rep
      rw [hv] at hrep
      obtain ⟨-, -, y, hy, -⟩ := hrep
      rw [hy.width_eq]
      exact hy.width_lt
    · exact ⟨show iw < _ by omega, show 0 < 2 ^ 32 by decide, fun v hv => by cases hv⟩
    · exact ⟨show iw < _ by omega, show 1 < 2 ^ 32 by decide, fun v hv => by cases hv; show 0 < 2 ^ 32; decide⟩
  obtain ⟨h1, h2, h3⟩ := hb
  have hi : readDenseImpl (ofDenseImpl d.data) = some d.data := by
    unfold ofDenseImpl readDenseImpl
    cases hdata : d.data with
    | bit v =>
      dsimp only
      rw [if_pos rfl, readBitVec_ofBitVec v (h3 v hdata)]
      rfl
    | u8 l =>
      dsimp only
      rw [if_neg (by decide), if_pos rfl, readList_ofList readByte_ofByte]
      rfl
    | u64 l =>
      dsimp only
      rw [if_neg (by decide), if_neg (by decide), if_pos rfl, readList_ofList readWord_ofWord]
      rfl
    | big l =>
      dsimp only
      rw [if_neg (by decide), if_neg (by decide), if_neg (by decide), if_pos rfl, readList_ofList readWord_ofWord]
      rfl
  unfold readDense ofDense
  rw [readArrayFields_of h1 h2 hi]
  rfl

/-- A sparse array is read back with the same contents and default. -/
theorem readSparse_ofSparse (env : HashEnv) {s : SparseArrayValue} {f : BitVec iw → BitVec dw} {x : BitVec dw}
    (hs : SparseInv s f x) : ∃ t, readSparse (ofSparse env s) = some t ∧ SparseInv t f x := by
  have hrep := hs.rep
  have key : ∃ data, readSparseImpl (ofSparseImpl env s.data) = some data ∧ SparseRep data f x := by
    unfold ofSparseImpl readSparseImpl
    cases hdata : s.data with
    | u64u64 d map =>
      rw [hdata] at hrep
      obtain ⟨h1, h2, h3, h4⟩ := hrep
      obtain ⟨map', h5, h6⟩ := readHMap_ofHMap env (wk := ofWord) (wv := ofWord) (rk := readWord) (rv := readWord) h4.nodup
        (fun e _ => ⟨readWord_ofWord _, readWord_ofWord _⟩)
      refine ⟨.u64u64 d map', ?_, h1, h2, h3, h4.perm h6⟩
      dsimp only
      rw [if_pos rfl, readWord_ofWord, h5]
      rfl
    | u64big d map =>
      rw [hdata] at hrep
      obtain ⟨h1, h2, h3, h4⟩ := hrep
      obtain ⟨map', h5, h6⟩ := readHMap_ofHMap env (wk := ofWord) (wv := ofBitVec) (rk := readWord) (rv := readBitVec) h4.nodup
        (fun e he => by
          obtain ⟨i, rfl⟩ := h4.entry he
          exact ⟨readWord_ofWord _, readBitVec_encode hs.data_lt _⟩)
      refine ⟨.u64big d map', ?_, h1, h2, h3, h4.perm h6⟩
      dsimp only
      rw [if_neg (by decide), if_pos rfl, h3, readBitVec_encode hs.data_lt, h5]
      rfl
    | bigbig d map =>
      rw [hdata] at hrep
      obtain ⟨h1, h3, h4⟩ := hrep
      obtain ⟨map', h5, h6⟩ := readHMap_ofHMap env (wk := ofBitVec) (wv := ofBitVec) (rk := readBitVec) (rv := readBitVec)
        h4.nodup (fun e he => by
          obtain ⟨i, rfl⟩ := h4.entry he
          exact ⟨readBitVec_encode hs.index_lt _, readBitVec_encode hs.data_lt _⟩)
      refine ⟨.bigbig d map', ?_, h1, h3, h4.perm h6⟩
      dsimp only
      rw [if_neg (by decide), if_neg (by decide), if_pos rfl, h3, readBitVec_encode hs.data_lt, h5]
      rfl
  obtain ⟨data, h1, h2⟩ := key
  refine ⟨⟨s.indexWidth, s.dataWidth, data⟩, ?_, hs.indexWidth, hs.dataWidth, hs.index_lt, hs.data_lt, h2⟩
  unfold readSparse ofSparse
  rw [readArrayFields_of (by rw [hs.indexWidth]; exact hs.index_lt) (by rw [hs.dataWidth]; exact hs.data_lt) h1]
  rfl

/-- **C83** Reading back a serialised dense array gives that array. -/
theorem C83_dense (m : Mode) (env : HashEnv) {d : DenseArrayValue} {f : BitVec iw → BitVec dw} (hiw : iw < 2 ^ 32)
    (hdw : dw < 2 ^ 32) (hr : Reachable m (.dense d) f) : readArray (ofArray env (.dense d)) = some (.dense d) := by
  rcases hr.inv hiw hdw with ⟨d', h, hd⟩ | ⟨s, x, h, -⟩
  · cases h
    unfold ofArray readArray
    dsimp only
    have h1 : field [("data", Serde.variant "Dense" (ofDense d))] "data" = some (.variant "Dense" (ofDense d)) := rfl
    rw [h1, Option.bind_some]
    unfold readArrayImpl
    dsimp only
    rw [if_neg (by decide), if_pos rfl, readDense_ofDense hd]
    rfl
  · cases h

/-- **C83** Reading back a serialised sparse array — whatever order the entries were written in — gives a sparse array that is
equal to it, has the same default, and lists the same entries. -/
theorem C83_sparse (m : Mode) (env : HashEnv) {s : SparseArrayValue} {f : BitVec iw → BitVec dw} (hiw : iw < 2 ^ 32)
    (hdw : dw < 2 ^ 32) (hr : Reachable m (.sparse s) f) :
    ∃ t, readArray (ofArray env (.sparse s)) = some (.sparse t) ∧ readSparse (ofSparse env s) = some t ∧
      (∀ env', s.isEqual m env' t = ok (some true) ∧ t.isEqual m env' s = ok (some true)) ∧ t.indexWidth = iw ∧ t.dataWidth = dw ∧
      (0 < dw → ∃ x, s.default m = ok x ∧ t.default m = ok x) ∧
      (iw ≤ 64 → 0 < dw → ∀ env', Reads m env' (.sparse t) f) := by
  rcases hr.inv hiw hdw with ⟨d', h, -⟩ | ⟨s', x, h, hs⟩
  · cases h
  · cases h
    obtain ⟨t, h1, ht⟩ := readSparse_ofSparse env hs
    have e1 : ∀ env', s.isEqual m env' t = ok (some true) := fun env' => by
      obtain ⟨r, h2, h3⟩ := hs.isEqual_of m env' ht
      rw [h2, h3.mpr ⟨rfl, rfl⟩]
    have e2 : ∀ env', t.isEqual m env' s = ok (some true) := fun env' => by
      obtain ⟨r, h2, h3⟩ := ht.isEqual_of m env' hs
      rw [h2, h3.mpr ⟨rfl, rfl⟩]
    refine ⟨t, ?_, h1, fun env' => ⟨e1 env', e2 env'⟩, ht.indexWidth, ht.dataWidth, fun h0 => ⟨encode x, hs.default_of m h0, ht.default_of m h0⟩, ?_⟩
    · unfold ofArray readArray
      dsimp only
      have h2 : field [("data", Serde.variant "Sparse" (ofSparse env s))] "data" = some (.variant "Sparse" (ofSparse env s)) := rfl
      rw [h2, Option.bind_some]
      unfold readArrayImpl
      dsimp only
      rw [if_pos rfl, h1]
      rfl
    · intro h64 h0 env' i v hv
      rw [hv.eq_encode]
      obtain hsel := ht.select_of m env' h0 h64 i
      exact ⟨_, hsel, encode_denotes _ hdw⟩

/-! ## C84: documents from elsewhere -/

/-- The full claim: whatever document is read, the result is an error or a value in normal form. -/
def C84_statement : Prop := ∀ (d : Serde) (v : BitVecValue), readBitVec d = some v → Canonical v

/-- **C84 (partial)** For documents that were written by serialising a value in normal form. Missing: all others
(`C84_accepts`). -/
theorem C84_canonical_partial (u v : BitVecValue) (hu : Canonical u) (h : readBitVec (ofBitVec u) = some v) : Canonical v := by
  rw [readBitVec_ofBitVec u hu.width_lt] at h
  cases h
  exact hu

/-- The exact set of results: every width below 2^32 is accepted with every list of words, whether they fit together or
not. -/
theorem C84_accepts (v : BitVecValue) : (∃ d, readBitVec d = some v) ↔ v.width < 2 ^ 32 := by
  constructor
  · rintro ⟨d, h⟩
    have hnum : ∀ {d : Serde} {n : Nat}, readNum U32 d = some n → n < 2 ^ 32 := by
      intro d n h
      unfold readNum at h
      split at h
      · split at h
        · cases h
          assumption
        · cases h
      · cases h
    unfold readBitVec at h
    split at h
    · obtain ⟨w, h1, h⟩ := Option.bind_eq_some_iff.mp h
      obtain ⟨ws, h2, h⟩ := Option.bind_eq_some_iff.mp h
      cases h
      obtain ⟨d', -, h1⟩ := Option.bind_eq_some_iff.mp h1
      exact hnum h1
    · obtain ⟨w, h1, h⟩ := Option.bind_eq_some_iff.mp h
      obtain ⟨ws, h2, h⟩ := Option.bind_eq_some_iff.mp h
      cases h
      exact hnum h1
    · cases h
  · intro h
    exact ⟨ofBitVec v, readBitVec_ofBitVec v h⟩

/-- The full claim is false: a document can claim a width of 8 bits and hold the word 256, or no word at all. -/
theorem C84_refuted : ¬ C84_statement := by
  intro h
  have := (h (ofBitVec ⟨8, []⟩) ⟨8, []⟩ (readBitVec_ofBitVec _ (by decide))).length_eq
  revert this
  decide

/-! ## Examples -/

example : readBitVec (ofBitVec (encode (0x400000000000000005 : BitVec 71))) = some (encode (0x400000000000000005 : BitVec 71)) :=
  C83_bit_vec (encode_denotes _ (by decide))
example : readBitVec (.fields [("words", .seq [.num 5]), ("comment", .num 1), ("width", .num 8)]) = some ⟨8, [5#64]⟩ := rfl
example : ofArray reverseEnv (.sparse ⟨3, 9, .u64u64 1#64 ⟨[(2#64, 7#64), (4#64, 8#64)]⟩⟩) =
    .fields [("data", .variant "Sparse" (.fields [("index_width", .num 3), ("data_width", .num 9),
      ("data", .variant "U64U64" (.seq [.num 1, .map [(.num 4, .num 8), (.num 2, .num 7)]]))]))] := rfl
/-- What a foreign document can do: negating the value panics. -/
example : ∃ v, readBitVec (.fields [("width", .num 8), ("words", .seq [])]) = some v ∧ Panics (v.negate .release) :=
  ⟨⟨8, []⟩, rfl, _, rfl⟩

end Baa

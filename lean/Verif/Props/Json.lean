import Verif.Proofs.Json

/-!
# C126: values and arrays in a format with text keys

Formats like JSON have only text as keys of a map, and numbers that are written as text. A sparse array with an index of more than
64 bits is stored in a hash table whose keys are bit-vectors, that is, structs: such an array can be written only as long as
every element is the default.
-/

namespace Baa
open Res

/-! ## Writing -/

theorem writeAll_nums {α : Type} (g : α → Nat) (l : List α) :
    Json.writeAll (l.map fun x => .num (g x)) = some (l.map fun x => .num (g x)) := by
  induction l with
  | nil => rw [List.map_nil, Json.writeAll]; rfl
  | cons x l ih =>
    rw [List.map_cons, Json.writeAll, ih, Json.write]
    rfl

theorem write_bitVecDoc (w x : Nat) : Json.write (bitVecDoc w x) = some (bitVecJson w x) := by
  unfold bitVecDoc wordDocs bitVecJson
  rw [Json.write, Json.writeFields, Json.writeFields, Json.writeFields, Json.write, Json.write, writeAll_nums]
  rfl

theorem write_ofWords (l : List Word) : ∃ j, Json.write (Serde.ofList Serde.ofWord l) = some j := by
  unfold Serde.ofList
  rw [Json.write, show l.map Serde.ofWord = l.map (fun x => .num x.toNat) from rfl, writeAll_nums]
  exact ⟨_, rfl⟩

theorem write_ofBytes (l : List Byte) : ∃ j, Json.write (Serde.ofList Serde.ofByte l) = some j := by
  unfold Serde.ofList
  rw [Json.write, show l.map Serde.ofByte = l.map (fun x => .num x.toNat) from rfl, writeAll_nums]
  exact ⟨_, rfl⟩

theorem write_ofBitVec (v : BitVecValue) : ∃ j, Json.write (Serde.ofBitVec v) = some j := by
  obtain ⟨j, h⟩ := write_ofWords v.words
  unfold Serde.ofBitVec
  rw [Json.write, Json.writeFields, Json.writeFields, Json.writeFields, Json.write, h]
  exact ⟨_, rfl⟩

theorem write_variant {name : String} {d : Serde} : (∃ j, Json.write (.variant name d) = some j) ↔ ∃ j, Json.write d = some j := by
  rw [Json.write]
  cases Json.write d with
  | none => exact ⟨fun ⟨_, h⟩ => (nomatch h), fun ⟨_, h⟩ => (nomatch h)⟩
  | some j => exact ⟨fun _ => ⟨_, rfl⟩, fun _ => ⟨_, rfl⟩⟩

theorem write_pair {d d' : Serde} : (∃ j, Json.write (.seq [d, d']) = some j) ↔
    (∃ j, Json.write d = some j) ∧ ∃ j, Json.write d' = some j := by
  rw [Json.write, Json.writeAll, Json.writeAll, Json.writeAll]
  cases Json.write d with
  | none => exact ⟨fun ⟨_, h⟩ => (nomatch h), fun ⟨⟨_, h⟩, _⟩ => (nomatch h)⟩
  | some j =>
    cases Json.write d' with
    | none => exact ⟨fun ⟨_, h⟩ => (nomatch h), fun ⟨_, _, h⟩ => (nomatch h)⟩
    | some j' => exact ⟨fun _ => ⟨⟨_, rfl⟩, _, rfl⟩, fun _ => ⟨_, rfl⟩⟩

theorem write_arrayFields {i w : Nat} {d : Serde} : (∃ j, Json.write (Serde.ofArrayFields i w d) = some j) ↔
    ∃ j, Json.write d = some j := by
  unfold Serde.ofArrayFields
  rw [Json.write, Json.writeFields, Json.writeFields, Json.writeFields, Json.writeFields, Json.write, Json.write]
  cases Json.write d with
  | none => exact ⟨fun ⟨_, h⟩ => (nomatch h), fun ⟨_, h⟩ => (nomatch h)⟩
  | some j => exact ⟨fun _ => ⟨_, rfl⟩, fun _ => ⟨_, rfl⟩⟩

theorem write_data {d : Serde} : (∃ j, Json.write (.fields [("data", d)]) = some j) ↔ ∃ j, Json.write d = some j := by
  rw [Json.write, Json.writeFields, Json.writeFields]
  cases Json.write d with
  | none => exact ⟨fun ⟨_, h⟩ => (nomatch h), fun ⟨_, h⟩ => (nomatch h)⟩
  | some j => exact ⟨fun _ => ⟨_, rfl⟩, fun _ => ⟨_, rfl⟩⟩

theorem writeEntries_nums {α : Type} {k : α → Nat} {v : α → Serde} {j : α → Json} (l : List α)
    (h : ∀ x ∈ l, Json.write (v x) = some (j x)) :
    Json.writeEntries (l.map fun x => (.num (k x), v x)) = some (l.map fun x => (Json.keyText (k x), j x)) := by
  induction l with
  | nil => rw [List.map_nil, Json.writeEntries]; rfl
  | cons x l ih =>
    rw [List.map_cons, Json.writeEntries, ih fun y hy => h y (by simp [hy]), h x (by simp)]
    rfl

theorem write_wordMap {V : Type} (env : HashEnv) {wv : V → Serde} (hw : ∀ v, ∃ j, Json.write (wv v) = some j) (map : HMap Word V) :
    ∃ j, Json.write (Serde.ofHMap env Serde.ofWord wv map) = some j := by
  unfold Serde.ofHMap
  rw [Json.write, show (env.order map.entries).map (fun e => (Serde.ofWord e.1, wv e.2)) =
    (env.order map.entries).map (fun e => (.num e.1.toNat, wv e.2)) from rfl,
    writeEntries_nums (j := fun e => (Json.write (wv e.2)).getD .other) _ fun e _ => by
      obtain ⟨j, h⟩ := hw e.2
      rw [h]
      rfl]
  exact ⟨_, rfl⟩

theorem write_structMap {V : Type} (env : HashEnv) {wv : V → Serde} (map : HMap BitVecValue V) :
    (∃ j, Json.write (Serde.ofHMap env Serde.ofBitVec wv map) = some j) ↔ map.entries = [] := by
  unfold Serde.ofHMap
  rw [Json.write]
  have hp := env.order_perm map.entries
  cases h : env.order map.entries with
  | nil =>
    rw [h] at hp
    rw [List.map_nil, Json.writeEntries]
    exact ⟨fun _ => hp.nil_eq.symm, fun _ => ⟨_, rfl⟩⟩
  | cons e l =>
    rw [h] at hp
    rw [List.map_cons, Json.writeEntries]
    refine ⟨fun ⟨_, h⟩ => (nomatch h), fun he => ?_⟩
    rw [he] at hp
    exact absurd hp.eq_nil (by simp)

/-- The arrays that can be written are those without a table whose keys are structs. -/
theorem write_array (env : HashEnv) (a : ArrayValue) :
    (∃ j, Json.write (Serde.ofArray env a) = some j) ↔ ¬ KeyedByStructs a := by
  unfold Serde.ofArray KeyedByStructs
  cases a with
  | dense d =>
    dsimp only
    rw [write_data, write_variant]
    unfold Serde.ofDense
    rw [write_arrayFields]
    refine ⟨fun _ h => h, fun _ => ?_⟩
    unfold Serde.ofDenseImpl
    cases d.data with
    | bit v => exact write_variant.mpr (write_ofBitVec v)
    | u8 l => exact write_variant.mpr (write_ofBytes l)
    | u64 l => exact write_variant.mpr (write_ofWords l)
    | big l => exact write_variant.mpr (write_ofWords l)
  | sparse s =>
    dsimp only
    rw [write_data, write_variant]
    unfold Serde.ofSparse
    rw [write_arrayFields]
    unfold Serde.ofSparseImpl
    cases s.data with
    | u64u64 d table =>
      dsimp only
      rw [write_variant, write_pair]
      have hw : ∀ v : Word, ∃ j, Json.write (Serde.ofWord v) = some j := fun v => by
        unfold Serde.ofWord
        rw [Json.write]
        exact ⟨_, rfl⟩
      exact ⟨fun _ h => h, fun _ => ⟨hw d, write_wordMap env hw table⟩⟩
    | u64big d table =>
      dsimp only
      rw [write_variant, write_pair]
      exact ⟨fun _ h => h, fun _ => ⟨write_ofBitVec d, write_wordMap env write_ofBitVec table⟩⟩
    | bigbig d table =>
      dsimp only
      rw [write_variant, write_pair, write_structMap, Classical.not_not]
      exact ⟨fun h => h.2, fun h => ⟨write_ofBitVec d, h⟩⟩

theorem write_sparseDoc (iw dw dflt : Nat) (entries : List (Nat × Nat)) :
    Json.write (sparseDoc iw dw dflt entries) = some (sparseJson iw dw dflt entries) := by
  have hv : ∀ v, Json.write (valueDoc dw v) = some (valueJson dw v) := by
    intro v
    unfold valueDoc valueJson
    split
    · rw [Json.write]
    · exact write_bitVecDoc dw v
  unfold sparseDoc arrayDoc sparseJson
  rw [Json.write, Json.writeFields, Json.writeFields, Json.write, Json.write, Json.writeFields, Json.writeFields,
    Json.writeFields, Json.writeFields, Json.write, Json.write, Json.write, Json.write, Json.writeAll, Json.writeAll,
    Json.writeAll, Json.write, hv, writeEntries_nums (k := Prod.fst) (j := fun e => valueJson dw e.2) _ fun e _ => hv e.2]
  rfl

/-! ## C126 -/

/-- **C126** A bit-vector is written as its width and its 64-bit digits, and read back unchanged. -/
theorem C126_bit_vec {w : Nat} {a : BitVecValue} {x : BitVec w} (h : Denotes a x) :
    Json.write (Serde.ofBitVec a) = some (bitVecJson w x.toNat) ∧ Json.readBitVec (bitVecJson w x.toNat) = some a := by
  have h1 : Json.write (Serde.ofBitVec a) = some (bitVecJson w x.toNat) := by
    rw [h.eq_encode, ofBitVec_encode, write_bitVecDoc]
  exact ⟨h1, Json.readBitVec_follows (Json.views_of_write _ _ h1) (C83_bit_vec h)⟩

/-- **C126** A dense array is written, and read back unchanged. -/
theorem C126_dense (m : Mode) (env : HashEnv) {d : DenseArrayValue} {f : BitVec iw → BitVec dw} (hiw : iw < 2 ^ 32)
    (hdw : dw < 2 ^ 32) (hr : Reachable m (.dense d) f) :
    ∃ j, Json.write (Serde.ofArray env (.dense d)) = some j ∧ Json.readArray j = some (.dense d) := by
  obtain ⟨j, h⟩ := (write_array env (.dense d)).mpr fun h => h
  exact ⟨j, h, Json.readArray_follows (Json.views_of_write _ _ h) (C83_dense m env hiw hdw hr)⟩

/-- **C126** A sparse array with an index of up to 64 bits is written with its default and, in some order, exactly the elements
that differ from the default, each once, with the index in decimal as the key. -/
theorem C126_sparse_document (m : Mode) (env : HashEnv) {s : SparseArrayValue} {f : BitVec iw → BitVec dw} (hiw : iw ≤ 64)
    (hpos : 0 < dw) (hdw : dw < 2 ^ 32) (hr : Reachable m (.sparse s) f) :
    ∃ (x : BitVec dw) (is : List (BitVec iw)), s.default m = ok (encode x) ∧ is.Nodup ∧ (∀ i, i ∈ is ↔ f i ≠ x) ∧
      Json.write (Serde.ofArray env (.sparse s)) = some (sparseJson iw dw x.toNat (is.map fun i => (i.toNat, (f i).toNat))) := by
  obtain ⟨x, is, h1, h2, h3, h4⟩ := C83_sparse_document m env hiw hpos hdw hr
  refine ⟨x, is, h1, h2, h3, ?_⟩
  rw [h4, write_sparseDoc]

/-- The full claim: every array that can be built through the API can be written. -/
def C126_statement : Prop := ∀ (m : Mode) (env : HashEnv) (iw dw : Nat) (a : ArrayValue) (f : BitVec iw → BitVec dw),
  iw < 2 ^ 32 → dw < 2 ^ 32 → Reachable m a f → ∃ j, Json.write (Serde.ofArray env a) = some j

/-- **C126 (partial)** With an index of up to 64 bits, every array is written. Missing: sparse arrays with a wider index, see
`C126_writable`. -/
theorem C126_written_partial (m : Mode) (env : HashEnv) {a : ArrayValue} {f : BitVec iw → BitVec dw} (hiw : iw ≤ 64)
    (hdw : dw < 2 ^ 32) (hr : Reachable m a f) : ∃ j, Json.write (Serde.ofArray env a) = some j := by
  refine (write_array env a).mpr fun h => ?_
  rcases hr.inv (by omega) hdw with ⟨d, rfl, -⟩ | ⟨s, x, rfl, hs⟩
  · exact h
  · have hrep := hs.rep
    unfold KeyedByStructs at h
    dsimp only at h
    unfold SparseRep at hrep
    split at h
    · rename_i heq
      rw [heq] at hrep
      have := hrep.1
      omega
    · exact h

/-- **C126** Exactly which sparse arrays can be written: those with an index of up to 64 bits, and those whose elements are all
the default. -/
theorem C126_writable (m : Mode) (env : HashEnv) {s : SparseArrayValue} {f : BitVec iw → BitVec dw} (hiw : iw < 2 ^ 32)
    (hpos : 0 < dw) (hdw : dw < 2 ^ 32) (hr : Reachable m (.sparse s) f) :
    ∃ x : BitVec dw, s.default m = ok (encode x) ∧
      ((∃ j, Json.write (Serde.ofArray env (.sparse s)) = some j) ↔ iw ≤ 64 ∨ ∀ i, f i = x) := by
  rcases hr.inv hiw hdw with ⟨d', h, -⟩ | ⟨s', x, h, hs⟩
  · cases h
  cases h
  refine ⟨x, hs.default_of m hpos, ?_⟩
  rw [write_array]
  have hrep := hs.rep
  unfold KeyedByStructs
  dsimp only
  cases hdata : s.data with
  | u64u64 d map =>
    rw [hdata] at hrep
    exact ⟨fun _ => .inl hrep.1, fun _ h => h⟩
  | u64big d map =>
    rw [hdata] at hrep
    exact ⟨fun _ => .inl hrep.1, fun _ h => h⟩
  | bigbig d map =>
    rw [hdata] at hrep
    obtain ⟨h1, h2, h3⟩ := hrep
    dsimp only
    rw [Classical.not_not]
    constructor
    · intro he
      refine .inr fun i => ?_
      have := h3.get i
      unfold HMap.get at this
      rw [he] at this
      split at this
      · assumption
      · cases this
    · rintro (h | h)
      · omega
      · cases he : map.entries with
        | nil => rfl
        | cons e l =>
          obtain ⟨i, hi⟩ := h3.entry (e := e) (by rw [he]; simp)
          have hg := h3.get i
          rw [if_pos (h i), (HMap.get_eq_some_iff h3.nodup (encode i) (encode (f i))).mpr (by rw [← hi, he]; simp)] at hg
          cases hg

/-- The full claim is false: one store into a sparse array with an index of 65 bits is enough. -/
theorem C126_refuted : ¬ C126_statement := by
  intro h
  have hr0 : Reachable .debug (.sparse ⟨65, 8, .bigbig (encode 5#8) HMap.empty⟩) (fun _ : BitVec 65 => 5#8) := .newSparse _ _ rfl
  have hr : Reachable .debug (.sparse ⟨65, 8, .bigbig (encode 5#8) ⟨[(encode 3#65, encode 6#8)]⟩⟩)
      (update (fun _ : BitVec 65 => 5#8) 3#65 6#8) := .store (env := listEnv) _ _ _ _ _ hr0 rfl
  have := (write_array listEnv _).mp (h .debug listEnv 65 8 _ _ (by decide) (by decide) hr)
  exact this (by intro h; cases h)

/-- **C126** A sparse array that was written is read back as an equal one, with the same default and the same elements, whatever
order its entries were written in. -/
theorem C126_sparse (m : Mode) (env : HashEnv) {s : SparseArrayValue} {f : BitVec iw → BitVec dw} (hiw : iw < 2 ^ 32)
    (hdw : dw < 2 ^ 32) (hr : Reachable m (.sparse s) f) {j : Json} (hj : Json.write (Serde.ofArray env (.sparse s)) = some j) :
    ∃ t, Json.readArray j = some (.sparse t) ∧
      (∀ env', s.isEqual m env' t = ok (some true) ∧ t.isEqual m env' s = ok (some true)) ∧ t.indexWidth = iw ∧ t.dataWidth = dw ∧
      (0 < dw → ∃ x, s.default m = ok x ∧ t.default m = ok x) ∧
      (iw ≤ 64 → 0 < dw → ∀ env', Reads m env' (.sparse t) f) := by
  obtain ⟨t, h1, -, h2⟩ := C83_sparse m env hiw hdw hr
  exact ⟨t, Json.readArray_follows (Json.views_of_write _ _ hj) h1, h2⟩

/-! ## Documents from elsewhere -/

/-- **C126** What is a key: the decimal text of a number below 2^64, without sign, spaces or leading zeros. -/
theorem C126_key (s : String) (x : Word) : Json.readWordKey s = some x ↔ s = toString x.toNat := by
  show _ ↔ s = Json.keyText x.toNat
  unfold Json.readWordKey
  constructor
  · intro h
    obtain ⟨n, h1, h2⟩ := Option.bind_eq_some_iff.mp h
    split at h2
    · rename_i hn
      cases h2
      rw [Json.keyText_of_keyNum h1, BitVec.toNat_ofNat, Nat.mod_eq_of_lt hn]
    · cases h2
  · rintro rfl
    rw [Json.keyNum_keyText, Option.bind_some, if_pos x.isLt, BitVec.ofNat_toNat, BitVec.setWidth_eq]

/-- **C126** A sparse array with an index of up to 64 bits may list its entries in any order, and an index more than once: the
last entry counts. -/
theorem C126_sparse_elsewhere (m : Mode) (env : HashEnv) (dflt : Nat) (entries : List (Nat × Nat)) (hiw : iw ≤ 64)
    (hpos : 0 < dw) (hdw : dw < 2 ^ 32) (hd : dflt < 2 ^ dw) (he : ∀ e ∈ entries, e.1 < 2 ^ 64 ∧ e.2 < 2 ^ dw) :
    ∃ a, Json.readArray (sparseJson iw dw dflt entries) = some a ∧ a.indexWidth = iw ∧ a.dataWidth = dw ∧
      Reads m env a (fun i : BitVec iw => BitVec.ofNat dw (lastValue dflt entries i.toNat)) := by
  obtain ⟨a, h1, h2⟩ := C85_sparse_partial m env dflt entries hiw hpos hdw hd he
  exact ⟨a, Json.readArray_follows (Json.views_of_write _ _ (write_sparseDoc iw dw dflt entries)) h1, h2⟩

theorem json_field_perm {fs gs : List (String × Json)} (hp : fs.Perm gs) (name : String) : Json.field fs name = Json.field gs name := by
  replace hp := hp.filter (fun f => decide (f.1 = name))
  unfold Json.field
  generalize fs.filter (fun f => decide (f.1 = name)) = a at hp
  generalize gs.filter (fun f => decide (f.1 = name)) = b at hp
  cases a with
  | nil => rw [List.nil_perm.mp hp]
  | cons x a =>
    cases a with
    | nil => rw [List.singleton_perm.mp hp]
    | cons y a =>
      cases b with
      | nil => exact absurd hp (by simp)
      | cons z b =>
        cases b with
        | nil => exact absurd hp.length_eq (by simp)
        | cons w b => rfl

theorem json_field_append {fs : List (String × Json)} {name : String} (h : ∀ f ∈ fs, f.1 ≠ name) (gs : List (String × Json)) :
    Json.field (gs ++ fs) name = Json.field gs name := by
  unfold Json.field
  rw [List.filter_append, show fs.filter (fun f => decide (f.1 = name)) = [] from
    List.filter_eq_nil_iff.mpr (fun f hf => by simpa using h f hf), List.append_nil]

/-- **C126** The two fields of a bit-vector may come in any order, and other fields are ignored, whatever they hold; a list of
the two works as well. -/
theorem C126_bit_vec_forms {w : Nat} {a : BitVecValue} {x : BitVec w} (h : Denotes a x) :
    ∃ words, bitVecJson w x.toNat = .obj [("width", .num w), ("words", words)] ∧
      (∀ fs extra : List (String × Json), (∀ f ∈ extra, f.1 ≠ "width" ∧ f.1 ≠ "words") →
        fs.Perm ([("width", .num w), ("words", words)] ++ extra) → Json.readBitVec (.obj fs) = some a) ∧
      Json.readBitVec (.arr [.num w, words]) = some a := by
  have h1 := (C126_bit_vec h).2
  refine ⟨_, rfl, fun fs extra he hp => ?_, ?_⟩
  · unfold bitVecJson at h1
    unfold Json.readBitVec at h1 ⊢
    dsimp only at h1 ⊢
    rw [json_field_perm hp, json_field_perm hp, json_field_append (fun f hf => (he f hf).1),
      json_field_append (fun f hf => (he f hf).2)]
    exact h1
  · exact h1

/-- **C126** The bit-vectors that documents can yield: any words, with any width of type `u32`. -/
theorem C126_bit_vec_accepts (v : BitVecValue) : (∃ j, Json.readBitVec j = some v) ↔ v.width < 2 ^ 32 := by
  have hn : ∀ {j : Json} {n : Nat}, Json.readNum U32 j = some n → n < 2 ^ 32 := by
    intro j n h
    unfold Json.readNum at h
    split at h
    · split at h
      · cases h
        assumption
      · cases h
    · cases h
  constructor
  · rintro ⟨j, h⟩
    unfold Json.readBitVec at h
    split at h
    · obtain ⟨n, h1, h⟩ := Option.bind_eq_some_iff.mp h
      obtain ⟨l, h2, h⟩ := Option.bind_eq_some_iff.mp h
      obtain ⟨j', -, h1⟩ := Option.bind_eq_some_iff.mp h1
      cases h
      exact hn h1
    · obtain ⟨n, h1, h⟩ := Option.bind_eq_some_iff.mp h
      obtain ⟨l, h2, h⟩ := Option.bind_eq_some_iff.mp h
      cases h
      exact hn h1
    · cases h
  · intro h
    obtain ⟨j, hj⟩ := write_ofBitVec v
    exact ⟨j, Json.readBitVec_follows (Json.views_of_write _ _ hj) (readBitVec_ofBitVec v h)⟩

theorem json_readEntries_sound {K V : Type} [DecidableEq K] {rk : String → Option K} {rv : Json → Option V} {P : K × V → Prop}
    (hP : ∀ d e k v, rk d = some k → rv e = some v → P (k, v)) : ∀ (es : List (String × Json)) (acc map : HMap K V),
    acc.Nodup → (∀ e ∈ acc.entries, P e) → Json.readEntries rk rv acc es = some map → map.Nodup ∧ ∀ e ∈ map.entries, P e := by
  intro es
  induction es with
  | nil =>
    intro acc map hn ha h
    cases h
    exact ⟨hn, ha⟩
  | cons e es ih =>
    intro acc map hn ha h
    rw [Json.readEntries] at h
    obtain ⟨k, h1, h⟩ := Option.bind_eq_some_iff.mp h
    obtain ⟨v, h2, h⟩ := Option.bind_eq_some_iff.mp h
    refine ih _ _ (HMap.nodup_insert hn k v) (fun e' he' => ?_) h
    rcases List.mem_cons.mp he' with rfl | he'
    · exact hP _ _ _ _ h1 h2
    · exact ha e' (List.mem_filter.mp he').1

theorem json_readHMap_sound {K V : Type} [DecidableEq K] {rk : String → Option K} {rv : Json → Option V} {P : K × V → Prop}
    (hP : ∀ d e k v, rk d = some k → rv e = some v → P (k, v)) {j : Json} {map : HMap K V}
    (h : Json.readHMap rk rv j = some map) : map.Nodup ∧ ∀ e ∈ map.entries, P e := by
  unfold Json.readHMap at h
  split at h
  · exact json_readEntries_sound hP _ _ _ HMap.nodup_empty (fun e he => by cases he) h
  · cases h

theorem json_readArrayFields_sound {α : Type} {read : Json → Option α} {j : Json} {r : Nat × Nat × α}
    (h : Json.readArrayFields read j = some r) : r.1 < 2 ^ 32 ∧ r.2.1 < 2 ^ 32 ∧ ∃ d, read d = some r.2.2 := by
  have hn : ∀ {j : Json} {n : Nat}, Json.readNum U32 j = some n → n < 2 ^ 32 := by
    intro j n h
    unfold Json.readNum at h
    split at h
    · split at h
      · cases h
        assumption
      · cases h
    · cases h
  unfold Json.readArrayFields at h
  split at h
  · obtain ⟨a, h1, h⟩ := Option.bind_eq_some_iff.mp h
    obtain ⟨b, h2, h⟩ := Option.bind_eq_some_iff.mp h
    obtain ⟨c, h3, h⟩ := Option.bind_eq_some_iff.mp h
    obtain ⟨j1, -, h1⟩ := Option.bind_eq_some_iff.mp h1
    obtain ⟨j2, -, h2⟩ := Option.bind_eq_some_iff.mp h2
    obtain ⟨j3, -, h3⟩ := Option.bind_eq_some_iff.mp h3
    cases h
    exact ⟨hn h1, hn h2, j3, h3⟩
  · obtain ⟨a, h1, h⟩ := Option.bind_eq_some_iff.mp h
    obtain ⟨b, h2, h⟩ := Option.bind_eq_some_iff.mp h
    obtain ⟨c, h3, h⟩ := Option.bind_eq_some_iff.mp h
    cases h
    exact ⟨hn h1, hn h2, _, h3⟩
  · cases h

/-- **C126** The arrays that documents can yield: those of C85, without the ones that have entries with an index of more than 64
bits. -/
theorem C126_accepts (a : ArrayValue) : (∃ j, Json.readArray j = some a) ↔ Acceptable a ∧ ¬ KeyedByStructs a := by
  constructor
  · rintro ⟨j, h⟩
    have himpl : ∃ j, Json.readArrayImpl j = some a := by
      unfold Json.readArray at h
      split at h
      · obtain ⟨j, -, h⟩ := Option.bind_eq_some_iff.mp h
        exact ⟨j, h⟩
      · exact ⟨_, h⟩
      · cases h
    obtain ⟨j, h⟩ := himpl
    have hbv : ∀ {j : Json} {v : BitVecValue}, Json.readBitVec j = some v → v.width < 2 ^ 32 :=
      fun h => (C126_bit_vec_accepts _).mp ⟨_, h⟩
    unfold Json.readArrayImpl at h
    split at h
    · split at h
      · obtain ⟨s, h', rfl⟩ := Option.map_eq_some_iff.mp h
        obtain ⟨⟨i, w, data⟩, h'', rfl⟩ := Option.map_eq_some_iff.mp h'
        obtain ⟨h1, h2, d, h3⟩ := json_readArrayFields_sound h''
        unfold Json.readSparseImpl at h3
        split at h3
        · split at h3
          · obtain ⟨x, h4, h3⟩ := Option.bind_eq_some_iff.mp h3
            obtain ⟨map, h5, h3⟩ := Option.bind_eq_some_iff.mp h3
            cases h3
            exact ⟨⟨h1, h2, (json_readHMap_sound (P := fun _ => True) (fun _ _ _ _ _ _ => trivial) h5).1⟩, fun h => h⟩
          · split at h3
            · obtain ⟨x, h4, h3⟩ := Option.bind_eq_some_iff.mp h3
              obtain ⟨map, h5, h3⟩ := Option.bind_eq_some_iff.mp h3
              cases h3
              exact ⟨⟨h1, h2, hbv h4, json_readHMap_sound (P := fun e => e.2.width < 2 ^ 32) (fun _ _ _ _ _ h => hbv h) h5⟩,
                fun h => h⟩
            · split at h3
              · obtain ⟨x, h4, h3⟩ := Option.bind_eq_some_iff.mp h3
                obtain ⟨map, h5, h3⟩ := Option.bind_eq_some_iff.mp h3
                cases h3
                obtain ⟨h6, h7⟩ := json_readHMap_sound (P := fun _ => False) (fun _ _ _ _ h _ => by cases h) h5
                exact ⟨⟨h1, h2, hbv h4, h6, fun e he => (h7 e he).elim⟩, fun h => h (List.eq_nil_iff_forall_not_mem.mpr h7)⟩
              · cases h3
        · cases h3
      · split at h
        · obtain ⟨s, h', rfl⟩ := Option.map_eq_some_iff.mp h
          obtain ⟨⟨i, w, data⟩, h'', rfl⟩ := Option.map_eq_some_iff.mp h'
          obtain ⟨h1, h2, d, h3⟩ := json_readArrayFields_sound h''
          refine ⟨⟨h1, h2, ?_⟩, fun h => h⟩
          dsimp only
          split
          · dsimp only at h3
            unfold Json.readDenseImpl at h3
            split at h3
            · split at h3
              · obtain ⟨v', h3, h4⟩ := Option.map_eq_some_iff.mp h3
                cases h4
                exact hbv h3
              · split at h3
                · obtain ⟨v', h3, h4⟩ := Option.map_eq_some_iff.mp h3
                  cases h4
                · split at h3
                  · obtain ⟨v', h3, h4⟩ := Option.map_eq_some_iff.mp h3
                    cases h4
                  · split at h3
                    · obtain ⟨v', h3, h4⟩ := Option.map_eq_some_iff.mp h3
                      cases h4
                    · cases h3
            · cases h3
          · trivial
        · cases h
    · cases h
  · rintro ⟨h1, h2⟩
    obtain ⟨j, hj⟩ := (write_array reverseEnv a).mpr h2
    exact ⟨j, Json.readArray_follows (Json.views_of_write _ _ hj) (readArray_reverse h1)⟩

/-! ## Examples -/

example : Json.write (Serde.ofArray reverseEnv (.sparse ⟨3, 9, .u64u64 1#64 ⟨[(2#64, 7#64), (4#64, 8#64)]⟩⟩)) =
    some (.obj [("data", .obj [("Sparse", .obj [("index_width", .num 3), ("data_width", .num 9),
      ("data", .obj [("U64U64", .arr [.num 1, .obj [("4", .num 8), ("2", .num 7)]])])])])]) := rfl
example : Json.readArray (.obj [("data", .obj [("Sparse", .obj [("index_width", .num 3), ("data_width", .num 9),
    ("data", .obj [("U64U64", .arr [.num 1, .obj [("4", .num 8), ("2", .num 7)]])])])])]) =
    some (.sparse ⟨3, 9, .u64u64 1#64 ⟨[(2#64, 7#64), (4#64, 8#64)]⟩⟩) := rfl
example : ∃ a, Json.readArray (sparseJson 2 70 9 [(1, 4), (2, 5), (1, 6)]) = some a ∧
    a.select .debug listEnv (encode 1#2) = ok (encode 6#70) := by
  obtain ⟨a, h1, -, -, h2⟩ := C126_sparse_elsewhere (iw := 2) (dw := 70) .debug listEnv 9 [(1, 4), (2, 5), (1, 6)] (by decide)
    (by decide) (by decide) (by decide) (by decide)
  obtain ⟨r, h3, h4⟩ := h2 1#2 (encode 1#2) (encode_denotes _ (by decide))
  exact ⟨a, h1, by rw [h3, h4.eq_encode]; rfl⟩
example : Json.readBitVec (.obj [("words", .arr [.num 5]), ("comment", .other), ("width", .num 8)]) = some ⟨8, [5#64]⟩ := rfl
/-- Leading zeros, signs and numbers beyond 64 bits are no keys. -/
example : Json.readWordKey "007" = none ∧ Json.readWordKey "-1" = none ∧ Json.readWordKey "" = none ∧
    Json.readWordKey "18446744073709551616" = none ∧ Json.readWordKey "18446744073709551615" = some (-1#64) := by decide +kernel
/-- A wide index: nothing is stored, and it can be written; one element, and it cannot. -/
example : ∃ j, Json.write (Serde.ofArray listEnv (.sparse ⟨65, 8, .bigbig (encode 5#8) HMap.empty⟩)) = some j := ⟨_, rfl⟩
example : Json.write (Serde.ofArray listEnv (.sparse ⟨65, 8, .bigbig (encode 5#8) ⟨[(encode 3#65, encode 6#8)]⟩⟩)) = none := rfl
example : ∃ (x : BitVec 9) (is : List (BitVec 3)), is.Nodup ∧ (∀ i, i ∈ is ↔ update (fun _ : BitVec 3 => 1#9) 2#3 7#9 i ≠ x) ∧
    Json.write (Serde.ofArray listEnv (.sparse ⟨3, 9, .u64u64 1#64 ⟨[(2#64, 7#64)]⟩⟩)) =
      some (sparseJson 3 9 x.toNat (is.map fun i => (i.toNat, (update (fun _ : BitVec 3 => 1#9) 2#3 7#9 i).toNat))) := by
  obtain ⟨x, is, -, h⟩ := C126_sparse_document (iw := 3) (dw := 9) .debug listEnv (by decide) (by decide) (by decide)
    (.store (env := listEnv) _ _ (.sparse ⟨3, 9, .u64u64 1#64 ⟨[(2#64, 7#64)]⟩⟩) 2#3 7#9
      (.newSparse 1#9 (.sparse ⟨3, 9, .u64u64 1#64 HMap.empty⟩) rfl) rfl)
  exact ⟨x, is, h⟩

end Baa

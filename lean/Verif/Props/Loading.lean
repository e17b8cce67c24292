import Verif.Props.DocumentsTravel
import Verif.Spec.Loading

/-!
# C129: reading an array document panics only for discordant indices
-/

namespace Baa
open Res Serde BitVecValue

/-! ## Loading -/

/-- The executions of a reader: it gives `r`, or it panics in a debug build because of the indices `l`. -/
structure Loading {α : Type} (load : Mode → HashEnv → Res α) (r : α) (l : List BitVecValue) : Prop where
  sound : ∀ m env, load m env = ok r ∨ (m = .debug ∧ Discordant l ∧ Panics (load m env))
  calm : ∀ m, load m listEnv = ok r
  crowded : Discordant l → Panics (load .debug (crowdedEnv 0))

theorem not_discordant_nil : ¬ Discordant [] := fun ⟨_, hk, _⟩ => nomatch hk

theorem Loading.pure {α : Type} (r : α) : Loading (fun _ _ => ok r) r [] :=
  ⟨fun _ _ => .inl rfl, fun _ => rfl, fun h => absurd h not_discordant_nil⟩

theorem Loading.bind {α β : Type} {load : Mode → HashEnv → Res α} {r : α} {l : List BitVecValue} (h : Loading load r l)
    {f : Mode → HashEnv → α → Res β} {s : β} (hf : ∀ m env, f m env r = ok s) : Loading (fun m env => load m env >>= f m env) s l := by
  refine ⟨fun m env => ?_, fun m => ?_, fun hl => panics_bind (h.crowded hl) _⟩
  · rcases h.sound m env with h1 | ⟨h1, h2, h3⟩
    · exact .inl (by rw [h1, ok_bind]; exact hf m env)
    · exact .inr ⟨h1, h2, panics_bind h3 _⟩
  · rw [h.calm m, ok_bind]
    exact hf m listEnv

/-! ## Tables -/

theorem Discordant.mono {l l' : List BitVecValue} (h : Discordant l) (hs : ∀ k ∈ l, k ∈ l') : Discordant l' := by
  obtain ⟨k, hk, k', hk', h1⟩ := h
  exact ⟨k, hs k hk, k', hs k' hk', h1⟩

theorem mem_keys_insert {acc : HMap BitVecValue BitVecValue} {k v x : BitVecValue} :
    x ∈ (acc.insert k v).entries.map Prod.fst ↔ x = k ∨ x ∈ acc.entries.map Prod.fst := by
  show x ∈ (((k, v) :: acc.entries.filter fun e => e.1 ≠ k).map Prod.fst) ↔ _
  rw [List.map_cons, List.mem_cons]
  constructor
  · rintro (h | h)
    · exact .inl h
    · obtain ⟨e, he, rfl⟩ := List.mem_map.mp h
      exact .inr (List.mem_map.mpr ⟨e, (List.mem_filter.mp he).1, rfl⟩)
  · rintro (h | h)
    · exact .inl h
    · obtain ⟨e, he, rfl⟩ := List.mem_map.mp h
      by_cases hk : e.1 = k
      · exact .inl hk
      · exact .inr (List.mem_map.mpr ⟨e, List.mem_filter.mpr ⟨he, by simpa using hk⟩, rfl⟩)

/-- The indices after one more entry. -/
theorem mem_indices {acc : HMap BitVecValue BitVecValue} {k v x : BitVecValue} {l : List BitVecValue} :
    x ∈ l ++ (acc.insert k v).entries.map Prod.fst ↔ x ∈ (k :: l) ++ acc.entries.map Prod.fst := by
  rw [List.mem_append, mem_keys_insert, List.cons_append, List.mem_cons, List.mem_append]
  constructor
  · rintro (h | h | h)
    · exact .inr (.inl h)
    · exact .inl h
    · exact .inr (.inr h)
  · rintro (h | h | h)
    · exact .inr (.inl h)
    · exact .inl h
    · exact .inr (.inr h)

theorem not_fits {k k' : BitVecValue} (h : ¬ Fits .debug k k') : k.width = k'.width ∧ k.words.length ≠ k'.words.length := by
  unfold Fits at h
  constructor
  · apply Classical.byContradiction
    exact fun hw => h fun _ e => absurd e hw
  · exact fun hl => h fun _ _ => hl

theorem lookup_cases (m : Mode) (env : HashEnv) (acc : HMap BitVecValue BitVecValue) (k : BitVecValue) :
    lookupOwned m env acc k = ok () ∨
      (m = .debug ∧ (∃ k' ∈ acc.entries.map Prod.fst, ¬ Fits .debug k k') ∧ Panics (lookupOwned m env acc k)) := by
  cases h : lookupOwned m env acc k with
  | ok u => exact .inl rfl
  | panic p =>
    refine .inr ?_
    have hn : ¬ ∀ k' ∈ acc.entries.map Prod.fst, Fits m k k' := by
      intro hf
      rw [lookupOwned_ok env hf] at h
      cases h
    cases m with
    | release => exact absurd (fun k' _ (hm : Mode.release = .debug) => nomatch hm) hn
    | debug =>
      refine ⟨rfl, ?_, ⟨_, rfl⟩⟩
      apply Classical.byContradiction
      intro hne
      exact hn fun k' hk' => Classical.byContradiction fun hf => hne ⟨k', hk', hf⟩

theorem loadEntries_step {m : Mode} {env : HashEnv} {acc : HMap BitVecValue BitVecValue} {e : Serde × Serde} {es : List (Serde × Serde)}
    {k v : BitVecValue} (h1 : readBitVec e.1 = some k) (h2 : readBitVec e.2 = some v) :
    loadEntries m env acc (e :: es) = lookupOwned m env acc k >>= fun _ => loadEntries m env (acc.insert k v) es := by
  show (match readBitVec e.1 with | none => _ | some k => _) = _
  rw [h1]
  show (match readBitVec e.2 with | none => _ | some k => _) = _
  rw [h2]

theorem readEntries_step {acc : HMap BitVecValue BitVecValue} {e : Serde × Serde} {es : List (Serde × Serde)}
    {k v : BitVecValue} (h1 : readBitVec e.1 = some k) (h2 : readBitVec e.2 = some v) :
    readEntries readBitVec readBitVec acc (e :: es) = readEntries readBitVec readBitVec (acc.insert k v) es := by
  show ((readBitVec e.1).bind fun k => (readBitVec e.2).bind fun v => _) = _
  rw [h1, h2]
  rfl

/-- An entry that is rejected. -/
theorem entry_rejected {e : Serde × Serde} (h : readBitVec e.1 = none ∨ readBitVec e.2 = none) (es : List (Serde × Serde)) :
    (∀ m env acc, loadEntries m env acc (e :: es) = ok none) ∧ (∀ acc, readEntries readBitVec readBitVec acc (e :: es) = none) ∧
      enteredIndices (e :: es) = [] := by
  unfold loadEntries readEntries enteredIndices
  rcases h with h | h
  · rw [h]
    exact ⟨fun _ _ _ => rfl, fun _ => rfl, rfl⟩
  · rw [h]
    cases readBitVec e.1 <;> exact ⟨fun _ _ _ => rfl, fun _ => rfl, rfl⟩

theorem enteredIndices_step {e : Serde × Serde} {es : List (Serde × Serde)} {k v : BitVecValue} (h1 : readBitVec e.1 = some k)
    (h2 : readBitVec e.2 = some v) : enteredIndices (e :: es) = k :: enteredIndices es := by
  rw [enteredIndices, h1, h2]

theorem entry_cases (e : Serde × Serde) : (readBitVec e.1 = none ∨ readBitVec e.2 = none) ∨
    ∃ k v, readBitVec e.1 = some k ∧ readBitVec e.2 = some v := by
  cases readBitVec e.1 with
  | none => exact .inl (.inl rfl)
  | some k => cases readBitVec e.2 with
    | none => exact .inl (.inr rfl)
    | some v => exact .inr ⟨k, v, rfl, rfl⟩

theorem loadEntries_calm (m : Mode) (es : List (Serde × Serde)) (acc : HMap BitVecValue BitVecValue) :
    loadEntries m listEnv acc es = ok (readEntries readBitVec readBitVec acc es) := by
  induction es generalizing acc with
  | nil => rfl
  | cons e es ih =>
    rcases entry_cases e with h | ⟨k, v, h1, h2⟩
    · rw [(entry_rejected h es).1, (entry_rejected h es).2.1]
    · rw [loadEntries_step h1 h2, readEntries_step h1 h2, list_lookup, ok_bind, ih]

theorem loadEntries_sound (m : Mode) (env : HashEnv) (es : List (Serde × Serde)) (acc : HMap BitVecValue BitVecValue) :
    loadEntries m env acc es = ok (readEntries readBitVec readBitVec acc es) ∨
      (m = .debug ∧ Discordant (enteredIndices es ++ acc.entries.map Prod.fst) ∧ Panics (loadEntries m env acc es)) := by
  induction es generalizing acc with
  | nil => exact .inl rfl
  | cons e es ih =>
    rcases entry_cases e with h | ⟨k, v, h1, h2⟩
    · rw [(entry_rejected h es).1, (entry_rejected h es).2.1]
      exact .inl rfl
    · rw [loadEntries_step h1 h2, readEntries_step h1 h2, enteredIndices_step h1 h2]
      rcases lookup_cases m env acc k with hl | ⟨hm, ⟨k', hk', hf⟩, hp⟩
      · rw [hl, ok_bind]
        rcases ih (acc.insert k v) with hi | ⟨hm, hd, hp⟩
        · exact .inl hi
        · exact .inr ⟨hm, hd.mono fun x hx => mem_indices.mp hx, hp⟩
      · refine .inr ⟨hm, ⟨k, ?_, k', List.mem_append_right _ hk', not_fits hf⟩, panics_bind hp _⟩
        exact List.mem_append_left _ List.mem_cons_self

theorem loadEntries_crowded (es : List (Serde × Serde)) (acc : HMap BitVecValue BitVecValue) (hacc : ¬ Discordant (acc.entries.map Prod.fst))
    (hd : Discordant (enteredIndices es ++ acc.entries.map Prod.fst)) : Panics (loadEntries .debug (crowdedEnv 0) acc es) := by
  induction es generalizing acc with
  | nil => exact absurd hd hacc
  | cons e es ih =>
    rcases entry_cases e with h | ⟨k, v, h1, h2⟩
    · rw [(entry_rejected h es).2.2] at hd
      exact absurd hd hacc
    · rw [loadEntries_step h1 h2]
      rw [enteredIndices_step h1 h2] at hd
      by_cases hf : ∀ k' ∈ acc.entries.map Prod.fst, Fits .debug k k'
      · rw [lookupOwned_ok _ hf, ok_bind]
        refine ih _ ?_ (hd.mono fun x hx => mem_indices.mpr hx)
        rintro ⟨a, ha', b, hb, hw, hl⟩
        rcases mem_keys_insert.mp ha' with rfl | ha
        · rcases mem_keys_insert.mp hb with rfl | hb
          · exact hl rfl
          · exact hl (hf b hb rfl hw)
        · rcases mem_keys_insert.mp hb with h | hb
          · subst h
            exact hl (hf a ha rfl hw.symm).symm
          · exact hacc ⟨a, ha, b, hb, hw, hl⟩
      · obtain ⟨k', hk'⟩ := Classical.not_forall.mp hf
        obtain ⟨hk', hf⟩ := Classical.not_imp.mp hk'
        exact panics_bind (crowded_lookup hk' hf) _

theorem loadEntries_loading (es : List (Serde × Serde)) :
    Loading (fun m env => loadEntries m env HMap.empty es) (readEntries readBitVec readBitVec HMap.empty es) (enteredIndices es) := by
  have h0 : (HMap.empty : HMap BitVecValue BitVecValue).entries.map Prod.fst = [] := rfl
  refine ⟨fun m env => ?_, fun m => loadEntries_calm m es _, fun hd => loadEntries_crowded es _ ?_ ?_⟩
  · have := loadEntries_sound m env es HMap.empty
    rwa [h0, List.append_nil] at this
  · rw [h0]
    exact not_discordant_nil
  · rwa [h0, List.append_nil]

/-! ## Storage -/

/-- The indices that reading a table enters. -/
def mapIndices : Serde → List BitVecValue
  | .map es => enteredIndices es
  | _ => []

theorem loadHMap_loading (d : Serde) : Loading (fun m env => loadHMap m env d) (readHMap readBitVec readBitVec d)
    (mapIndices d) := by
  cases d with
  | map es => exact loadEntries_loading es
  | num n => exact Loading.pure _
  | seq l => exact Loading.pure _
  | fields fs => exact Loading.pure _
  | variant name c => exact Loading.pure _

theorem loadSparseImpl_loading (d : Serde) : Loading (fun m env => loadSparseImpl m env d) (readSparseImpl d) (storageIndices d) := by
  cases d with
  | num n => exact Loading.pure _
  | seq l => exact Loading.pure _
  | fields fs => exact Loading.pure _
  | map es => exact Loading.pure _
  | variant name c =>
    cases c with
    | num n => rw [storageIndices]; exact Loading.pure _; simp
    | fields fs => rw [storageIndices]; exact Loading.pure _; simp
    | map es => rw [storageIndices]; exact Loading.pure _; simp
    | variant name c => rw [storageIndices]; exact Loading.pure _; simp
    | seq l =>
      match l with
      | [] => rw [storageIndices]; exact Loading.pure _; simp
      | [d] => rw [storageIndices]; exact Loading.pure _; simp
      | d :: table :: rest =>
        by_cases hn : name = "BigBig"
        · subst hn
          have hread : readSparseImpl (.variant "BigBig" (.seq (d :: table :: rest))) =
              (readBitVec d).bind fun d => if rest.isEmpty then (readHMap readBitVec readBitVec table).map (.bigbig d) else none := by
            unfold readSparseImpl
            cases rest with
            | nil =>
              dsimp only
              rw [if_neg (by decide), if_neg (by decide), if_pos rfl]
              cases readBitVec d with
              | none => rfl
              | some d => cases readHMap readBitVec readBitVec table <;> rfl
            | cons x rest => cases readBitVec d <;> rfl
          rw [hread]
          unfold loadSparseImpl
          simp only [if_true]
          cases hd : readBitVec d with
          | none =>
            have : storageIndices (.variant "BigBig" (.seq (d :: table :: rest))) = [] := by
              cases table <;> simp [storageIndices, hd]
            rw [this]
            exact Loading.pure _
          | some d' =>
            have : storageIndices (.variant "BigBig" (.seq (d :: table :: rest))) = mapIndices table := by
              cases table <;> simp [storageIndices, mapIndices, hd]
            rw [this]
            exact (loadHMap_loading table).bind (s := if rest.isEmpty then (readHMap readBitVec readBitVec table).map (SparseArrayImpl.bigbig d') else none)
              (f := fun _ _ t => ok (if rest.isEmpty then t.map (SparseArrayImpl.bigbig d') else none)) fun _ _ => rfl
        · have : storageIndices (.variant name (.seq (d :: table :: rest))) = [] := by
            unfold storageIndices
            split
            · rename_i h
              cases h
              exact absurd rfl hn
            · rfl
          rw [this]
          unfold loadSparseImpl
          simp only [if_neg hn]
          exact Loading.pure _

/-! ## Fields -/

/-- The value of a field, if `acc` was read before. -/
def fieldValue {α : Type} (read : Serde → Option α) : Option α → List (String × Serde) → Option α
  | some x, [] => some x
  | none, [f] => read f.2
  | _, _ => none

theorem fieldValue_cons {α : Type} (read : Serde → Option α) (f : String × Serde) (l : List (String × Serde)) :
    fieldValue read none (f :: l) = (read f.2).bind fun x => fieldValue read (some x) l := by
  cases l with
  | nil => cases h : read f.2 <;> simp [fieldValue, h]
  | cons g l => cases read f.2 <;> rfl

theorem fieldValue_some_cons {α : Type} (read : Serde → Option α) (x : α) (f : String × Serde) (l : List (String × Serde)) :
    fieldValue read (some x) (f :: l) = none := rfl

/-- The fields with this name. -/
def fieldsNamed (name : String) (fs : List (String × Serde)) : List (String × Serde) := fs.filter fun f => f.1 = name

theorem fieldsNamed_cons {name : String} {f : String × Serde} (h : f.1 = name) (fs : List (String × Serde)) : fieldsNamed name (f :: fs) = f :: fieldsNamed name fs := by
  unfold fieldsNamed
  rw [List.filter_cons_of_pos (by simpa using h)]

theorem fieldsNamed_skip {name : String} {f : String × Serde} (h : f.1 ≠ name) (fs : List (String × Serde)) : fieldsNamed name (f :: fs) = fieldsNamed name fs := by
  unfold fieldsNamed
  rw [List.filter_cons_of_neg (by simpa using h)]

/-- What reading the fields gives. -/
def fieldsValue {α : Type} (read : Serde → Option α) (iw dw : Option Nat) (data : Option α) (fs : List (String × Serde)) : Option (Nat × Nat × α) :=
  (fieldValue (readNum U32) iw (fieldsNamed "index_width" fs)).bind fun iw => (fieldValue (readNum U32) dw (fieldsNamed "data_width" fs)).bind fun dw =>
    (fieldValue read data (fieldsNamed "data" fs)).map fun x => (iw, dw, x)

theorem fieldsValue_none_left {α : Type} {read : Serde → Option α} {iw dw : Option Nat} {data : Option α} {fs : List (String × Serde)}
    (h : fieldValue (readNum U32) iw (fieldsNamed "index_width" fs) = none) : fieldsValue read iw dw data fs = none := by
  unfold fieldsValue
  rw [h]
  rfl

theorem fieldsValue_none_mid {α : Type} {read : Serde → Option α} {iw dw : Option Nat} {data : Option α} {fs : List (String × Serde)}
    (h : fieldValue (readNum U32) dw (fieldsNamed "data_width" fs) = none) : fieldsValue read iw dw data fs = none := by
  unfold fieldsValue
  rw [h]
  cases fieldValue (readNum U32) iw (fieldsNamed "index_width" fs) <;> rfl

theorem fieldsValue_none_right {α : Type} {read : Serde → Option α} {iw dw : Option Nat} {data : Option α} {fs : List (String × Serde)}
    (h : fieldValue read data (fieldsNamed "data" fs) = none) : fieldsValue read iw dw data fs = none := by
  unfold fieldsValue
  rw [h]
  cases fieldValue (readNum U32) iw (fieldsNamed "index_width" fs) <;> cases fieldValue (readNum U32) dw (fieldsNamed "data_width" fs) <;> rfl

/-- Nothing can panic after the storage was read. -/
theorem loadFields_after {α : Type} (load : Serde → Res (Option α)) (read : Serde → Option α) (x : α) (fs : List (String × Serde))
    (iw dw : Option Nat) : loadFields load iw dw (some x) fs = ok (fieldsValue read iw dw (some x) fs) := by
  induction fs generalizing iw dw with
  | nil => cases iw <;> cases dw <;> rfl
  | cons f fs ih =>
    unfold loadFields
    by_cases h1 : f.1 = "index_width"
    · have n2 := fieldsNamed_skip (name := "data_width") (f := f) (by rw [h1]; decide) fs
      have n3 := fieldsNamed_skip (name := "data") (f := f) (by rw [h1]; decide) fs
      rw [if_pos h1]
      cases iw with
      | some n => rw [fieldsValue_none_left (by rw [fieldsNamed_cons h1]; rfl)]; rfl
      | none =>
        have hg : fieldValue (readNum U32) none (fieldsNamed "index_width" (f :: fs)) =
            (readNum U32 f.2).bind fun n => fieldValue (readNum U32) (some n) (fieldsNamed "index_width" fs) := by rw [fieldsNamed_cons h1, fieldValue_cons]
        cases hr : readNum U32 f.2 with
        | none => rw [fieldsValue_none_left (by rw [hg, hr]; rfl)]; rfl
        | some n =>
          simp only [Option.isSome_none, Bool.false_eq_true, if_false]
          rw [ih]
          unfold fieldsValue
          rw [hg, n2, n3, hr]
          rfl
    · rw [if_neg h1]
      have n1 := fieldsNamed_skip h1 fs
      by_cases h2 : f.1 = "data_width"
      · have n3 := fieldsNamed_skip (name := "data") (f := f) (by rw [h2]; decide) fs
        rw [if_pos h2]
        cases dw with
        | some n => rw [fieldsValue_none_mid (by rw [fieldsNamed_cons h2]; rfl)]; rfl
        | none =>
          have hg : fieldValue (readNum U32) none (fieldsNamed "data_width" (f :: fs)) =
            (readNum U32 f.2).bind fun n => fieldValue (readNum U32) (some n) (fieldsNamed "data_width" fs) := by rw [fieldsNamed_cons h2, fieldValue_cons]
          cases hr : readNum U32 f.2 with
          | none => rw [fieldsValue_none_mid (by rw [hg, hr]; rfl)]; rfl
          | some n =>
            simp only [Option.isSome_none, Bool.false_eq_true, if_false]
            rw [ih]
            unfold fieldsValue
            rw [hg, n1, n3, hr]
            rfl
      · rw [if_neg h2]
        have n2 := fieldsNamed_skip h2 fs
        by_cases h3 : f.1 = "data"
        · rw [if_pos h3, fieldsValue_none_right (by rw [fieldsNamed_cons h3]; rfl)]
          rfl
        · rw [if_neg h3, ih]
          unfold fieldsValue
          rw [n1, n2, fieldsNamed_skip h3 fs]

/-- The fields before the storage can be read, if `acc` was read before. -/
def passable (acc : Option Nat) (l : List (String × Serde)) : Bool :=
  match l with
  | [] => true
  | [f] => acc.isNone && (readNum U32 f.2).isSome
  | _ => false

theorem passable_readable (name : String) (fs : List (String × Serde)) : passable none (fieldsNamed name fs) = widthReadable name fs := by
  unfold widthReadable
  show passable none (fs.filter fun f => f.1 = name) = _
  cases h : fs.filter fun f => f.1 = name with
  | nil => rfl
  | cons f l => cases l <;> simp [passable, U32]

theorem passable_some_cons (n : Nat) (f : String × Serde) (l : List (String × Serde)) : passable (some n) (f :: l) = false := by
  cases l <;> rfl

theorem passable_none_cons {f : String × Serde} {n : Nat} (h : readNum U32 f.2 = some n) (l : List (String × Serde)) :
    passable none (f :: l) = passable (some n) l := by
  cases l with
  | nil => simp [passable, h]
  | cons g l => rw [passable_some_cons]; rfl

theorem passable_reject {f : String × Serde} (h : readNum U32 f.2 = none) (acc : Option Nat) (l : List (String × Serde)) :
    passable acc (f :: l) = false := by
  cases l <;> simp [passable, h]

/-- The indices that reading the fields enters. -/
def fieldIndices (idx : Serde → List BitVecValue) (iw dw : Option Nat) (fs : List (String × Serde)) : List BitVecValue :=
  match splitAtData fs with
  | some (before, storage) =>
    if passable iw (fieldsNamed "index_width" before) && passable dw (fieldsNamed "data_width" before) then idx storage else []
  | none => []

theorem splitAtData_skip {f : String × Serde} (h : f.1 ≠ "data") (fs : List (String × Serde)) :
    splitAtData (f :: fs) = (splitAtData fs).map fun r => (f :: r.1, r.2) := by
  rw [splitAtData, if_neg h]

theorem loadFields_loading {α : Type} {load : Mode → HashEnv → Serde → Res (Option α)} {read : Serde → Option α} {idx : Serde → List BitVecValue}
    (hl : ∀ d, Loading (fun m env => load m env d) (read d) (idx d)) (fs : List (String × Serde)) (iw dw : Option Nat) :
    Loading (fun m env => loadFields (load m env) iw dw none fs) (fieldsValue read iw dw none fs) (fieldIndices idx iw dw fs) := by
  induction fs generalizing iw dw with
  | nil =>
    have h : ∀ m env, loadFields (load m env) iw dw none [] = ok (fieldsValue read iw dw none []) := by
      intro m env
      cases iw <;> cases dw <;> rfl
    simp only [h]
    exact Loading.pure _
  | cons f fs ih =>
    unfold loadFields
    by_cases h1 : f.1 = "index_width"
    · have n2 := fun l => fieldsNamed_skip (name := "data_width") (f := f) (by rw [h1]; decide) l
      have n3 := fieldsNamed_skip (name := "data") (f := f) (by rw [h1]; decide) fs
      have hs := splitAtData_skip (f := f) (by rw [h1]; decide) fs
      simp only [if_pos h1]
      cases iw with
      | some n =>
        rw [fieldsValue_none_left (by rw [fieldsNamed_cons h1]; rfl)]
        have : fieldIndices idx (some n) dw (f :: fs) = [] := by
          unfold fieldIndices
          rw [hs]
          cases splitAtData fs with
          | none => rfl
          | some r =>
            simp only [Option.map_some, fieldsNamed_cons h1, passable_some_cons]
            rfl
        rw [this]
        exact Loading.pure _
      | none =>
        have hg : fieldValue (readNum U32) none (fieldsNamed "index_width" (f :: fs)) =
            (readNum U32 f.2).bind fun n => fieldValue (readNum U32) (some n) (fieldsNamed "index_width" fs) := by rw [fieldsNamed_cons h1, fieldValue_cons]
        cases hr : readNum U32 f.2 with
        | none =>
          rw [fieldsValue_none_left (by rw [hg, hr]; rfl)]
          have : fieldIndices idx none dw (f :: fs) = [] := by
            unfold fieldIndices
            rw [hs]
            cases splitAtData fs with
            | none => rfl
            | some r =>
              simp only [Option.map_some, fieldsNamed_cons h1, passable_reject hr]
              rfl
          rw [this]
          exact Loading.pure _
        | some n =>
          simp only [Option.isSome_none, Bool.false_eq_true, if_false]
          have e1 : fieldsValue read none dw none (f :: fs) = fieldsValue read (some n) dw none fs := by
            unfold fieldsValue
            rw [hg, n2, n3, hr]
            rfl
          have e2 : fieldIndices idx none dw (f :: fs) = fieldIndices idx (some n) dw fs := by
            unfold fieldIndices
            rw [hs]
            cases splitAtData fs with
            | none => rfl
            | some r => simp only [Option.map_some, fieldsNamed_cons h1, passable_none_cons hr, n2]
          rw [e1, e2]
          exact ih (some n) dw
    · simp only [if_neg h1]
      have n1 := fun l => fieldsNamed_skip h1 l
      by_cases h2 : f.1 = "data_width"
      · have n3 := fieldsNamed_skip (name := "data") (f := f) (by rw [h2]; decide) fs
        have hs := splitAtData_skip (f := f) (by rw [h2]; decide) fs
        simp only [if_pos h2]
        cases dw with
        | some n =>
          rw [fieldsValue_none_mid (by rw [fieldsNamed_cons h2]; rfl)]
          have : fieldIndices idx iw (some n) (f :: fs) = [] := by
            unfold fieldIndices
            rw [hs]
            cases splitAtData fs with
            | none => rfl
            | some r =>
              simp only [Option.map_some, fieldsNamed_cons h2, passable_some_cons, Bool.and_false]
              rfl
          rw [this]
          exact Loading.pure _
        | none =>
          have hg : fieldValue (readNum U32) none (fieldsNamed "data_width" (f :: fs)) =
            (readNum U32 f.2).bind fun n => fieldValue (readNum U32) (some n) (fieldsNamed "data_width" fs) := by rw [fieldsNamed_cons h2, fieldValue_cons]
          cases hr : readNum U32 f.2 with
          | none =>
            rw [fieldsValue_none_mid (by rw [hg, hr]; rfl)]
            have : fieldIndices idx iw none (f :: fs) = [] := by
              unfold fieldIndices
              rw [hs]
              cases splitAtData fs with
              | none => rfl
              | some r =>
                simp only [Option.map_some, fieldsNamed_cons h2, passable_reject hr, Bool.and_false]
                rfl
            rw [this]
            exact Loading.pure _
          | some n =>
            simp only [Option.isSome_none, Bool.false_eq_true, if_false]
            have e1 : fieldsValue read iw none none (f :: fs) = fieldsValue read iw (some n) none fs := by
              unfold fieldsValue
              rw [hg, n1, n3, hr]
              rfl
            have e2 : fieldIndices idx iw none (f :: fs) = fieldIndices idx iw (some n) fs := by
              unfold fieldIndices
              rw [hs]
              cases splitAtData fs with
              | none => rfl
              | some r => simp only [Option.map_some, fieldsNamed_cons h2, passable_none_cons hr, n1]
            rw [e1, e2]
            exact ih iw (some n)
      · simp only [if_neg h2]
        have n2 := fun l => fieldsNamed_skip h2 l
        by_cases h3 : f.1 = "data"
        · simp only [if_pos h3]
          have e2 : fieldIndices idx iw dw (f :: fs) = idx f.2 := by
            unfold fieldIndices
            rw [splitAtData, if_pos h3]
            rfl
          rw [e2]
          refine (hl f.2).bind (f := fun m env x => match x with | none => ok none | some x => loadFields (load m env) iw dw (some x) fs) fun m env => ?_
          have hg : fieldValue read none (fieldsNamed "data" (f :: fs)) =
              (read f.2).bind fun x => fieldValue read (some x) (fieldsNamed "data" fs) := by rw [fieldsNamed_cons h3, fieldValue_cons]
          cases hr : read f.2 with
          | none => rw [fieldsValue_none_right (by rw [hg, hr]; rfl)]
          | some x =>
            dsimp only
            rw [loadFields_after (load m env) read x]
            unfold fieldsValue
            rw [hg, n1, n2, hr]
            rfl
        · simp only [if_neg h3]
          have e1 : fieldsValue read iw dw none (f :: fs) = fieldsValue read iw dw none fs := by
            unfold fieldsValue
            rw [n1, n2, fieldsNamed_skip h3 fs]
          have e2 : fieldIndices idx iw dw (f :: fs) = fieldIndices idx iw dw fs := by
            unfold fieldIndices
            rw [splitAtData_skip h3]
            cases splitAtData fs with
            | none => rfl
            | some r => simp only [Option.map_some, n1, n2]
          rw [e1, e2]
          exact ih iw dw

theorem fieldValue_field {α : Type} (read : Serde → Option α) (fs : List (String × Serde)) (name : String) :
    fieldValue read none (fieldsNamed name fs) = (field fs name).bind read := by
  unfold field
  show fieldValue read none (fs.filter fun f => f.1 = name) = _
  cases h : fs.filter fun f => f.1 = name with
  | nil => rfl
  | cons f l => cases l <;> rfl

theorem loadSparse_loading (d : Serde) : Loading (fun m env => loadSparse m env d) (readSparse d) (sparseIndices d) := by
  have key : Loading (fun m env => loadArrayFields (loadSparseImpl m env) d) (readArrayFields readSparseImpl d) (sparseIndices d) := by
    cases d with
    | num n => exact Loading.pure _
    | map es => exact Loading.pure _
    | variant name c => exact Loading.pure _
    | fields fs =>
      have h := loadFields_loading loadSparseImpl_loading fs none none
      have e1 : fieldsValue readSparseImpl none none none fs = readArrayFields readSparseImpl (.fields fs) := by
        unfold fieldsValue
        rw [fieldValue_field, fieldValue_field, fieldValue_field]
        unfold readArrayFields
        dsimp only
        cases (field fs "index_width").bind (readNum U32) with
        | none => rfl
        | some iw => cases (field fs "data_width").bind (readNum U32) with
          | none => rfl
          | some dw => cases (field fs "data").bind readSparseImpl <;> rfl
      have e2 : fieldIndices storageIndices none none fs = sparseIndices (.fields fs) := by
        unfold fieldIndices sparseIndices
        simp only [passable_readable]
        rfl
      rw [e1, e2] at h
      exact h
    | seq l =>
      match l with
      | [] => exact Loading.pure _
      | [_] => exact Loading.pure _
      | [_, _] => exact Loading.pure _
      | iw :: dw :: data :: rest =>
        have hread : readArrayFields readSparseImpl (.seq (iw :: dw :: data :: rest)) = (readNum U32 iw).bind fun iw => (readNum U32 dw).bind fun dw =>
            if rest.isEmpty then (readSparseImpl data).map fun x => (iw, dw, x) else none := by
          unfold readArrayFields
          cases rest with
          | nil =>
            dsimp only
            cases readNum U32 iw with
            | none => rfl
            | some iw => cases readNum U32 dw with
              | none => rfl
              | some dw => cases readSparseImpl data <;> rfl
          | cons x rest =>
            dsimp only
            cases readNum U32 iw with
            | none => rfl
            | some iw => cases readNum U32 dw <;> rfl
        rw [hread]
        unfold loadArrayFields sparseIndices
        dsimp only
        rw [show (2 ^ 32 : Nat) = U32 from rfl]
        cases readNum U32 iw with
        | none => exact Loading.pure _
        | some iw => cases readNum U32 dw with
          | none => exact Loading.pure _
          | some dw =>
            exact (loadSparseImpl_loading data).bind (s := if rest.isEmpty then (readSparseImpl data).map fun x => (iw, dw, x) else none)
              (f := fun _ _ t => ok (if rest.isEmpty then t.map fun x => (iw, dw, x) else none)) fun _ _ => rfl
  exact key.bind fun _ _ => rfl

theorem loadArrayImpl_loading (d : Serde) : Loading (fun m env => loadArrayImpl m env d) (readArrayImpl d) (variantIndices d) := by
  cases d with
  | num n => exact Loading.pure _
  | map es => exact Loading.pure _
  | seq l => exact Loading.pure _
  | fields fs => exact Loading.pure _
  | variant name c =>
    unfold loadArrayImpl
    by_cases hn : name = "Sparse"
    · subst hn
      simp only [if_true]
      have e : readArrayImpl (.variant "Sparse" c) = (readSparse c).map .sparse := by
        rw [readArrayImpl, if_pos rfl]
      rw [e]
      exact (loadSparse_loading c).bind fun _ _ => rfl
    · simp only [if_neg hn]
      have : variantIndices (.variant name c) = [] := by
        unfold variantIndices
        split
        · rename_i h
          cases h
          exact absurd rfl hn
        · rfl
      rw [this]
      exact Loading.pure _

theorem loadOuter_after (m : Mode) (env : HashEnv) (a : ArrayValue) (fs : List (String × Serde)) :
    loadOuter m env (some a) fs = ok (fieldValue readArrayImpl (some a) (fieldsNamed "data" fs)) := by
  induction fs with
  | nil => rfl
  | cons f fs ih =>
    unfold loadOuter
    by_cases h : f.1 = "data"
    · rw [if_pos h, fieldsNamed_cons h]
      rfl
    · rw [if_neg h, ih, fieldsNamed_skip h]

theorem loadOuter_loading (fs : List (String × Serde)) :
    Loading (fun m env => loadOuter m env none fs) (fieldValue readArrayImpl none (fieldsNamed "data" fs)) (indicesEntered (.fields fs)) := by
  induction fs with
  | nil => exact Loading.pure _
  | cons f fs ih =>
    unfold loadOuter
    by_cases h : f.1 = "data"
    · simp only [if_pos h]
      have e : indicesEntered (.fields (f :: fs)) = variantIndices f.2 := by
        unfold indicesEntered
        simp only [splitAtData, if_pos h]
      rw [e, fieldsNamed_cons h, fieldValue_cons]
      refine (loadArrayImpl_loading f.2).bind (f := fun m env x => match x with | none => ok none | some a => loadOuter m env (some a) fs) fun m env => ?_
      cases readArrayImpl f.2 with
      | none => rfl
      | some a => exact loadOuter_after m env a fs
    · simp only [if_neg h]
      have e : indicesEntered (.fields (f :: fs)) = indicesEntered (.fields fs) := by
        unfold indicesEntered
        simp only [splitAtData_skip h]
        cases splitAtData fs <;> rfl
      rw [e, fieldsNamed_skip h]
      exact ih

theorem loadArray_loading (d : Serde) : Loading (fun m env => loadArray m env d) (readArray d) (indicesEntered d) := by
  cases d with
  | num n => exact Loading.pure _
  | map es => exact Loading.pure _
  | variant name c => exact Loading.pure _
  | fields fs =>
    have h := loadOuter_loading fs
    rw [fieldValue_field] at h
    exact h
  | seq l =>
    match l with
    | [] => exact Loading.pure _
    | d :: rest =>
      have hread : readArray (.seq (d :: rest)) = if rest.isEmpty then readArrayImpl d else none := by
        unfold readArray
        cases rest <;> rfl
      rw [hread]
      exact (loadArrayImpl_loading d).bind fun _ _ => rfl


/-! ## The property -/

/-- **C129** (full statement, false of the code): reading a document as an array never panics. -/
def C129_statement : Prop := ∀ (m : Mode) (env : HashEnv) (d : Serde), ∃ r, loadArray m env d = ok r

/-- **C129** A release build never panics, and a debug build does not if no two indices that are read have the same width and different numbers of
words. Missing: those documents. -/
theorem C129_loading_partial (m : Mode) (env : HashEnv) (d : Serde) (h : m = .debug → ¬ Discordant (indicesEntered d)) :
    loadArray m env d = ok (readArray d) := by
  rcases (loadArray_loading d).sound m env with h1 | ⟨hm, hd, -⟩
  · exact h1
  · exact absurd hd (h hm)

/-- A document with an index of 70 bits in two words, and another one in one word. -/
def discordDoc : Serde := givenSparse 70 4 (.variant "BigBig" (.seq [givenValue 4 [1], .map [(givenValue 70 [1, 0], givenValue 4 [2]),
  (givenValue 70 [1], givenValue 4 [3])]]))

theorem discordDoc_indices : indicesEntered discordDoc = [⟨70, [1, 0]⟩, ⟨70, [1]⟩] := by decide +kernel

/-- **C129** is false of the code. -/
theorem C129_refuted : ¬ C129_statement := by
  intro h
  obtain ⟨r, hr⟩ := h .debug (crowdedEnv 0) discordDoc
  refine not_panics ((loadArray_loading discordDoc).crowded ?_) hr
  rw [discordDoc_indices]
  exact ⟨_, List.mem_cons_self, _, List.mem_cons_of_mem _ List.mem_cons_self, rfl, by decide⟩

/-- **C129** (exact behaviour): reading can panic exactly in a debug build on documents with such indices. It never has to: that depends on hash bits.
If it does not panic, a debug build and a release build read the same. -/
theorem C129_exact (m : Mode) (d : Serde) :
    ((∃ env, Panics (loadArray m env d)) ↔ m = .debug ∧ Discordant (indicesEntered d)) ∧
    (∃ env, loadArray m env d = ok (readArray d)) ∧ (∀ env r, loadArray m env d = ok r → r = readArray d) := by
  have hl := loadArray_loading d
  refine ⟨⟨?_, ?_⟩, ⟨listEnv, hl.calm m⟩, fun env r hr => ?_⟩
  · rintro ⟨env, hp⟩
    rcases hl.sound m env with h1 | ⟨hm, hd, -⟩
    · exact absurd h1 fun h1 => not_panics hp h1
    · exact ⟨hm, hd⟩
  · rintro ⟨rfl, hd⟩
    exact ⟨_, hl.crowded hd⟩
  · rcases hl.sound m env with h1 | ⟨-, -, hp⟩
    · rw [h1] at hr
      cases hr
      rfl
    · exact absurd hr fun hr => not_panics hp hr

/-! ## Accepted documents -/

theorem readEntries_keys {es : List (Serde × Serde)} {acc map : HMap BitVecValue BitVecValue}
    (h : readEntries readBitVec readBitVec acc es = some map) (k : BitVecValue) :
    k ∈ map.entries.map Prod.fst ↔ k ∈ enteredIndices es ++ acc.entries.map Prod.fst := by
  induction es generalizing acc with
  | nil =>
    cases h
    rfl
  | cons e es ih =>
    rcases entry_cases e with hr | ⟨x, v, h1, h2⟩
    · rw [(entry_rejected hr es).2.1] at h
      cases h
    · rw [readEntries_step h1 h2] at h
      rw [enteredIndices_step h1 h2, ih h, mem_indices]

/-- Only the indices matter. -/
theorem discordant_congr {l l' : List BitVecValue} (h : ∀ k, k ∈ l ↔ k ∈ l') : Discordant l ↔ Discordant l' :=
  ⟨fun hd => hd.mono fun k hk => (h k).mp hk, fun hd => hd.mono fun k hk => (h k).mpr hk⟩

theorem discordant_values {map : HMap BitVecValue BitVecValue} (h : map.Nodup) (dflt : Shape) (iw dw : Nat) :
    Discordant (map.entries.map Prod.fst) ↔ (⟨iw, dw, .long ⟨dflt, valuesOf map⟩⟩ : Account).Discordant := by
  have ht := valuesOf_tabled h
  constructor
  · rintro ⟨k, hk, k', hk', h1, h2⟩
    exact ⟨k.shape, k'.shape, ht.key_mem.mp hk, ht.key_mem.mp hk', h1, h2⟩
  · rintro ⟨s, s', hs, hs', h1, h2⟩
    obtain ⟨k, rfl⟩ := ht.named s hs
    obtain ⟨k', rfl⟩ := ht.named s' hs'
    exact ⟨k, ht.key_mem.mpr hs, k', ht.key_mem.mpr hs', h1, h2⟩

theorem storage_discordant {d : Serde} {x : SparseArrayImpl} (h : readSparseImpl d = some x) (iw dw : Nat) :
    Discordant (storageIndices d) ↔ (⟨iw, dw, x.hoard⟩ : Account).Discordant := by
  have other : ∀ {name : String} {c : Serde}, name ≠ "BigBig" → storageIndices (.variant name c) = [] := by
    intro name c hn
    unfold storageIndices
    split
    · rename_i h
      cases h
      exact absurd rfl hn
    · rfl
  unfold readSparseImpl at h
  split at h
  · rename_i name d t
    by_cases h1 : name = "U64U64"
    · rw [if_pos h1] at h
      rw [other (by rw [h1]; decide)]
      obtain ⟨_, -, h⟩ := Option.bind_eq_some_iff.mp h
      obtain ⟨_, -, h⟩ := Option.bind_eq_some_iff.mp h
      cases h
      exact ⟨fun h => absurd h not_discordant_nil, fun h => h.elim⟩
    · rw [if_neg h1] at h
      by_cases h2 : name = "U64Big"
      · rw [if_pos h2] at h
        rw [other (by rw [h2]; decide)]
        obtain ⟨_, -, h⟩ := Option.bind_eq_some_iff.mp h
        obtain ⟨_, -, h⟩ := Option.bind_eq_some_iff.mp h
        cases h
        exact ⟨fun h => absurd h not_discordant_nil, fun h => h.elim⟩
      · rw [if_neg h2] at h
        by_cases h3 : name = "BigBig"
        · rw [if_pos h3] at h
          obtain ⟨v, hv, h⟩ := Option.bind_eq_some_iff.mp h
          obtain ⟨map, hm, h⟩ := Option.bind_eq_some_iff.mp h
          cases h
          subst h3
          cases t with
          | map es =>
            have e : storageIndices (.variant "BigBig" (.seq [d, .map es])) = enteredIndices es := by simp [storageIndices, hv]
            rw [e]
            refine (discordant_congr fun k => ?_).trans (discordant_values (readHMap_sound (P := fun _ => True) (fun _ _ _ _ _ _ => trivial) hm).1 v.shape iw dw)
            have := readEntries_keys hm k
            rw [this]
            show _ ↔ k ∈ enteredIndices es ++ []
            rw [List.append_nil]
          | num n => cases hm
          | seq l => cases hm
          | fields fs => cases hm
          | variant name c => cases hm
        · rw [if_neg h3] at h
          cases h
  · cases h

theorem split_of_field {fs : List (String × Serde)} {d : Serde} (h : field fs "data" = some d) : ∃ before, splitAtData fs = some (before, d) ∧
    ∀ name n, (field fs name).bind (readNum U32) = some n → widthReadable name before = true := by
  have hf : ∃ f, fs.filter (fun f => f.1 = "data") = [f] ∧ f.2 = d := by
    unfold field at h
    cases hl : fs.filter fun f => f.1 = "data" with
    | nil => rw [hl] at h; cases h
    | cons f l =>
      cases l with
      | nil =>
        rw [hl] at h
        cases h
        exact ⟨f, rfl, rfl⟩
      | cons g l => rw [hl] at h; cases h
  clear h
  obtain ⟨f, hf, rfl⟩ := hf
  have hs : ∃ before after, splitAtData fs = some (before, f.2) ∧ fs = before ++ f :: after := by
    induction fs with
    | nil => cases hf
    | cons g fs ih =>
      by_cases hg : g.1 = "data"
      · rw [List.filter_cons_of_pos (by simpa using hg)] at hf
        obtain rfl := (List.cons.inj hf).1
        exact ⟨[], fs, by rw [splitAtData, if_pos hg], rfl⟩
      · rw [List.filter_cons_of_neg (by simpa using hg)] at hf
        obtain ⟨before, after, h1, h2⟩ := ih hf
        refine ⟨g :: before, after, ?_, by rw [h2]; rfl⟩
        rw [splitAtData_skip hg, h1]
        rfl
  obtain ⟨before, after, h1, h2⟩ := hs
  refine ⟨before, h1, fun name n hn => ?_⟩
  unfold field at hn
  rw [h2, List.filter_append] at hn
  unfold widthReadable
  cases hb : before.filter fun f => f.1 = name with
  | nil => rfl
  | cons g l =>
    rw [hb] at hn
    cases l with
    | cons g' l => cases hn
    | nil =>
      cases ha : (f :: after).filter fun f => f.1 = name with
      | cons x l => rw [ha] at hn; cases hn
      | nil =>
        rw [ha] at hn
        show (readNum U32 g.2).isSome = true
        rw [show readNum U32 g.2 = some n from hn]
        rfl

theorem sparse_discordant {d : Serde} {s : SparseArrayValue} (h : readSparse d = some s) :
    Discordant (sparseIndices d) ↔ (ArrayValue.sparse s).account.Discordant := by
  unfold readSparse at h
  obtain ⟨r, hr, rfl⟩ := Option.map_eq_some_iff.mp h
  clear h
  unfold readArrayFields at hr
  split at hr
  · rename_i fs
    obtain ⟨iw, h1, hr⟩ := Option.bind_eq_some_iff.mp hr
    obtain ⟨dw, h2, hr⟩ := Option.bind_eq_some_iff.mp hr
    obtain ⟨x, h3, hr⟩ := Option.bind_eq_some_iff.mp hr
    cases hr
    obtain ⟨data, hd, hx⟩ := Option.bind_eq_some_iff.mp h3
    obtain ⟨before, hb, hw⟩ := split_of_field hd
    have e : sparseIndices (.fields fs) = storageIndices data := by
      unfold sparseIndices
      simp only [hb, hw _ _ h1, hw _ _ h2]
      rfl
    rw [e]
    exact storage_discordant hx iw dw
  · rename_i iw dw data
    obtain ⟨iw', h1, hr⟩ := Option.bind_eq_some_iff.mp hr
    obtain ⟨dw', h2, hr⟩ := Option.bind_eq_some_iff.mp hr
    obtain ⟨x, hx, hr⟩ := Option.bind_eq_some_iff.mp hr
    cases hr
    have e : sparseIndices (.seq [iw, dw, data]) = storageIndices data := by
      unfold sparseIndices
      dsimp only
      rw [show (2 ^ 32 : Nat) = U32 from rfl, h1, h2]
      rfl
    rw [e]
    exact storage_discordant hx iw' dw'
  · cases hr

theorem variant_discordant {d : Serde} {a : ArrayValue} (h : readArrayImpl d = some a) : Discordant (variantIndices d) ↔ a.account.Discordant := by
  unfold readArrayImpl at h
  split at h
  · rename_i name c
    by_cases hn : name = "Sparse"
    · rw [if_pos hn] at h
      subst hn
      obtain ⟨s, hs, rfl⟩ := Option.map_eq_some_iff.mp h
      exact sparse_discordant hs
    · rw [if_neg hn] at h
      have e : variantIndices (.variant name c) = [] := by
        unfold variantIndices
        split
        · rename_i h
          cases h
          exact absurd rfl hn
        · rfl
      rw [e]
      split at h
      · obtain ⟨s, hs, rfl⟩ := Option.map_eq_some_iff.mp h
        refine ⟨fun h => absurd h not_discordant_nil, fun h => ?_⟩
        obtain ⟨iw, dw, data⟩ := s
        cases data <;> exact h.elim
      · cases h
  · cases h

theorem indices_discordant {d : Serde} {a : ArrayValue} (h : readArray d = some a) : Discordant (indicesEntered d) ↔ a.account.Discordant := by
  unfold readArray at h
  split at h
  · rename_i fs
    obtain ⟨data, hd, hx⟩ := Option.bind_eq_some_iff.mp h
    obtain ⟨before, hb, -⟩ := split_of_field hd
    have e : indicesEntered (.fields fs) = variantIndices data := by
      unfold indicesEntered
      simp only [hb]
    rw [e]
    exact variant_discordant hx
  · exact variant_discordant h
  · cases h

/-- **C129** (accepted documents): if a document stands for an array, reading it can panic exactly in a debug build if that array holds entries
for two indices with the same width and different numbers of words. -/
theorem C129_accepted (m : Mode) {d : Serde} {a : ArrayValue} (h : readArray d = some a) :
    (∃ env, Panics (loadArray m env d)) ↔ m = .debug ∧ a.account.Discordant := by
  rw [(C129_exact m d).1]
  exact and_congr_right fun _ => indices_discordant h

/-! ## Documents that the library wrote -/

theorem sparseInv_concordant {iw dw : Nat} {s : SparseArrayValue} {f : BitVec iw → BitVec dw} {x : BitVec dw} (hs : SparseInv s f x) :
    ¬ (ArrayValue.sparse s).account.Discordant := by
  obtain ⟨iw', dw', data⟩ := s
  have hr := hs.rep
  cases data with
  | u64u64 d map => exact fun h => h.elim
  | u64big d map => exact fun h => h.elim
  | bigbig d map =>
    intro h
    obtain ⟨k, hk, k', hk', h1, h2⟩ := (discordant_values hr.2.2.nodup _ _ _).mpr h
    obtain ⟨e, he, rfl⟩ := List.mem_map.mp hk
    obtain ⟨e', he', rfl⟩ := List.mem_map.mp hk'
    obtain ⟨i, hi⟩ := hr.2.2.keys e he
    obtain ⟨j, hj⟩ := hr.2.2.keys e' he'
    refine h2 ?_
    rw [hi, hj, (encode_denotes i hs.index_lt).length_eq, (encode_denotes j hs.index_lt).length_eq]

/-- **C129** (round trip): a document that the library wrote for an array that it made is always read, without a panic, in every build. By C83 the
result is the same array again. -/
theorem C129_round_trip (m m' : Mode) (env env' : HashEnv) {iw dw : Nat} {a : ArrayValue} {f : BitVec iw → BitVec dw} (hiw : iw < 2 ^ 32)
    (hdw : dw < 2 ^ 32) (hr : Reachable m a f) : ∃ b, readArray (ofArray env a) = some b ∧ loadArray m' env' (ofArray env a) = ok (some b) := by
  have key : ∃ b, readArray (ofArray env a) = some b ∧ ¬ b.account.Discordant := by
    rcases hr.inv hiw hdw with ⟨d, rfl, -⟩ | ⟨s, x, rfl, hs⟩
    · refine ⟨_, C83_dense m env hiw hdw hr, ?_⟩
      obtain ⟨iw', dw', data⟩ := d
      cases data <;> exact fun h => h.elim
    · obtain ⟨t, h1, h2, -⟩ := C83_sparse m env hiw hdw hr
      obtain ⟨t', h3, ht⟩ := readSparse_ofSparse env hs
      cases h2.symm.trans h3
      exact ⟨_, h1, sparseInv_concordant ht⟩
  obtain ⟨b, h1, h2⟩ := key
  refine ⟨b, h1, ?_⟩
  rcases (loadArray_loading (ofArray env a)).sound m' env' with h | ⟨-, -, hp⟩
  · rw [h, h1]
  · exact absurd ((C129_accepted m' h1).mp ⟨_, hp⟩).2 h2

/-! ## Concrete cases -/

/-- The document stands for an array with two entries. -/
example : ∃ a, readArray discordDoc = some a ∧ a.account.Discordant := by
  refine ⟨_, rfl, ⟨70, 2, 1⟩, ⟨70, 1, 1⟩, ?_, ?_, rfl, by decide⟩ <;> decide +kernel

/-- In a debug build, reading it panics if the two indices are compared. -/
example : (match loadArray .debug (crowdedEnv 0) discordDoc with | .panic p => some p | .ok _ => none) = some .debugAssert := by decide +kernel
example : (match loadArray .debug listEnv discordDoc with | .panic _ => none | .ok r => some r.isSome) = some true := by decide +kernel
example : (match loadArray .release (crowdedEnv 0) discordDoc with | .panic _ => none | .ok r => some r.isSome) = some true := by decide +kernel

/-- A document that is rejected before its indices are read, and one that is rejected after they were read. -/
example : indicesEntered (.fields [("data", .variant "Sparse" (.fields [("index_width", .num (2 ^ 32)), ("data",
    .variant "BigBig" (.seq [givenValue 4 [1], .map [(givenValue 70 [1, 0], givenValue 4 [2]), (givenValue 70 [1], givenValue 4 [3])]]))]))]) = [] := by
  decide +kernel
example : indicesEntered (.fields [("data", .variant "Sparse" (.fields [("data", .variant "BigBig" (.seq [givenValue 4 [1],
    .map [(givenValue 70 [1, 0], givenValue 4 [2]), (givenValue 70 [1], givenValue 4 [3]), (.num 5, givenValue 4 [2])]])),
    ("index_width", .num (2 ^ 32))]))]) = [⟨70, [1, 0]⟩, ⟨70, [1]⟩] := by decide +kernel

/-- An array that the library made, with an index of 100 bits: its document is read back. -/
example : ∃ s : SparseArrayValue, Reachable .debug (.sparse s) (fun _ : BitVec 100 => 5#8) ∧
    (match loadArray .debug (crowdedEnv 0) (ofArray listEnv (.sparse s)) with | .panic _ => none | .ok r => some r.isSome) = some true := by
  refine ⟨⟨100, 8, .bigbig (encode 5#8) HMap.empty⟩, .newSparse _ _ rfl, ?_⟩
  decide +kernel

end Baa

import Verif.Model.Entries
import Verif.Spec.Steps
import Verif.Props.DocumentsEq

/-!
# C120: reading the entries of a sparse array call by call
-/

namespace Baa
open Res BitVecValue Serde

variable {m : Mode}

/-- What is made of every entry that is still to come. -/
def EntryIter.rows (m : Mode) (it : EntryIter) : List (Res (BitVecValue × BitVecValue)) :=
  match it.underlying with
  | .u64u64 rest => rest.map fun e => (fromU64 m e.1 it.indexWidth).bind fun i => (fromU64 m e.2 it.dataWidth).bind fun v => ok (i, v)
  | .u64big rest => rest.map fun e => (fromU64 m e.1 it.indexWidth).bind fun i => ok (i, e.2)
  | .bigbig rest => rest.map ok

/-- The result of a call for which this was made. -/
def answerOf : Option (Res (BitVecValue × BitVecValue)) → Res (Option (BitVecValue × BitVecValue))
  | none => ok none
  | some (ok e) => ok (some e)
  | some (.panic p) => .panic p

theorem EntryIter.next_spec (it : EntryIter) : (it.next m).1 = answerOf (it.rows m)[0]? ∧ (it.next m).2.rows m = (it.rows m).tail := by
  obtain ⟨iw, dw, rest⟩ := it
  rcases rest with (_ | ⟨e, rest⟩) | (_ | ⟨e, rest⟩) | (_ | ⟨e, rest⟩)
  · exact ⟨rfl, rfl⟩
  · refine ⟨?_, rfl⟩
    show (fromU64 m e.1 iw).bind (fun i => (fromU64 m e.2 dw).bind fun v => ok (some (i, v))) =
      answerOf (some ((fromU64 m e.1 iw).bind fun i => (fromU64 m e.2 dw).bind fun v => ok (i, v)))
    cases fromU64 m e.1 iw with
    | panic p => rfl
    | ok i =>
      show (fromU64 m e.2 dw).bind (fun v => ok (some (i, v))) = answerOf (some ((fromU64 m e.2 dw).bind fun v => ok (i, v)))
      cases fromU64 m e.2 dw <;> rfl
  · exact ⟨rfl, rfl⟩
  · refine ⟨?_, rfl⟩
    show (fromU64 m e.1 iw).bind (fun i => ok (some (i, e.2))) = answerOf (some ((fromU64 m e.1 iw).bind fun i => ok (i, e.2)))
    cases fromU64 m e.1 iw <;> rfl
  · exact ⟨rfl, rfl⟩
  · exact ⟨rfl, rfl⟩

theorem EntryIter.calls_spec (n : Nat) (it : EntryIter) : it.calls m n = (List.range n).map fun k => answerOf (it.rows m)[k]? := by
  induction n generalizing it with
  | zero => rfl
  | succ n ih =>
    rw [List.range_succ_eq_map, List.map_cons, List.map_map]
    unfold EntryIter.calls
    rw [ih, it.next_spec.1, it.next_spec.2]
    congr 1
    refine List.map_congr_left fun k _ => ?_
    show _ = answerOf (it.rows m)[k + 1]?
    cases it.rows m <;> rfl

theorem nonDefaultEntries_rows (env : HashEnv) (s : SparseArrayValue) :
    s.nonDefaultEntries m env = SparseArrayValue.mapRes id ((s.entryIter env).rows m) := by
  have gen : ∀ {α : Type} (f : α → Res (BitVecValue × BitVecValue)) (l : List α),
      SparseArrayValue.mapRes f l = SparseArrayValue.mapRes id (l.map f) := by
    intro α f l
    induction l with
    | nil => rfl
    | cons a l ih => unfold SparseArrayValue.mapRes; rw [List.map_cons]; dsimp only; rw [ih]; rfl
  obtain ⟨iw, dw, data⟩ := s
  cases data with
  | u64u64 d map => exact gen _ _
  | u64big d map => exact gen _ _
  | bigbig d map =>
    show ok (env.order map.entries) = SparseArrayValue.mapRes id ((env.order map.entries).map ok)
    rw [← gen]
    induction env.order map.entries with
    | nil => rfl
    | cons a l ih => unfold SparseArrayValue.mapRes; rw [← ih]; rfl

theorem mapRes_id_ok {α : Type} {rows : List (Res α)} {es : List α} (h : SparseArrayValue.mapRes id rows = ok es) : rows = es.map ok := by
  induction rows generalizing es with
  | nil => cases h; rfl
  | cons r rows ih =>
    unfold SparseArrayValue.mapRes at h
    cases r with
    | panic p => cases h
    | ok y =>
      cases hr : SparseArrayValue.mapRes id rows with
      | panic p => change (SparseArrayValue.mapRes id rows).bind _ = _ at h; rw [hr] at h; cases h
      | ok ys => change (SparseArrayValue.mapRes id rows).bind _ = _ at h; rw [hr] at h; cases h; rw [ih hr]; rfl

theorem mapRes_id_panic {α : Type} {rows : List (Res α)} {p : Panic} (h : SparseArrayValue.mapRes id rows = .panic p) :
    ∃ (es : List α) (rest : List (Res α)), rows = es.map ok ++ Res.panic p :: rest := by
  induction rows with
  | nil => cases h
  | cons r rows ih =>
    unfold SparseArrayValue.mapRes at h
    cases r with
    | panic q => cases h; exact ⟨[], rows, rfl⟩
    | ok y =>
      cases hr : SparseArrayValue.mapRes id rows with
      | panic q =>
        change (SparseArrayValue.mapRes id rows).bind _ = _ at h
        rw [hr] at h
        cases h
        obtain ⟨es, rest, e⟩ := ih hr
        exact ⟨y :: es, rest, by rw [e]; rfl⟩
      | ok ys => change (SparseArrayValue.mapRes id rows).bind _ = _ at h; rw [hr] at h; cases h

/-- **C120** (listing): where the whole listing is obtained, call after call gives its pairs in order, and nothing ever after. -/
theorem C120_listing (m : Mode) (env : HashEnv) (s : SparseArrayValue) {es : List (BitVecValue × BitVecValue)}
    (h : s.nonDefaultEntries m env = ok es) (n : Nat) : (s.entryIter env).calls m n = (List.range n).map fun k => ok es[k]? := by
  rw [nonDefaultEntries_rows] at h
  rw [EntryIter.calls_spec, mapRes_id_ok h]
  refine List.map_congr_left fun k _ => ?_
  rw [List.getElem?_map]
  cases es[k]? <;> rfl

/-- **C120** (failure): where obtaining the whole listing panics, some number of calls give pairs and the next call panics in the same way. -/
theorem C120_failure (m : Mode) (env : HashEnv) (s : SparseArrayValue) {p : Panic} (h : s.nonDefaultEntries m env = .panic p) :
    ∃ es : List (BitVecValue × BitVecValue), (s.entryIter env).calls m (es.length + 1) = (es.map fun e => ok (some e)) ++ [.panic p] := by
  rw [nonDefaultEntries_rows] at h
  obtain ⟨es, rest, e⟩ := mapRes_id_panic h
  refine ⟨es, ?_⟩
  rw [EntryIter.calls_spec, e, List.range_succ, List.map_append, List.map_cons, List.map_nil]
  congr 1
  · refine List.ext_getElem (by simp) fun k h1 h2 => ?_
    simp only [List.length_map, List.length_range] at h1
    rw [List.getElem_map, List.getElem_range, List.getElem_map, List.getElem?_append_left (by simpa using h1), List.getElem?_map,
      List.getElem?_eq_getElem h1]
    rfl
  · rw [List.getElem?_append_right (by simp)]
    simp [answerOf]

/-- **C120** (legal arrays): the entries of a sparse array that was made by the interface are given one after another, each of them once, and then
there are no more. -/
theorem C120_legal (m : Mode) (env : HashEnv) {iw dw : Nat} {s : SparseArrayValue} {f : BitVec iw → BitVec dw} {x : BitVec dw} (hpos : 0 < iw)
    (hiw : iw < 2 ^ 32) (hdw : dw < 2 ^ 32) (hr : Reachable m (.sparse s) f) (hx : s.default m = ok (encode x)) :
    ∃ l, ListsEntries l f x ∧ ∀ n, (s.entryIter env).calls m n = (List.range n).map fun k => ok l[k]? := by
  obtain ⟨l, h, hl⟩ := C57_entries_partial m env hpos hiw hdw hr hx
  exact ⟨l, hl, C120_listing m env s h⟩

/-! ## Arrays from documents -/

/-- Two lists match element by element. -/
inductive Lined {α β : Type} (P : α → β → Prop) : List α → List β → Prop
  | nil : Lined P [] []
  | cons {a b l r} (h : P a b) (t : Lined P l r) : Lined P (a :: l) (b :: r)

theorem rows_turn {l : List (Res (BitVecValue × BitVecValue))} {q : List (Option (Shape × Shape))}
    (h : Lined (Fate fun e y => pairShape e = y) l q) (k : Nat) : Replies (answerOf l[k]?) (turn q k) := by
  induction h generalizing k with
  | nil => exact rfl
  | @cons r o l q hro _ ih =>
    cases k with
    | succ k => exact ih k
    | zero =>
      show Replies (answerOf (some r)) (match some o with | some (some e) => some (some e) | some none => none | none => some none)
      cases o with
      | none => obtain ⟨p, rfl⟩ := hro; exact ⟨p, rfl⟩
      | some e => obtain ⟨⟨i, d⟩, rfl, hp⟩ := hro; exact ⟨i, d, rfl, hp⟩

theorem lined_maps {α β κ γ : Type} {P : β → γ → Prop} (f : α → β) (key : α → κ) (g : κ → γ) (l : List α) (h : ∀ a ∈ l, P (f a) (g (key a))) :
    Lined P (l.map f) ((l.map key).map g) := by
  induction l with
  | nil => exact .nil
  | cons a l ih => exact .cons (h a (by simp)) (ih fun a ha => h a (by simp [ha]))

theorem doc_queues {s : SparseArrayValue} (ha : Acceptable (.sparse s)) (m : Mode) :
    (∀ env, ∃ q, (ArrayValue.account (.sparse s)).Queues m q ∧ Lined (Fate fun e y => pairShape e = y) ((s.entryIter env).rows m) q) ∧
    (∀ q, (ArrayValue.account (.sparse s)).Queues m q → ∃ env, Lined (Fate fun e y => pairShape e = y) ((s.entryIter env).rows m) q) := by
  obtain ⟨iw, dw, data⟩ := s
  obtain ⟨hiw, hdl, hrep⟩ := ha
  dsimp only at hiw hdl hrep
  cases data with
  | u64u64 d map =>
    have ht := entriesOf_tabled BitVec.toNat hrep
    have key : ∀ env : HashEnv, Lined (Fate fun e y => pairShape e = y)
        ((SparseArrayValue.entryIter env ⟨iw, dw, .u64u64 d map⟩).rows m)
        (((env.order map.entries).map fun e => e.1.toNat).map fun I =>
          listed (numberAs m iw I) (numberAs m dw (Sheet.read ⟨d.toNat, entriesOf BitVec.toNat map⟩ I))) := by
      intro env
      refine lined_maps (P := Fate fun e y => pairShape e = y) _ _ _ _ fun e he => ?_
      have hg := (HMap.get_eq_some_iff hrep _ _).mpr ((env.order_perm _).mem_iff.mp he)
      rw [ht.read, hg]
      unfold listed
      refine ((makes_iff _ _).mp (numberAs_fate m hiw e.1)).bind fun i j hij => ?_
      exact ((makes_iff _ _).mp (numberAs_fate m hdl e.2)).map fun v w hvw => ⟨_, rfl, by unfold pairShape; rw [hij.1, hvw.1]⟩
    constructor
    · exact fun env => ⟨_, ⟨_, ht.lists word_inj (env.order_perm _) d.toNat, rfl⟩, key env⟩
    · rintro _ ⟨L, hL, rfl⟩
      have hl := ht.lists word_inj (.refl _) d.toNat
      obtain ⟨env, rfl⟩ := any_order map.entries (fun e => e.1.toNat) hl.1 hL.1 fun x => (hL.2 x).trans (hl.2 x).symm
      exact ⟨env, key env⟩
  | u64big d map =>
    obtain ⟨h1, h2, h3⟩ := hrep
    have ht := entriesOf_tabled BitVecValue.shape h2
    have key : ∀ env : HashEnv, Lined (Fate fun e y => pairShape e = y)
        ((SparseArrayValue.entryIter env ⟨iw, dw, .u64big d map⟩).rows m)
        (((env.order map.entries).map fun e => e.1.toNat).map fun I =>
          listed (numberAs m iw I) (some (Sheet.read ⟨d.shape, entriesOf BitVecValue.shape map⟩ I))) := by
      intro env
      refine lined_maps (P := Fate fun e y => pairShape e = y) _ _ _ _ fun e he => ?_
      have hg := (HMap.get_eq_some_iff h2 _ _).mpr ((env.order_perm _).mem_iff.mp he)
      rw [ht.read, hg]
      unfold listed
      exact ((makes_iff _ _).mp (numberAs_fate m hiw e.1)).bind fun i j hij => ⟨_, rfl, by rw [← hij.1]; rfl⟩
    constructor
    · exact fun env => ⟨_, ⟨_, ht.lists word_inj (env.order_perm _) d.shape, rfl⟩, key env⟩
    · rintro _ ⟨L, hL, rfl⟩
      have hl := ht.lists word_inj (.refl _) d.shape
      obtain ⟨env, rfl⟩ := any_order map.entries (fun e => e.1.toNat) hl.1 hL.1 fun x => (hL.2 x).trans (hl.2 x).symm
      exact ⟨env, key env⟩
  | bigbig d map =>
    obtain ⟨h1, h2, h3⟩ := hrep
    have ht := valuesOf_tabled h2
    have key : ∀ env : HashEnv, Lined (Fate fun e y => pairShape e = y)
        ((SparseArrayValue.entryIter env ⟨iw, dw, .bigbig d map⟩).rows m)
        (((env.order map.entries).map fun e => e.1.shape).map fun i => some (i, Sheet.read ⟨d.shape, valuesOf map⟩ i)) := by
      intro env
      refine lined_maps (P := Fate fun e y => pairShape e = y) _ _ _ _ fun e he => ?_
      have hg := (HMap.get_eq_some_iff h2 _ _).mpr ((env.order_perm _).mem_iff.mp he)
      refine ⟨e, rfl, ?_⟩
      show pairShape e = (e.1.shape, Sheet.read ⟨d.shape, valuesOf map⟩ e.1.shape)
      unfold Sheet.read
      dsimp only
      rw [ht.get, hg]
      rfl
    constructor
    · exact fun env => ⟨_, ⟨_, ht.lists shape_inj (env.order_perm _) d.shape, rfl⟩, key env⟩
    · rintro _ ⟨L, hL, rfl⟩
      have hl := ht.lists shape_inj (.refl _) d.shape
      obtain ⟨env, rfl⟩ := any_order map.entries (fun e => e.1.shape) hl.1 hL.1 fun x => (hL.2 x).trans (hl.2 x).symm
      exact ⟨env, key env⟩

/-- **C120** (documents): for every sparse array that a document is read as, the answers to any number of calls are the ones for some order of the
entries, whether or not calls before it panicked; every order occurs. -/
theorem C120_documents (m : Mode) {doc : Serde} {s : SparseArrayValue} (hd : readArray doc = some (.sparse s)) :
    (∀ env, ∃ q, (ArrayValue.account (.sparse s)).Queues m q ∧
      ∀ n, ((s.entryIter env).calls m n).length = n ∧ ∀ k r, ((s.entryIter env).calls m n)[k]? = some r → Replies r (turn q k)) ∧
    (∀ q, (ArrayValue.account (.sparse s)).Queues m q → ∃ env,
      ∀ n, ((s.entryIter env).calls m n).length = n ∧ ∀ k r, ((s.entryIter env).calls m n)[k]? = some r → Replies r (turn q k)) := by
  have h := doc_queues ((C85_accepts _).mp ⟨doc, hd⟩) m
  have key : ∀ env q, Lined (Fate fun e y => pairShape e = y) ((s.entryIter env).rows m) q → ∀ n,
      ((s.entryIter env).calls m n).length = n ∧ ∀ k r, ((s.entryIter env).calls m n)[k]? = some r → Replies r (turn q k) := by
    intro env q hq n
    rw [EntryIter.calls_spec]
    refine ⟨by simp, fun k r hk => ?_⟩
    rw [List.getElem?_map] at hk
    cases hn : (List.range n)[k]? with
    | none => rw [hn] at hk; cases hk
    | some j =>
      rw [hn] at hk
      cases hk
      obtain ⟨h1, rfl⟩ := List.getElem?_eq_some_iff.mp hn
      rw [List.getElem_range]
      exact rows_turn hq k
  exact ⟨fun env => (h.1 env).imp fun q hq => ⟨hq.1, key env q hq.2⟩, fun q hq => (h.2 q hq).imp fun env he => key env q he⟩

/-! ## Concrete cases -/

/-- Two entries and then the end, which stays the end. -/
example : ∃ s, readArray (givenSparse 2 4 (.variant "U64U64" (.seq [.num 7, .map [(.num 0, .num 2), (.num 3, .num 1)]]))) = some (.sparse s) ∧
    (s.entryIter listEnv).calls .debug 4 = [ok (some (encode 3#2, encode 1#4)), ok (some (encode 0#2, encode 2#4)), ok none, ok none] :=
  ⟨⟨2, 4, .u64u64 7#64 ⟨[(3#64, 1#64), (0#64, 2#64)]⟩⟩, by rfl, by rfl⟩

/-- The first entry has an index that is too wide. In a debug build the first call panics; if this is caught, the next calls give the other entry and
the end. In a release build the index is cut. -/
example : ∃ s, readArray (givenSparse 2 4 (.variant "U64U64" (.seq [.num 7, .map [(.num 0, .num 2), (.num 9, .num 1)]]))) = some (.sparse s) ∧
    (s.entryIter listEnv).calls .debug 3 = [.panic .debugAssert, ok (some (encode 0#2, encode 2#4)), ok none] ∧
    (s.entryIter listEnv).calls .release 3 = [ok (some (encode 1#2, encode 1#4)), ok (some (encode 0#2, encode 2#4)), ok none] :=
  ⟨⟨2, 4, .u64u64 7#64 ⟨[(9#64, 1#64), (0#64, 2#64)]⟩⟩, by rfl, by rfl, by rfl⟩

/-- An array that was made by the interface meets the hypotheses of `C120_legal`. -/
example : ∃ s : SparseArrayValue, Reachable .debug (.sparse s) (update (update (fun _ : BitVec 2 => 7#4) 3#2 1#4) 0#2 2#4) ∧
    s.default .debug = ok (encode 7#4) ∧
    (s.entryIter reverseEnv).calls .debug 4 = [ok (some (encode 3#2, encode 1#4)), ok (some (encode 0#2, encode 2#4)), ok none, ok none] :=
  ⟨⟨2, 4, .u64u64 7#64 ⟨[(0#64, 2#64), (3#64, 1#64)]⟩⟩,
    .store (env := listEnv) _ (.sparse ⟨2, 4, .u64u64 7#64 ⟨[(3#64, 1#64)]⟩⟩) _ _ _
      (.store (env := listEnv) _ (.sparse ⟨2, 4, .u64u64 7#64 ⟨[]⟩⟩) _ _ _ (.newSparse _ _ rfl) rfl) rfl, rfl, by rfl⟩

/-- An index of no bits: listing panics (`C57_refuted`), and so does the first call; there is no second entry. -/
example : SparseArrayValue.nonDefaultEntries .release listEnv ⟨0, 8, .u64u64 0#64 ⟨[(0#64, 1#64)]⟩⟩ = .panic .bounds ∧
    (SparseArrayValue.entryIter listEnv ⟨0, 8, .u64u64 0#64 ⟨[(0#64, 1#64)]⟩⟩).calls .release 2 = [.panic .bounds, ok none] := by
  refine ⟨by rfl, by rfl⟩

end Baa

import Verif.Props.AnyWide
import Verif.Props.SerdeDoc
import Verif.Spec.Documents

/-!
# C117: arrays from documents are predictable

C110 and C114 are about arrays that were created. An array can also be read from a document, and then its storage need not belong to its widths
(C85). This file predicts every such array: reading, writing, clearing, comparing and listing it, in every history.
-/

namespace Baa
open Res BitVecValue Serde

variable {m : Mode}

/-! ## Numbers and values -/

theorem zero_shape (w : Nat) : (BitVecValue.zero w).shape = ⟨w, need w, 0⟩ := by
  have h1 : (BitVecValue.zero w).words = List.replicate (need w) 0#64 := rfl
  unfold BitVecValue.shape
  rw [h1, wordsVal_replicate_zero, List.length_replicate]
  rfl

theorem numberAs_fate (m : Mode) {w : Nat} (hw : w < 2 ^ 32) (v : Word) : Makes (BitVecValue.fromU64 m v w) (numberAs m w v.toNat) := by
  have h := C106_assign_from_u64 (a := BitVecValue.zero w) m v hw
  unfold BitVecValue.fromU64
  rw [zero_shape] at h
  have e : (⟨w, need w, 0⟩ : Shape).setU64 m v.toNat = numberAs m w v.toNat := by
    unfold Shape.setU64 numberAs masked
    dsimp only
    by_cases h0 : w = 0
    · subst h0
      rfl
    · have hn : need w ≠ 0 := by unfold need; omega
      have hf : fitted w (need w) = w := by unfold fitted need; omega
      rw [if_neg (by rintro (h | h); exact hn h; exact h.2 rfl), if_neg h0, hf]
      show (if m = .debug ∧ v.toNat % 2 ^ w % 2 ^ 64 ≠ v.toNat then none else some (⟨w, need w, v.toNat % 2 ^ w⟩ : Shape)) = _
      have hv := v.isLt
      by_cases hc : v.toNat < 2 ^ w
      · rw [if_pos hc, Nat.mod_eq_of_lt hc, Nat.mod_eq_of_lt hv, if_neg (fun hh => hh.2 rfl)]
      · rw [if_neg hc]
        have hne : v.toNat % 2 ^ w % 2 ^ 64 ≠ v.toNat := by
          have h1 := Nat.mod_lt v.toNat (show 0 < 2 ^ w from Nat.pow_pos (by decide))
          have h2 := Nat.mod_le (v.toNat % 2 ^ w) (2 ^ 64)
          omega
        by_cases hm : m = .debug
        · rw [if_pos ⟨hm, hne⟩, if_pos hm]
        · rw [if_neg (fun hh => hm hh.1), if_neg hm]
  rw [← e]
  exact h

/-! ## Dense arrays -/

theorem bitsOf_eq {r : BitVecValue} {w n N : Nat} (h : r.shape = ⟨w, n, N⟩) : bitsOf r = ⟨64 * n, fun k => (N.testBit k).toNat⟩ := by
  have h2 : r.words.length = n := congrArg Shape.words h
  have h3 : wordsVal r.words = N := congrArg Shape.number h
  unfold bitsOf
  rw [h2, h3]

theorem cellsOf_holds (l : List Word) : Holds64 l (cellsOf l).cell := by
  intro k x hx
  show x.toNat = ((l[k]?).map BitVec.toNat).getD 0
  rw [hx]
  rfl

theorem cellsOf_set {k : Nat} {l l' : List (BitVec k)} {i : Nat} {x : BitVec k} (hl : l'.length = l.length)
    (h : ∀ j, l'[j]? = if j = i then some x else l[j]?) : cellsOf l' = ⟨(cellsOf l).count, setCell (cellsOf l).cell i x.toNat⟩ := by
  unfold cellsOf
  rw [hl]
  congr 1
  funext j
  rw [h, setCell_apply]
  by_cases hj : j = i
  · rw [if_pos hj, if_pos hj]; rfl
  · rw [if_neg hj, if_neg hj]

theorem cellsOf_get {k : Nat} {l : List (BitVec k)} {i : Nat} (h : i < (cellsOf l).count) :
    ∃ b : BitVec k, l[i]? = some b ∧ b.toNat = (cellsOf l).cell i := by
  have h' : i < l.length := h
  refine ⟨l[i], List.getElem?_eq_getElem h', ?_⟩
  show _ = ((l[i]?).map BitVec.toNat).getD 0
  rw [List.getElem?_eq_getElem h']
  rfl

theorem cellsOf_scatter {l ws : List Word} {s c : Nat} (hw : ws.length = c) (hc : s + c ≤ l.length) :
    cellsOf (l.take s ++ ws ++ l.drop (s + c)) = ⟨(cellsOf l).count, scatter (cellsOf l).cell s c (wordsVal ws)⟩ := by
  have hlen : (l.take s ++ ws ++ l.drop (s + c)).length = l.length := by simp; omega
  have h := scatter_eq (cellsOf_holds l) hw hc
  show (⟨_, _⟩ : Memory) = ⟨l.length, _⟩
  rw [hlen]
  congr 1
  funext j
  by_cases hj : j < l.length
  · have hx := List.getElem?_eq_getElem (l := l.take s ++ ws ++ l.drop (s + c)) (i := j) (by omega)
    rw [← h j _ hx, hx]
    rfl
  · rw [List.getElem?_eq_none (by omega)]
    unfold scatter
    rw [if_neg (by omega)]
    show 0 = ((l[j]?).map BitVec.toNat).getD 0
    rw [List.getElem?_eq_none (by omega)]
    rfl

/-- Data of a layout with the layout of the storage. -/
def DenseArrayImpl.layout : DenseArrayImpl → CellLayout
  | .bit _ => .bits
  | .u8 _ => .bytes
  | .u64 _ => .words
  | .big _ => .wide

def DenseArrayImpl.span : DenseArrayImpl → Nat
  | .bit v => v.width
  | _ => 0

def DenseArrayImpl.cells : DenseArrayImpl → Memory
  | .bit v => bitsOf v
  | .u8 l => cellsOf l
  | .u64 l => cellsOf l
  | .big l => cellsOf l

theorem dense_hoard (d : DenseArrayImpl) : d.hoard = .dense d.layout d.span d.cells := by cases d <;> rfl

theorem doc_selectUsize (m : Mode) {d : DenseArrayValue} (hd : d.dataWidth < 2 ^ 32) (hm : (ArrayValue.dense d).InMemory) (I : Nat) :
    Makes (d.selectUsize m I) ((d.data.layout.locate m d.dataWidth d.data.cells.count I).bind fun n =>
      d.data.layout.read m d.dataWidth d.data.cells.cell n) := by
  obtain ⟨iw, dw, data⟩ := d
  dsimp only at hd ⊢
  unfold DenseArrayValue.selectUsize
  cases data with
  | bit v =>
    show Makes (v.isBitSet (I % 2 ^ 32) >>= _) (Option.bind (if I % 2 ^ 32 < 64 * v.words.length then some (I % 2 ^ 32) else none) _)
    have h : Answers (v.isBitSet (I % 2 ^ 32)) (if I % 2 ^ 32 < 64 * v.words.length then some ((wordsVal v.words).testBit (I % 2 ^ 32)) else none) :=
      C105_test (a := v) .release (.bit (I % 2 ^ 32))
    by_cases hk : I % 2 ^ 32 < 64 * v.words.length
    · rw [if_pos hk] at h ⊢
      have h : v.isBitSet (I % 2 ^ 32) = ok _ := h
      rw [h, ok_bind]
      obtain ⟨r, hr1, hr2⟩ := raw_from_bool m ((wordsVal v.words).testBit (I % 2 ^ 32))
      exact ⟨r, hr1, hr2.shape_eq, by show 1 < 2 ^ 32; decide⟩
    · rw [if_neg hk] at h ⊢
      exact panics_bind h _
  | u8 l =>
    show Makes (idx l I >>= _) (Option.bind (if I < (cellsOf l).count then some I else none) _)
    by_cases hc : I < (cellsOf l).count
    · obtain ⟨b, hb1, hb2⟩ := cellsOf_get hc
      rw [if_pos hc, idx_some hb1, ok_bind]
      show Makes _ (numberAs m dw ((cellsOf l).cell I))
      have := numberAs_fate m hd (b.setWidth 64)
      rwa [setWidth64_toNat (by decide), hb2] at this
    · rw [if_neg hc, idx_none (Nat.le_of_not_lt hc)]
      exact ⟨_, rfl⟩
  | u64 l =>
    show Makes (idx l I >>= _) (Option.bind (if I < (cellsOf l).count then some I else none) _)
    by_cases hc : I < (cellsOf l).count
    · obtain ⟨b, hb1, hb2⟩ := cellsOf_get hc
      rw [if_pos hc, idx_some hb1, ok_bind]
      show Makes _ (numberAs m dw ((cellsOf l).cell I))
      have := numberAs_fate m hd b
      rwa [hb2] at this
    · rw [if_neg hc, idx_none (Nat.le_of_not_lt hc)]
      exact ⟨_, rfl⟩
  | big l =>
    have h3 : l.length < 2 ^ 60 := hm
    show Makes (mulC m U64 (need dw) I >>= fun s => addC m U64 s (need dw) >>= fun e => sliceR l s e >>= fun ws => ok ⟨dw, ws⟩)
      ((place m (need dw) l.length I).bind _)
    have hp := place_eq m I h3 (c := need dw) (by unfold need; omega) (fun s e => sliceR l s e >>= fun ws => ok (⟨dw, ws⟩ : BitVecValue))
      (fun s e hn => panics_bind ⟨.bounds, by rw [sliceR, if_neg hn]⟩ _)
    cases hpl : place m (need dw) l.length I with
    | none => rw [hpl] at hp; exact hp
    | some s =>
      rw [hpl] at hp
      obtain ⟨h4, h5⟩ := hp
      rw [h5, sliceR_ok (by omega) (by omega), ok_bind]
      refine ⟨_, rfl, ?_, hd⟩
      show (⟨dw, ((l.drop s).take (s + need dw - s)).length, wordsVal ((l.drop s).take (s + need dw - s))⟩ : Shape) = ⟨dw, need dw, gather (cellsOf l).cell s (need dw)⟩
      rw [Nat.add_sub_cancel_left, gather_eq (cellsOf_holds l) _ _ (by omega)]
      congr 1
      simp
      omega

theorem setBit_fate (v : BitVecValue) (n : Nat) :
    if n < (bitsOf v).count then
      (∃ r, v.setBit n = ok r ∧ r.width = v.width ∧ bitsOf r = ⟨(bitsOf v).count, setCell (bitsOf v).cell n 1⟩) ∧
      (∃ r, v.clearBit n = ok r ∧ r.width = v.width ∧ bitsOf r = ⟨(bitsOf v).count, setCell (bitsOf v).cell n 0⟩)
    else Panics (v.setBit n) ∧ Panics (v.clearBit n) := by
  show if n < 64 * v.words.length then _ else _
  by_cases hn : n < 64 * v.words.length
  · rw [if_pos hn]
    have hp' : n / 64 < v.words.length := by omega
    have key : ∀ {r : List Word} {b : Bool}, r.length = v.words.length → (∀ i, bit r i = if i = n then b else bit v.words i) →
        bitsOf ⟨v.width, r⟩ = ⟨(bitsOf v).count, setCell (bitsOf v).cell n b.toNat⟩ := by
      intro r b hl hb
      unfold bitsOf
      dsimp only
      rw [hl]
      congr 1
      funext i
      rw [setCell_apply, show (wordsVal r).testBit i = bit r i from rfl, hb]
      by_cases h : i = n
      · rw [if_pos h, if_pos h]
      · rw [if_neg h, if_neg h]; rfl
    constructor
    · obtain ⟨r, h1, h2, h3⟩ := Arith.setBit_spec hp'
      refine ⟨⟨v.width, r⟩, ?_, rfl, key (b := true) h2 fun i => ?_⟩
      · unfold BitVecValue.setBit
        rw [h1, ok_bind]
      · rw [h3]
        by_cases h : i = n <;> simp [h]
    · obtain ⟨r, h1, h2, h3⟩ := Arith.clearBit_spec hp'
      refine ⟨⟨v.width, r⟩, ?_, rfl, key (b := false) h2 fun i => ?_⟩
      · unfold BitVecValue.clearBit
        rw [h1, ok_bind]
      · rw [h3]
        by_cases h : i = n <;> simp [h]
  · rw [if_neg hn]
    have hp' : v.words.length ≤ n / 64 := by omega
    unfold BitVecValue.setBit BitVecValue.clearBit Arith.setBit Arith.clearBit
    simp only [idx, BITS, List.getElem?_eq_none hp']
    exact ⟨⟨_, rfl⟩, ⟨_, rfl⟩⟩

/-- The array has the same widths, and storage as predicted. -/
structure Kept (a : ArrayValue) (iw dw : Nat) (h : Hoard) : Prop where
  account : a.account = ⟨iw, dw, h⟩
  acceptable : Acceptable a
  inMemory : a.InMemory

theorem doc_storeAt (m : Mode) {d : DenseArrayValue} (ha : Acceptable (.dense d)) (hm : (ArrayValue.dense d).InMemory) (I : Nat) (v : BitVecValue) :
    Fate (fun r h => Kept (.dense r) d.indexWidth d.dataWidth h) (denseStoreAt m d I v)
      ((d.data.layout.locate m d.dataWidth d.data.cells.count I).bind fun n =>
        if m = .debug ∧ v.shape.width ≠ d.dataWidth then none
        else (d.data.layout.write d.dataWidth d.data.cells.cell n v.shape).map fun cell => .dense d.data.layout d.data.span ⟨d.data.cells.count, cell⟩) := by
  obtain ⟨iw, dw, data⟩ := d
  obtain ⟨ha1, ha2, ha3⟩ := ha
  dsimp only at ha1 ha2 ha3 ⊢
  rw [bind_guard]
  unfold denseStoreAt
  refine Fate.guard (v.shape.width ≠ dw) (by simp [BitVecValue.shape]) fun hd => ?_
  cases data with
  | bit b =>
    show Fate _ _ (Option.bind (if I % 2 ^ 32 < (bitsOf b).count then some (I % 2 ^ 32) else none) _)
    have hsc := setBit_fate b (I % 2 ^ 32)
    by_cases hk : I % 2 ^ 32 < (bitsOf b).count
    · rw [if_pos hk] at hsc ⊢
      obtain ⟨⟨r, hr1, hr2, hr3⟩, ⟨s, hs1, hs2, hs3⟩⟩ := hsc
      show Fate _ _ (Option.map _ (Option.map _ (v.shape.datum 1)))
      rw [Option.map_map]
      refine (tru_fate v).map fun t c htc => ?_
      subst htc
      cases t with
      | true =>
        refine ⟨⟨iw, dw, .bit r⟩, ?_, ?_, ⟨ha1, ha2, ?_⟩, trivial⟩
        · show (BitVecValue.setBit b (I % 2 ^ 32) >>= _) = _
          rw [hr1, ok_bind]
        · show (⟨iw, dw, .dense .bits r.width (bitsOf r)⟩ : Account) = _
          rw [hr2, hr3]
          rfl
        · show r.width < 2 ^ 32
          rw [hr2]; exact ha3
      | false =>
        refine ⟨⟨iw, dw, .bit s⟩, ?_, ?_, ⟨ha1, ha2, ?_⟩, trivial⟩
        · show (BitVecValue.clearBit b (I % 2 ^ 32) >>= _) = _
          rw [hs1, ok_bind]
        · show (⟨iw, dw, .dense .bits s.width (bitsOf s)⟩ : Account) = _
          rw [hs2, hs3]
          rfl
        · show s.width < 2 ^ 32
          rw [hs2]; exact ha3
    · rw [if_neg hk] at hsc ⊢
      refine panics_bind_of _ fun t _ => ?_
      cases t with
      | true => exact panics_bind hsc.1 _
      | false => exact panics_bind hsc.2 _
  | u8 l =>
    show Fate _ _ (Option.bind (if I < (cellsOf l).count then some I else none) _)
    by_cases hc : I < (cellsOf l).count
    · rw [if_pos hc]
      show Fate _ _ (Option.map _ (Option.map _ (v.shape.datum 8)))
      rw [Option.map_map, Shape.datum, if_neg (by decide), if_pos (show 8 ≤ 8 by decide)]
      have h := toU64_fate v
      by_cases hb : 2 ^ 64 ≤ v.shape.number
      · rw [if_pos hb] at h ⊢
        exact panics_bind h _
      · rw [if_neg hb] at h ⊢
        obtain ⟨w, hw1, hw2⟩ := h
        dsimp only
        rw [hw1, ok_bind]
        obtain ⟨l', hl1, hl2, hl3⟩ := setIdx_spec (l := l) (i := I) hc (w.setWidth 8)
        rw [hl1, ok_bind]
        refine ⟨_, rfl, ?_, ⟨ha1, ha2, trivial⟩, trivial⟩
        show (⟨iw, dw, .dense .bytes 0 (cellsOf l')⟩ : Account) = _
        rw [cellsOf_set hl2 hl3, BitVec.toNat_setWidth, hw2]
        rfl
    · rw [if_neg hc]
      refine panics_bind_of _ fun w _ => ?_
      rw [setIdx_none (Nat.le_of_not_lt hc)]
      exact ⟨_, rfl⟩
  | u64 l =>
    show Fate _ _ (Option.bind (if I < (cellsOf l).count then some I else none) _)
    by_cases hc : I < (cellsOf l).count
    · rw [if_pos hc]
      show Fate _ _ (Option.map _ (Option.map _ (v.shape.datum 64)))
      rw [Option.map_map, Shape.datum, if_neg (by decide), if_neg (show ¬ 64 ≤ 8 by decide)]
      have h := toU64_fate v
      by_cases hb : 2 ^ 64 ≤ v.shape.number
      · rw [if_pos hb] at h ⊢
        exact panics_bind h _
      · rw [if_neg hb] at h ⊢
        obtain ⟨w, hw1, hw2⟩ := h
        dsimp only
        rw [hw1, ok_bind]
        obtain ⟨l', hl1, hl2, hl3⟩ := setIdx_spec (l := l) (i := I) hc w
        rw [hl1, ok_bind]
        refine ⟨_, rfl, ?_, ⟨ha1, ha2, trivial⟩, trivial⟩
        show (⟨iw, dw, .dense .words 0 (cellsOf l')⟩ : Account) = _
        rw [cellsOf_set hl2 hl3, hw2]
        rfl
    · rw [if_neg hc]
      refine panics_bind_of _ fun w _ => ?_
      rw [setIdx_none (Nat.le_of_not_lt hc)]
      exact ⟨_, rfl⟩
  | big l =>
    have h3 : l.length < 2 ^ 60 := hm
    have hp := place_eq m I h3 (c := need dw) (by unfold need; omega)
      (fun s e => modifyRange l s e (fun ws => BitVecValue.assign m ⟨dw, ws⟩ v >>= fun r => ok r.words) >>= fun l' =>
        ok (⟨iw, dw, .big l'⟩ : DenseArrayValue))
      (fun s e hn => panics_bind (panics_bind ⟨.bounds, by rw [sliceR, if_neg hn]⟩ _) _)
    show Fate _ _ (Option.bind (place m (need dw) l.length I) _)
    cases hpl : place m (need dw) l.length I with
    | none => rw [hpl] at hp; exact hp
    | some s =>
      rw [hpl] at hp
      obtain ⟨h4, h5⟩ := hp
      dsimp only
      rw [h5]
      show Fate _ _ (Option.map _ (if v.shape.words = need dw then some (scatter (cellsOf l).cell s (need dw) v.shape.number) else none))
      have hlen : ((l.drop s).take (s + need dw - s)).length = need dw := by simp; omega
      unfold modifyRange
      rw [sliceR_ok (by omega) (by omega), ok_bind]
      dsimp only
      by_cases hc : v.shape.words = need dw
      · have hc' : v.words.length = need dw := hc
        rw [if_pos hc, (assign_words m _ v hd).1 (by rw [hlen, hc'])]
        refine ⟨_, rfl, ?_, ⟨ha1, ha2, trivial⟩, ?_⟩
        · show (⟨iw, dw, .dense .wide 0 (cellsOf (l.take s ++ v.words ++ l.drop (s + need dw)))⟩ : Account) = _
          rw [cellsOf_scatter hc' (by omega)]
          rfl
        · show (l.take s ++ v.words ++ l.drop (s + need dw)).length < 2 ^ 60
          simp
          omega
      · rw [if_neg hc]
        exact panics_bind (panics_bind (panics_bind ((assign_words m _ v hd).2 (by rw [hlen]; exact fun h => hc h.symm)) _) _) _

theorem cellsOf_clear {k : Nat} (l : List (BitVec k)) : cellsOf (l.map fun _ => 0#k) = (cellsOf l).clear := by
  unfold cellsOf Memory.clear
  rw [List.length_map]
  congr 1
  funext n
  rw [List.getElem?_map]
  cases l[n]? <;> rfl

theorem bitsOf_clear (v : BitVecValue) : bitsOf v.clear = (bitsOf v).clear := by
  unfold bitsOf Memory.clear
  rw [clear_words, wordsVal_replicate_zero, List.length_replicate]
  congr 1
  funext n
  simp

theorem doc_dense_clear {d : DenseArrayValue} (ha : Acceptable (.dense d)) (hm : (ArrayValue.dense d).InMemory) :
    Kept (.dense d.clear) d.indexWidth d.dataWidth (ArrayValue.account (.dense d)).cleared := by
  obtain ⟨iw, dw, data⟩ := d
  obtain ⟨ha1, ha2, ha3⟩ := ha
  dsimp only at ha1 ha2 ha3 ⊢
  cases data with
  | bit b =>
    refine ⟨?_, ⟨ha1, ha2, ha3⟩, trivial⟩
    show (⟨iw, dw, .dense .bits _ (bitsOf b.clear)⟩ : Account) = _
    rw [bitsOf_clear]
    rfl
  | u8 l =>
    refine ⟨?_, ⟨ha1, ha2, ha3⟩, trivial⟩
    show (⟨iw, dw, .dense .bytes 0 (cellsOf (l.map fun _ => 0#8))⟩ : Account) = _
    rw [cellsOf_clear]
    rfl
  | u64 l =>
    refine ⟨?_, ⟨ha1, ha2, ha3⟩, trivial⟩
    show (⟨iw, dw, .dense .words 0 (cellsOf (l.map fun _ => 0#64))⟩ : Account) = _
    rw [cellsOf_clear]
    rfl
  | big l =>
    refine ⟨?_, ⟨ha1, ha2, ha3⟩, ?_⟩
    · show (⟨iw, dw, .dense .wide 0 (cellsOf (l.map fun _ => 0#64))⟩ : Account) = _
      rw [cellsOf_clear]
      rfl
    · show (l.map fun _ => 0#64).length < 2 ^ 60
      rw [List.length_map]; exact hm

/-! ## Hash tables -/

/-- The hash table holds the entries. -/
structure Tabled {K κ V α : Type} [DecidableEq K] (emb : K → κ) (val : V → α) (map : HMap K V) (entry : κ → Option α) : Prop where
  nodup : map.Nodup
  get : ∀ k, entry (emb k) = (map.get k).map val
  named : ∀ s, entry s ≠ none → ∃ k, emb k = s

section
variable {K κ V α : Type} [DecidableEq K] {emb : K → κ} {val : V → α} {map map' : HMap K V} {entry entry' : κ → Option α}

theorem Tabled.key_mem (h : Tabled emb val map entry) {k : K} : k ∈ map.entries.map Prod.fst ↔ entry (emb k) ≠ none := by
  rw [h.get k]
  constructor
  · intro hm
    obtain ⟨⟨k, v⟩, he, hk⟩ := List.mem_map.mp hm
    dsimp only at hk
    subst hk
    rw [(HMap.get_eq_some_iff h.nodup _ _).mpr he]
    simp
  · intro hn
    cases hg : map.get k with
    | none => rw [hg] at hn; exact absurd rfl hn
    | some v => exact List.mem_map.mpr ⟨(k, v), (HMap.get_eq_some_iff h.nodup _ _).mp hg, rfl⟩

theorem Tabled.has_key (h : Tabled emb val map entry) {s : κ} (hs : entry s ≠ none) : ∃ k ∈ map.entries.map Prod.fst, emb k = s := by
  obtain ⟨k, rfl⟩ := h.named s hs
  exact ⟨k, h.key_mem.mpr hs, rfl⟩

theorem Tabled.has_entry (h : Tabled emb val map entry) {s : κ} {x : α} (hs : entry s = some x) :
    ∃ k v, (k, v) ∈ map.entries ∧ map.get k = some v ∧ emb k = s ∧ val v = x := by
  obtain ⟨k, rfl⟩ := h.named s (by rw [hs]; simp)
  rw [h.get k] at hs
  cases hg : map.get k with
  | none => rw [hg] at hs; cases hs
  | some v =>
    rw [hg] at hs
    exact ⟨k, v, (HMap.get_eq_some_iff h.nodup _ _).mp hg, hg, rfl, Option.some.inj hs⟩

theorem Tabled.empty : Tabled emb val HMap.empty (fun _ => none) :=
  ⟨HMap.nodup_empty, fun _ => rfl, fun _ h => absurd rfl h⟩

theorem Tabled.insert [DecidableEq κ] (h : Tabled emb val map entry) (hi : ∀ {a b}, emb a = emb b → a = b) (k : K) (v : V) :
    Tabled emb val (map.insert k v) (fun s => if s = emb k then some (val v) else entry s) := by
  refine ⟨HMap.nodup_insert h.nodup _ _, fun k' => ?_, fun s hs => ?_⟩
  · rw [HMap.get_insert]
    by_cases hk : k' = k
    · rw [if_pos hk, if_pos (congrArg _ hk)]; rfl
    · rw [if_neg hk, if_neg (fun e => hk (hi e)), h.get]
  · by_cases hk : s = emb k
    · exact ⟨k, hk.symm⟩
    · rw [if_neg hk] at hs
      exact h.named s hs

theorem Tabled.remove [DecidableEq κ] (h : Tabled emb val map entry) (hi : ∀ {a b}, emb a = emb b → a = b) (k : K) :
    Tabled emb val (map.remove k) (fun s => if s = emb k then none else entry s) := by
  refine ⟨HMap.nodup_remove h.nodup _, fun k' => ?_, fun s hs => ?_⟩
  · rw [HMap.get_remove]
    by_cases hk : k' = k
    · rw [if_pos hk, if_pos (congrArg _ hk)]; rfl
    · rw [if_neg hk, if_neg (fun e => hk (hi e)), h.get]
  · by_cases hk : s = emb k
    · exact ⟨k, hk.symm⟩
    · rw [if_neg hk] at hs
      exact h.named s hs

/-- A table determines the entries. -/
theorem Tabled.unique (h : Tabled emb val map entry) (h' : Tabled emb val map entry') : entry = entry' := by
  funext s
  by_cases hs : ∃ k, emb k = s
  · obtain ⟨k, rfl⟩ := hs
    rw [h.get, h'.get]
  · rw [Classical.byContradiction fun hh => hs (h.named s hh), Classical.byContradiction fun hh => hs (h'.named s hh)]

theorem Tabled.lists (h : Tabled emb val map entry) (hi : ∀ {a b}, emb a = emb b → a = b) {es : List (K × V)} (hp : es.Perm map.entries)
    (d : α) : Sheet.Lists ⟨d, entry⟩ (es.map fun e => emb e.1) := by
  constructor
  · have : (es.map Prod.fst).Nodup := (hp.map Prod.fst).nodup_iff.mpr h.nodup
    rw [show (es.map fun e => emb e.1) = (es.map Prod.fst).map emb by rw [List.map_map]; rfl]
    exact List.Pairwise.map _ (fun _ _ hne e => hne (hi e)) this
  · intro s
    constructor
    · intro hs
      obtain ⟨e, he, rfl⟩ := List.mem_map.mp hs
      exact h.key_mem.mp (List.mem_map.mpr ⟨e, hp.mem_iff.mp he, rfl⟩)
    · intro hs
      obtain ⟨k, hk, rfl⟩ := h.has_key hs
      obtain ⟨e, he, rfl⟩ := List.mem_map.mp hk
      exact List.mem_map.mpr ⟨e, hp.mem_iff.mpr he, rfl⟩

theorem Tabled.asMany (h : Tabled emb val map entry) (h' : Tabled emb val map' entry') (hi : ∀ {a b}, emb a = emb b → a = b) (d d' : α) :
    Sheet.AsMany ⟨d, entry⟩ ⟨d', entry'⟩ ↔ map.len = map'.len := by
  have hl := h.lists hi (.refl _) d
  have hl' := h'.lists hi (.refl _) d'
  have key : ∀ {t : Sheet κ α} {L L' : List κ}, t.Lists L → t.Lists L' → L.length = L'.length := fun h1 h2 =>
    ((List.perm_ext_iff_of_nodup h1.1 h2.1).mpr fun k => (h1.2 k).trans (h2.2 k).symm).length_eq
  unfold HMap.len
  constructor
  · rintro ⟨L, L', h1, h2, h3⟩
    have e1 := key h1 hl
    have e2 := key h2 hl'
    rw [List.length_map] at e1 e2
    omega
  · intro e
    exact ⟨_, _, hl, hl', by rw [List.length_map, List.length_map]; exact e⟩

theorem Tabled.same (h : Tabled emb val map entry) (h' : Tabled emb val map' entry') (hv : ∀ {a b : V}, val a = val b → a = b) :
    (∀ k, map.get k = map'.get k) ↔ ∀ s, entry s = entry' s := by
  constructor
  · intro hg s
    by_cases hs : ∃ k, emb k = s
    · obtain ⟨k, rfl⟩ := hs
      rw [h.get, h'.get, hg]
    · rw [Classical.byContradiction fun hh => hs (h.named s hh), Classical.byContradiction fun hh => hs (h'.named s hh)]
  · intro hs k
    have h1 := hs (emb k)
    rw [h.get, h'.get] at h1
    cases hg : map.get k with
    | none =>
      rw [hg] at h1
      cases hg' : map'.get k with
      | none => rfl
      | some y => rw [hg'] at h1; cases h1
    | some x =>
      rw [hg] at h1
      cases hg' : map'.get k with
      | none => rw [hg'] at h1; cases h1
      | some y =>
        rw [hg'] at h1
        rw [hv (Option.some.inj h1)]

end

theorem entriesOf_tabled {V α : Type} (f : V → α) {map : HMap Word V} (h : map.Nodup) : Tabled BitVec.toNat f map (entriesOf f map) := by
  refine ⟨h, fun k => ?_, fun s hs => ?_⟩
  · unfold entriesOf
    rw [if_pos k.isLt, BitVec.ofNat_toNat, BitVec.setWidth_eq]
  · unfold entriesOf at hs
    by_cases hk : s < 2 ^ 64
    · exact ⟨BitVec.ofNat 64 s, ofNat64_toNat hk⟩
    · rw [if_neg hk] at hs
      exact absurd rfl hs

theorem valuesOf_tabled {map : HMap BitVecValue BitVecValue} (h : map.Nodup) : Tabled BitVecValue.shape BitVecValue.shape map (valuesOf map) := by
  refine ⟨h, fun k => ?_, fun s hs => ?_⟩
  · unfold valuesOf HMap.get
    rw [Option.map_map]
    congr 2
    funext e
    rw [decide_eq_decide]
    exact ⟨shape_inj, congrArg _⟩
  · unfold valuesOf at hs
    cases hf : map.entries.find? (fun e => e.1.shape = s) with
    | none => rw [hf] at hs; exact absurd rfl hs
    | some e => exact ⟨e.1, by simpa using List.find?_some hf⟩

theorem word_inj {a b : Word} (h : a.toNat = b.toNat) : a = b := BitVec.eq_of_toNat_eq h

/-! ## Outcomes -/

/-- Executions in all environments have the possible outcomes, and all of them. -/
structure Exactly {α β : Type} (P : α → β → Prop) (run : HashEnv → Res α) (outcome : Option β → Prop) : Prop where
  sound : ∀ env, ∃ r, outcome r ∧ Fate P (run env) r
  exact : ∀ r, outcome r → ∃ env, Fate P (run env) r

theorem Exactly.of {α β : Type} {P : α → β → Prop} {run : HashEnv → Res α} {outcome : Option β → Prop} (o : Option β)
    (ho : ∀ r, outcome r ↔ r = o) (h : ∀ env, Fate P (run env) o) : Exactly P run outcome :=
  ⟨fun env => ⟨o, (ho o).mpr rfl, h env⟩, fun r hr => ⟨listEnv, by rw [(ho r).mp hr]; exact h _⟩⟩

/-- The result has this shape. -/
def HasShape (r : BitVecValue) (s : Shape) : Prop := r.shape = s ∧ s.width < 2 ^ 32

theorem assert_ok {b : Bool} {p : Prop} (hb : b = true ↔ ¬ p) (h : ¬ (m = .debug ∧ p)) : debugAssert m b = ok () := by
  cases m with
  | release => rfl
  | debug => exact debugAssert_of (hb.mpr fun hh => h ⟨rfl, hh⟩)

theorem assert_panics {b : Bool} {p : Prop} (hb : b = true ↔ ¬ p) (h : m = .debug ∧ p) : Panics (debugAssert m b) := by
  obtain ⟨rfl, hp⟩ := h
  cases b with
  | false => exact ⟨_, rfl⟩
  | true => exact absurd hp (hb.mp rfl)

section
variable {iw dw : Nat}

theorem Tabled.used {map : HMap BitVecValue BitVecValue} {t : Sheet Shape Shape} (h : Tabled BitVecValue.shape BitVecValue.shape map t.entry) :
    t.Used ↔ map.entries.map Prod.fst ≠ [] := by
  constructor
  · rintro ⟨s, hs⟩ he
    obtain ⟨k, hk, -⟩ := h.has_key hs
    rw [he] at hk
    cases hk
  · intro hn
    cases hl : map.entries.map Prod.fst with
    | nil => exact absurd hl hn
    | cons k ks => exact ⟨k.shape, h.key_mem.mp (by rw [hl]; exact List.mem_cons_self)⟩

theorem borrowed_exactly {α β : Type} {P : α → β → Prop} {map : HMap BitVecValue BitVecValue} {t : Sheet Shape Shape}
    (h : Tabled BitVecValue.shape BitVecValue.shape map t.entry) (i : BitVecValue) {x : α} {y : β} (hP : P x y) :
    Exactly P (fun env => lookupBorrowed env map i >>= fun _ => ok x)
      (fun r => (t.Used ∧ r = none) ∨ (t.entry i.shape = none ∧ r = some y)) := by
  constructor
  · intro env
    unfold lookupBorrowed
    cases hp : env.probe (map.entries.map Prod.fst) i with
    | true =>
      rw [if_pos rfl]
      refine ⟨none, .inl ⟨h.used.mpr fun he => ?_, rfl⟩, _, rfl⟩
      rw [he, env.probe_nil] at hp
      cases hp
    | false =>
      rw [if_neg (by simp)]
      refine ⟨some y, .inr ⟨Classical.byContradiction fun hn => ?_, rfl⟩, x, rfl, hP⟩
      rw [env.probe_mem _ _ (h.key_mem.mpr hn)] at hp
      cases hp
  · rintro r (⟨hu, rfl⟩ | ⟨hn, rfl⟩)
    · refine ⟨crowdedEnv 0, ?_⟩
      unfold lookupBorrowed
      rw [LongHolds.probe_crowded 0 (h.used.mp hu), if_pos rfl]
      exact ⟨_, rfl⟩
    · refine ⟨listEnv, ?_⟩
      unfold lookupBorrowed
      rw [if_neg]
      · exact ⟨x, rfl, hP⟩
      · rw [listEnv_probe]
        exact fun hm => h.key_mem.mp hm hn

theorem owned_exactly {α β : Type} {P : α → β → Prop} {map : HMap BitVecValue BitVecValue} {t : Sheet Shape Shape}
    (h : Tabled BitVecValue.shape BitVecValue.shape map t.entry) (i : BitVecValue) {x : α} {y : β} (hP : P x y) :
    Exactly P (fun env => lookupOwned m env map i >>= fun _ => ok x)
      (fun r => ((∃ k, t.entry k ≠ none ∧ i.shape.Odd m k) ∧ r = none) ∨ r = some y) := by
  constructor
  · intro env
    cases hl : lookupOwned m env map i with
    | ok _ => exact ⟨some y, .inr rfl, x, rfl, hP⟩
    | panic p =>
      refine ⟨none, .inl ⟨Classical.byContradiction fun hn => ?_, rfl⟩, p, rfl⟩
      rw [lookupOwned_ok env fun k hk hm hw => Classical.byContradiction fun hne => hn ⟨k.shape, h.key_mem.mp hk, hm, hw, hne⟩] at hl
      cases hl
  · rintro r (⟨⟨s, hs, rfl, hw, hne⟩, rfl⟩ | rfl)
    · obtain ⟨k, hk, rfl⟩ := h.has_key hs
      exact ⟨crowdedEnv 0, panics_bind (crowded_lookup hk fun hf => hne (hf rfl hw)) _⟩
    · refine ⟨listEnv, ?_⟩
      rw [list_lookup]
      exact ⟨x, rfl, hP⟩

/-- A check before an execution. -/
theorem Exactly.guard {α β : Type} {P : α → β → Prop} {run run' : HashEnv → Res α} {outcome : Option β → Prop} (c : Prop) [Decidable c]
    (h1 : c → ∀ env, Panics (run' env)) (h2 : ¬ c → ∀ env, run' env = run env) (h : ¬ c → Exactly P run outcome)
    {outcome' : Option β → Prop} (ho : ∀ r, outcome' r ↔ (c ∧ r = none) ∨ (¬ c ∧ outcome r)) : Exactly P run' outcome' := by
  by_cases hc : c
  · refine Exactly.of none (fun r => ?_) (h1 hc)
    rw [ho]
    exact ⟨fun hh => hh.elim And.right fun hh => absurd hc hh.1, fun hh => .inl ⟨hc, hh⟩⟩
  · obtain ⟨hs, he⟩ := h hc
    constructor
    · intro env
      obtain ⟨r, hr1, hr2⟩ := hs env
      exact ⟨r, (ho r).mpr (.inr ⟨hc, hr1⟩), by rw [h2 hc env]; exact hr2⟩
    · intro r hr
      obtain ⟨env, hr2⟩ := he r (((ho r).mp hr).elim (fun hh => absurd hh.1 hc) And.right)
      exact ⟨env, by rw [h2 hc env]; exact hr2⟩

/-! ## Reading a sparse array -/

theorem Tabled.read {V α : Type} {f : V → α} {map : HMap Word V} {d : V} (h : Tabled BitVec.toNat f map (entriesOf f map)) (w : Word) :
    Sheet.read ⟨f d, entriesOf f map⟩ w.toNat = f ((map.get w).getD d) := by
  unfold Sheet.read
  rw [show (⟨f d, entriesOf f map⟩ : Sheet Nat α).entry w.toNat = _ from h.get w]
  cases map.get w <;> rfl

theorem doc_sparse_select {s : SparseArrayValue} (ha : Acceptable (.sparse s)) (m : Mode) (i : BitVecValue) :
    Exactly HasShape (fun env => s.select m env i) ((ArrayValue.account (.sparse s)).Selects m i.shape) := by
  obtain ⟨iw, dw, data⟩ := s
  obtain ⟨hiw, hdl, hrep⟩ := ha
  dsimp only at hiw hdl hrep
  cases data with
  | u64u64 d map =>
    refine Exactly.of _ (fun r => Iff.rfl) fun env => ?_
    have he : SparseArrayValue.select m env ⟨iw, dw, .u64u64 d map⟩ i = ((debugAssert m (i.width == iw) >>= fun _ => unwrap i.toU64) >>=
        fun w => BitVecValue.fromU64 m ((map.get w).getD d) dw) := by
      unfold SparseArrayValue.select
      dsimp only
      cases debugAssert m (i.width == iw) <;> rfl
    rw [he]
    refine (points_fate m iw i).bind fun w n hw => ?_
    rw [← hw.1, (entriesOf_tabled BitVec.toNat hrep).read w]
    exact (makes_iff _ _).mp (numberAs_fate m hdl _)
  | u64big d map =>
    obtain ⟨h1, h2, h3⟩ := hrep
    refine Exactly.of _ (fun r => Iff.rfl) fun env => ?_
    have he : SparseArrayValue.select m env ⟨iw, dw, .u64big d map⟩ i = ((debugAssert m (i.width == iw) >>= fun _ => unwrap i.toU64) >>=
        fun w => ok ((map.get w).getD d)) := by
      unfold SparseArrayValue.select
      dsimp only
      cases debugAssert m (i.width == iw) <;> rfl
    rw [he]
    refine (points_fate m iw i).map fun w n hw => ⟨_, rfl, ?_⟩
    rw [← hw.1, (entriesOf_tabled BitVecValue.shape h2).read w]
    refine ⟨rfl, ?_⟩
    cases hg : map.get w with
    | none => exact h1
    | some v => exact h3 _ ((HMap.get_eq_some_iff h2 _ _).mp hg)
  | bigbig d map =>
    obtain ⟨h1, h2, h3⟩ := hrep
    refine Exactly.guard (m = .debug ∧ i.width ≠ iw) (run := fun env => lookupBorrowed env map i >>= fun _ => ok d) (fun hc env => ?_)
      (fun hc env => ?_) (fun _ => borrowed_exactly (t := ⟨d.shape, valuesOf map⟩) (valuesOf_tabled h2) i (x := d) ⟨rfl, h1⟩) fun r => ?_
    · exact panics_bind (assert_panics (by simp) hc) _
    · show (debugAssert m (i.width == iw) >>= _) = _
      rw [assert_ok (by simp) hc]
      rfl
    · show ((((m = .debug ∧ i.width ≠ iw) ∨ _) ∧ r = none) ∨ (¬ (m = .debug ∧ i.width ≠ iw) ∧ _ ∧ _)) ↔ _
      generalize (m = .debug ∧ i.width ≠ iw) = c
      constructor
      · rintro (⟨hc, hr⟩ | ⟨h1, h2⟩)
        · by_cases h : c
          · exact .inl ⟨h, hr⟩
          · exact .inr ⟨h, .inl ⟨hc.resolve_left h, hr⟩⟩
        · exact .inr ⟨h1, .inr h2⟩
      · rintro (⟨hc, hr⟩ | ⟨h1, ⟨h2, hr⟩ | h2⟩)
        · exact .inl ⟨.inl hc, hr⟩
        · exact .inl ⟨.inr h2, hr⟩
        · exact .inr ⟨h1, h2⟩

/-! ## Writing a sparse array -/

theorem doc_sparse_store {s : SparseArrayValue} (ha : Acceptable (.sparse s)) (m : Mode) {i v : BitVecValue} (hi : i.width < 2 ^ 32)
    (hv : v.width < 2 ^ 32) :
    Exactly (fun r h => Kept (.sparse r) s.indexWidth s.dataWidth h) (fun env => s.store m env i v)
      ((ArrayValue.account (.sparse s)).Stores m i.shape v.shape) := by
  obtain ⟨iw, dw, data⟩ := s
  obtain ⟨hiw, hdl, hrep⟩ := ha
  dsimp only at hiw hdl hrep ⊢
  cases data with
  | u64u64 d map =>
    refine Exactly.of _ (fun r => Iff.rfl) fun env => ?_
    unfold SparseArrayValue.store
    dsimp only
    refine Fate.between (points_fate m iw i) fun w n hw => ?_
    replace hw := hw.1.symm
    subst hw
    have ht := entriesOf_tabled BitVec.toNat hrep
    have hu := toU64_fate v
    by_cases hb : 2 ^ 64 ≤ v.shape.number
    · rw [if_pos hb] at hu
      rw [if_pos (.inr hb)]
      exact panics_bind_of _ fun _ _ => panics_bind hu _
    · rw [if_neg hb] at hu
      obtain ⟨x, hx1, hx2⟩ := hu
      by_cases hg : m = .debug ∧ v.shape.width ≠ dw
      · rw [if_pos (.inl hg)]
        exact panics_bind (assert_panics (p := v.shape.width ≠ dw) (by simp [BitVecValue.shape]) hg) _
      · rw [if_neg (by rintro (h | h); exact hg h; exact hb h), assert_ok (p := v.shape.width ≠ dw) (by simp [BitVecValue.shape]) hg, ok_bind,
          hx1, ok_bind, ← hx2]
        by_cases he : x = d
        · subst he
          rw [if_pos rfl]
          have hn := HMap.nodup_remove hrep w
          refine ⟨_, rfl, ?_, ⟨hiw, hdl, hn⟩, trivial⟩
          show (⟨iw, dw, .narrow ⟨x.toNat, entriesOf BitVec.toNat (map.remove w)⟩⟩ : Account) = _
          rw [if_pos rfl, (entriesOf_tabled BitVec.toNat hn).unique (ht.remove word_inj w)]
          rfl
        · have hne : ¬ x.toNat = d.toNat := fun h => he (word_inj h)
          rw [if_neg he]
          have hn := HMap.nodup_insert hrep w x
          refine ⟨_, rfl, ?_, ⟨hiw, hdl, hn⟩, trivial⟩
          show (⟨iw, dw, .narrow ⟨d.toNat, entriesOf BitVec.toNat (map.insert w x)⟩⟩ : Account) = _
          rw [if_neg hne, (entriesOf_tabled BitVec.toNat hn).unique (ht.insert word_inj w x)]
          rfl
  | u64big d map =>
    obtain ⟨h1, h2, h3⟩ := hrep
    refine Exactly.of (if d.shape.Unlike m dw v.shape then none
      else (i.shape.points m iw).map fun I => .broad (Sheet.set ⟨d.shape, entriesOf BitVecValue.shape map⟩ I (if v.shape.equal d.shape then none else some v.shape)))
      (fun r => Iff.rfl) fun env => ?_
    have ht := entriesOf_tabled BitVecValue.shape h2
    unfold SparseArrayValue.store
    dsimp only
    have hc : Answers (BitVecValue.isEqual m v d) (if m = .debug ∧ (v.shape.width ≠ d.shape.width ∨ v.shape.words ≠ d.shape.words) then none
      else some (v.shape.equal d.shape)) := C105_comparison (a := v) (b := d) m .equal
    by_cases hg : d.shape.Unlike m dw v.shape
    · rw [if_pos hg]
      by_cases hw : v.width = dw
      · rw [if_pos ⟨hg.1, hg.2.resolve_left fun hh => hh hw⟩] at hc
        exact panics_bind_of _ fun _ _ => panics_bind_of _ fun _ _ => panics_bind_of _ fun _ _ => panics_bind hc _
      · exact panics_bind_of _ fun _ _ => panics_bind (assert_panics (p := v.width ≠ dw) (by simp) ⟨hg.1, hw⟩) _
    · rw [if_neg hg]
      rw [if_neg fun hh => hg ⟨hh.1, .inr hh.2⟩] at hc
      replace hc : BitVecValue.isEqual m v d = ok (v.shape.equal d.shape) := hc
      rw [Option.map_eq_bind]
      refine Fate.between (points_fate m iw i) fun w n hw => ?_
      replace hw := hw.1.symm
      subst hw
      rw [assert_ok (p := v.width ≠ dw) (by simp) fun hh => hg ⟨hh.1, .inl hh.2⟩, ok_bind, hc, ok_bind]
      cases hq : v.shape.equal d.shape with
      | true =>
        rw [if_pos rfl]
        have hn := HMap.nodup_remove h2 w
        refine ⟨_, rfl, ?_, ⟨hiw, hdl, h1, hn, fun e he => h3 e (List.mem_filter.mp he).1⟩, trivial⟩
        show (⟨iw, dw, .broad ⟨d.shape, entriesOf BitVecValue.shape (map.remove w)⟩⟩ : Account) = _
        rw [(entriesOf_tabled BitVecValue.shape hn).unique (ht.remove word_inj w)]
        dsimp only [Function.comp]
        rw [if_pos rfl]
        rfl
      | false =>
        rw [if_neg (by simp)]
        have hn := HMap.nodup_insert h2 w v
        refine ⟨_, rfl, ?_, ⟨hiw, hdl, h1, hn, fun e he => ?_⟩, trivial⟩
        · show (⟨iw, dw, .broad ⟨d.shape, entriesOf BitVecValue.shape (map.insert w v)⟩⟩ : Account) = _
          rw [(entriesOf_tabled BitVecValue.shape hn).unique (ht.insert word_inj w v)]
          dsimp only [Function.comp]
          rw [if_neg (by simp)]
          rfl
        · rcases List.mem_cons.mp he with rfl | he
          · exact hv
          · exact h3 e (List.mem_filter.mp he).1
  | bigbig d map =>
    obtain ⟨h1, h2, h3⟩ := hrep
    have ht := valuesOf_tabled h2
    have hc : Answers (BitVecValue.isEqual m v d) (if m = .debug ∧ (v.shape.width ≠ d.shape.width ∨ v.shape.words ≠ d.shape.words) then none
      else some (v.shape.equal d.shape)) := C105_comparison (a := v) (b := d) m .equal
    have key : ∀ env, SparseArrayValue.store m env ⟨iw, dw, .bigbig d map⟩ i v = (debugAssert m (i.width == iw) >>= fun _ =>
        debugAssert m (v.width == dw) >>= fun _ => BitVecValue.isEqual m v d >>= fun e =>
        if e then lookupBorrowed env map i >>= fun _ => ok ⟨iw, dw, .bigbig d map⟩
        else lookupOwned m env map i >>= fun _ => ok ⟨iw, dw, .bigbig d (map.insert i v)⟩) := fun env => rfl
    refine Exactly.guard ((m = .debug ∧ i.width ≠ iw) ∨ d.shape.Unlike m dw v.shape)
      (run := fun env => if v.shape.equal d.shape then lookupBorrowed env map i >>= fun _ => ok ⟨iw, dw, .bigbig d map⟩
        else lookupOwned m env map i >>= fun _ => ok ⟨iw, dw, .bigbig d (map.insert i v)⟩)
      (outcome := fun r => if v.shape.equal d.shape then ((⟨d.shape, valuesOf map⟩ : Sheet Shape Shape).Used ∧ r = none) ∨ (valuesOf map i.shape = none ∧ r = some (.long ⟨d.shape, valuesOf map⟩))
        else ((∃ k, valuesOf map k ≠ none ∧ i.shape.Odd m k) ∧ r = none) ∨ r = some (.long (Sheet.set ⟨d.shape, valuesOf map⟩ i.shape (some v.shape))))
      (fun hg env => ?_) (fun hg env => ?_) (fun hg => ?_) fun r => ?_
    · rw [key]
      rcases hg with hg | hg
      · exact panics_bind (assert_panics (by simp) hg) _
      · by_cases hw : v.width = dw
        · rw [if_pos ⟨hg.1, hg.2.resolve_left fun hh => hh hw⟩] at hc
          exact panics_bind_of _ fun _ _ => panics_bind_of _ fun _ _ => panics_bind hc _
        · exact panics_bind_of _ fun _ _ => panics_bind (assert_panics (p := v.width ≠ dw) (by simp) ⟨hg.1, hw⟩) _
    · rw [if_neg fun hh => hg (.inr ⟨hh.1, .inr hh.2⟩)] at hc
      replace hc : BitVecValue.isEqual m v d = ok (v.shape.equal d.shape) := hc
      rw [key, assert_ok (p := i.width ≠ iw) (by simp) fun hh => hg (.inl hh), ok_bind,
        assert_ok (p := v.width ≠ dw) (by simp) fun hh => hg (.inr ⟨hh.1, .inl hh.2⟩), ok_bind, hc, ok_bind]
    · cases hq : v.shape.equal d.shape with
      | true =>
        simp only [if_true]
        exact borrowed_exactly (t := ⟨d.shape, valuesOf map⟩) ht i ⟨rfl, ⟨hiw, hdl, h1, h2, h3⟩, trivial⟩
      | false =>
        simp only [Bool.false_eq_true, if_false]
        have hn := HMap.nodup_insert h2 i v
        refine owned_exactly (t := ⟨d.shape, valuesOf map⟩) ht i ⟨?_, ⟨hiw, hdl, h1, hn, fun e he => ?_⟩, trivial⟩
        · show (⟨iw, dw, .long ⟨d.shape, valuesOf (map.insert i v)⟩⟩ : Account) = _
          rw [(valuesOf_tabled hn).unique (ht.insert shape_inj i v)]
          rfl
        · rcases List.mem_cons.mp he with rfl | he
          · exact ⟨hi, hv⟩
          · exact h3 e (List.mem_filter.mp he).1
    · show ((((m = .debug ∧ i.width ≠ iw) ∨ _) ∧ r = none) ∨ (¬ (m = .debug ∧ i.width ≠ iw) ∧ _ ∧ _)) ↔ _
      generalize (m = .debug ∧ i.width ≠ iw) = c
      constructor
      · rintro (h | ⟨h4, h5, h6⟩)
        · exact .inl h
        · exact .inr ⟨fun hh => hh.elim h4 h5, h6⟩
      · rintro (h | ⟨h4, h6⟩)
        · exact .inl h
        · exact .inr ⟨fun h => h4 (.inl h), fun h => h4 (.inr h), h6⟩

theorem doc_sparse_clear {s : SparseArrayValue} (ha : Acceptable (.sparse s)) :
    Kept (.sparse s.clear) s.indexWidth s.dataWidth (ArrayValue.account (.sparse s)).cleared := by
  obtain ⟨iw, dw, data⟩ := s
  obtain ⟨hiw, hdl, hrep⟩ := ha
  dsimp only at hiw hdl hrep ⊢
  have hz : (BitVecValue.zero dw).width < 2 ^ 32 := hdl
  cases data with
  | u64u64 d map =>
    refine ⟨?_, ⟨hiw, hdl, HMap.nodup_empty⟩, trivial⟩
    show (⟨iw, dw, .narrow ⟨0, _⟩⟩ : Account) = _
    rw [(entriesOf_tabled BitVec.toNat HMap.nodup_empty).unique Tabled.empty]
    rfl
  | u64big d map =>
    refine ⟨?_, ⟨hiw, hdl, hz, HMap.nodup_empty, fun e he => by cases he⟩, trivial⟩
    show (⟨iw, dw, .broad ⟨(BitVecValue.zero dw).shape, _⟩⟩ : Account) = _
    rw [(entriesOf_tabled BitVecValue.shape HMap.nodup_empty).unique Tabled.empty, zero_shape]
    rfl
  | bigbig d map =>
    refine ⟨?_, ⟨hiw, hdl, hz, HMap.nodup_empty, fun e he => by cases he⟩, trivial⟩
    show (⟨iw, dw, .long ⟨(BitVecValue.zero dw).shape, _⟩⟩ : Account) = _
    rw [(valuesOf_tabled HMap.nodup_empty).unique Tabled.empty, zero_shape]
    rfl

end

/-! ## All arrays -/

theorem doc_store {a : ArrayValue} (ha : Acceptable a) (hm : a.InMemory) (m : Mode) {i v : BitVecValue} (hi : i.width < 2 ^ 32)
    (hv : v.width < 2 ^ 32) :
    Exactly (fun r h => Kept r a.account.iw a.account.dw h) (fun env => a.store m env i v) (a.account.Stores m i.shape v.shape) := by
  cases a with
  | dense d =>
    refine Exactly.of ((i.shape.points m d.indexWidth).bind fun I => (d.data.layout.locate m d.dataWidth d.data.cells.count I).bind fun n =>
        if m = .debug ∧ v.shape.width ≠ d.dataWidth then none
        else (d.data.layout.write d.dataWidth d.data.cells.cell n v.shape).map fun cell => .dense d.data.layout d.data.span ⟨d.data.cells.count, cell⟩)
      (fun r => ?_) fun env => ?_
    · obtain ⟨iw, dw, data⟩ := d
      cases data <;> exact Iff.rfl
    · show Fate _ (d.store m i v >>= fun d => ok (ArrayValue.dense d)) _
      have h := (points_fate m d.indexWidth i).bind (f := fun w => denseStoreAt m d w.toNat v)
        (Q := fun r h => Kept (.dense r) d.indexWidth d.dataWidth h)
        (g := fun I => (d.data.layout.locate m d.dataWidth d.data.cells.count I).bind fun n =>
          if m = .debug ∧ v.shape.width ≠ d.dataWidth then none
          else (d.data.layout.write d.dataWidth d.data.cells.cell n v.shape).map fun cell =>
            .dense d.data.layout d.data.span ⟨d.data.cells.count, cell⟩) fun w n hw => by
        rw [← hw.1]
        exact doc_storeAt m ha hm w.toNat v
      rw [← dense_store_eq] at h
      revert h
      generalize (i.shape.points m d.indexWidth).bind _ = o
      intro h
      cases o with
      | none => exact panics_bind h _
      | some x =>
        obtain ⟨r, hr, hk⟩ := h
        rw [hr]
        exact ⟨_, rfl, hk⟩
  | sparse s =>
    have h := doc_sparse_store ha m hi hv
    have key : ∀ env r, Fate (fun r h => Kept (.sparse r) s.indexWidth s.dataWidth h) (s.store m env i v) r →
        Fate (fun r h => Kept r s.indexWidth s.dataWidth h) (ArrayValue.store m env (.sparse s) i v) r := by
      intro env r hr
      show Fate _ (s.store m env i v >>= fun s => ok (ArrayValue.sparse s)) _
      cases r with
      | none => exact panics_bind hr _
      | some x =>
        obtain ⟨r, hr, hk⟩ := hr
        rw [hr]
        exact ⟨_, rfl, hk⟩
    exact ⟨fun env => (h.sound env).imp fun r hr => ⟨hr.1, key env r hr.2⟩, fun r hr => (h.exact r hr).imp fun env hr => key env r hr⟩

theorem doc_clear {a : ArrayValue} (ha : Acceptable a) (hm : a.InMemory) : Kept a.clear a.account.iw a.account.dw a.account.cleared := by
  cases a with
  | dense d => exact doc_dense_clear ha hm
  | sparse s => exact doc_sparse_clear ha

/-- What is known after an operation. -/
def Known117 (b : ArrayValue) (y : Account) : Prop := b.account = y ∧ Acceptable b ∧ b.InMemory

theorem doc_op {a : ArrayValue} (ha : Acceptable a) (hm : a.InMemory) (m : Mode) {op : RawOp} (ho : op.Typed) :
    Exactly Known117 (fun env => op.run m env a) (a.account.Follows m op) := by
  cases op with
  | store i v =>
    have h := doc_store ha hm m ho.1 ho.2
    have key : ∀ env r, Fate (fun r h => Kept r a.account.iw a.account.dw h) (a.store m env i v) r →
        Fate Known117 (a.store m env i v) (r.map fun h => { a.account with hoard := h }) := by
      intro env r hr
      cases r with
      | none => exact hr
      | some x =>
        obtain ⟨r, hr, hk⟩ := hr
        exact ⟨r, hr, hk.account, hk.acceptable, hk.inMemory⟩
    constructor
    · intro env
      obtain ⟨r, hr1, hr2⟩ := h.sound env
      exact ⟨_, ⟨r, hr1, rfl⟩, key env r hr2⟩
    · rintro _ ⟨r, hr, rfl⟩
      obtain ⟨env, hr2⟩ := h.exact r hr
      exact ⟨env, key env r hr2⟩
  | clear =>
    refine Exactly.of _ (fun r => Iff.rfl) fun env => ⟨_, rfl, ?_⟩
    have h := doc_clear ha hm
    exact ⟨h.account, h.acceptable, h.inMemory⟩

theorem doc_history (m : Mode) {ops : List RawOp} : ∀ {a : ArrayValue}, Acceptable a → a.InMemory → (∀ op ∈ ops, op.Typed) →
    (∀ env, ∃ r, a.account.Runs m ops r ∧ Fate Known117 (runEach m env a ops) r) ∧
    (∀ r, a.account.Runs m ops r → ∃ env, Fate Known117 (runEach m env a ops) r) := by
  induction ops with
  | nil =>
    intro a ha hm _
    refine ⟨fun env => ⟨_, rfl, a, rfl, rfl, ha, hm⟩, ?_⟩
    rintro _ rfl
    exact ⟨fun _ => listEnv, a, rfl, rfl, ha, hm⟩
  | cons op ops ih =>
    intro a ha hm ho
    have h := doc_op ha hm m (ho op List.mem_cons_self)
    replace ih := fun {b} (h1 : Acceptable b) h2 => ih h1 h2 fun op hop => ho op (List.mem_cons_of_mem _ hop)
    constructor
    · intro env
      obtain ⟨mid, hm1, hm2⟩ := h.sound (env ops.length)
      cases mid with
      | none => exact ⟨none, ⟨none, hm1, rfl⟩, panics_bind hm2 _⟩
      | some y =>
        obtain ⟨b, hb1, rfl, hb2, hb3⟩ := hm2
        obtain ⟨r, hr1, hr2⟩ := (ih hb2 hb3).1 env
        refine ⟨r, ⟨some _, hm1, hr1⟩, ?_⟩
        unfold runEach
        rw [hb1, ok_bind]
        exact hr2
    · rintro r ⟨mid, hm1, hr⟩
      obtain ⟨e, he⟩ := h.exact mid hm1
      cases mid with
      | none =>
        replace hr : r = none := hr
        subst hr
        exact ⟨fun _ => e, panics_bind he _⟩
      | some y =>
        obtain ⟨b, hb1, rfl, hb2, hb3⟩ := he
        obtain ⟨env, henv⟩ := (ih hb2 hb3).2 r hr
        refine ⟨fun n => if n = ops.length then e else env n, ?_⟩
        unfold runEach
        rw [if_pos rfl, hb1, ok_bind]
        have : ∀ (l : List RawOp) (c : ArrayValue), l.length ≤ ops.length →
            runEach m (fun n => if n = ops.length then e else env n) c l = runEach m env c l := by
          intro l
          induction l with
          | nil => intro c _; rfl
          | cons o l ihl =>
            intro c hl
            have hl' : l.length + 1 ≤ ops.length := hl
            unfold runEach
            rw [if_neg (by omega)]
            congr 1
            funext c
            exact ihl c (by omega)
        rw [this ops b (Nat.le_refl _)]
        exact henv

theorem doc_select {a : ArrayValue} (ha : Acceptable a) (hm : a.InMemory) (m : Mode) (i : BitVecValue) :
    Exactly HasShape (fun env => a.select m env i) (a.account.Selects m i.shape) := by
  cases a with
  | dense d =>
    refine Exactly.of ((i.shape.points m d.indexWidth).bind fun I => (d.data.layout.locate m d.dataWidth d.data.cells.count I).bind fun n =>
      d.data.layout.read m d.dataWidth d.data.cells.cell n) (fun r => ?_) fun env => ?_
    · obtain ⟨iw, dw, data⟩ := d
      cases data <;> exact Iff.rfl
    · show Fate _ (d.select m i) _
      rw [dense_select_eq]
      refine (points_fate m d.indexWidth i).bind fun w n hw => ?_
      rw [← hw.1]
      exact (makes_iff _ _).mp (doc_selectUsize m ha.2.1 hm w.toNat)
  | sparse s => exact doc_sparse_select ha m i

/-! ## Theorems -/

/-- **C117** (reading): the outcomes of reading an array that some document is read as are the predicted ones, and all of them can happen. -/
theorem C117_select (m : Mode) {doc : Serde} {a : ArrayValue} (hd : readArray doc = some a) (hm : a.InMemory) (i : BitVecValue) :
    (∀ env, ∃ r, a.account.Selects m i.shape r ∧ Makes (a.select m env i) r) ∧
    (∀ r, a.account.Selects m i.shape r → ∃ env, Makes (a.select m env i) r) := by
  have h := doc_select ((C85_accepts a).mp ⟨doc, hd⟩) hm m i
  exact ⟨fun env => (h.sound env).imp fun r hr => ⟨hr.1, (makes_iff _ _).mpr hr.2⟩,
    fun r hr => (h.exact r hr).imp fun env hr => (makes_iff _ _).mpr hr⟩

/-- **C117** (histories): every history of an array that some document is read as ends as predicted, and all predictions can happen. The
result can again be read from a document, so that it is predictable as well. -/
theorem C117_history (m : Mode) {doc : Serde} {a : ArrayValue} (hd : readArray doc = some a) (hm : a.InMemory) {ops : List RawOp}
    (ho : ∀ op ∈ ops, op.Typed) :
    (∀ env, ∃ r, a.account.Runs m ops r ∧ Account.Describes (runEach m env a ops) r) ∧
    (∀ r, a.account.Runs m ops r → ∃ env, Account.Describes (runEach m env a ops) r) ∧
    (∀ env b, runEach m env a ops = ok b → (∃ doc', readArray doc' = some b) ∧ b.InMemory) := by
  have h := doc_history m (ops := ops) ((C85_accepts a).mp ⟨doc, hd⟩) hm ho
  have key : ∀ env r, Fate Known117 (runEach m env a ops) r → Account.Describes (runEach m env a ops) r := by
    intro env r hr
    cases r with
    | none => exact hr
    | some y =>
      obtain ⟨b, h1, h2, -⟩ := hr
      exact ⟨b, h1, h2⟩
  refine ⟨fun env => (h.1 env).imp fun r hr => ⟨hr.1, key env r hr.2⟩, fun r hr => (h.2 r hr).imp fun env hr => key env r hr, fun env b hb => ?_⟩
  obtain ⟨r, -, hr⟩ := h.1 env
  rw [hb] at hr
  cases r with
  | none =>
    obtain ⟨p, hp⟩ := hr
    cases hp
  | some y =>
    obtain ⟨c, hc, h1, h2, h3⟩ := hr
    cases hc
    exact ⟨(C85_accepts b).mpr h2, h3⟩

end Baa

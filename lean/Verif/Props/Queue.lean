import Verif.Props.Blocks
import Verif.Spec.Queue

/-!
# C148: an array and two pointers are a queue
-/

namespace Baa
open Res

variable {iw dw : Nat}

/-- The queue holds these values. -/
structure ArrayQueue.Holds (m : Mode) (q : ArrayQueue) (f : BitVec iw → BitVec dw) (r : BitVec (iw + 1)) (l : List (BitVec dw)) : Prop where
  mem : Means m (.arr iw dw) q.mem f
  rd : Denotes q.rd r
  wr : Denotes q.wr (r + BitVec.ofNat (iw + 1) l.length)
  le : l.length ≤ 2 ^ iw
  get : ∀ k (h : k < l.length), f (r.setWidth iw + BitVec.ofNat iw k) = l[k]

theorem testBit_of_le_pow {n w : Nat} (h : n ≤ 2 ^ w) : n.testBit w = decide (n = 2 ^ w) := by
  by_cases e : n = 2 ^ w
  · rw [e, Nat.testBit_two_pow_self, decide_eq_true rfl]
  · rw [decide_eq_false e, Nat.testBit_lt_two_pow (by omega)]

theorem queue_slice (m : Mode) (h0 : 0 < iw) {a : BitVecValue} {x : BitVec (iw + 1)} (ha : Denotes a x) :
    BitVecValue.slice m a (iw - 1) 0 = ok (encode (x.setWidth iw)) := by
  obtain ⟨n, rfl⟩ : ∃ n, iw = n + 1 := ⟨iw - 1, by omega⟩
  obtain ⟨r, r1, r2⟩ := C19_slice m ha (msb := n) (lsb := 0) (by omega) (by omega)
  have e : x.setWidth (n + 1) = x.extractLsb' 0 (n - 0 + 1) := by
    apply BitVec.eq_of_toNat_eq
    simp
  rw [e, ← r2.eq_encode]
  exact r1

theorem queue_next (m : Mode) (hi : iw ≤ 64) {p : BitVecValue} {x : BitVec (iw + 1)} (hp : Denotes p x) :
    ∃ r, ArrayQueue.next m iw p = ok r ∧ Denotes r (x + 1#(iw + 1)) := by
  obtain ⟨i, i1, i2⟩ := C01_from_u64 m (w := iw + 1) (by omega) (by omega) 1#64 (Nat.one_lt_two_pow (by omega))
  obtain ⟨r, r1, r2⟩ := C06_add m (by omega) hp i2
  exact ⟨r, by rw [ArrayQueue.next, i1, ok_bind, r1], r2⟩

theorem queue_used (m : Mode) {q : ArrayQueue} {f : BitVec iw → BitVec dw} {r : BitVec (iw + 1)} {l : List (BitVec dw)}
    (h : q.Holds m f r l) : BitVecValue.sub m q.wr q.rd = ok (encode (BitVec.ofNat (iw + 1) l.length)) := by
  obtain ⟨u, u1, u2⟩ := C07_sub m (by omega) h.wr h.rd
  rw [BitVec.add_comm, BitVec.add_sub_cancel] at u2
  rw [u1, u2.eq_encode]

/-- One request. -/
theorem ArrayQueue.Holds.step {m : Mode} (env : HashEnv) (h0 : 0 < iw) {q : ArrayQueue} {f : BitVec iw → BitVec dw} {r : BitVec (iw + 1)}
    {l : List (BitVec dw)} (h : q.Holds m f r l) (o : QueueOp (BitVec dw)) :
    ∃ (q' : ArrayQueue) (f' : BitVec iw → BitVec dw) (r' : BitVec (iw + 1)), ArrayQueue.step m env iw q o.encoded = ok (q', (queueStep (2 ^ iw) l o).2.encoded iw) ∧
      q'.Holds m f' r' (queueStep (2 ^ iw) l o).1 := by
  have hi := h.mem.2.index_le
  have hl := h.le
  have hp : 2 ^ iw < 2 ^ (iw + 1) := Nat.pow_lt_pow_right (by decide) (by omega)
  match o with
  | .length =>
    exact ⟨q, f, r, by rw [QueueOp.encoded, ArrayQueue.step, queue_used m h]; rfl, h⟩
  | .push v =>
    have t : BitVecValue.isBitSet (encode (BitVec.ofNat (iw + 1) l.length)) iw = ok (decide (l.length = 2 ^ iw)) := by
      rw [C24_is_bit_set (encode_denotes _ (by omega)) (by omega), BitVec.getLsbD_ofNat, testBit_of_le_pow hl]
      simp
    by_cases c : l.length = 2 ^ iw
    · refine ⟨q, f, r, ?_, ?_⟩
      · rw [QueueOp.encoded, ArrayQueue.step, queue_used m h, ok_bind, t, ok_bind, decide_eq_true c, if_pos rfl, queueStep, if_neg (by omega)]
        rfl
      · rw [queueStep, if_neg (by omega)]
        exact h
    · obtain ⟨b, b1, b2⟩ := h.mem.store_ex m env ((r + BitVec.ofNat (iw + 1) l.length).setWidth iw) v
      obtain ⟨w, w1, w2⟩ := queue_next m hi h.wr
      have e : (r + BitVec.ofNat (iw + 1) l.length).setWidth iw = r.setWidth iw + BitVec.ofNat iw l.length := by
        rw [BitVec.setWidth_add _ _ (by omega), BitVec.setWidth_ofNat_of_le (by omega)]
      refine ⟨⟨b, q.rd, w⟩, update f ((r + BitVec.ofNat (iw + 1) l.length).setWidth iw) v, r, ?_, ?_⟩
      · rw [QueueOp.encoded, ArrayQueue.step, queue_used m h, ok_bind, t, ok_bind, decide_eq_false c, if_neg (by decide), queue_slice m h0 h.wr,
          ok_bind, b1, ok_bind, w1, ok_bind, queueStep, if_pos (by omega)]
        rfl
      · rw [queueStep, if_pos (by omega)]
        refine ⟨b2, h.rd, ?_, by simp; omega, ?_⟩
        · rw [BitVec.add_assoc, ← BitVec.ofNat_add] at w2
          simpa using w2
        · intro k hk
          rw [List.length_append, List.length_singleton] at hk
          rw [e]
          unfold update
          by_cases g : k = l.length
          · subst g
            rw [if_pos rfl]
            simp
          · have hk' : k < l.length := by omega
            have ne : r.setWidth iw + BitVec.ofNat iw k ≠ r.setWidth iw + BitVec.ofNat iw l.length := by
              intro q1
              have := (sub_toNat_eq_iff (by omega : l.length < 2 ^ iw)).mpr q1
              rw [(sub_toNat_eq_iff (by omega : k < 2 ^ iw)).mpr rfl] at this
              exact g this
            rw [if_neg ne, h.get k hk', List.getElem_append_left hk']
  | .pop =>
    match l, h, hl with
    | [], h, _ =>
      refine ⟨q, f, r, ?_, h⟩
      have hw := h.wr
      rw [List.length_nil, BitVec.add_zero] at hw
      rw [QueueOp.encoded, ArrayQueue.step, C15_is_equal m h.rd hw, ok_bind, decide_eq_true rfl, if_pos rfl]
      rfl
    | x :: l, h, hl =>
      rw [List.length_cons] at hl
      obtain ⟨w, w1, w2⟩ := queue_next m hi h.rd
      have ne : ¬ r = r + BitVec.ofNat (iw + 1) (x :: l).length := by
        intro q1
        have := (sub_toNat_eq_iff (by rw [List.length_cons]; omega : (x :: l).length < 2 ^ (iw + 1))).mpr q1
        rw [BitVec.sub_self, List.length_cons] at this
        simp at this
      have g0 := h.get 0 (by simp)
      rw [BitVec.add_zero, List.getElem_cons_zero] at g0
      refine ⟨⟨q.mem, w, q.wr⟩, f, r + 1#(iw + 1), ?_, ?_⟩
      · rw [QueueOp.encoded, ArrayQueue.step, C15_is_equal m h.rd h.wr, ok_bind, decide_eq_false ne, if_neg (by decide), queue_slice m h0 h.rd,
          ok_bind, h.mem.select_eq, ok_bind, w1, ok_bind, g0]
        rfl
      · refine ⟨h.mem, w2, ?_, by change l.length ≤ _; omega, ?_⟩
        · have := h.wr
          rw [List.length_cons, Nat.add_comm l.length 1, BitVec.ofNat_add, ← BitVec.add_assoc] at this
          exact this
        · intro k hk
          have := h.get (k + 1) (Nat.succ_lt_succ hk)
          rw [List.getElem_cons_succ, Nat.add_comm k 1, BitVec.ofNat_add, ← BitVec.add_assoc] at this
          rw [BitVec.setWidth_add _ _ (by omega), BitVec.setWidth_ofNat_of_le (by omega)]
          exact this

theorem ArrayQueue.Holds.run {m : Mode} (env : HashEnv) (h0 : 0 < iw) : ∀ (os : List (QueueOp (BitVec dw))) {q : ArrayQueue}
    {f : BitVec iw → BitVec dw} {r : BitVec (iw + 1)} {l : List (BitVec dw)}, q.Holds m f r l →
    ArrayQueue.run m env iw q (os.map QueueOp.encoded) = ok ((queueRun (2 ^ iw) l os).map (QueueAns.encoded iw))
  | [], _, _, _, _, _ => rfl
  | o :: os, q, f, r, l, h => by
    obtain ⟨q', f', r', h1, h2⟩ := h.step env h0 o
    rw [List.map_cons, ArrayQueue.run, h1, ok_bind]
    dsimp only
    rw [h2.run env h0 os, ok_bind, queueRun, List.map_cons]

/-- Whatever is asked, in any order and however often the pointers wrap around, the array gives the answers of a queue. -/
theorem C148_queue (m : Mode) (env : HashEnv) (h0 : 0 < iw) {a : ArrayValue} {f : BitVec iw → BitVec dw} (ha : Means m (.arr iw dw) a f)
    (os : List (QueueOp (BitVec dw))) :
    ArrayQueue.run m env iw (ArrayQueue.new iw a) (os.map QueueOp.encoded) = ok ((queueRun (2 ^ iw) [] os).map (QueueAns.encoded iw)) := by
  have hi := ha.2.index_le
  refine ArrayQueue.Holds.run env h0 os (f := f) (r := 0#(iw + 1)) ⟨ha, C01_zero (by omega), ?_, by simp, fun k h => absurd h (by simp)⟩
  exact C01_zero (by omega)

example : (ArrayValue.newDense .debug 1 (encode 0#70) >>= fun a => ArrayQueue.run .debug listEnv 1 (ArrayQueue.new 1 a)
      [.push (encode 5#70), .push (encode 6#70), .push (encode 7#70), .length, .pop, .push (encode 8#70), .pop, .pop, .pop, .push (encode 9#70), .pop, .length])
    = ok [.pushed true, .pushed true, .pushed false, .size (encode 2#2), .popped (some (encode 5#70)), .pushed true, .popped (some (encode 6#70)),
      .popped (some (encode 8#70)), .popped none, .pushed true, .popped (some (encode 9#70)), .size (encode 0#2)] := by
  decide +kernel

end Baa

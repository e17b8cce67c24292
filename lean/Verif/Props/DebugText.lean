import Verif.Proofs.ArrayInv
import Verif.Model.DebugText
import Verif.Props.Derived
import Verif.Props.Strings

/-!
# Which things `Debug` tells apart (C108)

Different bit-vectors, different indices and different parse errors never have the same `Debug` text. Of arrays the text shows only whether
they are dense.
-/

namespace Baa
open Res Strings

/-! ## Texts with numbers in them -/

theorem digitsFrom_mem {radix : Nat} {s : List Byte} : ∀ {acc n : Nat}, digitsFrom radix acc s = some n → ∀ c ∈ s, digitOf radix c ≠ none := by
  induction s with
  | nil => intro acc n _ c hc; cases hc
  | cons d s ih =>
    intro acc n h c hc
    rw [digitsFrom] at h
    cases hd : digitOf radix d with
    | none => rw [hd] at h; cases h
    | some v =>
      rw [hd] at h
      rcases List.mem_cons.mp hc with rfl | hc
      · rw [hd]; exact fun h => by cases h
      · exact ih h c hc

/-- A run of characters of one sort ends at the first character of another sort. -/
theorem run_unique {p : Byte → Bool} {s t u v : List Byte} {c d : Byte} (hs : ∀ x ∈ s, p x = true) (ht : ∀ x ∈ t, p x = true)
    (hc : p c = false) (hd : p d = false) (h : s ++ c :: u = t ++ d :: v) : s = t ∧ c :: u = d :: v := by
  induction s generalizing t with
  | nil =>
    cases t with
    | nil => exact ⟨rfl, h⟩
    | cons y t =>
      have e : c = y := (List.cons.inj h).1
      have := ht y (by simp)
      rw [← e, hc] at this
      cases this
  | cons x s ih =>
    cases t with
    | nil =>
      have e := (List.cons.inj h).1
      have := hs x (by simp)
      rw [e, hd] at this
      cases this
    | cons y t =>
      obtain ⟨e1, e2⟩ := List.cons.inj h
      obtain ⟨k1, k2⟩ := ih (fun z hz => hs z (by simp [hz])) (fun z hz => ht z (by simp [hz])) e2
      exact ⟨by rw [e1, k1], k2⟩

theorem decimal_injective {n k : Nat} (h : decimal n = decimal k) : n = k := by
  have h1 := digitsFrom_decimal n
  rw [h, digitsFrom_decimal] at h1
  exact (Option.some.inj h1).symm

theorem decimal_digits (n : Nat) : ∀ c ∈ decimal n, (digitOf 10 c).isSome = true := by
  intro c hc
  have := digitsFrom_mem (digitsFrom_decimal n) c hc
  cases h : digitOf 10 c with
  | none => exact absurd h this
  | some v => rfl

/-- **C108** The text of an index determines its width and its position. -/
theorem C108_index (i j : BitVecValueIndex) : i.debugText = j.debugText ↔ i = j := by
  refine ⟨fun h => ?_, fun h => by rw [h]⟩
  unfold BitVecValueIndex.debugText at h
  rw [List.append_assoc, List.append_assoc, List.append_assoc, List.append_assoc, List.append_assoc, List.append_assoc] at h
  have h1 := List.append_cancel_left h
  have e1 : ", index: ".toList.map ch = ch ',' :: " index: ".toList.map ch := rfl
  have e2 : " }".toList.map ch = ch ' ' :: "}".toList.map ch := rfl
  rw [e1, e2, List.cons_append, List.cons_append] at h1
  obtain ⟨h2, h3⟩ := run_unique (p := fun c => (digitOf 10 c).isSome) (decimal_digits _) (decimal_digits _) (by decide +kernel)
    (by decide +kernel) h1
  have h4 := List.append_cancel_left (List.cons.inj h3).2
  obtain ⟨h5, -⟩ := run_unique (p := fun c => (digitOf 10 c).isSome) (decimal_digits _) (decimal_digits _) (by decide +kernel)
    (by decide +kernel) h4
  obtain ⟨ii, iw⟩ := i
  obtain ⟨ji, jw⟩ := j
  have h6 : iw = jw := decimal_injective h2
  have h7 : ii = ji := decimal_injective h5
  rw [h6, h7]

/-! ## Bit-vectors -/

/-- Texts of different bit-vectors differ, whatever is printed around the bits. -/
theorem bits_text {w w' : Nat} {a b : BitVecValue} {x : BitVec w} {y : BitVec w'} (ha : Denotes a x) (hb : Denotes b y) (pre : List Byte) :
    (do let s ← a.toBitStr; ok (pre ++ s ++ [ch ')'])) = (do let s ← b.toBitStr; ok (pre ++ s ++ [ch ')'])) ↔
      w = w' ∧ x.toNat = y.toNat := by
  rw [C30_to_bit_str ha, C30_to_bit_str hb, ok_bind, ok_bind]
  refine ⟨fun h => ?_, ?_⟩
  · have h := List.append_cancel_left (List.append_cancel_right (Res.ok.inj h))
    have hw : w = w' := by
      have := congrArg List.length h
      simpa using this
    subst hw
    refine ⟨rfl, congrArg _ (BitVec.eq_of_getLsbD_eq fun i hi => ?_)⟩
    have hk := congrArg (fun l => l[w - 1 - i]?) h
    simp only [List.getElem?_map, List.getElem?_range (show w - 1 - i < w by omega), Option.map_some,
      show w - 1 - (w - 1 - i) = i by omega] at hk
    cases h1 : x.getLsbD i <;> cases h2 : y.getLsbD i <;> rw [h1, h2] at hk <;> first | rfl | (exfalso; revert hk; decide +kernel)
  · rintro ⟨rfl, h⟩
    rw [BitVec.eq_of_toNat_eq h]

/-- **C108** Owned values. -/
theorem C108_owned {w w' : Nat} {a b : BitVecValue} {x : BitVec w} {y : BitVec w'} (ha : Denotes a x) (hb : Denotes b y) :
    a.debugOwned = b.debugOwned ↔ w = w' ∧ x.toNat = y.toNat := bits_text ha hb _

/-- **C108** References. -/
theorem C108_ref {w w' : Nat} {a b : BitVecValue} {x : BitVec w} {y : BitVec w'} (ha : Denotes a x) (hb : Denotes b y) :
    a.debugRef = b.debugRef ↔ w = w' ∧ x.toNat = y.toNat := bits_text ha hb _

/-- **C108** Mutable references. -/
theorem C108_mut_ref {w w' : Nat} {a b : BitVecValue} {x : BitVec w} {y : BitVec w'} (ha : Denotes a x) (hb : Denotes b y) :
    a.debugMutRef = b.debugMutRef ↔ w = w' ∧ x.toNat = y.toNat := bits_text ha hb _

theorem texts_differ {pre post : List Byte} {a b : BitVecValue} {s t : List Byte} (ha : a.toBitStr = ok s) (hb : b.toBitStr = ok t) {n : Nat}
    (h1 : n < pre.length) (h2 : n < post.length) (h : pre[n]? ≠ post[n]?) :
    (do let s ← a.toBitStr; ok (pre ++ s ++ [ch ')'])) ≠ (do let s ← b.toBitStr; ok (post ++ s ++ [ch ')'])) := by
  rw [ha, hb, ok_bind, ok_bind]
  intro e
  have := congrArg (fun l => l[n]?) (Res.ok.inj e)
  simp only [List.append_assoc, List.getElem?_append_left h1, List.getElem?_append_left h2] at this
  exact h this

/-- **C108** The text says whether it is the text of a value, of a reference or of a mutable reference. -/
theorem C108_kinds {w w' : Nat} {a b : BitVecValue} {x : BitVec w} {y : BitVec w'} (ha : Denotes a x) (hb : Denotes b y) :
    a.debugOwned ≠ b.debugRef ∧ a.debugOwned ≠ b.debugMutRef ∧ a.debugRef ≠ b.debugMutRef :=
  ⟨texts_differ (C30_to_bit_str ha) (C30_to_bit_str hb) (n := 0) (by decide) (by decide) (by decide +kernel),
   texts_differ (C30_to_bit_str ha) (C30_to_bit_str hb) (n := 0) (by decide) (by decide) (by decide +kernel),
   texts_differ (C30_to_bit_str ha) (C30_to_bit_str hb) (n := 11) (by decide) (by decide) (by decide +kernel)⟩

/-! ## Arrays, wrapped values, errors -/

/-- **C108** The text of an array shows only whether it is dense. -/
theorem C108_array (a b : ArrayValue) : a.debugText = b.debugText ↔ a.isDense = b.isDense := by
  have h : "DenseArrayValue(..)".toList.map ch ≠ "SparseArrayValue(..)".toList.map ch := by decide +kernel
  cases a <;> cases b
  · exact ⟨fun _ => rfl, fun _ => rfl⟩
  · exact ⟨fun e => absurd e.symm h, fun e => by cases e⟩
  · exact ⟨fun e => absurd e h, fun e => by cases e⟩
  · exact ⟨fun _ => rfl, fun _ => rfl⟩

/-- **C108** A wrapped value prints what it wraps. -/
theorem C108_value : (∀ a b : ArrayValue, (Value.array a).debugText = (Value.array b).debugText ↔ a.isDense = b.isDense) ∧
    (∀ {w w' : Nat} {a b : BitVecValue} {x : BitVec w} {y : BitVec w'}, Denotes a x → Denotes b y →
      ((Value.bitVec a).debugText = (Value.bitVec b).debugText ↔ w = w' ∧ x.toNat = y.toNat)) ∧
    (∀ (a : ArrayValue) (b : BitVecValue), (Value.array a).debugText ≠ (Value.bitVec b).debugText) := by
  have ea : ∀ a, (Value.array a).debugText = ok ("Array(".toList.map ch ++ a.debugText ++ [ch ')']) := fun _ => rfl
  have eb : ∀ b, (Value.bitVec b).debugText = (do let s ← b.debugOwned; ok ("BitVec(".toList.map ch ++ s ++ [ch ')'])) := fun _ => rfl
  refine ⟨fun a b => ?_, fun {w w' a b x y} ha hb => ?_, fun a b h => ?_⟩
  · rw [← C108_array, ea, ea]
    exact ⟨fun h => List.append_cancel_left (List.append_cancel_right (Res.ok.inj h)), fun h => by rw [h]⟩
  · rw [← C108_owned ha hb, eb, eb]
    refine ⟨fun h => ?_, fun h => by rw [h]⟩
    obtain ⟨s, -, -, hs, -⟩ := C63_debug ha
    obtain ⟨t, -, -, ht, -⟩ := C63_debug hb
    rw [hs, ht, ok_bind, ok_bind] at h
    rw [hs, ht]
    exact congrArg _ (List.append_cancel_left (List.append_cancel_right (Res.ok.inj h)))
  · rw [ea, eb] at h
    cases hb : b.debugOwned with
    | panic p => rw [hb] at h; cases h
    | ok s =>
      rw [hb, ok_bind] at h
      have := congrArg List.head? (Res.ok.inj h)
      revert this
      show some (ch 'A') = some (ch 'B') → False
      decide +kernel

/-- **C108** Parse errors. -/
theorem C108_error (a b : IntErrorKind) : parseIntErrorText a = parseIntErrorText b ↔ a = b := by
  cases a <;> cases b <;> simp only [reduceCtorEq, iff_false] <;> decide +kernel

/-! ## The alternate form `{:#?}` -/

theorem padLines_injective {b : Bool} {s t : List Byte} (h : padLines b s = padLines b t) : s = t := by
  induction s generalizing b t with
  | nil =>
    cases t with
    | nil => rfl
    | cons d t => cases b <;> cases h
  | cons c s ih =>
    cases t with
    | nil => cases b <;> cases h
    | cons d t =>
      obtain ⟨rfl, h2⟩ := List.cons.inj (List.append_cancel_left h)
      rw [ih h2]

theorem padLines_true {c : Byte} (s : List Byte) : padLines true (c :: s) = "    ".toList.map ch ++ padLines false (c :: s) := rfl

/-- Inside a line nothing is inserted. -/
theorem padLines_line {s : List Byte} (h : ∀ c ∈ s, c ≠ ch '\n') (t : List Byte) : padLines false (s ++ t) = s ++ padLines false t := by
  induction s with
  | nil => rfl
  | cons c s ih =>
    have hc : (c == ch '\n') = false := by simpa using h c (by simp)
    rw [List.cons_append, padLines, hc, ih fun d hd => h d (by simp [hd])]
    rfl

theorem prettyTuple_injective {name : String} {s t : List Byte} (h : prettyTuple name s = prettyTuple name t) : s = t :=
  List.append_cancel_right (padLines_injective (List.append_cancel_left (List.append_cancel_right h)))

/-- A field whose value is a number. -/
theorem prettyField_decimal (name : String) (n : Nat) {c : Char} {l : List Char} (hn : name.toList = c :: l) (h : ∀ c ∈ name.toList, ch c ≠ ch '\n') :
    prettyField name (decimal n) = "    ".toList.map ch ++ name.toList.map ch ++ ": ".toList.map ch ++ decimal n ++ ",\n".toList.map ch := by
  unfold prettyField
  have e : name.toList.map ch ++ ": ".toList.map ch ++ decimal n ++ ",\n".toList.map ch =
      ch c :: (l.map ch ++ (": ".toList.map ch ++ (decimal n ++ ",\n".toList.map ch))) := by
    rw [hn]
    simp only [List.map_cons, List.cons_append, List.append_assoc]
  rw [e, padLines_true, ← e]
  have hline : ∀ x ∈ name.toList.map ch ++ ": ".toList.map ch ++ decimal n, x ≠ ch '\n' := by
    intro x hx
    rcases List.mem_append.mp hx with hx | hx
    · rcases List.mem_append.mp hx with hx | hx
      · obtain ⟨y, hy, rfl⟩ := List.mem_map.mp hx
        exact h y hy
      · have key : ∀ x ∈ ": ".toList.map ch, x ≠ ch '\n' := by decide +kernel
        exact key x hx
    · rintro rfl
      have := decimal_digits n _ hx
      revert this
      decide +kernel
  rw [padLines_line hline]
  have : padLines false (",\n".toList.map ch) = ",\n".toList.map ch := by decide +kernel
  rw [this]
  simp only [List.append_assoc]

/-- **C108** The alternate form of an index shows the two numbers on lines of their own. -/
theorem C108_pretty_index (i : BitVecValueIndex) : i.prettyText =
    "BitVecValueIndex {\n    width: ".toList.map ch ++ decimal i.width ++ ",\n    index: ".toList.map ch ++ decimal i.index ++ ",\n}".toList.map ch := by
  unfold BitVecValueIndex.prettyText prettyStruct
  rw [prettyField_decimal "width" _ rfl (by decide +kernel), prettyField_decimal "index" _ rfl (by decide +kernel)]
  have e1 : "BitVecValueIndex {\n    width: ".toList.map ch =
      "BitVecValueIndex".toList.map ch ++ (" {\n".toList.map ch ++ ("    ".toList.map ch ++ ("width".toList.map ch ++ ": ".toList.map ch))) := by decide +kernel
  have e2 : ",\n    index: ".toList.map ch =
      ",\n".toList.map ch ++ ("    ".toList.map ch ++ ("index".toList.map ch ++ ": ".toList.map ch)) := by decide +kernel
  have e3 : ",\n}".toList.map ch = ",\n".toList.map ch ++ "}".toList.map ch := by decide +kernel
  rw [e1, e2, e3]
  simp only [List.flatten_cons, List.flatten_nil, List.append_nil, List.append_assoc]

/-- **C108** The alternate form of an index determines it. -/
theorem C108_pretty_index_inj (i j : BitVecValueIndex) : i.prettyText = j.prettyText ↔ i = j := by
  refine ⟨fun h => ?_, fun h => by rw [h]⟩
  rw [C108_pretty_index, C108_pretty_index] at h
  simp only [List.append_assoc] at h
  have h1 := List.append_cancel_left h
  have e1 : ",\n    index: ".toList.map ch = ch ',' :: "\n    index: ".toList.map ch := by decide +kernel
  have e2 : ",\n}".toList.map ch = ch ',' :: "\n}".toList.map ch := by decide +kernel
  rw [e1, e2, List.cons_append, List.cons_append] at h1
  obtain ⟨h2, h3⟩ := run_unique (p := fun c => (digitOf 10 c).isSome) (decimal_digits _) (decimal_digits _) (by decide +kernel)
    (by decide +kernel) h1
  have h4 := List.append_cancel_left (List.cons.inj h3).2
  obtain ⟨h5, -⟩ := run_unique (p := fun c => (digitOf 10 c).isSome) (decimal_digits _) (decimal_digits _) (by decide +kernel)
    (by decide +kernel) h4
  obtain ⟨ii, iw⟩ := i
  obtain ⟨ji, jw⟩ := j
  rw [show iw = jw from decimal_injective h2, show ii = ji from decimal_injective h5]

/-- **C108** The alternate form of a wrapped value shows what it wraps on a line of its own: the bits, or the kind of the array. -/
theorem C108_pretty_value : (∀ a : ArrayValue, (Value.array a).prettyText = ok ("Array(\n    ".toList.map ch ++ a.debugText ++ ",\n)".toList.map ch)) ∧
    (∀ {w : Nat} {a : BitVecValue} {x : BitVec w}, Denotes a x → ∃ s, a.toBitStr = ok s ∧
      (Value.bitVec a).prettyText = ok ("BitVec(\n    ValueOwned(".toList.map ch ++ s ++ "),\n)".toList.map ch)) := by
  refine ⟨fun a => ?_, fun {w a x} ha => ⟨_, C30_to_bit_str ha, ?_⟩⟩
  · have key : ∀ t ∈ ["DenseArrayValue(..)", "SparseArrayValue(..)"], prettyTuple "Array" (t.toList.map ch) =
        "Array(\n    ".toList.map ch ++ t.toList.map ch ++ ",\n)".toList.map ch := by decide +kernel
    cases a with
    | dense d => exact congrArg ok (key _ (by simp))
    | sparse s => exact congrArg ok (key _ (by simp))
  · show (a.toBitStr >>= fun s => ok ("ValueOwned(".toList.map ch ++ s ++ [ch ')'])) >>= (fun s => ok (prettyTuple "BitVec" s)) = _
    rw [C30_to_bit_str ha, ok_bind, ok_bind]
    generalize hs : (List.range w).map _ = s
    have hline : ∀ c ∈ "ValueOwned(".toList.map ch ++ s ++ [ch ')'], c ≠ ch '\n' := by
      intro c hc
      rcases List.mem_append.mp hc with hc | hc
      · rcases List.mem_append.mp hc with hc | hc
        · have key : ∀ c ∈ "ValueOwned(".toList.map ch, c ≠ ch '\n' := by decide +kernel
          exact key c hc
        · rw [← hs] at hc
          obtain ⟨k, -, rfl⟩ := List.mem_map.mp hc
          split <;> decide +kernel
      · have key : ∀ c ∈ [ch ')'], c ≠ ch '\n' := by decide +kernel
        exact key c hc
    have e : prettyTuple "BitVec" ("ValueOwned(".toList.map ch ++ s ++ [ch ')']) = "BitVec".toList.map ch ++ "(\n".toList.map ch ++
        ("    ".toList.map ch ++ padLines false ("ValueOwned(".toList.map ch ++ s ++ [ch ')'] ++ ",\n".toList.map ch)) ++ ")".toList.map ch := rfl
    have e2 : padLines false (",\n".toList.map ch) = ",\n".toList.map ch := by decide +kernel
    have e3 : "BitVec(\n    ValueOwned(".toList.map ch =
      "BitVec".toList.map ch ++ ("(\n".toList.map ch ++ ("    ".toList.map ch ++ "ValueOwned(".toList.map ch)) := by decide +kernel
    have e4 : "),\n)".toList.map ch = [ch ')'] ++ (",\n".toList.map ch ++ ")".toList.map ch) := by decide +kernel
    rw [e, padLines_line hline, e2, e3, e4]
    simp only [List.append_assoc]

/-- **C108** The alternate form of a wrapped value tells apart what the ordinary form tells apart, whatever it wraps. -/
theorem C108_pretty_value_inj (u v : Value) {s t : List Byte} (hu : u.prettyText = ok s) (hv : v.prettyText = ok t) :
    s = t ↔ u.debugText = v.debugText := by
  have key : ∀ (name : String) (a b : List Byte), prettyTuple name a = prettyTuple name b ↔
      (ok (name.toList.map ch ++ "(".toList.map ch ++ a ++ [ch ')']) : Res (List Byte)) = ok (name.toList.map ch ++ "(".toList.map ch ++ b ++ [ch ')']) :=
    fun name a b => ⟨fun h => by rw [prettyTuple_injective h], fun h => by
      rw [List.append_cancel_left (List.append_cancel_right (Res.ok.inj h))]⟩
  have hab : ∀ a b : List Byte, prettyTuple "Array" a ≠ prettyTuple "BitVec" b := fun a b h => by
    have := congrArg List.head? h
    revert this
    show some (ch 'A') = some (ch 'B') → False
    decide +kernel
  have ea : ∀ a, (Value.array a).debugText = ok ("Array".toList.map ch ++ "(".toList.map ch ++ a.debugText ++ [ch ')']) := fun a => by
    show ok ("Array(".toList.map ch ++ a.debugText ++ [ch ')']) = _
    have : "Array(".toList.map ch = "Array".toList.map ch ++ "(".toList.map ch := by decide +kernel
    rw [this]
  have eb : ∀ b x, BitVecValue.debugOwned b = ok x →
      (Value.bitVec b).debugText = ok ("BitVec".toList.map ch ++ "(".toList.map ch ++ x ++ [ch ')']) := fun b x hx => by
    show (b.debugOwned >>= fun s => ok ("BitVec(".toList.map ch ++ s ++ [ch ')'])) = _
    rw [hx, ok_bind]
    have : "BitVec(".toList.map ch = "BitVec".toList.map ch ++ "(".toList.map ch := by decide +kernel
    rw [this]
  have hne : ∀ (a : ArrayValue) (b : BitVecValue), (Value.array a).debugText ≠ (Value.bitVec b).debugText := C108_value.2.2
  have pa : ∀ a, (Value.array a).prettyText = ok (prettyTuple "Array" a.debugText) := fun _ => rfl
  have pb : ∀ b, (Value.bitVec b).prettyText = (b.debugOwned >>= fun s => ok (prettyTuple "BitVec" s)) := fun _ => rfl
  cases u with
  | array a =>
    rw [pa] at hu
    cases hu
    cases v with
    | array b => rw [pa] at hv; cases hv; rw [key, ea, ea]
    | bitVec b =>
      rw [pb] at hv
      obtain ⟨x, -, hx⟩ := of_bind_ok hv
      cases hx
      exact ⟨fun h => absurd h (hab _ _), fun h => absurd h (hne _ _)⟩
  | bitVec a =>
    rw [pb] at hu
    obtain ⟨y, hy, hu⟩ := of_bind_ok hu
    cases hu
    cases v with
    | array b =>
      rw [pa] at hv
      cases hv
      exact ⟨fun h => absurd h.symm (hab _ _), fun h => absurd h.symm (hne _ _)⟩
    | bitVec b =>
      rw [pb] at hv
      obtain ⟨x, hx1, hx⟩ := of_bind_ok hv
      cases hx
      rw [key, eb a y hy, eb b x hx1]

/-- **C108** The alternate form of a parse error. -/
theorem C108_pretty_error (k : IntErrorKind) :
    parseIntErrorPretty k = "ParseIntError {\n    kind: ".toList.map ch ++ k.debugText ++ ",\n}".toList.map ch := by
  cases k <;> decide +kernel

/-! ## Examples -/

example : (⟨3, 70⟩ : BitVecValueIndex).debugText = "BitVecValueIndex { width: 70, index: 3 }".toList.map ch := by decide +kernel

example : (⟨11, 1⟩ : BitVecValueIndex).debugText ≠ (⟨1, 11⟩ : BitVecValueIndex).debugText := fun h => by
  have := (C108_index _ _).mp h
  cases this

example : parseIntErrorText .exceedsWidth = "ParseIntError { kind: ExceedsWidth }".toList.map ch := by decide +kernel

example : (Value.bitVec ⟨3, [5#64]⟩).debugText = ok ("BitVec(ValueOwned(101))".toList.map ch) := by decide +kernel

example : (⟨3, 70⟩ : BitVecValueIndex).prettyText = "BitVecValueIndex {\n    width: 70,\n    index: 3,\n}".toList.map ch := by decide +kernel

example : (Value.bitVec ⟨3, [5#64]⟩).prettyText = ok ("BitVec(\n    ValueOwned(101),\n)".toList.map ch) := by decide +kernel

end Baa

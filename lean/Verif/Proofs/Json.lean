import Verif.Spec.Json
import Verif.Props.SerdeDoc

/-!
# Documents with text keys, and the documents they are written from
-/

namespace Baa
namespace Json

/-! ## Keys -/

theorem digits_append (l l' : List Char) : ∀ acc, digits acc (l ++ l') = (digits acc l).bind fun a => digits a l' := by
  induction l with
  | nil => intro acc; rfl
  | cons c l ih =>
    intro acc
    rw [List.cons_append, digits, digits]
    split
    · exact ih _
    · rfl

theorem digitChar_code : ∀ n : Fin 10, (Nat.digitChar n).toNat = 48 + n.val := by decide

theorem digits_toDigits (n : Nat) : digits 0 (Nat.toDigits 10 n) = some n := by
  induction n using Nat.strongRecOn with
  | ind n ih =>
    have key : ∀ (acc k : Nat), k < 10 → digits acc [Nat.digitChar k] = some (acc * 10 + k) := by
      intro acc k hk
      have := digitChar_code ⟨k, hk⟩
      dsimp only at this
      rw [digits, this, if_pos (by omega), digits]
      congr 1
      omega
    by_cases h : n < 10
    · rw [Nat.toDigits_of_lt_base h, key 0 n h]
      congr 1
      omega
    · rw [Nat.toDigits_of_base_le (by decide) (by omega), digits_append, ih (n / 10) (by omega), Option.bind_some,
        key _ _ (by omega)]
      congr 1
      omega

theorem toDigits_head {n : Nat} (hn : n ≠ 0) : ∃ c cs, Nat.toDigits 10 n = c :: cs ∧ c.toNat ≠ 48 := by
  induction n using Nat.strongRecOn with
  | ind n ih =>
    by_cases h : n < 10
    · refine ⟨_, [], Nat.toDigits_of_lt_base h, ?_⟩
      have := digitChar_code ⟨n, h⟩
      dsimp only at this
      omega
    · obtain ⟨c, cs, h1, h2⟩ := ih (n / 10) (by omega) (by omega)
      exact ⟨c, cs ++ [Nat.digitChar (n % 10)], by rw [Nat.toDigits_of_base_le (by decide) (by omega), h1]; rfl, h2⟩

/-- Decimal numbers are read back from keys. -/
theorem keyNum_keyText (n : Nat) : keyNum (keyText n) = some n := by
  by_cases hn : n = 0
  · subst hn
    decide +kernel
  · obtain ⟨c, cs, h1, h2⟩ := toDigits_head hn
    have h3 := digits_toDigits n
    unfold keyNum keyText
    rw [String.toList_ofList, h1]
    rw [h1] at h3
    dsimp only
    rw [if_neg (fun h => h2 h.1), h3]

theorem digitChar_eq {c : Char} (h : 48 ≤ c.toNat ∧ c.toNat ≤ 57) : Nat.digitChar (c.toNat - 48) = c := by
  have := digitChar_code ⟨c.toNat - 48, by omega⟩
  dsimp only at this
  exact Char.toNat_inj.mp (by omega)

theorem toDigits_of_digits (cs : List Char) : ∀ {acc n : Nat}, acc ≠ 0 → digits acc cs = some n →
    Nat.toDigits 10 n = Nat.toDigits 10 acc ++ cs := by
  induction cs with
  | nil =>
    intro acc n _ h
    cases h
    rw [List.append_nil]
  | cons c cs ih =>
    intro acc n ha h
    rw [digits] at h
    split at h
    · rename_i hc
      rw [ih (by omega) h, Nat.toDigits_of_base_le (by decide) (by omega), show (acc * 10 + (c.toNat - 48)) / 10 = acc by omega,
        show (acc * 10 + (c.toNat - 48)) % 10 = c.toNat - 48 by omega, digitChar_eq hc, List.append_assoc]
      rfl
    · cases h

/-- Only the decimal text of a number is read as that number. -/
theorem keyText_of_keyNum {s : String} {n : Nat} (h : keyNum s = some n) : s = keyText n := by
  unfold keyNum at h
  have key : s.toList = Nat.toDigits 10 n := by
    split at h
    · cases h
    · rename_i c cs heq
      rw [heq]
      split at h
      · cases h
      · rename_i hz
        rw [digits] at h
        split at h
        · rename_i hc
          rw [Nat.zero_mul, Nat.zero_add] at h
          by_cases h0 : c.toNat = 48
          · have : cs = [] := Classical.byContradiction fun hcs => hz ⟨h0, hcs⟩
            subst this
            cases h
            rw [Nat.toDigits_of_lt_base (by omega), digitChar_eq hc]
          · rw [toDigits_of_digits cs (by omega) h, Nat.toDigits_of_lt_base (by omega), digitChar_eq hc]
            rfl
        · cases h
  unfold keyText
  rw [← key, String.ofList_toList]

/-! ## Views: the documents of `Serde` that a document with text keys can be taken for -/

mutual
inductive Views : Json → Serde → Prop
  | num (n : Nat) : Views (.num n) (.num n)
  | arr {js ds} : ViewsAll js ds → Views (.arr js) (.seq ds)
  | fields {es fs} : ViewsFields es fs → Views (.obj es) (.fields fs)
  | variant {name j d} : Views j d → Views (.obj [(name, j)]) (.variant name d)
  | map {es ms} : ViewsEntries es ms → Views (.obj es) (.map ms)
inductive ViewsAll : List Json → List Serde → Prop
  | nil : ViewsAll [] []
  | cons {j js d ds} : Views j d → ViewsAll js ds → ViewsAll (j :: js) (d :: ds)
inductive ViewsFields : List (String × Json) → List (String × Serde) → Prop
  | nil : ViewsFields [] []
  | cons {name j es d fs} : Views j d → ViewsFields es fs → ViewsFields ((name, j) :: es) ((name, d) :: fs)
inductive ViewsEntries : List (String × Json) → List (Serde × Serde) → Prop
  | nil : ViewsEntries [] []
  | cons {s n j es d ms} : keyNum s = some n → Views j d → ViewsEntries es ms →
    ViewsEntries ((s, j) :: es) ((.num n, d) :: ms)
end

mutual
/-- What is written can be taken for what it was written from. -/
theorem views_of_write : ∀ (d : Serde) (j : Json), write d = some j → Views j d
  | .num n, j, h => by
    rw [write] at h
    cases h
    exact .num n
  | .seq items, j, h => by
    rw [write] at h
    obtain ⟨js, h1, rfl⟩ := Option.map_eq_some_iff.mp h
    exact .arr (viewsAll_of_write items js h1)
  | .map entries, j, h => by
    rw [write] at h
    obtain ⟨js, h1, rfl⟩ := Option.map_eq_some_iff.mp h
    exact .map (viewsEntries_of_write entries js h1)
  | .fields fs, j, h => by
    rw [write] at h
    obtain ⟨js, h1, rfl⟩ := Option.map_eq_some_iff.mp h
    exact .fields (viewsFields_of_write fs js h1)
  | .variant name c, j, h => by
    rw [write] at h
    obtain ⟨js, h1, rfl⟩ := Option.map_eq_some_iff.mp h
    exact .variant (views_of_write c js h1)
theorem viewsAll_of_write : ∀ (ds : List Serde) (js : List Json), writeAll ds = some js → ViewsAll js ds
  | [], js, h => by
    rw [writeAll] at h
    cases h
    exact .nil
  | d :: ds, js, h => by
    rw [writeAll] at h
    obtain ⟨j, h1, h⟩ := Option.bind_eq_some_iff.mp h
    obtain ⟨js', h2, h⟩ := Option.bind_eq_some_iff.mp h
    cases h
    exact .cons (views_of_write d j h1) (viewsAll_of_write ds js' h2)
theorem viewsFields_of_write : ∀ (fs : List (String × Serde)) (js : List (String × Json)), writeFields fs = some js →
    ViewsFields js fs
  | [], js, h => by
    rw [writeFields] at h
    cases h
    exact .nil
  | (name, d) :: fs, js, h => by
    rw [writeFields] at h
    obtain ⟨j, h1, h⟩ := Option.bind_eq_some_iff.mp h
    obtain ⟨js', h2, h⟩ := Option.bind_eq_some_iff.mp h
    cases h
    exact .cons (views_of_write d j h1) (viewsFields_of_write fs js' h2)
theorem viewsEntries_of_write : ∀ (es : List (Serde × Serde)) (js : List (String × Json)), writeEntries es = some js →
    ViewsEntries js es
  | [], js, h => by
    rw [writeEntries] at h
    cases h
    exact .nil
  | (k, d) :: es, js, h => by
    rw [writeEntries] at h
    obtain ⟨s, h0, h⟩ := Option.bind_eq_some_iff.mp h
    obtain ⟨j, h1, h⟩ := Option.bind_eq_some_iff.mp h
    obtain ⟨js', h2, h⟩ := Option.bind_eq_some_iff.mp h
    cases h
    unfold key at h0
    split at h0
    · cases h0
      exact .cons (keyNum_keyText _) (views_of_write d j h1) (viewsEntries_of_write es js' h2)
    · cases h0
end

/-! ## Reading a document as what it can be taken for -/

/-- The reader of documents with text keys accepts what the reader of documents accepts. -/
def Follows {α : Type} (r : Json → Option α) (r' : Serde → Option α) : Prop :=
  ∀ ⦃j d x⦄, Views j d → r' d = some x → r j = some x

theorem readNum_follows (b : Nat) : Follows (readNum b) (Serde.readNum b) := by
  intro j d x h h'
  cases h
  case num => exact h'
  all_goals cases h'

theorem Follows.map {α β : Type} {r : Json → Option α} {r' : Serde → Option α} (h : Follows r r') (f : α → β) :
    Follows (fun j => (r j).map f) (fun d => (r' d).map f) := by
  intro j d x hv hx
  obtain ⟨y, h1, rfl⟩ := Option.map_eq_some_iff.mp hx
  exact Option.map_eq_some_iff.mpr ⟨y, h hv h1, rfl⟩

theorem readWord_follows : Follows readWord Serde.readWord := Follows.map (readNum_follows _) _
theorem readByte_follows : Follows readByte Serde.readByte := Follows.map (readNum_follows _) _

theorem readAll_follows {α : Type} {r : Json → Option α} {r' : Serde → Option α} (h : Follows r r') :
    ∀ {js ds xs}, ViewsAll js ds → Serde.readAll r' ds = some xs → readAll r js = some xs := by
  intro js
  induction js with
  | nil => intro ds xs hv hx; cases hv; exact hx
  | cons j js ih =>
    intro ds xs hv hx
    cases hv with
    | cons h1 h2 =>
      rw [Serde.readAll] at hx
      obtain ⟨y, h3, hx⟩ := Option.bind_eq_some_iff.mp hx
      obtain ⟨ys, h4, hx⟩ := Option.bind_eq_some_iff.mp hx
      cases hx
      rw [readAll, h h1 h3, ih h2 h4]
      rfl

theorem readList_follows {α : Type} {r : Json → Option α} {r' : Serde → Option α} (h : Follows r r') :
    Follows (readList r) (Serde.readList r') := by
  intro j d x hv hx
  cases hv
  case arr hv => exact readAll_follows h hv hx
  all_goals cases hx

theorem filter_views {name : String} : ∀ {es fs}, ViewsFields es fs →
    ViewsFields (es.filter fun f => f.1 = name) (fs.filter fun f => f.1 = name) := by
  intro es
  induction es with
  | nil => intro fs h; cases h; exact .nil
  | cons e es ih =>
    intro fs h
    cases h with
    | cons h1 h2 =>
      rename_i n j d fs
      by_cases hn : n = name
      · rw [List.filter_cons_of_pos (by simp [hn]), List.filter_cons_of_pos (by simp [hn])]
        exact .cons h1 (ih h2)
      · rw [List.filter_cons_of_neg (by simp [hn]), List.filter_cons_of_neg (by simp [hn])]
        exact ih h2

theorem field_follows {es fs d} {name : String} (h : ViewsFields es fs) (hd : Serde.field fs name = some d) :
    ∃ j, field es name = some j ∧ Views j d := by
  have hf := filter_views (name := name) h
  unfold Serde.field at hd
  split at hd
  case h_1 f heq =>
    cases hd
    rw [heq] at hf
    generalize hl : es.filter (fun f => f.1 = name) = l at hf
    cases hf with
    | cons h1 h2 =>
      cases h2
      refine ⟨_, ?_, h1⟩
      unfold field
      rw [hl]
  case h_2 => cases hd

theorem field_bind_follows {α : Type} {r : Json → Option α} {r' : Serde → Option α} (hr : Follows r r') {es fs x}
    {name : String} (h : ViewsFields es fs) (hx : (Serde.field fs name).bind r' = some x) : (field es name).bind r = some x := by
  obtain ⟨d, h1, h2⟩ := Option.bind_eq_some_iff.mp hx
  obtain ⟨j, h3, h4⟩ := field_follows h h1
  rw [h3, Option.bind_some, hr h4 h2]

theorem readBitVec_follows : Follows readBitVec Serde.readBitVec := by
  intro j d x hv hx
  unfold Serde.readBitVec at hx
  split at hx
  · cases hv with
    | fields hv =>
      obtain ⟨width, h1, hx⟩ := Option.bind_eq_some_iff.mp hx
      obtain ⟨words, h2, hx⟩ := Option.bind_eq_some_iff.mp hx
      cases hx
      unfold readBitVec
      dsimp only
      rw [field_bind_follows (readNum_follows _) hv h1, field_bind_follows (readList_follows readWord_follows) hv h2]
      rfl
  · cases hv with
    | arr hv =>
      cases hv with
      | cons hv1 hv =>
      cases hv with
      | cons hv2 hv =>
      cases hv
      obtain ⟨width, h1, hx⟩ := Option.bind_eq_some_iff.mp hx
      obtain ⟨words, h2, hx⟩ := Option.bind_eq_some_iff.mp hx
      cases hx
      unfold readBitVec
      dsimp only
      rw [readNum_follows _ hv1 h1, readList_follows readWord_follows hv2 h2]
      rfl
  · cases hx

theorem readDenseImpl_follows : Follows readDenseImpl Serde.readDenseImpl := by
  intro j d x hv hx
  unfold Serde.readDenseImpl at hx
  split at hx
  · cases hv with
    | variant hv =>
      unfold readDenseImpl
      dsimp only
      split at hx
      · rename_i hn
        rw [if_pos hn]
        exact Follows.map readBitVec_follows _ hv hx
      · rename_i hn
        rw [if_neg hn]
        split at hx
        · rename_i hn
          rw [if_pos hn]
          exact Follows.map (readList_follows readByte_follows) _ hv hx
        · rename_i hn
          rw [if_neg hn]
          split at hx
          · rename_i hn
            rw [if_pos hn]
            exact Follows.map (readList_follows readWord_follows) _ hv hx
          · rename_i hn
            rw [if_neg hn]
            split at hx
            · rename_i hn
              rw [if_pos hn]
              exact Follows.map (readList_follows readWord_follows) _ hv hx
            · cases hx
  · cases hx

theorem readWordKey_follows {s : String} {n : Nat} {x : Word} (h : keyNum s = some n) (hx : Serde.readWord (.num n) = some x) :
    readWordKey s = some x := by
  unfold readWordKey
  rw [h, Option.bind_some]
  unfold Serde.readWord Serde.readNum at hx
  dsimp only at hx
  split at hx
  · rename_i hn
    rw [if_pos hn]
    exact hx
  · cases hx

theorem readEntries_follows {K V : Type} [DecidableEq K] {rk : String → Option K} {rk' : Serde → Option K} {rv : Json → Option V}
    {rv' : Serde → Option V} (hk : ∀ {s n x}, keyNum s = some n → rk' (.num n) = some x → rk s = some x) (hr : Follows rv rv') :
    ∀ {es ms acc x}, ViewsEntries es ms → Serde.readEntries rk' rv' acc ms = some x → readEntries rk rv acc es = some x := by
  intro es
  induction es with
  | nil => intro ms acc x hv hx; cases hv; exact hx
  | cons e es ih =>
    intro ms acc x hv hx
    cases hv with
    | cons h0 h1 h2 =>
      rw [Serde.readEntries] at hx
      obtain ⟨k, h3, hx⟩ := Option.bind_eq_some_iff.mp hx
      obtain ⟨v, h4, hx⟩ := Option.bind_eq_some_iff.mp hx
      rw [readEntries, hk h0 h3, hr h1 h4]
      exact ih h2 hx

theorem readHMap_follows {K V : Type} [DecidableEq K] {rk : String → Option K} {rk' : Serde → Option K} {rv : Json → Option V}
    {rv' : Serde → Option V} (hk : ∀ {s n x}, keyNum s = some n → rk' (.num n) = some x → rk s = some x) (hr : Follows rv rv') :
    Follows (readHMap rk rv) (Serde.readHMap rk' rv') := by
  intro j d x hv hx
  cases hv
  case map hv => exact readEntries_follows hk hr hv hx
  all_goals cases hx

theorem readSparseImpl_follows : Follows readSparseImpl Serde.readSparseImpl := by
  intro j d x hv hx
  unfold Serde.readSparseImpl at hx
  split at hx
  · cases hv with
    | variant hv =>
    cases hv with
    | arr hv =>
    cases hv with
    | cons hv1 hv =>
    cases hv with
    | cons hv2 hv =>
    cases hv
    unfold readSparseImpl
    dsimp only
    split at hx
    · rename_i hn
      rw [if_pos hn]
      obtain ⟨y, h1, hx⟩ := Option.bind_eq_some_iff.mp hx
      obtain ⟨t, h2, hx⟩ := Option.bind_eq_some_iff.mp hx
      rw [readWord_follows hv1 h1, readHMap_follows readWordKey_follows readWord_follows hv2 h2]
      exact hx
    · rename_i hn
      rw [if_neg hn]
      split at hx
      · rename_i hn
        rw [if_pos hn]
        obtain ⟨y, h1, hx⟩ := Option.bind_eq_some_iff.mp hx
        obtain ⟨t, h2, hx⟩ := Option.bind_eq_some_iff.mp hx
        rw [readBitVec_follows hv1 h1, readHMap_follows readWordKey_follows readBitVec_follows hv2 h2]
        exact hx
      · rename_i hn
        rw [if_neg hn]
        split at hx
        · rename_i hn
          rw [if_pos hn]
          obtain ⟨y, h1, hx⟩ := Option.bind_eq_some_iff.mp hx
          obtain ⟨t, h2, hx⟩ := Option.bind_eq_some_iff.mp hx
          rw [readBitVec_follows hv1 h1, readHMap_follows (rk' := Serde.readBitVec) (fun _ h => by cases h) readBitVec_follows
            hv2 h2]
          exact hx
        · cases hx
  · cases hx

theorem readArrayFields_follows {α : Type} {r : Json → Option α} {r' : Serde → Option α} (hr : Follows r r') :
    Follows (readArrayFields r) (Serde.readArrayFields r') := by
  intro j d x hv hx
  unfold Serde.readArrayFields at hx
  split at hx
  · cases hv with
    | fields hv =>
      obtain ⟨iw, h1, hx⟩ := Option.bind_eq_some_iff.mp hx
      obtain ⟨dw, h2, hx⟩ := Option.bind_eq_some_iff.mp hx
      obtain ⟨y, h3, hx⟩ := Option.bind_eq_some_iff.mp hx
      cases hx
      unfold readArrayFields
      dsimp only
      rw [field_bind_follows (readNum_follows _) hv h1, field_bind_follows (readNum_follows _) hv h2, field_bind_follows hr hv h3]
      rfl
  · cases hv with
    | arr hv =>
      cases hv with
      | cons hv1 hv =>
      cases hv with
      | cons hv2 hv =>
      cases hv with
      | cons hv3 hv =>
      cases hv
      obtain ⟨iw, h1, hx⟩ := Option.bind_eq_some_iff.mp hx
      obtain ⟨dw, h2, hx⟩ := Option.bind_eq_some_iff.mp hx
      obtain ⟨y, h3, hx⟩ := Option.bind_eq_some_iff.mp hx
      cases hx
      unfold readArrayFields
      dsimp only
      rw [readNum_follows _ hv1 h1, readNum_follows _ hv2 h2, hr hv3 h3]
      rfl
  · cases hx

theorem readSparse_follows : Follows readSparse Serde.readSparse := Follows.map (readArrayFields_follows readSparseImpl_follows) _
theorem readDense_follows : Follows readDense Serde.readDense := Follows.map (readArrayFields_follows readDenseImpl_follows) _

theorem readArrayImpl_follows : Follows readArrayImpl Serde.readArrayImpl := by
  intro j d x hv hx
  unfold Serde.readArrayImpl at hx
  split at hx
  · cases hv with
    | variant hv =>
      unfold readArrayImpl
      dsimp only
      split at hx
      · rename_i hn
        rw [if_pos hn]
        exact Follows.map readSparse_follows _ hv hx
      · rename_i hn
        rw [if_neg hn]
        split at hx
        · rename_i hn
          rw [if_pos hn]
          exact Follows.map readDense_follows _ hv hx
        · cases hx
  · cases hx

theorem readArray_follows : Follows readArray Serde.readArray := by
  intro j d x hv hx
  unfold Serde.readArray at hx
  split at hx
  · cases hv with
    | fields hv => exact field_bind_follows readArrayImpl_follows hv hx
  · cases hv with
    | arr hv =>
      cases hv with
      | cons hv1 hv =>
      cases hv
      exact readArrayImpl_follows hv1 hx
  · cases hx

end Json
end Baa

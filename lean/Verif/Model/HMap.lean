/-!
# Model of `std::collections::HashMap`

An association list; every operation keeps the keys distinct (proved in `Verif.Proofs.HMap`). The order of the list is
*not* the iteration order: functions that iterate take the order as a parameter (`HashEnv` in `Verif.Model.Array`).
-/

namespace Baa

/-- `std::collections::HashMap<K, V>` as an association list. -/
structure HMap (K V : Type) where
  entries : List (K × V)

namespace HMap
variable {K V : Type} [DecidableEq K]

/-- `HashMap::new`. -/
def empty : HMap K V := ⟨[]⟩

/-- `HashMap::get`. -/
def get (m : HMap K V) (k : K) : Option V := (m.entries.find? fun e => e.1 = k).map Prod.snd

/-- `HashMap::insert` (the previous entry of the key is replaced). -/
def insert (m : HMap K V) (k : K) (v : V) : HMap K V := ⟨(k, v) :: m.entries.filter fun e => e.1 ≠ k⟩

/-- `HashMap::remove`. -/
def remove (m : HMap K V) (k : K) : HMap K V := ⟨m.entries.filter fun e => e.1 ≠ k⟩

/-- `HashMap::len`. -/
def len (m : HMap K V) : Nat := m.entries.length

/-- `impl PartialEq for HashMap`: equal length and every entry of `self` is found in `other`. -/
def beq [DecidableEq V] (a b : HMap K V) : Bool :=
  a.len == b.len && a.entries.all fun e => decide (b.get e.1 = some e.2)

omit [DecidableEq K] in
/-- The keys are distinct, as in every hash map. -/
def Nodup (m : HMap K V) : Prop := (m.entries.map Prod.fst).Nodup

end HMap
end Baa

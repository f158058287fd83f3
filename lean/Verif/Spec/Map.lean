import Verif.Model.HashTable
/-!
Specification of a map from keys to values: a partial function with its set of keys in order of insertion.
-/
namespace FleCSPH.Spec
open FleCSPH.HashTable (Op)

structure AMap (α : Type) where
  val : Nat → Option α := fun _ => none
  keys : List Nat := []

/-- `emplace` defines a new key, `modify` changes the value of a present key, `clear` forgets everything. -/
def AMap.step {α : Type} (m : AMap α) : Op α → AMap α
  | .emplace k v => ⟨fun k' => if k' = k then some v else m.val k', m.keys ++ [k]⟩
  | .modify k f => ⟨fun k' => if k' = k then (m.val k').map f else m.val k', m.keys⟩
  | .clear => {}

/-- No key is emplaced twice without a `clear` in between. -/
def DistinctKeys {α : Type} : AMap α → List (Op α) → Prop
  | _, [] => True
  | m, o :: ops => (match o with | .emplace k _ => k ∉ m.keys | _ => True) ∧ DistinctKeys (m.step o) ops

end FleCSPH.Spec

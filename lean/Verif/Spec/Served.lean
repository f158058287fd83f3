import Verif.Spec.GlobalTree
import Verif.Spec.Reach
/-! What a neighbour search on several processes should give. -/
namespace FleCSPH.Spec
open FleCSPH.Cofm

/-- The calls made on process `p` (leaf of the particle, leaves of its neighbours) are right: one for every particle of the process and no other; no list has a repetition; every entry is a neighbour;
and every particle of any process not further away than `reach` says is in the list. -/
structure Served {d : Nat} (D dim : Nat) (ranks : List (List Nat)) (body : Nat → Body d) (reach : Body d → Body d → ℝ) (p : Nat) (calls : List (List Nat × List (List Nat))) : Prop where
  once : (calls.map Prod.fst).Nodup
  all : ∀ e, e ∈ calls.map Prod.fst ↔ Digits dim e ∧ HasLeaf D dim ranks p e
  nodup : ∀ e nb, (e, nb) ∈ calls → nb.Nodup
  sound : ∀ e nb x, (e, nb) ∈ calls → x ∈ ranks.flatten → LeafCell D dim (· ∈ ranks.flatten) x (number dim e) →
    ∀ f ∈ nb, Digits dim f ∧ ∃ y ∈ ranks.flatten, LeafCell D dim (· ∈ ranks.flatten) y (number dim f) ∧ Neighbours (body x) (body y)
  complete : ∀ e nb x, (e, nb) ∈ calls → x ∈ ranks.flatten → LeafCell D dim (· ∈ ranks.flatten) x (number dim e) →
    ∀ f y, y ∈ ranks.flatten → Digits dim f → LeafCell D dim (· ∈ ranks.flatten) y (number dim f) →
      √(∑ i, ((body x).pos i - (body y).pos i) ^ 2) ≤ reach (body x) (body y) → f ∈ nb

end FleCSPH.Spec

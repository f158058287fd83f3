import Verif.Spec.Iteration
/-! Specification of one iteration with rounding, in terms of the particles `0 ... n-1`. -/
namespace FleCSPH.Spec
open FleCSPH.Cofm

variable {d n : Nat}

/-- The smoothing length of every particle is positive and larger than one rounding of its coordinates, so that the faces of its box can be told from its centre. -/
def Resolved (u : ℝ) (body : Fin n → Body d) : Prop := ∀ a, 0 < (body a).h ∧ ∀ j, u * (|(body a).pos j| + (body a).h) < (body a).h

/-- Neighbour lists without repetition, which hold every particle within `lower` and none beyond `upper`. -/
structure ListsBetween (lower upper : Body d → Body d → ℝ) (body : Fin n → Body d) (nbs : Fin n → List (Fin n)) : Prop where
  nodup : ∀ a, (nbs a).Nodup
  sound : ∀ a, ∀ b ∈ nbs a, √(∑ j, ((body a).pos j - (body b).pos j) ^ 2) ≤ upper (body a) (body b)
  complete : ∀ a b, √(∑ j, ((body a).pos j - (body b).pos j) ^ 2) ≤ lower (body a) (body b) → b ∈ nbs a

/-- The particles whose distance from `a` is at most `reach`. -/
noncomputable def nearby (reach : Body d → Body d → ℝ) (body : Fin n → Body d) (a : Fin n) : List (Body d) :=
  open Classical in ((List.finRange n).filter fun b => decide (√(∑ j, ((body a).pos j - (body b).pos j) ^ 2) ≤ reach (body a) (body b))).map body

end FleCSPH.Spec

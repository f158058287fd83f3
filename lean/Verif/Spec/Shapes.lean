import Mathlib.Analysis.InnerProductSpace.PiL2
/-! Balls and boxes of a Euclidean space given by coordinates. -/
namespace FleCSPH.Spec

/-- The closed ball. -/
def ball {d : Nat} (c : Fin d → ℝ) (r : ℝ) : Set (Fin d → ℝ) := {x | √(∑ i, (x i - c i) ^ 2) ≤ r}

/-- The closed box. -/
def box {d : Nat} (lo hi : Fin d → ℝ) : Set (Fin d → ℝ) := {x | ∀ i, lo i ≤ x i ∧ x i ≤ hi i}

/-- Two sets share a point. -/
def Meet {d : Nat} (A B : Set (Fin d → ℝ)) : Prop := ∃ x, x ∈ A ∧ x ∈ B

end FleCSPH.Spec

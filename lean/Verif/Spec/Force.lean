import Mathlib.Analysis.Calculus.FDeriv.Basic
import Mathlib.Analysis.Normed.Group.Constructions
import Mathlib.Analysis.InnerProductSpace.Basic
/-! What it means that an acceleration derives from a potential. -/
namespace FleCSPH.Spec

/-- At the point `p` the potential `phi` is differentiable and its gradient is `-a`. -/
def DerivesFrom {d : Nat} (a : Fin d → ℝ) (phi : (Fin d → ℝ) → ℝ) (p : Fin d → ℝ) : Prop :=
  ∃ L : (Fin d → ℝ) →L[ℝ] ℝ, HasFDerivAt phi L p ∧ ∀ v, L v = -∑ j, a j * v j

end FleCSPH.Spec

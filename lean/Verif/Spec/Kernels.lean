import Mathlib.Topology.Instances.Real.Lemmas
import Mathlib.Topology.ContinuousOn
/-! What is asked of a smoothing kernel of support radius `h`, as a function of the distance. -/
namespace FleCSPH.Spec

/-- Non-negative, zero from `h` on, continuous and non-increasing, over the distances `r ≥ 0`. -/
structure IsKernel (W : ℝ → ℝ) (h : ℝ) : Prop where
  nonneg : ∀ r, 0 ≤ r → 0 ≤ W r
  support : ∀ r, h ≤ r → W r = 0
  continuous : ContinuousOn W (Set.Ici 0)
  antitone : ∀ r s, 0 ≤ r → r ≤ s → W s ≤ W r

end FleCSPH.Spec

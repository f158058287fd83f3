import Mathlib.MeasureTheory.Integral.IntervalIntegral.Basic
import Mathlib.Analysis.SpecialFunctions.Trigonometric.Basic
/-! What a spherical density profile means. -/
namespace FleCSPH.Spec
open Real

/-- The surface of the sphere of radius `r` in one, two and three dimensions: two points, a circle, a sphere. -/
noncomputable def shell (i : Fin 3) (r : ℝ) : ℝ := ![2, 2 * π * r, 4 * π * r ^ 2] i

/-- `m` is the mass inside the radius `r` of the spherical density `rho`. -/
def MassWithin (i : Fin 3) (rho : ℝ → ℝ) (r m : ℝ) : Prop := m = ∫ s in (0 : ℝ)..r, shell i s * rho s

end FleCSPH.Spec

import Verif.Model.Cofm
/-! The density of smoothed particle hydrodynamics. -/
namespace FleCSPH.Spec
open FleCSPH.Cofm

variable {d : Nat}

/-- Sum of `m_b W(|x_a - x_b|, (h_a + h_b) / 2)` over the particles `b`. -/
noncomputable def density (W : ℝ → ℝ → ℝ) (a : Body d) (bs : List (Body d)) : ℝ := (bs.map fun b => b.mass * W √(∑ j, (a.pos j - b.pos j) ^ 2) ((a.h + b.h) / 2)).sum

/-- The density if all these particles were at the place of `a`. -/
noncomputable def peak (W : ℝ → ℝ → ℝ) (a : Body d) (bs : List (Body d)) : ℝ := (bs.map fun b => b.mass * W 0 ((a.h + b.h) / 2)).sum

end FleCSPH.Spec

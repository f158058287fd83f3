import Mathlib.Analysis.SpecialFunctions.Pow.Real
import Mathlib.Analysis.SpecialFunctions.Trigonometric.Basic
import Verif.Model.Kernels
/-!
The shapes of the SPH kernels as in the literature, as functions of `q`, the distance in units of the conventional smoothing length, and without the factor in front. The splines are written with powers which
are cut off (Schoenberg's M4 and M6), the Wendland functions as in Dehnen and Aly (2012) for one and for two or three dimensions; the Gaussians are cut off at 3.
-/
namespace FleCSPH.Spec
open FleCSPH.Kernels Real

/-- `max(x, 0)^n`. -/
noncomputable def cut (x : ℝ) (n : Nat) : ℝ := max x 0 ^ n

/-- The shape of the kernel of that name; `dim` is the number of dimensions. -/
noncomputable def textbook (κ : Kernel) (dim : Nat) (q : ℝ) : ℝ :=
  match κ with
  | .cubicSpline => cut (2 - q) 3 - 4 * cut (1 - q) 3
  | .quinticSpline => cut (3 - q) 5 - 6 * cut (2 - q) 5 + 15 * cut (1 - q) 5
  | .wendlandC2 => if dim = 1 then cut (1 - q / 2) 3 * (1 + 3 / 2 * q) else cut (1 - q / 2) 4 * (1 + 2 * q)
  | .wendlandC4 => if dim = 1 then cut (1 - q / 2) 5 * (1 + 5 / 2 * q + 2 * q ^ 2) else cut (1 - q / 2) 6 * (1 + 3 * q + 35 / 12 * q ^ 2)
  | .wendlandC6 => if dim = 1 then cut (1 - q / 2) 7 * (1 + 7 / 2 * q + 19 / 4 * q ^ 2 + 21 / 8 * q ^ 3) else cut (1 - q / 2) 8 * (1 + 4 * q + 25 / 4 * q ^ 2 + 4 * q ^ 3)
  | .gaussian => if q ≤ 3 then exp (-q ^ 2) else 0
  | .superGaussian => if q < 3 then exp (-q ^ 2) * (dim / 2 + 1 - q ^ 2) else 0
  | .sinc n => if q < 2 then (sin (π / 2 * q) / (π / 2 * q)) ^ n else 0

end FleCSPH.Spec

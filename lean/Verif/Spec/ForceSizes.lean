import Verif.Model.Sph
import Verif.Lemmas.Kernels
/-!
Sizes of the terms of the hydrodynamic forces: what the formulas give when every product is replaced by its absolute value and every difference by a sum. Rounding errors are relative to these, since terms of opposite
sign may cancel.
-/
namespace FleCSPH.Spec
open FleCSPH.Geometry FleCSPH.Kernels FleCSPH.Sph

/-- A bound for the derivative of the profile of a kernel, with the conventional argument and without the factor in front. -/
def steep : Kernel → Nat
  | .cubicSpline => 6
  | .quinticSpline => 960
  | .wendlandC2 => 20
  | .wendlandC4 => 112
  | _ => 528

/-- A bound for the slope of a kernel of width `h` in `i + 1` dimensions. -/
noncomputable def steepest (κ : Kernel) (i : Fin 3) (h : ℝ) : ℝ := scale κ * Kernels.sigma κ i / h ^ (i + 2 : ℕ) * steep κ

/-- The size of `mu`: as `mu`, with the size of the scalar product of velocity and position. -/
noncomputable def muSize {d : Nat} (eps hab : ℝ) (velab posab : Point d) : ℝ := hab * (∑ j, |velab j| * |posab j|) * (dot posab posab + eps * hab * hab + tiny)⁻¹

/-- The size of the artificial viscosity of two particles. -/
noncomputable def viscSize {i : Fin 3} (p : Params i) (a b : Particle (i + 1)) : ℝ :=
  let M := muSize p.eps (1 / 2 * (a.h + b.h)) (a.vhalf - b.vhalf) (a.pos - b.pos)
  match p.visc with
  | .constant => (|p.alpha| * (1 / 2 * (|a.cs| + |b.cs|)) + |p.beta| * M) * M * (1 / 2 * (a.rho + b.rho))⁻¹
  | .cullen => 1 / 2 * (|a.alpha| + |b.alpha|) * (1 / 2 * (|a.cs| + |b.cs|) + 2 * M) * M * (1 / 2 * (a.rho + b.rho))⁻¹

/-- The sizes of the pressure terms and of the viscosity. -/
noncomputable def stress {i : Fin 3} (p : Params i) (a b : Particle (i + 1)) : ℝ := |a.P / (a.rho * a.rho)| + |b.P / (b.rho * b.rho)| + viscSize p a b

/-- The size of what the particle `b` adds to the acceleration of `a`. -/
noncomputable def strength {i : Fin 3} (p : Params i) (a b : Particle (i + 1)) : ℝ := |b.mass| * stress p a b * steepest p.kernel i (1 / 2 * (a.h + b.h))

/-- The size of what `b` adds to the derivative of the energy of `a`, or of what it takes. -/
noncomputable def power {i : Fin 3} (p : Params i) (a b : Particle (i + 1)) : ℝ := strength p a b * ∑ j, (|a.vel j| + |b.vel j|)

end FleCSPH.Spec

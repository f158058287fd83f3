import Verif.Spec.Newtonian
/-! What the error of the multipole method can do to the momenta of a set of particles, for C101. -/
namespace FleCSPH.Spec
open FleCSPH.Geometry FleCSPH.Sph

variable {i : Fin 3} {n : Nat}

/-- A bound of the net force: the relative error of the method at the opening angle, times the attraction of all pairs. -/
noncomputable def strayForce (G angle : ℝ) (s : Fin n → Particle (i + 1)) : ℝ :=
  (4 * max angle 0 + 5 * max angle 0 ^ 2 + 2 * max angle 0 ^ 3) * ∑ a, (s a).mass * pull G s a

/-- A bound of the net torque in the plane of two axes. -/
noncomputable def strayTorque (G angle : ℝ) (j l : Fin (i + 1)) (s : Fin n → Particle (i + 1)) : ℝ :=
  (4 * max angle 0 + 5 * max angle 0 ^ 2 + 2 * max angle 0 ^ 3) * ∑ a, (s a).mass * (|(s a).pos j| + |(s a).pos l|) * pull G s a

end FleCSPH.Spec

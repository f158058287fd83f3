import Verif.Spec.Summary
/-! Specification: Newton's law for point masses. -/
namespace FleCSPH.Spec
open FleCSPH.Cofm FleCSPH.Geometry

/-- Potential at particle `a` of the other particles. -/
noncomputable def newtonPotential {d : Nat} (G : ℝ) (bodies : List (Body d)) (a : Fin bodies.length) : ℝ :=
  ∑ b ∈ Finset.univ.erase a, -G * bodies[b].mass / distance bodies[a].pos bodies[b].pos

/-- Acceleration of particle `a` by the other particles. -/
noncomputable def newtonAcceleration {d : Nat} (G : ℝ) (bodies : List (Body d)) (a : Fin bodies.length) : Point d :=
  fun i => ∑ b ∈ Finset.univ.erase a,
    -G * bodies[b].mass * (bodies[a].pos i - bodies[b].pos i) / distance bodies[a].pos bodies[b].pos ^ 3

end FleCSPH.Spec

import Verif.Model.Newtonian
import Verif.Spec.Iteration
/-! Specification for runs with self-gravity. -/
namespace FleCSPH.Spec
open FleCSPH.Newtonian FleCSPH.Sph FleCSPH.Geometry

/-- Two runs end in the same way: with the same clock and the same data of all particles but the signal speeds, or both with a failed assertion, or both because two particles came into the same cell, in the
same iteration. -/
def SameOutcome {i : Fin 3} {n : Nat} : Outcome i n → Outcome i n → Prop
  | .done c s, .done c' s' => c = c' ∧ ∀ a, ({ s a with vsig := 0 } : Particle (i + 1)) = { s' a with vsig := 0 }
  | .failed, .failed => True
  | .clash k, .clash k' => k = k'
  | _, _ => False

variable {i : Fin 3} {n : Nat}

/-- Momentum along an axis and angular momentum in a plane. -/
noncomputable def linearMomentum (s : Fin n → Particle (i + 1)) (j : Fin (i + 1)) : ℝ := ∑ a, (s a).mass * (s a).vel j
noncomputable def planeMomentum (s : Fin n → Particle (i + 1)) (j k : Fin (i + 1)) : ℝ := ∑ a, (s a).mass * ((s a).pos j * (s a).vel k - (s a).pos k * (s a).vel j)

/-- The sum of the strengths of the attractions of the other particles. -/
noncomputable def pull (G : ℝ) (s : Fin n → Particle (i + 1)) (a : Fin n) : ℝ := ∑ b ∈ Finset.univ.erase a, |G| * (s b).mass / distance (s a).pos (s b).pos ^ 2

/-- The sum of the strengths of the potentials of the other particles. -/
noncomputable def well (G : ℝ) (s : Fin n → Particle (i + 1)) (a : Fin n) : ℝ := ∑ b ∈ Finset.univ.erase a, |G| * (s b).mass / distance (s a).pos (s b).pos

/-- Energy of the gas as the program carries it, energy of gravity as the program sums it (analysis.h:113-121), and the power gravity exerts. -/
noncomputable def gasEnergy (s : Fin n → Particle (i + 1)) : ℝ := ∑ a, (s a).mass * (s a).e
noncomputable def gravityEnergy (s : Fin n → Particle (i + 1)) : ℝ := ∑ a, 1 / 2 * (s a).gpot * (s a).mass
noncomputable def gravityPower (s : Fin n → Particle (i + 1)) : ℝ := ∑ a, (s a).mass * ∑ j, (s a).gacc j * (s a).vel j

/-- The energy of gravity by Newton's law. -/
noncomputable def newtonEnergy (G : ℝ) (body : Fin n → Cofm.Body (i + 1)) : ℝ := ∑ a, 1 / 2 * potentialAt G body a * (body a).mass

/-- One iteration of the leapfrog scheme for a time step `dt`, from `s` to `t`; in the first iteration the particles do not move. The accelerations of the gas exert no net force and no net torque, and the
acceleration and potential of gravity are those of Newton's law up to the error of the multipole method, all at the new positions. -/
structure Leapfrog (G angle : ℝ) (first : Prop) [Decidable first] (dt : ℝ) (s t : Fin n → Particle (i + 1)) : Prop where
  id : ∀ a, (t a).id = (s a).id
  mass : ∀ a, (t a).mass = (s a).mass
  pos : ∀ a, (t a).pos = if first then (s a).pos else (s a).pos + dt • ((s a).vel + (1 / 2 * dt) • ((s a).acc + (s a).gacc))
  vel : ∀ a, (t a).vel = if first then (s a).vel else (s a).vel + (1 / 2 * dt) • ((s a).acc + (s a).gacc) + (1 / 2 * dt) • ((t a).acc + (t a).gacc)
  force : ∀ j, ∑ a, (t a).mass * (t a).acc j = 0
  torque : ∀ j k, ∑ a, (t a).mass * ((t a).pos j * (t a).acc k - (t a).pos k * (t a).acc j) = 0
  gravity : ∀ a u, u = max angle 0 → distance (t a).gacc (accelerationAt G (fun b => bodyOf (t b)) a) ≤ (4 * u + 5 * u ^ 2 + 2 * u ^ 3) * pull G t a
  potential : ∀ a u, u = max angle 0 → |(t a).gpot - potentialAt G (fun b => bodyOf (t b)) a| ≤ (2 * u + u ^ 2) * well G t a

end FleCSPH.Spec

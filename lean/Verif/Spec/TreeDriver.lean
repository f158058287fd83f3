import Verif.Spec.Iteration
import Verif.Model.Sph
import Mathlib.Algebra.BigOperators.Group.Finset.Basic
/-! How many neighbours the particles have. -/
namespace FleCSPH.Spec
open FleCSPH.Sph

variable {d n : Nat}

open Classical in
/-- The number of particles not further away than the mean of the two smoothing lengths, the particle itself included. -/
noncomputable def nearCount (v : Fin n → Particle d) (a : Fin n) : Nat := (Finset.univ.filter fun b => √(∑ j, ((v a).pos j - (v b).pos j) ^ 2) ≤ ((v a).h + (v b).h) / 2).card

open Classical in
/-- The number of particles not further away than the greater of the two smoothing lengths, the particle itself included. -/
noncomputable def wideCount (v : Fin n → Particle d) (a : Fin n) : Nat := (Finset.univ.filter fun b => √(∑ j, ((v a).pos j - (v b).pos j) ^ 2) ≤ max (v a).h (v b).h).card

/-- The average over a list of particles, rounded down. -/
def meanOf (f : Fin n → Nat) (l : List (Fin n)) : Nat := (l.map f).sum / l.length

end FleCSPH.Spec

import Verif.Model.Sph
import Mathlib.Data.Real.Sqrt
/-! Neighbour lists as the traversal delivers them (C13). -/
namespace FleCSPH.Spec
open FleCSPH.Sph

/-- The lists have no repetition and hold every particle not further away than the mean of the two smoothing lengths; they may hold others. -/
structure NearLists {d n : Nat} (s : Fin n → Particle d) (nbs : Fin n → List (Fin n)) : Prop where
  nodup : ∀ a, (nbs a).Nodup
  complete : ∀ a b, √(∑ j, ((s a).pos j - (s b).pos j) ^ 2) ≤ ((s a).h + (s b).h) / 2 → b ∈ nbs a

/-- The lists have no repetition and hold every particle which is closer than the mean of the two smoothing lengths by at least `δ`; those nearer to the edge may be missing, and the lists may hold others. -/
structure AlmostComplete {d n : Nat} (δ : ℝ) (s : Fin n → Particle d) (nbs : Fin n → List (Fin n)) : Prop where
  nodup : ∀ a, (nbs a).Nodup
  complete : ∀ a b, √(∑ j, ((s a).pos j - (s b).pos j) ^ 2) ≤ ((s a).h + (s b).h) / 2 - δ → b ∈ nbs a

end FleCSPH.Spec

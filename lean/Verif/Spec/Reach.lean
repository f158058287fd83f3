import Verif.Model.Cofm
/-! Specification of the searches around a point and around a particle. -/
namespace FleCSPH.Spec
open FleCSPH.Geometry FleCSPH.Cofm

/-- The particle lies within its smoothing length or within `radius` of the point. -/
def InReach {d : Nat} (center : Point d) (radius : ℝ) (b : Body d) : Prop :=
  √(∑ i, (center i - b.pos i) ^ 2) ≤ max radius b.h

/-- Two particles are neighbours: one lies in the sphere of the other. -/
def Neighbours {d : Nat} (a b : Body d) : Prop := √(∑ i, (a.pos i - b.pos i) ^ 2) ≤ max a.h b.h

end FleCSPH.Spec

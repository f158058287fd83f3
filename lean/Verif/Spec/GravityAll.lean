import Verif.Spec.Summary
import Verif.Spec.GlobalTree
/-! Specification: Newton's law for particles named by their keys. -/
namespace FleCSPH.Spec
open FleCSPH.Cofm FleCSPH.Geometry

/-- Potential at particle `x` of the other particles of the list. -/
noncomputable def potentialOf {d : Nat} (G : ℝ) (body : Nat → Body d) (all : List Nat) (x : Nat) : ℝ :=
  ∑ y ∈ all.toFinset.erase x, -G * (body y).mass / distance (body x).pos (body y).pos

/-- Acceleration of particle `x` by the other particles of the list. -/
noncomputable def accelerationOf {d : Nat} (G : ℝ) (body : Nat → Body d) (all : List Nat) (x : Nat) : Point d :=
  fun i => ∑ y ∈ all.toFinset.erase x, -G * (body y).mass * ((body x).pos i - (body y).pos i) / distance (body x).pos (body y).pos ^ 3

/-- The digits `e` are the leaf of the particle with key `x` in the tree of all particles. -/
def LeafOf (D dim : Nat) (all : List Nat) (x : Nat) (e : List Nat) : Prop := Digits dim e ∧ LeafCell D dim (· ∈ all) x (number dim e)

end FleCSPH.Spec

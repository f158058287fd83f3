import Verif.Spec.Tree
import Verif.Model.Cofm
/-! Specification of the summary of a set of particles. -/
namespace FleCSPH.Spec
open FleCSPH.Geometry FleCSPH.Cofm

open Classical in
/-- The particles (by index) of the list of keys `ks` that the cell `c` holds. -/
noncomputable def below (D dim : Nat) (ks : List Nat) (c : Nat) : Finset Nat :=
  (Finset.range ks.length).filter fun j => ∃ x, ks[j]? = some x ∧ Holds D dim c x

/-- Particle number `j`. -/
noncomputable def bodyAt {d : Nat} (bodies : List (Body d)) (j : Nat) : Body d := bodies.getD j ⟨0, 0, 0⟩

/-- `N` summarises the particles `S`: total mass, number and centre of mass; each of them lies within `radius` of the
centre, within `lap` with its smoothing length, and the box around it of half its smoothing length is inside the box. -/
structure Summarises {d : Nat} (body : Nat → Body d) (S : Finset Nat) (N : Node d) : Prop where
  mass : N.mass = ∑ j ∈ S, (body j).mass
  sub : N.sub = S.card
  centre : N.mass • N.coords = ∑ j ∈ S, (body j).mass • (body j).pos
  radius : ∀ j ∈ S, distance N.coords (body j).pos ≤ N.radius
  lap : ∀ j ∈ S, distance N.coords (body j).pos + (body j).h ≤ N.lap
  box : ∀ j ∈ S, ∀ i, N.bmin i ≤ (body j).pos i - (body j).h / 2 ∧ (body j).pos i + (body j).h / 2 ≤ N.bmax i

/-- The box is the smallest one, up to the largest number `big`. -/
def BoxTight {d : Nat} (big : ℝ) (body : Nat → Body d) (S : Finset Nat) (N : Node d) : Prop :=
  ∀ i v, -big ≤ v → v ≤ big →
    ((∀ j ∈ S, v ≤ (body j).pos i - (body j).h / 2) → v ≤ N.bmin i) ∧
    ((∀ j ∈ S, (body j).pos i + (body j).h / 2 ≤ v) → N.bmax i ≤ v)

end FleCSPH.Spec

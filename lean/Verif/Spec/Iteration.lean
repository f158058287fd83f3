import Verif.Spec.Grid
import Verif.Spec.GravityAll
import Verif.Spec.Reach
import Mathlib.Data.List.FinRange
import Mathlib.Data.Real.Archimedean
/-! Specification of one iteration on several processes in terms of the particles `0 ... n-1`, whatever the division. -/
namespace FleCSPH.Spec
open FleCSPH.Cofm FleCSPH.Geometry

/-- Every particle is on one of the `P` processes, and no process is empty. -/
structure Division (n P : Nat) (vec : Fin P → List (Fin n)) : Prop where
  all : ((List.finRange P).flatMap vec).Perm (List.finRange n)
  nonempty : ∀ r, vec r ≠ []

/-- After the distributed sort: the particles are divided into parts of the same sizes as before, with increasing keys from process to process and within each process. -/
structure Arranged (n P : Nat) (vec : Fin P → List (Fin n)) (key : Fin n → Nat) (vec' : Fin P → List (Fin n)) : Prop where
  division : Division n P vec'
  sizes : ∀ r, (vec' r).length = (vec r).length
  increasing : ((List.finRange P).flatMap vec').Pairwise fun a b => key a < key b

variable {d n : Nat}

/-- The corners of the smallest box around the particles with their smoothing lengths. -/
noncomputable def boxLow (body : Fin n → Body d) (j : Fin d) : ℝ := ⨅ a, ((body a).pos j - (body a).h)
noncomputable def boxHigh (body : Fin n → Body d) (j : Fin d) : ℝ := ⨆ a, ((body a).pos j + (body a).h)

/-- The particle lies in cell `c` of the grid which cuts the box in `2^D` parts along each axis. -/
def InGridCell (D : Nat) (body : Fin n → Body d) (c : Fin d → Nat) (a : Fin n) : Prop := ∀ j, InCell (boxLow body j) (boxHigh body j) (2 ^ D) (c j) ((body a).pos j)

/-- The key of the particle is the path to its grid cell in Z-order. -/
def ZKey (D : Nat) (body : Fin n → Body d) (key : Fin n → Nat) : Prop :=
  ∀ a, ∃ c, InGridCell D body c a ∧ key a = pathKey d (zPath d D fun j => if h : j < d then c ⟨j, h⟩ else 0)

/-- No two particles are in the same grid cell. -/
def Separate (D : Nat) (body : Fin n → Body d) : Prop := ∀ a b c, InGridCell D body c a → InGridCell D body c b → a = b

/-- Neighbour lists without repetition, which hold every particle not further away than the mean of the two smoothing lengths and only particles of which one lies in the sphere of the other. -/
structure GoodLists (body : Fin n → Body d) (nbs : Fin n → List (Fin n)) : Prop where
  nodup : ∀ a, (nbs a).Nodup
  sound : ∀ a, ∀ b ∈ nbs a, Neighbours (body a) (body b)
  complete : ∀ a b, √(∑ j, ((body a).pos j - (body b).pos j) ^ 2) ≤ ((body a).h + (body b).h) / 2 → b ∈ nbs a

/-- The calls of the user's function on one process (leaf of the particle, leaves of its neighbours), in the order in which they are made, are one call for each of the particles `mine` with its list. -/
def CallsFor (D d : Nat) (key : Fin n → Nat) (nbs : Fin n → List (Fin n)) (mine : List (Fin n)) (calls : List (List Nat × List (List Nat))) : Prop :=
  let all := (List.finRange n).map key
  ∃ order, order.Perm mine ∧ List.Forall₂ (fun call a => LeafOf D d all (key a) call.1 ∧ List.Forall₂ (fun f b => LeafOf D d all (key b) f) call.2 (nbs a)) calls order

/-- Potential and acceleration by Newton's law. -/
noncomputable def potentialAt (G : ℝ) (body : Fin n → Body d) (a : Fin n) : ℝ := ∑ b ∈ Finset.univ.erase a, -G * (body b).mass / distance (body a).pos (body b).pos
noncomputable def accelerationAt (G : ℝ) (body : Fin n → Body d) (a : Fin n) : Point d :=
  fun i => ∑ b ∈ Finset.univ.erase a, -G * (body b).mass * ((body a).pos i - (body b).pos i) / distance (body a).pos (body b).pos ^ 3

end FleCSPH.Spec

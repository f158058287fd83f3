import Mathlib.Algebra.BigOperators.Fin
import Mathlib.Data.Real.Basic
import Verif.Model.Sph
/-! Specification side of the SPH sums. -/
namespace FleCSPH.Spec
open FleCSPH.Sph FleCSPH.Geometry

/-- The neighbour lists have no repetition, and two particles closer than the mean of their smoothing lengths are either
both or neither in the list of the other. Symmetric lists satisfy this, and so do lists which hold at least all particles
closer than the mean (what the traversal guarantees, C13). -/
structure SymmetricLists {d n : Nat} (s : Fin n → Particle d) (nbs : Fin n → List (Fin n)) : Prop where
  nodup : ∀ a, (nbs a).Nodup
  symm : ∀ a b, √(∑ j, ((s a).pos j - (s b).pos j) ^ 2) < ((s a).h + (s b).h) / 2 → (b ∈ nbs a ↔ a ∈ nbs b)

/-- Every particle is visited exactly once. -/
structure VisitsAll {n : Nat} (order : List (Fin n)) : Prop where
  nodup : order.Nodup
  all : ∀ a, a ∈ order

/-- The neighbour lists have no repetition and hold every particle closer than the mean of the smoothing lengths; they may hold others. -/
structure CompleteLists {d n : Nat} (s : Fin n → Particle d) (nbs : Fin n → List (Fin n)) : Prop where
  nodup : ∀ a, (nbs a).Nodup
  complete : ∀ a b, √(∑ j, ((s a).pos j - (s b).pos j) ^ 2) < ((s a).h + (s b).h) / 2 → b ∈ nbs a

theorem CompleteLists.symmetric {d n : Nat} {s : Fin n → Particle d} {nbs : Fin n → List (Fin n)} (h : CompleteLists s nbs) : SymmetricLists s nbs := by
  refine ⟨h.nodup, fun a b hab => ⟨fun _ => h.complete b a ?_, fun _ => h.complete a b hab⟩⟩
  have : ∑ j, ((s b).pos j - (s a).pos j) ^ 2 = ∑ j, ((s a).pos j - (s b).pos j) ^ 2 := Finset.sum_congr rfl fun k _ => by ring
  rw [this]; linarith

end FleCSPH.Spec

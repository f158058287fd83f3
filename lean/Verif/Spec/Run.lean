import Verif.Model.Driver
import Verif.Spec.Sph
/-! What a run of the driver may assume of the tree. -/
namespace FleCSPH
open Sph Spec Geometry Driver

/-- The tree does its work (C13, C34_traversal_lists): the lists are complete for every state with positive smoothing lengths, and every pass
visits every particle once. -/
structure Faithful {i : Fin 3} {n : Nat} (w : Schedule i n) : Prop where
  lists : ∀ s : Fin n → Particle (i + 1), (∀ a, 0 < (s a).h) → CompleteLists s (w.search s)
  order : ∀ k, VisitsAll (w.order k)

end FleCSPH

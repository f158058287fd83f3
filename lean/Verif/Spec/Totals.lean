import Mathlib.Algebra.BigOperators.Fin
import Verif.Model.Reductions
/-! Specification: the totals of a set of particles, under the names the columns of scalar_reductions.dat have, and what it means that processes hold these particles. -/
namespace FleCSPH.Spec
open FleCSPH.Sph FleCSPH.Geometry

variable {d n : Nat}

/-- The processes hold the particles `ps`, each once and in any order, and any number of walls and periodic copies besides. -/
def Held (ps : Fin n → Particle d) (procs : List (List (Reductions.Body d))) : Prop :=
  ((procs.flatten.filter fun b => !b.wall).map fun b => b.data).Perm (List.ofFn ps)

/-- A total: the sum over all particles. -/
noncomputable def total (ps : Fin n → Particle d) (f : Particle d → ℝ) : ℝ := ∑ a, f (ps a)

/-- Kinetic, internal and external potential energy of a particle. -/
noncomputable def mechanical (phi : Point d → ℝ) (a : Particle d) : ℝ := a.mass * (∑ j, a.vel j ^ 2) / 2 + a.mass * a.u + a.mass * phi a.pos

/-- Moment of momentum of a particle in the plane of the axes j and k. -/
noncomputable def moment (j k : Nat) (hj : j < d) (hk : k < d) (a : Particle d) : ℝ := a.mass * (a.pos ⟨j, hj⟩ * a.vel ⟨k, hk⟩ - a.pos ⟨k, hk⟩ * a.vel ⟨j, hj⟩)

/-- `Column z it t dt ps name x`: the quantity `name` of the particles `ps` has the value `x`. -/
inductive Column (z : Reductions.Setting d) (it : Nat) (t dt : ℝ) (ps : Fin n → Particle d) : String → ℝ → Prop
  | iteration : Column z it t dt ps "iteration" it
  | time : Column z it t dt ps "time" t
  | timestep : Column z it t dt ps "timestep" dt
  | mass : Column z it t dt ps "total_mass" (total ps fun a => a.mass)
  /-- kinetic, internal and potential energy, and the energy of self-gravity -/
  | energy : z.thermokinetic = false → Column z it t dt ps "total_energy" (total ps (mechanical z.phi) + if z.fmm then total ps (fun a => a.mass * a.gpot) / 2 else 0)
  /-- the evolved energies, and the energy of self-gravity -/
  | evolved : z.thermokinetic = true → Column z it t dt ps "total_energy" ((total ps fun a => a.mass * a.e) + if z.fmm then total ps (fun a => a.mass * a.gpot) / 2 else 0)
  | kinetic : Column z it t dt ps "kinetic_energy" (total ps fun a => a.mass * (∑ j, a.vel j ^ 2) / 2)
  | internal : Column z it t dt ps "internal_energy" (total ps fun a => a.mass * a.u)
  | gravitational : Column z it t dt ps "gravitational_energy" (total ps (fun a => a.mass * a.gpot) / 2)
  | momX (h : 0 < d) : Column z it t dt ps "mom_x" (total ps fun a => a.mass * a.vel ⟨0, h⟩)
  | momY (h : 1 < d) : Column z it t dt ps "mom_y" (total ps fun a => a.mass * a.vel ⟨1, h⟩)
  | momZ (h : 2 < d) : Column z it t dt ps "mom_z" (total ps fun a => a.mass * a.vel ⟨2, h⟩)
  /-- misspelt in the header for two dimensions -/
  | angZ2 (h : 1 < d) : Column z it t dt ps "and_mom_z" (total ps (moment 0 1 (by omega) h))
  | angX (h : 2 < d) : Column z it t dt ps "ang_mom_x" (total ps (moment 1 2 (by omega) h))
  | angY (h : 2 < d) : Column z it t dt ps "ang_mom_y" (total ps (moment 2 0 h (by omega)))
  | angZ (h : 2 < d) : Column z it t dt ps "ang_mom_z" (total ps (moment 0 1 (by omega) (by omega)))
  | comX (h : 0 < d) : Column z it t dt ps "com_x" ((total ps fun a => a.mass * a.pos ⟨0, h⟩) / total ps fun a => a.mass)
  | comY (h : 1 < d) : Column z it t dt ps "com_y" ((total ps fun a => a.mass * a.pos ⟨1, h⟩) / total ps fun a => a.mass)
  | comZ (h : 2 < d) : Column z it t dt ps "com_z" ((total ps fun a => a.mass * a.pos ⟨2, h⟩) / total ps fun a => a.mass)

end FleCSPH.Spec

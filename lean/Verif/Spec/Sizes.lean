import Verif.Spec.Totals
/-! Specification: the size of the terms of a total, which is what rounding errors are relative to: the sum of the absolute values. -/
namespace FleCSPH.Spec
open FleCSPH.Sph FleCSPH.Geometry

variable {d n : Nat}

/-- Absolute values of the terms of the moment of momentum of a particle. -/
noncomputable def momentSize (j k : Nat) (hj : j < d) (hk : k < d) (a : Particle d) : ℝ :=
  |a.mass| * (|a.pos ⟨j, hj⟩| * |a.vel ⟨k, hk⟩| + |a.pos ⟨k, hk⟩| * |a.vel ⟨j, hj⟩|)

/-- `Size z t dt ps name M`: the absolute values of the terms of the quantity `name` (see `Column`) add up to `M`. -/
inductive Size (z : Reductions.Setting d) (t dt : ℝ) (ps : Fin n → Particle d) : String → ℝ → Prop
  | time : Size z t dt ps "time" |t|
  | timestep : Size z t dt ps "timestep" |dt|
  | mass : Size z t dt ps "total_mass" (total ps fun a => |a.mass|)
  | energy : z.thermokinetic = false → Size z t dt ps "total_energy"
      ((total ps fun a => |a.mass| * ((∑ j, a.vel j ^ 2) / 2 + |a.u| + |z.phi a.pos|)) + if z.fmm then total ps (fun a => |a.mass| * |a.gpot|) / 2 else 0)
  | evolved : z.thermokinetic = true → Size z t dt ps "total_energy" ((total ps fun a => |a.mass| * |a.e|) + if z.fmm then total ps (fun a => |a.mass| * |a.gpot|) / 2 else 0)
  | kinetic : Size z t dt ps "kinetic_energy" (total ps fun a => |a.mass| * (∑ j, a.vel j ^ 2) / 2)
  | internal : Size z t dt ps "internal_energy" (total ps fun a => |a.mass| * |a.u|)
  | gravitational : Size z t dt ps "gravitational_energy" (total ps (fun a => |a.mass| * |a.gpot|) / 2)
  | momX (h : 0 < d) : Size z t dt ps "mom_x" (total ps fun a => |a.mass| * |a.vel ⟨0, h⟩|)
  | momY (h : 1 < d) : Size z t dt ps "mom_y" (total ps fun a => |a.mass| * |a.vel ⟨1, h⟩|)
  | momZ (h : 2 < d) : Size z t dt ps "mom_z" (total ps fun a => |a.mass| * |a.vel ⟨2, h⟩|)
  | angZ2 (h : 1 < d) : Size z t dt ps "and_mom_z" (total ps (momentSize 0 1 (by omega) h))
  | angX (h : 2 < d) : Size z t dt ps "ang_mom_x" (total ps (momentSize 1 2 (by omega) h))
  | angY (h : 2 < d) : Size z t dt ps "ang_mom_y" (total ps (momentSize 2 0 h (by omega)))
  | angZ (h : 2 < d) : Size z t dt ps "ang_mom_z" (total ps (momentSize 0 1 (by omega) (by omega)))

end FleCSPH.Spec

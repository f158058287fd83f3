import Verif.Model.IdGen
/-!
Model of the generator of Rayleigh-Taylor initial data, app/id_generators/RT/main.cc, in two dimensions: the two blocks, the adjustment to the periodic box, the lattice loops (`Lattice`), the fields of the particles and
the suggested time step. Numbers are real numbers. Left out: the log messages, the velocities and accelerations which are not written, the calls of HDF5. `domain_type` is 0; the assertion of this (242) is checked before the parameters are read (249), so it tests the default only.
-/
namespace FleCSPH.RtGen
noncomputable section
open FleCSPH.Lattice FleCSPH.IdGen

/-- The parameters read by the generator: `nx` is `lattice_nx`, `mismatch` is `lattice_mismatch_tolerance`, `gravity` is `gravity_acceleration_constant`, `amplitude`, `stripe` and `mode` are the `rt_perturbation_`
parameters, `eta` is `sph_eta`, `kernel_width` that of the kernel chosen. -/
structure Params where
  box_length : ℝ
  box_width : ℝ
  nx : ℕ
  lattice_type : Int
  density_ratio : ℝ
  rho_initial : ℝ
  poly_gamma : ℝ
  mismatch : ℝ
  periodic_boundary_x : Bool
  gravity : ℝ
  flow_velocity : ℝ
  cfl : ℝ
  amplitude : ℝ
  stripe : ℝ
  mode : ℝ
  eta : ℝ
  kernel_width : ℝ

variable (P : Params)

/-- `pressure_0`, `rho_1`, `rho_2`, RT/main.cc:71, 74, 75. -/
def pressure0 : ℝ := 5 / 2
def rho1 : ℝ := P.rho_initial
def rho2 : ℝ := rho1 P * P.density_ratio

/-- `sph_separation`, RT/main.cc:87. -/
def sep : ℝ := P.box_length / ((P.nx : ℝ) - 1)

/-- `pmass` and `sph_sep_t`, RT/main.cc:94-99. -/
def pmass : ℝ := (equalMass 2 P.lattice_type (rho1 P) (rho2 P) (sep P)).1
def sepT : ℝ := (equalMass 2 P.lattice_type (rho1 P) (rho2 P) (sep P)).2

/-- `dy`, the period of the bottom lattice in `y`, RT/main.cc:102-134. -/
def dy : ℝ := if P.lattice_type = 1 ∨ P.lattice_type = 2 then sep P * √3 else sep P

/-- `box_length` after the adjustment, RT/main.cc:142-155 (`dx` is the separation for all lattices). -/
def length : ℝ := if P.periodic_boundary_x then (layerLength P.box_length (sep P) (sepT P) P.mismatch).getD P.box_length else P.box_length

/-- `bbox_min`, `bbox_max`, RT/main.cc:58-62, 138, 148-149. -/
def bLo : Pos := ⟨-length P / 2, -P.box_width / 2 + (P.box_width / 2 - truncate (P.box_width / 2 / dy P) * dy P), 0⟩
def bHi : Pos := ⟨length P / 2, 0, 0⟩
/-- `tbox_min`, `tbox_max`, RT/main.cc:58-59, 63-64, 150-151. -/
def tLo : Pos := ⟨-length P / 2, 0, 0⟩
def tHi : Pos := ⟨length P / 2, P.box_width / 2, 0⟩

/-- What is known after the lattices are generated: `np_bottom`, `np_top` and the arrays `x`, `y`, `z`. -/
structure Blocks where
  bottom : ℕ
  top : ℕ
  pos : ℕ → Pos

/-- Counting (RT/main.cc:213-216) and generating (285-289) the two blocks; a failing assertion (291) is `none`. The two calls in `make_tuple` may be made in any order, they write to different entries. -/
def blocks (fuel : ℕ) : Option Blocks := do
  let zero : ℕ → Pos := fun _ => ⟨0, 0, 0⟩
  let gen := fun c lo hi s n pos => generate2 fuel c P.lattice_type 0 lo hi s ⟨n, pos⟩
  let cb ← gen true (bLo P) (bHi P) (sep P) 0 zero
  let npb := cb.posid
  let ct ← gen true (tLo P) (tHi P) (sepT P) npb zero
  let npt := ct.posid - npb
  let gb ← gen false (bLo P) (bHi P) (sep P) 0 zero
  let gt ← gen false (tLo P) (tHi P) (sepT P) npb gb.pos
  if npb = gb.posid ∧ npt = gt.posid - npb then some ⟨npb, npt, gt.pos⟩ else none

/-- The fields of a particle in the file. -/
structure Particle where
  id : ℕ
  x : ℝ
  y : ℝ
  vx : ℝ
  vy : ℝ
  rho : ℝ
  P : ℝ
  u : ℝ
  m : ℝ
  h : ℝ

open Classical in
/-- `vy` with the perturbation, RT/main.cc:321, 324-329. -/
def perturbation (x y : ℝ) : ℝ :=
  if |y| < 1 / 2 * P.stripe then -P.amplitude * (1 + Real.cos (2 * Real.pi * x / length P * P.mode)) * Real.cos (Real.pi * y / P.stripe) else 0

open Classical in
/-- The body of the loop over the particles, RT/main.cc:302-344; `in_domain_1d` is called with the heights. -/
def particle (pos : ℕ → Pos) (part : ℕ) : Particle :=
  let y := (pos part).y
  let bottom := inDomain1 ⟨(bLo P).y, 0, 0⟩ ⟨(bHi P).y, 0, 0⟩ ⟨y, 0, 0⟩
  let rho := if bottom then rho1 P else rho2 P
  let p := if bottom then rtBottom pressure0 P.gravity (rho1 P) (rho2 P) (tLo P).y (tHi P).y y else rtTop pressure0 P.gravity (rho2 P) (tHi P).y y
  { id := part
    x := (pos part).x
    y := y
    vx := 0
    vy := perturbation P (pos part).x y
    rho := rho
    P := p
    u := uFromEos P.poly_gamma rho p
    m := pmass P
    h := P.eta * P.kernel_width * √(pmass P / rho) }

/-- The generator: the particles in the order of the file. -/
def generate (fuel : ℕ) : Option (List Particle) := do
  let b ← blocks P fuel
  return (List.range (b.bottom + b.top)).map (particle P b.pos)

/-- The attribute `timestep`, RT/main.cc:293-298. `pressure_1` and `pressure_2` (35) are never set, they are zero; a division by zero is `none`. -/
def timestep : Option ℝ :=
  let pressure1 : ℝ := 0
  let pressure2 : ℝ := 0
  let cs := √(P.poly_gamma * max (pressure1 / rho1 P) (pressure2 / rho2 P))
  if max cs P.flow_velocity = 0 then none else some (P.cfl * sep P / max cs P.flow_velocity)

end
end FleCSPH.RtGen

import Verif.Model.Kernels
import Verif.Model.DensityProfiles
import Verif.Model.Lattice
import Mathlib.Analysis.SpecialFunctions.Pow.Real
/-!
Model of the initial data generators app/id_generators/*/main.cc, in exact real arithmetic: masses, densities, energies, pressures, velocities and smoothing lengths of the particles they write. The
positions come from the lattice generator (`Lattice`); where only the other fields matter, they are an argument. Reading parameters, choosing file names and writing HDF5 are not modelled. `M_PI` is π.
-/
namespace FleCSPH.IdGen
open FleCSPH.Geometry FleCSPH.Kernels FleCSPH.Lattice

variable {d : Nat}

/-- What the generators write per particle. -/
structure Out (d : Nat) where
  pos : Point d
  vel : Point d
  mass : ℝ
  rho : ℝ
  u : ℝ
  P : ℝ
  h : ℝ
  id : Nat

/-- Parameters of all generators: `poly_gamma`, `rho_initial`, `pressure_initial`, `sph_eta`, `kernels::kernel_width`, `sphere_radius`, `box_length`, `box_width`, `box_height`, `domain_type`. -/
structure Params where
  gamma : ℝ
  rho : ℝ
  P : ℝ
  eta : ℝ
  width : ℝ
  R : ℝ
  L : ℝ
  W : ℝ
  H : ℝ
  domain : Int

/-- The total mass of sedov/main.cc:109-129 and noh/main.cc:88-108; `prof` is `spherical_density_profile`, `constant` the comparison of its name. The assertion is `none`; for other
domain types the initial value 1 (sedov/main.cc:63) stays. -/
noncomputable def totalMass (z : Params) (prof : ℝ → ℝ) (constant : Bool) (d : Nat) : Option ℝ :=
  if d = 1 then some (z.rho * z.L)
  else if d = 2 then
    if z.domain = 0 then some (z.rho * z.L * z.W) else if z.domain = 1 then some (z.rho * Real.pi * (z.R * z.R)) else some 1
  else if d = 3 then
    if z.domain = 0 then if constant then some (z.rho * z.L * z.W * z.H) else none
    else if z.domain = 1 then some (z.rho * (z.R * z.R * z.R) / prof 0) else some 1
  else some 1

/-- The total mass of implosion/main.cc:90-104 and, in three dimensions, collapse/main.cc:83-98. -/
noncomputable def totalMassPlain (z : Params) (d : Nat) : Option ℝ :=
  if d = 2 then if z.domain = 0 then some (z.rho * z.L * z.W) else if z.domain = 1 then some (z.rho * Real.pi * (z.R * z.R)) else some 1
  else if d = 3 then if z.domain = 0 then some (z.rho * z.L * z.W * z.H) else if z.domain = 1 then some (z.rho * 4 / 3 * Real.pi * (z.R * z.R * z.R)) else some 1
  else none

/-- `sph_eta * kernels::kernel_width * pow(m / rho, 1. / gdimension)`, e.g. sedov/main.cc:276-277. -/
noncomputable def smoothing (z : Params) (d : Nat) (m rho : ℝ) : ℝ := z.eta * z.width * (m / rho) ^ (1 / (d : ℝ))

/-- The mass in the blast zone, sedov/main.cc:229-244: `mass_particle` for each particle in it. -/
noncomputable def massBlast (rb mp : ℝ) (bodies : List (Out d)) : ℝ := bodies.foldl (fun s b => if magnitude b.pos < rb then s + mp else s) 0

/-- One particle of the main loop of sedov/main.cc:252-311. `shift` is the lattice perturbation (0 if its amplitude is not positive). -/
noncomputable def sedovBody (z : Params) (modify : Bool) (prof : ℝ → ℝ) (mp E rb mb : ℝ) (shift : Point d) (a : Nat) (b : Out d) : Out d :=
  let K0 := z.P / z.rho ^ z.gamma
  let r := magnitude b.pos
  let rho_a := if modify then b.rho else z.rho / prof 0 * prof (r / z.R)
  let u0 := K0 * rho_a ^ (z.gamma - 1) / (z.gamma - 1)
  let u_a := if r < rb then u0 + E / mb else u0
  { pos := b.pos + shift
    vel := 0
    mass := if modify then b.mass else mp
    rho := rho_a
    u := u_a
    P := rho_a * u_a * (z.gamma - 1)
    h := if modify then b.h else smoothing z d mp rho_a
    id := if modify then b.id else a }

/-- The loop of sedov/main.cc:229-311 over all particles: the lattice sites (of which only the positions are used), or the particles read from a file if `modify_initial_data`. -/
noncomputable def sedov (z : Params) (modify : Bool) (prof : ℝ → ℝ) (mp E rb : ℝ) (shift : Nat → Point d) (bodies : List (Out d)) : List (Out d) :=
  bodies.mapIdx fun a b => sedovBody z modify prof mp E rb (massBlast rb mp bodies) (shift a) a b

/-- One particle of noh/main.cc:232-295 (new initial data). -/
noncomputable def nohBody (z : Params) (prof : ℝ → ℝ) (mp v : ℝ) (shift : Point d) (a : Nat) (x : Point d) : Out d :=
  let K0 := z.P / z.rho ^ z.gamma
  let r := magnitude x
  let rp := x + shift
  let rho_a := z.rho / prof 0 * prof (r / z.R)
  let u_a := K0 * rho_a ^ (z.gamma - 1) / (z.gamma - 1)
  { pos := rp
    vel := if r > 0 then fun j => rp j * (-1 * v) / r else 0
    mass := mp
    rho := z.rho
    u := u_a
    P := rho_a * u_a * (z.gamma - 1)
    h := smoothing z d mp rho_a
    id := a }

/-- One particle of implosion/main.cc:188-207; outside of `inner_radius` (implosion/main.cc:59) the energy rises with the radius. Without the `if`: collapse/main.cc:184-191 (`collapseBody`). -/
noncomputable def collapseBody (z : Params) (mp : ℝ) (a : Nat) (x : Point d) : Out d :=
  { pos := x, vel := 0, mass := mp, rho := z.rho, u := z.P / (z.rho * (z.gamma - 1)), P := z.P, h := smoothing z d mp z.rho, id := a }

noncomputable def implosionBody (z : Params) (mp : ℝ) (a : Nat) (x : Point d) : Out d :=
  let u10 := 10000
  let u08 := 1
  let slope := (u10 - u08) / (1 * z.R - 8 / 10 * z.R)
  let yint := 1 * z.R - slope * (8 / 10) * z.R
  let b := collapseBody z mp a x
  let r := magnitude x
  if r ≥ 8 / 10 * z.R then { b with u := r * slope + yint, P := (z.gamma - 1) * b.rho * (r * slope + yint) } else b

/-- The initial states of the shock tubes, sodtube/main.cc:58-118: middle and sides. -/
structure Tube where
  rho1 : ℝ
  rho2 : ℝ
  P1 : ℝ
  P2 : ℝ
  v1 : ℝ
  v2 : ℝ

noncomputable def tube (test : Int) : Option Tube :=
  if test = 1 then some ⟨1, 125 / 1000, 1, 1 / 10, 0, 0⟩
  else if test = 2 then some ⟨1, 1, 4 / 10, 4 / 10, -2, 2⟩
  else if test = 3 then some ⟨1, 1, 1000, 1 / 100, 0, 0⟩
  else if test = 4 then some ⟨1, 1, 1 / 100, 100, 0, 0⟩
  else if test = 5 then some ⟨599924 / 100000, 599242 / 100000, 460894 / 1000, 460950 / 10000, 195975 / 10000, -619633 / 100000⟩
  else if test = 6 then some ⟨1, 1, 1 / 1000000, 1 / 1000000, 1, -1⟩
  else none

/-- The lattice generator selected by the dimension, lattice.h:810-850 (`domain_type` 0). -/
noncomputable def generate (d fuel : Nat) (countOnly : Bool) (lattice : Int) (lo hi : Pos) (sep : ℝ) (st : Lattice.State) : Option Lattice.State :=
  if d = 1 then generate1 fuel countOnly lo hi sep st else if d = 2 then generate2 fuel countOnly lattice 0 lo hi sep st else generate3 fuel countOnly lattice 0 lo hi sep st

/-- The three blocks of sodtube/main.cc:132-151 (unadjusted): centre, right, left. -/
noncomputable def cboxMin (z : Params) : Pos := ⟨-z.L / 6, -z.W / 2, -z.H / 2⟩
noncomputable def cboxMax (z : Params) : Pos := ⟨z.L / 6, z.W / 2, z.H / 2⟩
noncomputable def rboxMin (z : Params) : Pos := ⟨z.L / 6, -z.W / 2, -z.H / 2⟩
noncomputable def rboxMax (z : Params) : Pos := ⟨-(-z.L / 2), z.W / 2, z.H / 2⟩
noncomputable def lboxMin (z : Params) : Pos := ⟨-z.L / 2, -z.W / 2, -z.H / 2⟩
noncomputable def lboxMax (z : Params) : Pos := ⟨-z.L / 6, z.W / 2, z.H / 2⟩

/-- Mass of a particle and separation in the outer blocks for `equal_mass`, sodtube/main.cc:241-283; RT/main.cc:87-99 with two and three dimensions. `cbrt` is the power 1/3. -/
noncomputable def equalMass (d : Nat) (lattice : Int) (rho1 rho2 sep : ℝ) : ℝ × ℝ :=
  if d = 1 then (rho1 * sep, rho1 * sep / rho2)
  else if d = 2 then ((rho1 * sep * sep) * (if lattice = 1 ∨ lattice = 2 then √3 / 2 else 1), sep * √(rho1 / rho2))
  else ((rho1 * sep * sep * sep) * (if lattice = 1 ∨ lattice = 2 then 1 / √2 else 1), sep * (rho1 / rho2) ^ (1 / 3 : ℝ))

/-- What the shock tube writes for a particle besides of its position. -/
structure Fluid where
  vx : ℝ
  mass : ℝ
  rho : ℝ
  u : ℝ
  P : ℝ
  h : ℝ

open Classical in
/-- One particle of the loops sodtube/main.cc:493-517 and 519-542; `m1`, `m2` are the masses in the middle and at the sides. -/
noncomputable def sodBody (z : Params) (t : Tube) (d : Nat) (m1 m2 : ℝ) (p : Pos) : Fluid :=
  if inDomain1 (cboxMin z) (cboxMax z) p then ⟨t.v1, m1, t.rho1, t.P1 / (z.gamma - 1) / t.rho1, t.P1, smoothing z d m1 t.rho1⟩
  else ⟨t.v2, m2, t.rho2, t.P2 / (z.gamma - 1) / t.rho2, t.P2, smoothing z d m2 t.rho2⟩

/-- The positions of all particles, sodtube/main.cc:466-481: centre, right, left. The first numbers of the right and the left block are returned, too. -/
noncomputable def sodSites (z : Params) (d fuel : Nat) (lattice : Int) (sep lrsep : ℝ) (pos : Nat → Pos) : Option (Nat × Nat × Lattice.State) := do
  let s1 ← generate d fuel false lattice (cboxMin z) (cboxMax z) sep ⟨0, pos⟩
  let s2 ← generate d fuel false lattice (rboxMin z) (rboxMax z) lrsep s1
  let s3 ← generate d fuel false lattice (lboxMin z) (lboxMax z) lrsep s2
  return (s1.posid, s2.posid, s3)

/-- sodtube/main.cc with `equal_mass`: the fluid data of all particles with the positions. The adjustment of the blocks to periodic boundaries (325-366) is not modelled. -/
noncomputable def sodEqualMass (z : Params) (test : Int) (d fuel : Nat) (lattice : Int) (sep : ℝ) (pos : Nat → Pos) : Option (List (Pos × Fluid)) := do
  let t ← tube test
  let (m, lrsep) := equalMass d lattice t.rho1 t.rho2 sep
  let (_, _, s) ← sodSites z d fuel lattice sep lrsep pos
  return (List.range s.posid).map fun k => (s.pos k, sodBody z t d m m (s.pos k))

/-- sodtube/main.cc without `equal_mass`: the same separation everywhere; `parts_mid` and `parts_lr` are the numbers of particles of the middle and the right block (222-233). -/
noncomputable def sodEqualSeparation (z : Params) (test : Int) (d fuel : Nat) (lattice : Int) (sep : ℝ) (pos : Nat → Pos) : Option (List (Pos × Fluid)) := do
  let t ← tube test
  let (n1, n2, s) ← sodSites z d fuel lattice sep sep pos
  return (List.range s.posid).map fun k => (s.pos k, sodBody z t d (t.rho1 / n1) (t.rho2 / (n2 - n1 : Nat)) (s.pos k))

/-- `(int)x`: towards zero. Values beyond the range of `int` are not considered. -/
noncomputable def truncate (x : ℝ) : Int := if 0 ≤ x then ⌊x⌋ else ⌈x⌉

/-- The new length of the tube for periodic boundaries, sodtube/main.cc:327-332: the right block reaches from `L / 6` to half of it, the left block is its mirror image. -/
noncomputable def tubeLength (L lrsep : ℝ) : ℝ := L / 3 + 2 * truncate (L / (3 * lrsep)) * lrsep

open Classical in
/-- The loop `for(j = n; j < 100 n; ++j)` of the adjustments: `fits j` is the condition, `extent j` the new extent; `none`: no number fits and nothing is changed. -/
noncomputable def firstFit (n : Int) (fits : Int → Prop) (extent : Int → ℝ) : Option ℝ :=
  (((List.range (100 * n - n).toNat).map fun (i : Nat) => n + (i : Int)).find? fun j => decide (fits j)).map extent

/-- The extent of the other lattice for `j` periods of the first: sodtube/main.cc:338, 354 (upwards) and RT/main.cc:145, 161 (downwards). -/
noncomputable def otherUp (a b : ℝ) (j : Int) : ℝ := (⌊j * a / b - bTol⌋ + 1) * b
noncomputable def otherDown (a b : ℝ) (j : Int) : ℝ := ⌊j * a / b + bTol⌋ * b

/-- The new width of the tube, sodtube/main.cc:335-349, and its new height, 352-366: `W` is the extent wanted, `a` and `b` are the periods of the lattices of the middle and the outer blocks, `tol` is
`lattice_mismatch_tolerance`. -/
noncomputable def tubeWidth (W a b tol : ℝ) : Option ℝ :=
  firstFit (truncate (W / a) - 1) (fun j => |otherUp a b j - j * a| < tol * b) fun j => min (otherUp a b j) (j * a)

/-- The new length of the two layers, RT/main.cc:142-155. -/
noncomputable def layerLength (L a b tol : ℝ) : Option ℝ :=
  firstFit (truncate (L / a) - 1) (fun j => |otherDown a b j - j * a| < tol * b) fun j => min (otherDown a b j) (j * a)

/-- The new height of the two layers, RT/main.cc:158-171; `L` is `box_length` as changed before, `H` is `box_height`. The code starts from `box_length / dz`. -/
noncomputable def layerHeight (L _H a b tol : ℝ) : Option ℝ := layerLength L a b tol

/-- Pressure of the two layers of RT/main.cc:302-318; `g` is `gravity_acceleration_constant`, `P0` is `pressure_0` (71), the top layer reaches from `ymin` to `ymax`. -/
noncomputable def rtBottom (P0 g rho1 rho2 ymin ymax y : ℝ) : ℝ := P0 + g * (rho2 * (ymax - ymin) - rho1 * y)
noncomputable def rtTop (P0 g rho2 ymax y : ℝ) : ℝ := P0 + g * rho2 * (ymax - y)

/-- `pressure_gravity`, fluid/main.cc:44-48. -/
def fluidPressure (P0 g rho y : ℝ) : ℝ := P0 - rho * g * y

/-- `u_from_eos`, RT/main.cc:47-50, fluid/main.cc:50-53. -/
noncomputable def uFromEos (gamma rho P : ℝ) : ℝ := P / ((gamma - 1) * rho)

/-- The stretching of the outer blocks in KH/main.cc:298-330 as a map of positions: `sx` is `yx_stretch`, `sz` is `yz_stretch`, `y0 = w_m / 2 + gap`, then `ys` is `y_stretch`, `zs` is `z_stretch` (both for all blocks).
In two dimensions `z` is not stretched, and `h_t = h_m` (KH/main.cc:200). -/
noncomputable def khOuter (sx sz y0 ys zs : ℝ) (p : Pos) : Pos :=
  ⟨p.x / sx, ys * (if p.y > 0 then y0 + sx * sz * (p.y - y0) else -y0 + sx * sz * (p.y + y0)), zs * (p.z / sz)⟩
def khMiddle (ys zs : ℝ) (p : Pos) : Pos := ⟨p.x, p.y * ys, p.z * zs⟩

/-- Masses of KH/main.cc:109-122 (before the stretching), 323, 329 and the last assignment 371 for all blocks. -/
noncomputable def khMass (d : Nat) (lattice : Int) (rhoM sep ys zs : ℝ) : ℝ :=
  if d = 3 then (rhoM * sep * sep * sep) * (if lattice = 1 ∨ lattice = 2 then 1 / √2 else 1) * ys * zs
  else (rhoM * sep * sep) * (if lattice = 1 ∨ lattice = 2 then √3 / 2 else 1) * ys

/-- `sph_sep_t`, KH/main.cc:114, 120. -/
noncomputable def khOuterSep (d : Nat) (ratio sep : ℝ) : ℝ := if d = 3 then sep * ratio ^ (1 / 3 : ℝ) else sep * √ratio

/-- The wind tunnel, wtunnel/main.cc:55-90, 126-185, 200-214 in two dimensions: the arrays have one entry per lattice site; `nparticles` entries of them are written. Reading beyond the arrays is `none`.
Returned are the written masses. -/
noncomputable def wtunnel (z : Params) (fuel nx : Nat) (lattice : Int) (pos : Nat → Pos) : Option (List ℝ) := do
  let lo : Pos := ⟨1 / 2 * z.W, -z.W / 2, 0⟩
  let hi : Pos := ⟨1 / 2 * z.W + z.L, z.W / 2, 0⟩
  let nparticles := nx * ⌊nx * z.W / z.L⌋₊
  let s ← generate2 fuel false lattice 0 lo hi (z.L / (nx - 1)) ⟨0, pos⟩
  if nparticles ≤ s.posid then some (List.replicate nparticles (z.rho / s.posid)) else none

end FleCSPH.IdGen

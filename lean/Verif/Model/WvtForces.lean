import Verif.Model.Wvt
import Verif.Model.Sph
/-!
Model of the pseudo-accelerations of the relaxation, include/physics/wvt.h, in exact real arithmetic. `i : Fin 3` stands for `gdimension - 1`. A neighbour list is a list of particles.
-/
namespace FleCSPH.Wvt
open FleCSPH.Geometry FleCSPH.Kernels
open FleCSPH.Sph (Particle)

/-- `wvt_method` (params.h:411) as `select` reads it, wvt.h:602-615: compared without regard to case; any other value ends the program. -/
inductive Method
  | diehl | arth
  deriving DecidableEq

/-- `wvt_boundary`, params.h:416: `open` stands for every value other than the two the code compares with, wvt.h:222, 244, 258, 308, 327, 343. -/
inductive Edge
  | open | reflective | frozen
  deriving DecidableEq

/-- The parameters the accelerations read. -/
structure Forces where
  method : Method
  edge : Edge
  kernel : Kernel
  /-- `wvt_radius` -/
  radius : ℝ

noncomputable section

/-- `SQ(h / (r + eps * h)) - SQ(h / (h + eps * h))` with `eps` = 0.3, cut off at zero, wvt.h:302-305, 317-319, 335-338. -/
def diehlShape (h r : ℝ) : ℝ :=
  max (h / (r + 3 / 10 * h) * (h / (r + 3 / 10 * h)) - h / (h + 3 / 10 * h) * (h / (h + 3 / 10 * h))) 0

/-- The strength of the push of a neighbour: `h_ab * W_ab`, wvt.h:216-220, and `h_a * W_abt`, wvt.h:298-306. -/
def strength (p : Forces) (i : Fin 3) (ha hb r : ℝ) : ℝ :=
  match p.method with
  | .arth => 1 / 2 * (ha + hb) * (kernel p.kernel i r (1 / 2 * (ha + hb)) * (1 / 2 * (ha + hb)) ^ (i + 1 : ℕ))
  | .diehl => ha * diehlShape (1 / 2 * (ha + hb)) r

/-- The strength of the push of the mirror image of a neighbour, wvt.h:233-236 and 317-321. -/
def imageStrength (p : Forces) (i : Fin 3) (ha hb r : ℝ) : ℝ :=
  match p.method with
  | .arth => ha * (kernel p.kernel i r (1 / 2 * (ha + hb)) * ha ^ (i + 1 : ℕ))
  | .diehl => ha * diehlShape ha r

/-- The strength of the push of the particle's own mirror image, wvt.h:250-253 and 335-339. -/
def ownStrength (p : Forces) (i : Fin 3) (ha r : ℝ) : ℝ :=
  match p.method with
  | .arth => ha * (kernel p.kernel i r ha * ha ^ (i + 1 : ℕ))
  | .diehl => ha * diehlShape ha r

open Classical in
/-- `if(r_ab > 0.0) acc_a += w * (pos_a - pos_b) / r_ab`, wvt.h:219-221, 235-237, 252-254, 304-307, 318-322, 337-340. -/
def push {d : Nat} (acc x y : Point d) (w : ℝ) : Point d := if 0 < distance x y then fun j => acc j + w * (x j - y j) / distance x y else acc

/-- `pos_bs[0] = boundary + (boundary - pos_bs[0])` and back to Cartesian coordinates, wvt.h:227-228, 247-248, 313-314, 331-333. -/
def reflected (i : Fin 3) (b : ℝ) (s : Point (i + 1)) : Point (i + 1) := toCartesian i (Function.update s 0 (b + (b - s 0)))

open Classical in
/-- The body of the loop over neighbours, wvt.h:211-241 and 295-326. In space the spherical coordinates of the origin are not numbers; the comparison `r_ab > 0.0` is then false and nothing is
added. -/
def fromNeighbour (p : Forces) (i : Fin 3) (a : Particle (i + 1)) (acc : Point (i + 1)) (nb : Particle (i + 1)) : Point (i + 1) :=
  let acc1 := push acc a.pos nb.pos (strength p i a.h nb.h (distance a.pos nb.pos))
  if p.edge = .reflective ∧ mag a.pos + a.h > p.radius then
    match toSpherical i nb.pos with
    | none => acc1
    | some s =>
      if s 0 < p.radius then push acc1 a.pos (reflected i p.radius s) (imageStrength p i a.h nb.h (distance a.pos (reflected i p.radius s)))
      else acc1
  else acc1

open Classical in
/-- The push of the own mirror image, wvt.h:243-256 and 327-342. -/
def fromOwnImage (p : Forces) (i : Fin 3) (a : Particle (i + 1)) (acc : Point (i + 1)) : Point (i + 1) :=
  if p.edge = .reflective ∧ mag a.pos + a.h > p.radius then
    match toSpherical i a.pos with
    | none => acc
    | some s => push acc a.pos (reflected i p.radius s) (ownStrength p i a.h (distance a.pos (reflected i p.radius s)))
  else acc

open Classical in
/-- `wvt_acceleration_arth`, wvt.h:191-265, and `wvt_acceleration_diehl`, wvt.h:274-350: the acceleration of a particle. `none` when it is not a number. -/
def wvtForce (p : Forces) (i : Fin 3) (a : Particle (i + 1)) (nbs : List (Particle (i + 1))) : Option (Point (i + 1)) :=
  if mag a.pos ≤ p.radius then
    let acc := fromOwnImage p i a (nbs.foldl (fromNeighbour p i a) 0)
    if p.edge = .frozen ∧ mag a.pos + a.h > p.radius then removeRadialAcc a.pos acc else some acc
  else some 0

/-- The same as a function on particles, to be used in a pass; `setNeighbors` (wvt.h:196, 279), a counter which is only printed, is left out. -/
def wvtAcceleration (p : Forces) (i : Fin 3) (a : Particle (i + 1)) (nbs : List (Particle (i + 1))) : Option (Particle (i + 1)) :=
  (wvtForce p i a nbs).map fun acc => { a with acc := acc }

/-- The parameters of `wvt_displacement` and `wvt_set_density`. -/
structure Profile where
  /-- `spherical_density_profile` -/
  shape : ℝ → ℝ
  /-- `rho_initial` -/
  rho0 : ℝ
  /-- `sphere_radius` -/
  radius : ℝ
  /-- `sph_eta` -/
  eta : ℝ
  /-- `wvt_ngb` -/
  ngb : ℝ
  /-- `wvt_h_ngb` -/
  byNeighbours : Bool

/-- The density of the profile at distance `r` from the centre, wvt.h:550-552, 587-589. -/
def Profile.density (f : Profile) (r : ℝ) : ℝ := f.rho0 / f.shape 0 * f.shape (r / f.radius)

/-- `sph_eta * kernel_width * pow(mass / rho, 1. / gdimension)`, wvt.h:553, 590. -/
def byMass (f : Profile) (κ : Kernel) (i : Fin 3) (m rho : ℝ) : ℝ := f.eta * kernelWidth κ * (m / rho) ^ ((1 : ℝ) / ((i : ℝ) + 1))

/-- The smoothing length which puts `wvt_ngb` particles into a ball, wvt.h:555-566. -/
def byNumber (f : Profile) (m rho : ℝ) : Fin 3 → ℝ
  | 0 => f.ngb * m / (2 * rho)
  | 1 => √(f.ngb * m / (Real.pi * rho))
  | 2 => (f.ngb * m / (4 * Real.pi * rho / 3)) ^ ((1 : ℝ) / 3)

open Classical in
/-- The smoothing length `wvt_displacement` sets, wvt.h:553-569. Quotients by a zero density are not used: `rho == 0.0` is tested last. -/
def newLength (f : Profile) (κ : Kernel) (i : Fin 3) (m rho : ℝ) : ℝ :=
  if rho = 0 then f.radius else if f.byNeighbours then byNumber f m rho i else byMass f κ i m rho

open Classical in
/-- `wvt_displacement`, wvt.h:504-573, for the step size `mu`. -/
def wvtDisplacement (f : Profile) (κ : Kernel) (i : Fin 3) (b mu : ℝ) (fuel : Nat) (a : Particle (i + 1)) : Option (Particle (i + 1)) :=
  (displace i b a.pos a.acc mu fuel).bind fun x =>
    if f.shape 0 = 0 ∨ f.radius = 0 then none
    else some { a with h := newLength f κ i a.mass (f.density (mag x)), pos := x, rho := f.density (mag x) }

open Classical in
/-- `wvt_set_density`, wvt.h:580-593; a division by zero is `none`. -/
def wvtSetDensity (f : Profile) (κ : Kernel) (i : Fin 3) (a : Particle (i + 1)) : Option (Particle (i + 1)) :=
  if f.shape 0 = 0 ∨ f.radius = 0 ∨ f.density (mag a.pos) = 0 then none
  else some { a with h := byMass f κ i a.mass (f.density (mag a.pos)), rho := f.density (mag a.pos) }

end

end FleCSPH.Wvt

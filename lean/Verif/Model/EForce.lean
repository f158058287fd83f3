import Verif.Model.DensityProfiles
import Mathlib.Analysis.SpecialFunctions.Pow.Real
/-!
Model of include/physics/eforce.h in exact real arithmetic: the built-in external forces, their potentials and their selection by
name. `i : Fin 3` stands for `gdimension - 1`. `pow` is the real power. Coordinates beyond the dimension (`rp[1]` in one
dimension, `rp[2]` in two) are out of bounds, failed assertions stop the program: both are `none`. In the code the
characters after "walls:" are read through a pointer to a temporary string that is gone; the model reads the string.
-/
namespace FleCSPH.EForce
open FleCSPH.Geometry FleCSPH.DensityProfiles Real

/-- The parameters the forces use, params.h. `static const` copies of them are taken at the first call; parameters do not change
during a run. -/
structure Params where
  /-- `box_length`, `box_width`, `box_height` -/
  box : Fin 3 → ℝ
  /-- `extforce_wall_powerindex` -/
  n : ℝ
  /-- `extforce_wall_steepness` -/
  a : ℝ
  sphereRadius : ℝ
  rhoInitial : ℝ
  pressureInitial : ℝ
  /-- `poly_gamma` -/
  gamma : ℝ
  profile : Profile
  /-- `gravity_acceleration_constant` -/
  grav : ℝ
  airfoilSize : ℝ
  airfoilThickness : ℝ
  airfoilCamber : ℝ
  airfoilAnchorX : ℝ
  airfoilAnchorY : ℝ
  airfoilAttackAngle : ℝ
  /-- `gravitational_constant` -/
  bigG : ℝ
  /-- `orbital_separation` -/
  separation : ℝ
  mNs : ℝ
  mWd : ℝ
  /-- `zero_potential_poison_value` -/
  poison : ℝ

variable {d : Nat}

/-- `rp[k]`. -/
def coord (rp : Point d) (k : Nat) : Option ℝ := if h : k < d then some (rp ⟨k, h⟩) else none

/-- `a[k] = v` on a zero point. -/
def single (k : Nat) (v : ℝ) : Point d := fun j => if (j : Nat) = k then v else 0

open Classical in
/-- `potential_square_well`, eforce.h:47-60. -/
noncomputable def potentialSquareWell (q : Params) (I : Fin 3) (rp : Point d) : Option ℝ := do
  let x ← coord rp I
  let b := 1 / 2 * q.box I
  return ((if x < -b then (-x - b) ^ q.n else 0) + (if x > b then (x - b) ^ q.n else 0)) * q.a

open Classical in
/-- `acceleration_square_well`, eforce.h:65-80. -/
noncomputable def accelerationSquareWell (q : Params) (I : Fin 3) (rp : Point d) : Option (Point d) := do
  let x ← coord rp I
  let b := 1 / 2 * q.box I
  return single I (((if x < -b then (-x - b) ^ (q.n - 1) else 0) - (if x > b then (x - b) ^ (q.n - 1) else 0)) * q.n * q.a)

/-- The distance from the origin as computed in eforce.h:96-99, 114-117, 135-138, 158-161. -/
noncomputable def radius (rp : Point d) : ℝ := √(∑ j, rp j * rp j)

open Classical in
/-- `acceleration_spherical_wall`, eforce.h:89-106. -/
noncomputable def accelerationSphericalWall (q : Params) (rp : Point d) : Point d :=
  let r := radius rp
  if r > q.sphereRadius then
    let ar := q.n * q.a * (r - q.sphereRadius) ^ (q.n - 1)
    fun j => -rp j / r * ar
  else 0

open Classical in
/-- `potential_spherical_wall`, eforce.h:108-121. -/
noncomputable def potentialSphericalWall (q : Params) (rp : Point d) : ℝ :=
  let r := radius rp
  if r > q.sphereRadius then q.a * (r - q.sphereRadius) ^ q.n else 0

open Classical in
/-- `acceleration_spherical_density_support`, eforce.h:128-151. -/
noncomputable def accelerationSupport {i : Fin 3} (q : Params) (rp : Point (i + 1)) : Option (Point (i + 1)) := do
  let K0 := q.pressureInitial / q.rhoInitial ^ q.gamma
  let rho0 ← rho i q.profile 0
  let r := radius rp
  let x := r / q.sphereRadius
  if x > 1 / 10 ^ 12 then
    let f ← rho i q.profile x
    let f' ← drho i q.profile x
    let rho := q.rhoInitial / rho0 * f
    let drhodr := q.rhoInitial / (rho0 * q.sphereRadius) * f'
    let ar := if rho > 0 then K0 * q.gamma * rho ^ (q.gamma - 2) * drhodr else 0
    return (fun j => ar * rp j / r) + accelerationSphericalWall q rp
  else return 0 + accelerationSphericalWall q rp

open Classical in
/-- `potential_spherical_density_support`, eforce.h:153-170. -/
noncomputable def potentialSupport {i : Fin 3} (q : Params) (rp : Point (i + 1)) : Option ℝ := do
  let K0 := q.pressureInitial / q.rhoInitial ^ q.gamma
  let rho0 ← rho i q.profile 0
  let f ← rho i q.profile (radius rp / q.sphereRadius)
  let rho := q.rhoInitial / rho0 * f
  let phi := if rho > 0 then -K0 * q.gamma * rho ^ (q.gamma - 1) / (q.gamma - 1) else 0
  return phi + potentialSphericalWall q rp

/-- `acceleration_gravity`, eforce.h:178-187. -/
noncomputable def accelerationGravity (q : Params) (_rp : Point d) : Point d := if d > 1 then single 1 (-q.grav) else single 0 (-q.grav)

/-- `potential_gravity`, eforce.h:189-196. -/
noncomputable def potentialGravity (q : Params) (rp : Point d) : Option ℝ := do
  let height ← if d > 1 then coord rp 1 else coord rp 0
  return height * q.grav

/-- `alpha`, eforce.h:224, 256. -/
noncomputable def attackAngle (q : Params) : ℝ := q.airfoilAttackAngle * π / 180

/-- The coordinates of a point in the frame of the airfoil, eforce.h:223-227. -/
noncomputable def airfoilX (q : Params) (x y : ℝ) : ℝ :=
  (x - q.airfoilAnchorX) * cos (attackAngle q) + (y - q.airfoilAnchorY) * sin (attackAngle q)

/-- The other coordinate. -/
noncomputable def airfoilY (q : Params) (x y : ℝ) : ℝ :=
  -(x - q.airfoilAnchorX) * sin (attackAngle q) + (y - q.airfoilAnchorY) * cos (attackAngle q)

/-- The bounding box, eforce.h:229-231. -/
def insideBox (q : Params) (x y : ℝ) : Prop :=
  |y| < 5 * q.airfoilThickness ∧ x > -q.airfoilSize * (2 / 100) ∧ x < q.airfoilSize * (102 / 100)

/-- The square root of `upper_surface` exists; else it is NaN and every comparison with it false, eforce.h:232-236. -/
def hasSurface (q : Params) (x : ℝ) : Prop := x * x ≤ q.airfoilSize * q.airfoilSize

/-- `phi` of eforce.h:232-235. -/
noncomputable def airfoilAux (q : Params) (x y : ℝ) : ℝ :=
  let upper := q.airfoilThickness * x * √(q.airfoilSize * q.airfoilSize - x * x)
  let camber := q.airfoilCamber * sin (π * x / 2)
  upper * upper - (y - camber) * (y - camber) + 2 / 1000

open Classical in
/-- `acceleration_airfoil`, eforce.h:216-248. -/
noncomputable def accelerationAirfoil (q : Params) (rp : Point d) : Option (Point d) := do
  let x0 ← coord rp 0
  let y0 ← coord rp 1
  let x := airfoilX q x0 y0
  let y := airfoilY q x0 y0
  let camber := q.airfoilCamber * sin (π * x / 2)
  let phi := airfoilAux q x y
  if insideBox q x y ∧ hasSurface q x ∧ phi > 0 then
    let a0 := q.n * q.a * phi ^ (q.n - 1) * (2 * (y - camber) * (-q.airfoilCamber * π / 2 * cos (π / 2 * x)) -
      q.airfoilThickness * q.airfoilThickness * 2 * x * (q.airfoilSize * q.airfoilSize - 2 * x * x))
    let a1 := q.n * q.a * phi ^ (q.n - 1) * 2 * (y - camber)
    return single 0 (a0 * cos (attackAngle q) - a1 * sin (attackAngle q)) + single 1 (a0 * sin (attackAngle q) + a1 * cos (attackAngle q))
  else return 0

open Classical in
/-- `potential_airfoil`, eforce.h:250-273. -/
noncomputable def potentialAirfoil (q : Params) (rp : Point d) : Option ℝ := do
  let x0 ← coord rp 0
  let y0 ← coord rp 1
  let x := airfoilX q x0 y0
  let y := airfoilY q x0 y0
  let aux := airfoilAux q x y
  return if insideBox q x y ∧ hasSurface q x ∧ aux > 0 then q.a * aux ^ q.n else 0

/-- `acceleration_orbit`, eforce.h:281-304. -/
noncomputable def accelerationOrbit (q : Params) (rp : Point d) : Option (Point d) := do
  let x ← coord rp 0
  let y ← coord rp 1
  let z ← coord rp 2
  let mt := q.mNs + q.mWd
  let temp := (x - q.separation) * (x - q.separation) + y * y + z * z
  let temp := √(temp * temp * temp)
  let term1 := -q.bigG * q.mNs / temp
  let term2 := q.bigG * mt / (q.separation * q.separation * q.separation)
  return single 0 (term1 * (x - q.separation) + term2 * (x - q.separation * q.mNs / mt)) +
    single 1 (term1 * y + term2 * y) + single 2 (term1 * z)

/-- `potential_orbit`, eforce.h:306-320. -/
noncomputable def potentialOrbit (q : Params) (rp : Point d) : Option ℝ := do
  let x ← coord rp 0
  let y ← coord rp 1
  let z ← coord rp 2
  let mt := q.mNs + q.mWd
  let term1 := -q.bigG * q.mNs / √((x - q.separation) * (x - q.separation) + y * y + z * z)
  let term2 := -(1 / 2) * q.bigG * mt / (q.separation * q.separation * q.separation)
  let term2 := term2 * ((x - q.separation * q.mNs / mt) * (x - q.separation * q.mNs / mt) + y * y)
  return term1 + term2

/-- The functions `select` can push. -/
inductive Force
  | sphericalWall | airfoil | support | gravity | orbit | walls (I : Fin 3) | poison
deriving DecidableEq

/-- The potentials. -/
noncomputable def potentialOf {i : Fin 3} (q : Params) : Force → Point (i + 1) → Option ℝ
  | .sphericalWall, rp => some (potentialSphericalWall q rp)
  | .airfoil, rp => potentialAirfoil q rp
  | .support, rp => potentialSupport q rp
  | .gravity, rp => potentialGravity q rp
  | .orbit, rp => potentialOrbit q rp
  | .walls I, rp => potentialSquareWell q I rp
  | .poison, _ => some q.poison

/-- The accelerations; `poison` has none and is never pushed, see `parseToken`. -/
noncomputable def accelerationOf {i : Fin 3} (q : Params) : Force → Point (i + 1) → Option (Point (i + 1))
  | .sphericalWall, rp => some (accelerationSphericalWall q rp)
  | .airfoil, rp => accelerationAirfoil q rp
  | .support, rp => accelerationSupport q rp
  | .gravity, rp => some (accelerationGravity q rp)
  | .orbit, rp => accelerationOrbit q rp
  | .walls I, rp => accelerationSquareWell q I rp
  | .poison, _ => none

/-- `acceleration`, eforce.h:335-341; `fs` is `vec_accelerations`. -/
noncomputable def acceleration {i : Fin 3} (q : Params) (fs : List Force) (rp : Point (i + 1)) : Option (Point (i + 1)) :=
  fs.foldlM (fun a f => (accelerationOf q f rp).map (a + ·)) 0

/-- `potential`, eforce.h:347-353; `fs` is `vec_potentials`. -/
noncomputable def potential {i : Fin 3} (q : Params) (fs : List Force) (rp : Point (i + 1)) : Option ℝ :=
  fs.foldlM (fun phi f => (potentialOf q f rp).map (phi + ·)) 0

/-- `boost::iequals` for ASCII strings. -/
def iequals (a b : List Char) : Bool := a.map Char.toLower == b.map Char.toLower

/-- The switch of eforce.h:403-422. -/
def wallOf (c : Char) : Option Force :=
  if c = 'x' ∨ c = 'X' then some (.walls 0)
  else if c = 'y' ∨ c = 'Y' then some (.walls 1)
  else if c = 'z' ∨ c = 'Z' then some (.walls 2)
  else none

/-- One entry of the list, eforce.h:376-431: what is appended to `vec_potentials` and to `vec_accelerations`. -/
def parseToken (t : List Char) : Option (List Force × List Force) :=
  if iequals t "spherical wall".toList then some ([.sphericalWall], [.sphericalWall])
  else if iequals t "airfoil".toList then some ([.airfoil], [.airfoil])
  else if iequals t "spherical density support".toList then some ([.support], [.support])
  else if iequals t "gravity".toList then some ([.gravity], [.gravity])
  else if iequals t "orbit".toList then some ([.orbit], [.orbit])
  else if iequals (t.take 6) "walls:".toList then (((t.drop 6).take 3).mapM wallOf).map fun l => (l, l)
  else if iequals t "poison".toList then some ([.poison], [])
  else none

/-- `boost::split` at commas. -/
def splitComma (l : List Char) : List (List Char) := l.splitOn ','

/-- `select`, eforce.h:359-434: the two vectors, or `none` after a fatal error. -/
def select (efstr : List Char) : Option (List Force × List Force) :=
  if iequals efstr "zero".toList ∨ iequals efstr "none".toList then some ([], [])
  else (splitComma efstr).foldlM (fun v t => (parseToken t).map fun x => (v.1 ++ x.1, v.2 ++ x.2)) ([], [])

end FleCSPH.EForce

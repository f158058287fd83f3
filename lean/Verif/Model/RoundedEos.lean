import Verif.Model.RoundedForces
import Verif.Model.Eos
/-!
The equations of state and the pass over densities, pressures, sound speeds and signal speeds in floating-point arithmetic: the functions of Model/Eos.lean again, with the result of every operation on `double`
rounded (see Model/Rounding.lean). `pow`, `cbrt`, `asinh` and `sqrt` are taken to be accurate to one rounding; the literals which are not binary fractions are rounded. The root of a negative number, which is NaN
in the code and goes on from there, is `none`.
-/
namespace FleCSPH.Rounded
open FleCSPH.Geometry FleCSPH.Kernels FleCSPH.Sph FleCSPH.Cofm Real
open FleCSPH.Eos (Kind Setup aWd bWd cLight)

variable (R : Rounding)

noncomputable section

open Classical in
/-- `sqrt`; `none` stands for NaN. -/
def root (x : ℝ) : Option ℝ := if 0 ≤ x then some (R.fl √x) else none

/-- `pow(x, y)`. -/
def pow (x y : ℝ) : ℝ := R.fl (x ^ y)

section
variable {d : Nat}

/-- `compute_adiabatic` of the polytropic EOS, eos.h:67-83; the ideal EOS calls the same, eos.h:205-208. -/
def adiabaticPolyR (q : Eos.Params) (a : Particle d) : Particle d := { a with K := R.fl (a.P / pow R a.rho q.gamma) }

/-- `compute_pressure`, eos.h:102-106. -/
def pressurePolyR (q : Eos.Params) (a : Particle d) : Particle d := { a with P := R.fl (a.K * pow R a.rho q.gamma) }

/-- `compute_soundspeed`, eos.h:114-119. -/
def soundspeedPolyR (q : Eos.Params) (a : Particle d) : Option (Particle d) :=
  (root R (R.fl (R.fl (a.K * q.gamma) * pow R a.rho (R.fl (q.gamma - 1))))).map fun c => { a with cs := c }

/-- `compute_internal_energy`, eos.h:137-143 and, for the ideal EOS, eos.h:190-196. -/
def energyPolyR (q : Eos.Params) (a : Particle d) : Particle d := { a with u := R.fl (R.fl (a.K * pow R a.rho (R.fl (q.gamma - 1))) / R.fl (q.gamma - 1)) }

/-- `compute_pressure` of the ideal EOS, eos.h:166-171. -/
def pressureIdealR (q : Eos.Params) (a : Particle d) : Particle d := { a with P := R.fl (R.fl (R.fl (q.gamma - 1) * a.rho) * a.u) }

/-- `compute_soundspeed` of the ideal EOS, eos.h:178-183. -/
def soundspeedIdealR (q : Eos.Params) (a : Particle d) : Option (Particle d) :=
  (root R (R.fl (R.fl (q.gamma * R.fl (q.gamma - 1)) * a.u))).map fun c => { a with cs := c }

/-- `x = cbrt(rho*Ye/B_wd_nm)`, eos.h:247, 254, 307. -/
def xWdR (rho ye : ℝ) : ℝ := R.fl (R.fl (R.fl (rho * ye) / R.fl bWd) ^ (1 / 3 : ℝ))

/-- `pressure_given_rhoYe`, eos.h:245-250. -/
def pressureGivenR (rho ye : ℝ) : ℝ :=
  let x := xWdR R rho ye
  let x2 := R.fl (x * x)
  R.fl (R.fl aWd * R.fl (R.fl (R.fl (x * R.fl (R.fl (2 * x2) - 3)) * R.fl √(R.fl (x2 + 1))) + R.fl (3 * R.fl (arsinh x))))

/-- `numer` and `denom` of `soundspeed_given_rhoYe`, eos.h:256-257, for the computed square `x2`. The products with 6 and 2 are rounded, then the sums. -/
def numerR (x2 : ℝ) : ℝ := R.fl (R.fl (R.fl (R.fl (1 + x2) * R.fl (R.fl (6 * x2) - 3)) + 3) + R.fl (x2 * R.fl (R.fl (2 * x2) - 3)))
/-- See `numerR`. -/
def denomR (x2 : ℝ) : ℝ := R.fl (R.fl (R.fl (R.fl (1 + x2) * R.fl (R.fl (6 * x2) + 1)) - 1) + R.fl (x2 * R.fl (R.fl (2 * x2) + 1)))

/-- `soundspeed_given_rhoYe`, eos.h:252-259. -/
def soundspeedGivenR (rho ye : ℝ) : Option ℝ :=
  let x := xWdR R rho ye
  let x2 := R.fl (x * x)
  (root R (R.fl (numerR R x2 / R.fl (3 * denomR R x2)))).map fun c => R.fl (c * R.fl cLight)

/-- `compute_pressure`, eos.h:261-267. -/
def pressureWdR (a : Particle d) : Particle d := { a with P := pressureGivenR R a.rho a.ye }

/-- `compute_soundspeed`, eos.h:274-294. -/
def soundspeedWdR (a : Particle d) : Option (Particle d) := (soundspeedGivenR R a.rho a.ye).map fun c => { a with cs := c }

/-- `compute_adiabatic`, eos.h:331-345. -/
def adiabaticPptR (q : Eos.Params) (a : Particle d) : Particle d :=
  { a with K := if a.rho < q.thr then R.fl (a.P / pow R a.rho q.gamma) else R.fl (R.fl (a.P / pow R a.rho q.gamma2) * pow R q.thr (R.fl (q.gamma2 - q.gamma))) }

/-- `K2`, eos.h:370, 391. -/
def secondR (q : Eos.Params) (K : ℝ) : ℝ := R.fl (K * pow R q.thr (R.fl (q.gamma - q.gamma2)))

/-- `compute_pressure`, eos.h:360-373. -/
def pressurePptR (q : Eos.Params) (a : Particle d) : Particle d :=
  { a with P := if a.rho < q.thr then R.fl (a.K * pow R a.rho q.gamma) else R.fl (secondR R q a.K * pow R a.rho q.gamma2) }

/-- `compute_soundspeed`, eos.h:380-394. -/
def soundspeedPptR (q : Eos.Params) (a : Particle d) : Option (Particle d) :=
  (root R (if a.rho < q.thr then R.fl (R.fl (a.K * q.gamma) * pow R a.rho (R.fl (q.gamma - 1)))
    else R.fl (R.fl (secondR R q a.K * q.gamma2) * pow R a.rho (R.fl (q.gamma2 - 1))))).map fun c => { a with cs := c }

/-- `compute_pressure` as installed by `select`, eos.h:455-499. -/
def computePressureR (e : Kind) (q : Eos.Params) : Particle d → Particle d :=
  match e with
  | .polytropic => pressurePolyR R q
  | .ideal => pressureIdealR R q
  | .wd => pressureWdR R
  | .ppt => pressurePptR R q
  | .noEos => id

/-- `compute_soundspeed` as installed by `select`. -/
def computeSoundspeedR (e : Kind) (q : Eos.Params) : Particle d → Option (Particle d) :=
  match e with
  | .polytropic => soundspeedPolyR R q
  | .ideal => soundspeedIdealR R q
  | .wd => soundspeedWdR R
  | .ppt => soundspeedPptR R q
  | .noEos => some

open Classical in
/-- `recover_internal_energy`, default_physics.h:126-145; the failed assertion is `none`. The value of the potential is taken as it is returned. -/
def recoverInternalEnergyR (phi : Point d → ℝ) (a : Particle d) : Option (Particle d) :=
  let eint := R.fl (R.fl (a.e - R.fl (1 / 2 * rdot R a.vel a.vel)) - phi a.pos)
  if 0 < eint then some { a with u := eint } else none

/-- The thermokinetic branch of `compute_density_pressure_soundspeed`, default_physics.h:312-313. -/
def recoverIfR (z : Setup d) (a : Particle d) : Option (Particle d) := if z.thermokinetic then recoverInternalEnergyR R z.phi a else some a

open Classical in
/-- `compute_signalspeed`, default_physics.h:236-265. A neighbour at the same position gives NaN, which `std::max` drops. -/
def computeSignalspeedR (a : Particle d) (nbs : List (Particle d)) : Particle d :=
  { a with vsig := nbs.foldl (fun vsig b =>
      if b.pos = a.pos then vsig
      else max vsig (R.fl (max a.cs b.cs - min (rdot R (diff R a.vel b.vel) (fun j => R.fl (diff R a.pos b.pos j / distance R a.pos b.pos))) 0))) 0 }
end

/-- `compute_divv`, default_physics.h:273-300. -/
def computeDivvR {i : Fin 3} (p : Sph.Params i) (dt : ℝ) (a : Particle (i + 1)) (nbs : List (Particle (i + 1))) : Particle (i + 1) :=
  let divv := R.fl (nbs.foldl (fun s b => R.fl (s + R.fl (b.mass * rdot R a.vel (gradR R p a b)))) 0 / a.rho)
  { a with ddivvdt := R.fl (R.fl (divv - a.divv) / dt), divv := divv }

/-- The Cullen branch of `compute_density_pressure_soundspeed`, default_physics.h:317-318. -/
def divvIfR {i : Fin 3} (p : Sph.Params i) (dt : ℝ) (a : Particle (i + 1)) (nbs : List (Particle (i + 1))) : Particle (i + 1) :=
  match p.visc with
  | .constant => a
  | .cullen => computeDivvR R p dt a nbs

/-- Position, mass and smoothing length, what `compute_density` reads. -/
def placed {i : Fin 3} (a : Particle (i + 1)) : Body (i + 1) := ⟨a.pos, a.mass, a.h⟩

/-- `compute_density`, default_physics.h:193-228. -/
def computeDensityR {i : Fin 3} (p : Sph.Params i) (a : Particle (i + 1)) (nbs : List (Particle (i + 1))) : Option (Particle (i + 1)) :=
  (computeDensity R p.kernel (placed a) (nbs.map placed)).map fun rho => { a with rho := rho }

/-- `compute_density_pressure_soundspeed`, default_physics.h:309-320. -/
def computeStateR {i : Fin 3} (p : Sph.Params i) (e : Kind) (q : Eos.Params) (z : Setup (i + 1)) (a : Particle (i + 1)) (nbs : List (Particle (i + 1))) : Option (Particle (i + 1)) := do
  let a ← computeDensityR R p a nbs
  let a ← recoverIfR R z a
  let a ← computeSoundspeedR R e q (computePressureR R e q a)
  return divvIfR R p z.dt (computeSignalspeedR R a nbs) nbs

end
end FleCSPH.Rounded

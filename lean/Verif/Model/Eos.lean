import Verif.Model.Sph
import Mathlib.Analysis.SpecialFunctions.Arsinh
import Mathlib.Analysis.SpecialFunctions.Pow.Real
/-!
Model of include/physics/eos/eos.h in exact real arithmetic. `pow` is the real power, `cbrt` the power 1/3 (its arguments are
not negative). `rho_thr`, a static member set by `compute_adiabatic` from `ppt_density_thr`, is the parameter `thr`.
-/
namespace FleCSPH.Eos
open FleCSPH.Sph FleCSPH.Geometry Real

/-- `eos_type_keyword`, params.h. -/
inductive Kind
  | polytropic | ideal | wd | ppt | noEos

/-- `poly_gamma`, `poly_gamma2`, `ppt_density_thr`, params.h:477-488. -/
structure Params where
  gamma : ℝ
  gamma2 : ℝ
  thr : ℝ

variable {d : Nat}

/-- `compute_adiabatic` of the polytropic EOS, eos.h:63-82; the ideal EOS calls the same, eos.h:205-208. -/
noncomputable def adiabaticPoly (q : Params) (a : Particle d) : Particle d := { a with K := a.P / a.rho ^ q.gamma }

/-- `compute_pressure`, eos.h:102-106. -/
noncomputable def pressurePoly (q : Params) (a : Particle d) : Particle d := { a with P := a.K * a.rho ^ q.gamma }

/-- `compute_soundspeed`, eos.h:114-119. -/
noncomputable def soundspeedPoly (q : Params) (a : Particle d) : Particle d := { a with cs := √(a.K * q.gamma * a.rho ^ (q.gamma - 1)) }

/-- `compute_internal_energy`, eos.h:137-143 and, for the ideal EOS, eos.h:190-196. -/
noncomputable def energyPoly (q : Params) (a : Particle d) : Particle d := { a with u := a.K * a.rho ^ (q.gamma - 1) / (q.gamma - 1) }

/-- `compute_pressure` of the ideal EOS, eos.h:166-171. -/
noncomputable def pressureIdeal (q : Params) (a : Particle d) : Particle d := { a with P := (q.gamma - 1) * a.rho * a.u }

/-- `compute_soundspeed` of the ideal EOS, eos.h:178-183. -/
noncomputable def soundspeedIdeal (q : Params) (a : Particle d) : Particle d := { a with cs := √(q.gamma * (q.gamma - 1) * a.u) }

/-- `A_wd`, eos.h:230. -/
noncomputable def aWd : ℝ := 600233181 * 10 ^ 14
/-- `B_wd_nm`, eos.h:231. -/
noncomputable def bWd : ℝ := 973932099 / 10 ^ 3
/-- `C_LIGHT_CGS`, eos_consts.h:21. -/
noncomputable def cLight : ℝ := 29979245800

/-- `x = cbrt(rho*Ye/B_wd_nm)`, eos.h:247, 254, 307. -/
noncomputable def xWd (rho ye : ℝ) : ℝ := (rho * ye / bWd) ^ (1 / 3 : ℝ)

/-- `pressure_given_rhoYe`, eos.h:245-250. -/
noncomputable def pressureGiven (rho ye : ℝ) : ℝ :=
  let x := xWd rho ye
  let x2 := x * x
  aWd * (x * (2 * x2 - 3) * √(x2 + 1) + 3 * arsinh x)

/-- `soundspeed_given_rhoYe`, eos.h:252-259. -/
noncomputable def soundspeedGiven (rho ye : ℝ) : ℝ :=
  let x := xWd rho ye
  let x2 := x * x
  let numer := (1 + x2) * (6 * x2 - 3) + 3 + x2 * (2 * x2 - 3)
  let denom := (1 + x2) * (6 * x2 + 1) - 1 + x2 * (2 * x2 + 1)
  √(numer / (3 * denom)) * cLight

/-- `compute_pressure`, eos.h:261-267. -/
noncomputable def pressureWd (a : Particle d) : Particle d := { a with P := pressureGiven a.rho a.ye }

/-- `compute_soundspeed`, eos.h:274-294. -/
noncomputable def soundspeedWd (a : Particle d) : Particle d := { a with cs := soundspeedGiven a.rho a.ye }

/-- `compute_internal_energy`, eos.h:302-313. -/
noncomputable def energyWd (a : Particle d) : Particle d :=
  let x := xWd a.rho a.ye
  let x2 := x * x
  let x3 := x * x * x
  { a with u := aWd / a.rho * (8 * x3 * (√(x2 + 1) - 1) - (x * (2 * x2 - 3) * √(x2 + 1) + 3 * arsinh x)) }

/-- `compute_adiabatic`, eos.h:331-345. -/
noncomputable def adiabaticPpt (q : Params) (a : Particle d) : Particle d :=
  { a with K := if a.rho < q.thr then a.P / a.rho ^ q.gamma else a.P / a.rho ^ q.gamma2 * q.thr ^ (q.gamma2 - q.gamma) }

/-- `compute_pressure`, eos.h:360-373. -/
noncomputable def pressurePpt (q : Params) (a : Particle d) : Particle d :=
  { a with P := if a.rho < q.thr then a.K * a.rho ^ q.gamma else a.K * q.thr ^ (q.gamma - q.gamma2) * a.rho ^ q.gamma2 }

/-- `compute_soundspeed`, eos.h:380-394. -/
noncomputable def soundspeedPpt (q : Params) (a : Particle d) : Particle d :=
  { a with cs := if a.rho < q.thr then √(a.K * q.gamma * a.rho ^ (q.gamma - 1))
      else √(a.K * q.thr ^ (q.gamma - q.gamma2) * q.gamma2 * a.rho ^ (q.gamma2 - 1)) }

/-- `compute_internal_energy`, eos.h:402-417. -/
noncomputable def energyPpt (q : Params) (a : Particle d) : Particle d :=
  { a with u := if a.rho < q.thr then a.K * a.rho ^ (q.gamma - 1) / (q.gamma - 1)
      else
        let K2 := a.K * q.thr ^ (q.gamma - q.gamma2)
        K2 * a.rho ^ (q.gamma2 - 1) / (q.gamma2 - 1) - K2 * q.thr ^ (q.gamma2 - 1) / (q.gamma2 - 1) +
          a.K * q.thr ^ (q.gamma - 1) / (q.gamma - 1) }

/-- `compute_pressure` as installed by `select`, eos.h:455-499. -/
noncomputable def computePressure (e : Kind) (q : Params) : Particle d → Particle d :=
  match e with
  | .polytropic => pressurePoly q
  | .ideal => pressureIdeal q
  | .wd => pressureWd
  | .ppt => pressurePpt q
  | .noEos => id

/-- `compute_soundspeed` as installed by `select`. -/
noncomputable def computeSoundspeed (e : Kind) (q : Params) : Particle d → Particle d :=
  match e with
  | .polytropic => soundspeedPoly q
  | .ideal => soundspeedIdeal q
  | .wd => soundspeedWd
  | .ppt => soundspeedPpt q
  | .noEos => id

/-- `compute_internal_energy` as installed by `select`. -/
noncomputable def computeInternalEnergy (e : Kind) (q : Params) : Particle d → Particle d :=
  match e with
  | .polytropic | .ideal => energyPoly q
  | .wd => energyWd
  | .ppt => energyPpt q
  | .noEos => id

/-- `init` as installed by `select`. -/
noncomputable def init (e : Kind) (q : Params) : Particle d → Particle d :=
  match e with
  | .polytropic | .ideal => adiabaticPoly q
  | .wd => energyWd
  | .ppt => adiabaticPpt q
  | .noEos => id

/-- `recompute_pressure_soundspeed`, default_physics.h:153-161. -/
noncomputable def recomputePressureSoundspeed (e : Kind) (q : Params) (dt : ℝ) (a : Particle d) : Particle d :=
  { computeSoundspeed e q (computePressure e q { a with u := a.u + 1 / 2 * dt * a.dudt }) with u := a.u }

/-- `recompute_pressure_soundspeed_thermokinetic`, default_physics.h:169-182. -/
noncomputable def recomputePressureSoundspeedThermokinetic (e : Kind) (q : Params) (phi : Point d → ℝ) (dt : ℝ) (a : Particle d) :
    Option (Particle d) := do
  let b ← recoverInternalEnergy phi a
  return { computeSoundspeed e q (computePressure e q { b with u := b.u + 1 / 2 * dt * (a.dedt - dot b.vel b.acc) }) with u := b.u }

/-- The settings `compute_density_pressure_soundspeed` looks at: `evolve_internal_energy and thermokinetic_formulation`,
`external_force::potential` and `physics::dt`. -/
structure Setup (d : Nat) where
  thermokinetic : Bool
  phi : Point d → ℝ
  dt : ℝ

/-- The thermokinetic branch of `compute_density_pressure_soundspeed`, default_physics.h:312-313. -/
noncomputable def recoverIf (z : Setup d) (a : Particle d) : Option (Particle d) :=
  if z.thermokinetic then recoverInternalEnergy z.phi a else some a

/-- The Cullen branch of `compute_density_pressure_soundspeed`, default_physics.h:317-318. -/
noncomputable def divvIf {i : Fin 3} (p : Sph.Params i) (dt : ℝ) (a : Particle (i + 1)) (nbs : List (Particle (i + 1))) : Particle (i + 1) :=
  match p.visc with
  | .constant => a
  | .cullen => computeDivv p dt a nbs

/-- `compute_density_pressure_soundspeed`, default_physics.h:309-320. -/
noncomputable def computeDensityPressureSoundspeed {i : Fin 3} (p : Sph.Params i) (e : Kind) (q : Params) (z : Setup (i + 1))
    (a : Particle (i + 1)) (nbs : List (Particle (i + 1))) : Option (Particle (i + 1)) := do
  let a ← computeDensity p a nbs
  let a ← recoverIf z a
  return divvIf p z.dt (computeSignalspeed (computeSoundspeed e q (computePressure e q a)) nbs) nbs

end FleCSPH.Eos

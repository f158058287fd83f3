import Verif.Model.Sph
/-! Model of the time dependent viscosity of include/physics/viscosity.h (Cullen and Dehnen), in exact real arithmetic. -/
namespace FleCSPH.Cullen
open FleCSPH.Geometry FleCSPH.Kernels FleCSPH.Sph

variable {i : Fin 3}

/-- The parameters used here, params.h: `sph_viscosity_alpha_max`, `sph_viscosity_delta`, `sph_viscosity_l`, `physics::dt`. -/
structure Settings where
  alphaMax : ℝ
  delta : ℝ
  l : ℝ
  dt : ℝ

/-- `signnum_c`, viscosity.h:62-67. -/
noncomputable def signnum (x : ℝ) : ℝ := if x > 0 then 1 else if x < 0 then -1 else x

/-- `initialize_alpha`, viscosity.h:170-179. -/
noncomputable def initializeAlpha (p : Params i) (a : Particle (i + 1)) : Particle (i + 1) :=
  match p.visc with
  | .constant => { a with alpha := p.alpha }
  | .cullen => { a with alpha := 0 }

/-- `R_a`, viscosity.h:226-238. -/
noncomputable def ra (p : Params i) (a : Particle (i + 1)) (nbs : List (Particle (i + 1))) : ℝ :=
  accumulate nbs (fun b => signnum b.divv * b.mass * kernel p.kernel i (distance a.pos b.pos) (1 / 2 * (a.h + b.h))) / a.rho

/-- `gradV_a`, viscosity.h:241-249. -/
noncomputable def gradV (p : Params i) (a : Particle (i + 1)) (nbs : List (Particle (i + 1))) (j k : Fin (i + 1)) : ℝ :=
  accumulate nbs (fun b => b.mass * (-(a.vel j - b.vel j)) * gradOf p a b k) / a.rho

/-- `SymT_a`, viscosity.h:253-257. -/
noncomputable def symT (p : Params i) (a : Particle (i + 1)) (nbs : List (Particle (i + 1))) (j k : Fin (i + 1)) : ℝ :=
  1 / 2 * (gradV p a nbs j k + gradV p a nbs k j) - if j = k then a.divv / ((i : ℕ) + 1 : ℝ) else 0

/-- `compute_xi`, viscosity.h:194-268. -/
noncomputable def computeXi (p : Params i) (a : Particle (i + 1)) (nbs : List (Particle (i + 1))) : ℝ :=
  let traceSS := ∑ j, ∑ k, symT p a nbs j k * symT p a nbs j k
  let w := 1 - ra p a nbs
  let x := 2 * (w * w * w * w) * a.divv
  let result := x * x
  if result < 1 / 10 ^ 16 then 0 else result / (result + traceSS)

/-- `A_trigger`, viscosity.h:281-303. -/
noncomputable def aTrigger (p : Params i) (a : Particle (i + 1)) (nbs : List (Particle (i + 1))) : ℝ :=
  computeXi p a nbs * max (-a.ddivvdt) 0

/-- `compute_alpha`, viscosity.h:315-366. The signal velocity is computed as in `compute_signalspeed`. A local value which
is 0/0 (and makes `alpha` NaN) is `none`. With `vsig = 0` and a positive trigger the local value is `sph_viscosity_alpha_max`;
in the other branch the decay time is then infinite. -/
noncomputable def computeAlpha (p : Params i) (c : Settings) (a : Particle (i + 1)) (nbs : List (Particle (i + 1))) :
    Option (Particle (i + 1)) :=
  let vsig := (computeSignalspeed a nbs).vsig
  let atrig := aTrigger p a nbs
  let den := c.delta * (vsig / a.h * (vsig / a.h)) + atrig
  if den = 0 then none
  else
    let alphaLoc := c.alphaMax * atrig / den
    if a.alpha ≤ alphaLoc then some { a with alpha := alphaLoc }
    else if vsig = 0 then some a
    else
      let decayt := a.h / (2 * c.l * vsig)
      some { a with alpha := a.alpha * Real.exp (-((a.alpha - alphaLoc) / decayt) * c.dt) }

end FleCSPH.Cullen

import Verif.Model.Kernels
/-!
Model of the SPH sums: include/physics/default_physics.h and include/physics/viscosity.h, in exact real arithmetic.
`i : Fin 3` stands for `gdimension - 1`. The external force of a run is a parameter (`external`), its built-in values are
in Model/EForce.lean. A neighbour list is a list of particles, in the order in which the traversal delivers them.
-/
namespace FleCSPH.Sph
open FleCSPH.Geometry FleCSPH.Kernels

/-- The fields of `body` these functions use, include/physics/body.h:52-254. -/
structure Particle (d : Nat) where
  id : Nat
  mass : ℝ
  /-- `radius()`, the smoothing length -/
  h : ℝ
  pos : Point d
  vel : Point d
  /-- `getVelocityhalf()` -/
  vhalf : Point d
  acc : Point d
  /-- `getGAcceleration()` -/
  gacc : Point d
  gpot : ℝ
  rho : ℝ
  P : ℝ
  cs : ℝ
  alpha : ℝ
  /-- `getInternalenergy()` -/
  u : ℝ
  /-- `getTotalenergy()` -/
  e : ℝ
  dudt : ℝ
  dedt : ℝ
  /-- `getAdiabatic()` -/
  K : ℝ
  divv : ℝ
  ddivvdt : ℝ
  vsig : ℝ
  dt : ℝ
  /-- `getElectronfraction()` -/
  ye : ℝ

/-- `sph_viscosity_keyword`, params.h:149-152. -/
inductive Visc
  | constant | cullen

/-- The parameters of a run used below, params.h. -/
structure Params (i : Fin 3) where
  kernel : Kernel
  visc : Visc
  /-- `sph_viscosity_alpha` -/
  alpha : ℝ
  /-- `sph_viscosity_beta` -/
  beta : ℝ
  /-- `sph_viscosity_epsilon` -/
  eps : ℝ
  /-- `external_force::acceleration` -/
  external : Particle (i + 1) → Point (i + 1)
  relaxationSteps : Int

/-- `flecsi::dot`, space_vector.h:103-115. -/
noncomputable def dot {d : Nat} (a b : Point d) : ℝ := ∑ j, a j * b j

/-- A sum accumulated over the neighbours, as the loops `for b: x += ...` do. -/
def accumulate {α β : Type} [Zero β] [Add β] (l : List α) (f : α → β) : β := l.foldl (fun s b => s + f b) 0

/-- `mu`, viscosity.h:81-95. -/
noncomputable def mu {d : Nat} (eps hab : ℝ) (velab posab : Point d) : ℝ :=
  hab * dot velab posab / (dot posab posab + eps * hab * hab + tiny) * fac (dot velab posab < 0)

/-- `sph_artificial_viscosity` as chosen by `select`, viscosity.h:133-165, 374-391. -/
noncomputable def artificialViscosity {i : Fin 3} (p : Params i) (alphaab rhoab cab muab : ℝ) : ℝ :=
  match p.visc with
  | .constant => (-p.alpha * cab + p.beta * muab) * muab / rhoab
  | .cullen => -alphaab * (cab - 2 * muab) * muab / rhoab

open Classical in
/-- `compute_density`, default_physics.h:193-228. A failed assertion (no neighbour, or a density which is not positive) is
`none`. -/
noncomputable def computeDensity {i : Fin 3} (p : Params i) (a : Particle (i + 1)) (nbs : List (Particle (i + 1))) :
    Option (Particle (i + 1)) :=
  let rho := accumulate nbs fun b => b.mass * kernel p.kernel i (magnitude (a.pos - b.pos)) (1 / 2 * (a.h + b.h))
  if 0 < nbs.length ∧ 0 < rho then some { a with rho := rho } else none

open Classical in
/-- `compute_signalspeed`, default_physics.h:236-265. For a neighbour at the same position the unit vector is 0/0, the
projected velocity is NaN and `std::max(vsig, NaN)` is `vsig`. -/
noncomputable def computeSignalspeed {d : Nat} (a : Particle d) (nbs : List (Particle d)) : Particle d :=
  { a with vsig := nbs.foldl (fun vsig b =>
      if b.pos = a.pos then vsig
      else max vsig (max a.cs b.cs -
        min (dot (a.vel - b.vel) (fun j => (a.pos j - b.pos j) / distance a.pos b.pos)) 0)) 0 }

/-- `compute_divv`, default_physics.h:273-300. -/
noncomputable def computeDivv {i : Fin 3} (p : Params i) (dt : ℝ) (a : Particle (i + 1)) (nbs : List (Particle (i + 1))) :
    Particle (i + 1) :=
  let divv := accumulate nbs (fun b => b.mass * dot a.vel (kernelGradient p.kernel i (a.pos - b.pos) (1 / 2 * (a.h + b.h)))) / a.rho
  { a with ddivvdt := (divv - a.divv) / dt, divv := divv }

open Classical in
/-- `m_[b]`: the mass of a neighbour, zero at the position of the particle, default_physics.h:378, 456, 534. -/
noncomputable def massOf {d : Nat} (a b : Particle d) : ℝ := b.mass * fac (b.pos ≠ a.pos)

/-- `Pi_a_[b]`, default_physics.h:384-391, 462-470, 540-548. -/
noncomputable def viscOf {i : Fin 3} (p : Params i) (a b : Particle (i + 1)) : ℝ :=
  let hab := 1 / 2 * (a.h + b.h)
  artificialViscosity p (1 / 2 * (a.alpha + b.alpha)) (1 / 2 * (a.rho + b.rho)) (1 / 2 * (a.cs + b.cs))
    (mu p.eps hab (a.vhalf - b.vhalf) (a.pos - b.pos))

/-- `DiWab`, default_physics.h:392, 471, 549. -/
noncomputable def gradOf {i : Fin 3} (p : Params i) (a b : Particle (i + 1)) : Point (i + 1) :=
  kernelGradient p.kernel i (a.pos - b.pos) (1 / 2 * (a.h + b.h))

/-- `compute_acceleration`, default_physics.h:348-408. -/
noncomputable def computeAcceleration {i : Fin 3} (p : Params i) (a : Particle (i + 1)) (nbs : List (Particle (i + 1))) :
    Particle (i + 1) :=
  { a with
    acc := accumulate nbs (fun b =>
        (-massOf a b * (a.P / (a.rho * a.rho) + b.P / (b.rho * b.rho) + viscOf p a b)) • gradOf p a b) + p.external a
    gacc := 0
    gpot := 0 }

/-- `compute_dudt`, default_physics.h:421-487. -/
noncomputable def computeDudt {i : Fin 3} (p : Params i) (iteration : Int) (a : Particle (i + 1)) (nbs : List (Particle (i + 1))) :
    Particle (i + 1) :=
  if iteration < p.relaxationSteps then { a with dudt := 0 }
  else
    let pressure := accumulate nbs fun b => massOf a b * dot (a.vel - b.vel) (gradOf p a b)
    let visc := accumulate nbs fun b => massOf a b * dot (a.vel - b.vel) (gradOf p a b) * viscOf p a b
    { a with dudt := a.P / (a.rho * a.rho) * pressure + 1 / 2 * visc }

/-- `compute_dedt`, default_physics.h:502-566. The loop subtracts. -/
noncomputable def computeDedt {i : Fin 3} (p : Params i) (a : Particle (i + 1)) (nbs : List (Particle (i + 1))) : Particle (i + 1) :=
  { a with dedt := nbs.foldl (fun s b => s - massOf a b *
      (a.P / (a.rho * a.rho) * dot b.vel (gradOf p a b) + dot a.vel (gradOf p a b) * (b.P / (b.rho * b.rho)) +
        1 / 2 * viscOf p a b * (dot b.vel (gradOf p a b) + dot a.vel (gradOf p a b)))) 0 + dot a.gacc a.vel }

/-- `external_force::acceleration_drag`, eforce.h:440-451. -/
noncomputable def accelerationDrag {d : Nat} (beta gamma : ℝ) (vel : Point d) : Point d :=
  0 - (beta + gamma * dot vel vel) • vel

/-- `add_drag_acceleration`, default_physics.h:702-709. -/
noncomputable def addDragAcceleration {d : Nat} (beta gamma : ℝ) (a : Particle d) : Particle d :=
  { a with acc := a.acc + accelerationDrag beta gamma a.vel }

/-- `add_drag_dedt`, default_physics.h:573-581. -/
noncomputable def addDragDedt {d : Nat} (beta gamma : ℝ) (a : Particle d) : Particle d :=
  { a with dedt := a.dedt + dot a.vel (accelerationDrag beta gamma a.vel) }

/-- `add_drag_dudt`, default_physics.h:588-595. -/
noncomputable def addDragDudt {d : Nat} (beta gamma : ℝ) (a : Particle d) : Particle d :=
  { a with dudt := a.dudt + dot a.vel (accelerationDrag beta gamma a.vel) }

open Classical in
/-- `add_short_range_repulsion`, default_physics.h:723-754. -/
noncomputable def addShortRangeRepulsion {d : Nat} (radius gamma : ℝ) (a : Particle d) (nbs : List (Particle d)) : Particle d :=
  { a with acc := a.acc + gamma • nbs.foldl (fun s b =>
      if b.id = a.id then s
      else if magnitude (a.pos - b.pos) > 1 / 2 * (a.h + b.h) * radius then s
      else s + (b.mass / (magnitude (a.pos - b.pos) * magnitude (a.pos - b.pos) * magnitude (a.pos - b.pos))) • (a.pos - b.pos)) 0 }

/-- `set_total_energy`, default_physics.h:327-335; `phi` is `external_force::potential`. -/
noncomputable def setTotalEnergy {d : Nat} (phi : Point d → ℝ) (a : Particle d) : Particle d :=
  { a with e := 1 / 2 * dot a.vel a.vel + a.u + phi a.pos }

open Classical in
/-- `recover_internal_energy`, default_physics.h:126-145; the failed assertion is `none`. -/
noncomputable def recoverInternalEnergy {d : Nat} (phi : Point d → ℝ) (a : Particle d) : Option (Particle d) :=
  let eint := a.e - 1 / 2 * dot a.vel a.vel - phi a.pos
  if 0 < eint then some { a with u := eint } else none

/-- One pass of `apply_in_smoothinglength(f)`, bodies_system.h:300-303 and tree_topology.h:425-466: the particles are visited in
some order and updated in place; the neighbours are read as they are at that moment. -/
def pass {P : Type} {n : Nat} (f : P → List P → P) (nbs : Fin n → List (Fin n)) (order : List (Fin n)) (s : Fin n → P) : Fin n → P :=
  order.foldl (fun s a => Function.update s a (f (s a) ((nbs a).map s))) s

/-- The same for a function with assertions. -/
def passM {P : Type} {n : Nat} (f : P → List P → Option P) (nbs : Fin n → List (Fin n)) (order : List (Fin n)) (s : Fin n → P) :
    Option (Fin n → P) :=
  order.foldlM (fun s a => (f (s a) ((nbs a).map s)).map (Function.update s a)) s

/-- One pass of `apply_all(f)`, bodies_system.h:315-321. -/
def applyAll {P : Type} {n : Nat} (f : P → P) (s : Fin n → P) : Fin n → P := fun a => f (s a)

end FleCSPH.Sph

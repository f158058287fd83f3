import Verif.Model.RoundedDensity
import Verif.Model.RoundedTotals
import Verif.Model.Sph
import Verif.Model.Integration
/-!
The gradients of the kernels, the viscosity, the accelerations, the energy derivatives and the kicks in floating-point arithmetic: the functions of Model/Kernels.lean, Model/Sph.lean and Model/Integration.lean
again, with the result of every operation on `double` rounded (see Model/Rounding.lean). `std::pow`, `exp`, `sin`, `cos` are taken to be accurate to one rounding. Products with a truth value, sign changes and
comparisons are exact. The operators on points round every coordinate (tensor.h:939-962, 1002-1130). The value of the external force is taken as it is returned.
-/
namespace FleCSPH.Rounded
open FleCSPH.Geometry FleCSPH.Kernels FleCSPH.Sph Real

variable (R : Rounding)

/-- The rounding treats both signs alike, as rounding to nearest and rounding towards zero do. -/
def Mirrored : Prop := ∀ x, R.fl (-x) = -R.fl x

noncomputable section

/-- `flecsi::magnitude`, space_vector.h:118-132. -/
def magnitude {d : Nat} (p : Point d) : ℝ :=
  if d = 1 then ((List.finRange d).map fun j => |p j|).sum else R.fl √((List.finRange d).foldl (fun s j => R.fl (s + R.fl (p j * p j))) 0)

/-- `a - b` of two points, tensor.h:1042-1053. -/
def diff {d : Nat} (p q : Point d) : Point d := fun j => R.fl (p j - q j)

/-- `TINY`, kernels.h:64. -/
def tinyR : ℝ := R.fl tiny

/-- `vecP * sigma * dWdr / (r + TINY)`, kernels.h:149, 200, 264, 694. -/
def along {d : Nat} (p : Point d) (sigma dWdr r : ℝ) : Point d := fun j => R.fl (R.fl (R.fl (p j * sigma) * dWdr) / R.fl (r + tinyR R))

/-- `result = vecP; result *= (rh < 1.0) * (sigma * dWdr / (r + TINY))`, kernels.h:330-331 and the like; `c` is the condition. -/
def scaled {d : Nat} (p : Point d) (c : Prop) [Decidable c] (sigma dWdr r : ℝ) : Point d := fun j => R.fl (p j * (fac c * R.fl (R.fl (sigma * dWdr) / R.fl (r + tinyR R))))

/-- kernels.h:131-153. -/
def cubicGradient (i : Fin 3) (p : Point (i + 1)) (h : ℝ) : Point (i + 1) :=
  let r := magnitude R p
  let rh := R.fl (R.fl (2 * r) / h)
  if rh < 2 then
    let sigma := R.fl (R.fl (2 * sigma R .cubicSpline i) / R.fl (h ^ (i + 2 : ℕ)))
    let dWdr := if rh < 1 then R.fl (R.fl (-3 * rh) + R.fl (R.fl (9 / 4 * rh) * rh)) else R.fl (R.fl (-3 / 4 * R.fl (2 - rh)) * R.fl (2 - rh))
    along R p sigma dWdr r
  else 0

/-- kernels.h:188-203. -/
def gaussianGradient (i : Fin 3) (p : Point (i + 1)) (h : ℝ) : Point (i + 1) :=
  let r := magnitude R p
  let rh := R.fl (R.fl (3 * r) / h)
  if rh < 3 then
    let sigma := R.fl (R.fl (3 * R.fl (gaussianSigma i)) / R.fl (h ^ (i + 2 : ℕ)))
    let dWdr := R.fl (R.fl (-2 * rh) * R.fl (exp (R.fl (-rh * rh))))
    along R p sigma dWdr r
  else 0

/-- kernels.h:246-268. -/
def quinticGradient (i : Fin 3) (p : Point (i + 1)) (h : ℝ) : Point (i + 1) :=
  let r := magnitude R p
  let rh := R.fl (R.fl (3 * r) / h)
  if rh < 3 then
    let sigma := R.fl (R.fl (3 * sigma R .quinticSpline i) / R.fl (h ^ (i + 2 : ℕ)))
    let w3 := R.fl (-5 * R.fl (R.fl (3 - rh) ^ 4))
    let w2 := if rh < 2 then R.fl (w3 + R.fl (30 * R.fl (R.fl (2 - rh) ^ 4))) else w3
    let w1 := if rh < 1 then R.fl (w2 + R.fl (-75 * R.fl (R.fl (1 - rh) ^ 4))) else w2
    along R p sigma w1 r
  else 0

/-- `h * h`, `h * h * h`, `h * h * h * h` in the gradients of the Wendland kernels. -/
def volume1 (i : Fin 3) (h : ℝ) : ℝ := ![R.fl (h * h), R.fl (R.fl (h * h) * h), R.fl (R.fl (R.fl (h * h) * h) * h)] i

/-- kernels.h:322-361. -/
def wendlandC2Gradient (i : Fin 3) (p : Point (i + 1)) (h : ℝ) : Point (i + 1) :=
  let r := magnitude R p
  let rh := R.fl (r / h)
  let t := R.fl (1 - rh)
  let rh2 := R.fl (t * t)
  let dWdr := if i = 0 then R.fl (R.fl (-12 * rh) * rh2) else R.fl (R.fl (R.fl (-10 * rh) * rh2) * t)
  let sigma := R.fl ((if i = 0 then sigma R .wendlandC2 i else R.fl (2 * sigma R .wendlandC2 i)) / volume1 R i h)
  scaled R p (rh < 1) sigma dWdr r

/-- kernels.h:420-463. -/
def wendlandC4Gradient (i : Fin 3) (p : Point (i + 1)) (h : ℝ) : Point (i + 1) :=
  let r := magnitude R p
  let rh := R.fl (r / h)
  let t := R.fl (1 - rh)
  let rh2 := R.fl (t * t)
  let dWdr := if i = 0 then R.fl (R.fl (R.fl (-rh * rh2) * rh2) * R.fl (1 + R.fl (4 * rh)))
    else R.fl (R.fl (R.fl (R.fl (R.fl (-4 / 3) * rh) * R.fl (rh2 * t)) * rh2) * R.fl (1 + R.fl (5 * rh)))
  let sigma := R.fl (R.fl (14 * sigma R .wendlandC4 i) / volume1 R i h)
  scaled R p (rh < 1) sigma dWdr r

/-- kernels.h:522-566. -/
def wendlandC6Gradient (i : Fin 3) (p : Point (i + 1)) (h : ℝ) : Point (i + 1) :=
  let r := magnitude R p
  let rh := R.fl (r / h)
  let t := R.fl (1 - rh)
  let rh2 := R.fl (t * t)
  let rh3 := R.fl (rh2 * t)
  let dWdr := if i = 0 then R.fl (R.fl (R.fl (R.fl (-6 * rh) * rh3) * rh3) * R.fl (3 + R.fl (rh * R.fl (18 + R.fl (rh * 35)))))
    else R.fl (R.fl (R.fl (R.fl (-22 * rh) * R.fl (rh2 * rh2)) * rh3) * R.fl (1 + R.fl (rh * R.fl (7 + R.fl (rh * 16)))))
  let sigma := R.fl (sigma R .wendlandC6 i / volume1 R i h)
  scaled R p (rh < 1) sigma dWdr r

/-- kernels.h:599-611. -/
def superGaussianGradient (i : Fin 3) (p : Point (i + 1)) (h : ℝ) : Point (i + 1) :=
  let r := magnitude R p
  let rh := R.fl (R.fl (3 * r) / h)
  let sigma := R.fl (R.fl (3 * R.fl (superGaussianSigma i)) / R.fl (h ^ (i + 2 : ℕ)))
  let dWdr := R.fl (R.fl (exp (R.fl (-rh * rh))) * R.fl (R.fl (2 * R.fl (rh ^ 3)) - R.fl ((((i : ℕ) + 1 : ℝ) + 4) * rh)))
  scaled R p (rh < 3) sigma dWdr r

/-- kernels.h:664-697. `hd` is a product in a loop. -/
def sincGradient (n : ℝ) (i : Fin 3) (p : Point (i + 1)) (h : ℝ) : Point (i + 1) :=
  let r := magnitude R p
  let rh0 := |R.fl (r / h)|
  if rh0 < 1 then
    let sigma := R.fl (R.fl (sincSigma n i) / volume1 R i h)
    let rh := R.fl (rh0 * R.fl π)
    let dWdr :=
      if R.fl (1 / 10 ^ 6) < rh then
        let sinc := R.fl (R.fl (sin rh) / rh)
        let cosx := R.fl (R.fl (cos rh) / rh)
        R.fl (R.fl (R.fl (-n * R.fl (sinc ^ R.fl (n - 1))) * R.fl π) * R.fl (R.fl (sinc / rh) - cosx))
      else if R.fl (1 / 10 ^ 24) < rh then
        R.fl (R.fl (R.fl (R.fl (-n * rh) / 3) * R.fl π) * R.fl (1 - R.fl (R.fl (1 / 2 * R.fl (rh * rh)) * R.fl (R.fl (1 / 5) - R.fl (R.fl (n - 1) / 18)))))
      else 0
    along R p sigma dWdr r
  else 0

/-- `sph_kernel_gradient` as chosen by `select`, kernels.h:711-745. -/
def gradient : Kernel → (i : Fin 3) → Point (i + 1) → ℝ → Point (i + 1)
  | .cubicSpline => cubicGradient R
  | .quinticSpline => quinticGradient R
  | .wendlandC2 => wendlandC2Gradient R
  | .wendlandC4 => wendlandC4Gradient R
  | .wendlandC6 => wendlandC6Gradient R
  | .gaussian => gaussianGradient R
  | .superGaussian => superGaussianGradient R
  | .sinc n => sincGradient R n

/-- `.5 * (x + y)`. -/
def mean (x y : ℝ) : ℝ := R.fl (1 / 2 * R.fl (x + y))

/-- `mu`, viscosity.h:81-95. -/
def muR {d : Nat} (eps hab : ℝ) (velab posab : Point d) : ℝ :=
  R.fl (R.fl (hab * rdot R velab posab) / R.fl (R.fl (rdot R posab posab + R.fl (R.fl (eps * hab) * hab)) + tinyR R)) * fac (rdot R velab posab < 0)

/-- `sph_artificial_viscosity` as chosen by `select`, viscosity.h:128-165, 374-389. -/
def artificialViscosityR {i : Fin 3} (p : Params i) (alphaab rhoab cab muab : ℝ) : ℝ :=
  match p.visc with
  | .constant => R.fl (R.fl (R.fl (R.fl (-p.alpha * cab) + R.fl (p.beta * muab)) * muab) / rhoab)
  | .cullen => R.fl (R.fl (R.fl (-alphaab * R.fl (cab - R.fl (2 * muab))) * muab) / rhoab)

/-- `Pi_a_[b]`, default_physics.h:383-391, 461-470, 539-548. -/
def viscR {i : Fin 3} (p : Params i) (a b : Particle (i + 1)) : ℝ :=
  artificialViscosityR R p (mean R a.alpha b.alpha) (mean R a.rho b.rho) (mean R a.cs b.cs)
    (muR R p.eps (mean R a.h b.h) (diff R a.vhalf b.vhalf) (diff R a.pos b.pos))

/-- `DiWab`, default_physics.h:392, 471, 549. -/
def gradR {i : Fin 3} (p : Params i) (a b : Particle (i + 1)) : Point (i + 1) := gradient R p.kernel i (diff R a.pos b.pos) (mean R a.h b.h)

/-- `Prho2_a`, default_physics.h:398, 401, 484, 555, 557. -/
def prho2 {d : Nat} (a : Particle d) : ℝ := R.fl (a.P / R.fl (a.rho * a.rho))

/-- What the neighbour `b` adds to the acceleration of `a`, default_physics.h:402. -/
def push {i : Fin 3} (p : Params i) (a b : Particle (i + 1)) : Point (i + 1) :=
  fun j => R.fl (R.fl (-massOf a b * R.fl (R.fl (prho2 R a + prho2 R b) + viscR R p a b)) * gradR R p a b j)

/-- `compute_acceleration`, default_physics.h:348-408. -/
def computeAccelerationR {i : Fin 3} (p : Params i) (a : Particle (i + 1)) (nbs : List (Particle (i + 1))) : Particle (i + 1) :=
  { a with
    acc := fun j => R.fl (nbs.foldl (fun s b => R.fl (s + push R p a b j)) 0 + p.external a j)
    gacc := 0
    gpot := 0 }

/-- What the neighbour `b` takes from the energy of `a`, default_physics.h:556-559. -/
def work {i : Fin 3} (p : Params i) (a b : Particle (i + 1)) : ℝ :=
  let va := rdot R a.vel (gradR R p a b)
  let vb := rdot R b.vel (gradR R p a b)
  R.fl (massOf a b * R.fl (R.fl (R.fl (prho2 R a * vb) + R.fl (va * prho2 R b)) + R.fl (R.fl (1 / 2 * viscR R p a b) * R.fl (vb + va))))

/-- `compute_dedt`, default_physics.h:501-564. -/
def computeDedtR {i : Fin 3} (p : Params i) (a : Particle (i + 1)) (nbs : List (Particle (i + 1))) : Particle (i + 1) :=
  { a with dedt := R.fl (nbs.foldl (fun s b => R.fl (s - work R p a b)) 0 + rdot R a.gacc a.vel) }

/-- `m_[b]*vab_dot_DiWa_[b]`, default_physics.h:474, 481-482. -/
def flow {i : Fin 3} (p : Params i) (a b : Particle (i + 1)) : ℝ := R.fl (massOf a b * rdot R (diff R a.vel b.vel) (gradR R p a b))

/-- `compute_dudt`, default_physics.h:421-487. -/
def computeDudtR {i : Fin 3} (p : Params i) (iteration : Int) (a : Particle (i + 1)) (nbs : List (Particle (i + 1))) : Particle (i + 1) :=
  if iteration < p.relaxationSteps then { a with dudt := 0 }
  else
    let pressure := nbs.foldl (fun s b => R.fl (s + flow R p a b)) 0
    let visc := nbs.foldl (fun s b => R.fl (s + R.fl (flow R p a b * viscR R p a b))) 0
    { a with dudt := R.fl (R.fl (prho2 R a * pressure) + R.fl (1 / 2 * visc)) }

/-- `leapfrog_kick_v`, integration.h:62-67. -/
def kickVR {d : Nat} (dt : ℝ) (a : Particle d) : Particle d :=
  { a with vel := fun j => R.fl (a.vel j + R.fl (R.fl (1 / 2 * dt) * R.fl (a.acc j + a.gacc j))) }

/-- `leapfrog_kick_e`, integration.h:91-95. -/
def kickER {d : Nat} (dt : ℝ) (a : Particle d) : Particle d := { a with e := R.fl (a.e + R.fl (R.fl (1 / 2 * dt) * a.dedt)) }

end
end FleCSPH.Rounded

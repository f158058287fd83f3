import Verif.Model.Eos
import Verif.Model.Cullen
import Verif.Model.Integration
import Verif.Model.Timestep
/-!
Model of the main loop of the hydro driver, app/drivers/hydro/main_driver.cc:98-279, on one process, in exact real arithmetic.

A state is a map from the particles (`Fin n`) to their data. `update_iteration` (without periodic boundaries) only changes the order in
which particles are stored and rebuilds the tree; here the index of a particle is its identity, and storage order and tree show as
an arbitrary order of visits and arbitrary neighbour lists (`Schedule`). `reset_ghosts` copies data between processes and has no
effect on one. Outputs and log messages do not change the state and are left out; the decision when to write is in
Model/Timestep.lean. `check_nans` cannot fail with real numbers.
-/
namespace FleCSPH.Driver
open FleCSPH.Geometry FleCSPH.Sph FleCSPH.Integration

/-- How smoothing lengths are updated, `sph_variable_h` and `sph_update_uniform_h`, main_driver.cc:247-256. -/
inductive HMode
  | variable | uniform | fixed
deriving DecidableEq

/-- The parameters of a run, params.h. -/
structure Config (i : Fin 3) where
  sph : Sph.Params i
  eos : Eos.Kind
  eosParams : Eos.Params
  /-- `external_force::potential` -/
  phi : Point (i + 1) → ℝ
  /-- `evolve_internal_energy` -/
  evolve : Bool
  /-- `thermokinetic_formulation` -/
  thermokinetic : Bool
  /-- `pressure_updates_number` -/
  updates : Nat
  /-- `sph_viscosity_alpha_max` -/
  alphaMax : ℝ
  /-- `sph_viscosity_delta` -/
  delta : ℝ
  /-- `sph_viscosity_l` -/
  l : ℝ
  /-- `relaxation_beta` -/
  beta : ℝ
  /-- `relaxation_gamma` -/
  gamma : ℝ
  /-- `relaxation_repulsion_radius` -/
  repulsionRadius : ℝ
  /-- `relaxation_repulsion_gamma` -/
  repulsionGamma : ℝ
  hMode : HMode
  /-- `sph_eta` -/
  eta : ℝ
  /-- `kernels::kernel_width` -/
  width : ℝ
  /-- `timestep_cfl_factor` -/
  cfl : ℝ
  adaptive : Bool
  outputs : Timestep.Outputs
  initialIteration : Int

variable {i : Fin 3} {n : Nat}

/-- What the tree contributes to one iteration: the neighbour lists it delivers for a state, and the order in which the k-th pass of the
iteration visits the particles. -/
structure Schedule (i : Fin 3) (n : Nat) where
  search : (Fin n → Particle (i + 1)) → Fin n → List (Fin n)
  order : Nat → List (Fin n)

/-- `apply_in_smoothinglength(f)`. -/
def sphPass (w : Schedule i n) (k : Nat) (f : Particle (i + 1) → List (Particle (i + 1)) → Particle (i + 1)) (s : Fin n → Particle (i + 1)) :
    Fin n → Particle (i + 1) := pass f (w.search s) (w.order k) s

/-- The same for a function with assertions. -/
def sphPassM (w : Schedule i n) (k : Nat) (f : Particle (i + 1) → List (Particle (i + 1)) → Option (Particle (i + 1)))
    (s : Fin n → Particle (i + 1)) : Option (Fin n → Particle (i + 1)) := passM f (w.search s) (w.order k) s

/-- `apply_all(f)` for a function with assertions. -/
noncomputable def applyAllM {P : Type} (f : P → Option P) (s : Fin n → P) : Option (Fin n → P) :=
  open Classical in if h : ∀ a, (f (s a)).isSome then some fun a => (f (s a)).get (h a) else none

/-- What `compute_density_pressure_soundspeed` looks at. -/
def setup (z : Config i) (dt : ℝ) : Eos.Setup (i + 1) := ⟨z.evolve && z.thermokinetic, z.phi, dt⟩

/-- The adaptive viscosity, main_driver.cc:121-124, 195-198. -/
noncomputable def alphaPass (z : Config i) (dt : ℝ) (w : Schedule i n) (k : Nat) (s : Fin n → Particle (i + 1)) : Option (Fin n → Particle (i + 1)) :=
  match z.sph.visc with
  | .constant => some s
  | .cullen => sphPassM w k (Cullen.computeAlpha z.sph ⟨z.alphaMax, z.delta, z.l, dt⟩) s

/-- Acceleration and relaxation terms, main_driver.cc:129-135, 203-207. -/
noncomputable def forces (z : Config i) (iteration : Int) (w : Schedule i n) (s : Fin n → Particle (i + 1)) : Fin n → Particle (i + 1) :=
  let s := sphPass w 2 (computeAcceleration z.sph) s
  if iteration < z.sph.relaxationSteps then
    sphPass w 3 (addShortRangeRepulsion z.repulsionRadius z.repulsionGamma) (applyAll (addDragAcceleration z.beta z.gamma) s)
  else s

/-- One pass of the thermokinetic energy equation, main_driver.cc:150-154, 219-223. -/
noncomputable def dedtPass (z : Config i) (dt : ℝ) (iteration : Int) (w : Schedule i n) (k : Nat) (s : Fin n → Particle (i + 1)) :
    Option (Fin n → Particle (i + 1)) :=
  let s := sphPass w k (computeDedt z.sph) s
  let s := if iteration < z.sph.relaxationSteps then applyAll (addDragDedt z.beta z.gamma) s else s
  applyAllM (Eos.recomputePressureSoundspeedThermokinetic z.eos z.eosParams z.phi dt) s

/-- One pass of the internal energy equation, main_driver.cc:163-166, 233-237. -/
noncomputable def dudtPass (z : Config i) (dt : ℝ) (iteration : Int) (w : Schedule i n) (k : Nat) (s : Fin n → Particle (i + 1)) :
    Fin n → Particle (i + 1) :=
  let s := sphPass w k (computeDudt z.sph iteration) s
  let s := if iteration < z.sph.relaxationSteps then applyAll (addDragDudt z.beta z.gamma) s else s
  applyAll (Eos.recomputePressureSoundspeed z.eos z.eosParams dt) s

/-- The loop of passes, `for (int m=1; m<=pressure_updates_number; ++m)`, main_driver.cc:148-157, 161-169, 217-226, 231-240. -/
noncomputable def energyPasses (z : Config i) (dt : ℝ) (iteration : Int) (w : Schedule i n) : Nat → (Fin n → Particle (i + 1)) → Option (Fin n → Particle (i + 1))
  | 0, s => some s
  | m + 1, s => (if z.thermokinetic then dedtPass z dt iteration w (4 + m) s else some (dudtPass z dt iteration w (4 + m) s)).bind
      (energyPasses z dt iteration w m)

/-- The energy equation of the first iteration, main_driver.cc:145-171. -/
noncomputable def energy (z : Config i) (dt : ℝ) (iteration : Int) (w : Schedule i n) (s : Fin n → Particle (i + 1)) : Option (Fin n → Particle (i + 1)) :=
  if z.evolve then energyPasses z dt iteration w z.updates s else some s

/-- The energy kick, main_driver.cc:176-181, 228, 241. -/
noncomputable def kickEnergy (z : Config i) (dt : ℝ) (s : Fin n → Particle (i + 1)) : Fin n → Particle (i + 1) :=
  if z.evolve then if z.thermokinetic then applyAll (kickE dt) s else applyAll (kickU dt) s else s

/-- What `compute_dt` looks at. -/
noncomputable def stepSettings (z : Config i) : Timestep.Settings (i + 1) :=
  { eta := z.eta, width := z.width, cfl := z.cfl, alpha := z.sph.alpha, thermokinetic := z.evolve && z.thermokinetic, phi := z.phi }

/-- A state of the driver. -/
structure State (i : Fin 3) (n : Nat) where
  clock : Timestep.Clock
  parts : Fin n → Particle (i + 1)

/-- `compute_dt` and `set_adaptive_timestep`, main_driver.cc:137-143, 267-273. -/
noncomputable def adaptStep (z : Config i) (st : State i n) : Option (State i n) :=
  if z.adaptive then
    (applyAllM (Timestep.computeDt (stepSettings z)) st.parts).map fun s =>
      ⟨Timestep.setAdaptive z.outputs [List.ofFn fun a => (s a).dt] st.clock, s⟩
  else some st

/-- Density, pressure, sound speed, adaptive viscosity, main_driver.cc:117-124, 192-198 with `save_velocityhalf` of the first iteration
in between. -/
noncomputable def thermo (z : Config i) (dt : ℝ) (first : Bool) (w : Schedule i n) (s : Fin n → Particle (i + 1)) : Option (Fin n → Particle (i + 1)) :=
  (sphPassM w 0 (Eos.computeDensityPressureSoundspeed z.sph z.eos z.eosParams (setup z dt)) s).bind fun s =>
    alphaPass z dt w 1 (if first then applyAll saveVelocityhalf s else s)

/-- The initialisation of the particles, main_driver.cc:106-115. -/
noncomputable def initialise (z : Config i) (s : Fin n → Particle (i + 1)) : Fin n → Particle (i + 1) :=
  let s := applyAll (Eos.init z.eos z.eosParams) s
  let s := if z.thermokinetic then applyAll (setTotalEnergy z.phi) s else s
  match z.sph.visc with
  | .constant => s
  | .cullen => applyAll (Cullen.initializeAlpha z.sph) s

/-- The branch of the first iteration, main_driver.cc:102-173. -/
noncomputable def firstBranch (z : Config i) (w : Schedule i n) (st : State i n) : Option (State i n) :=
  (thermo z st.clock.dt true w (initialise z st.parts)).bind fun s =>
    (adaptStep z ⟨st.clock, forces z st.clock.iteration w s⟩).bind fun st =>
      (energy z st.clock.dt st.clock.iteration w st.parts).map fun s => ⟨st.clock, s⟩

/-- The first half of the other iterations: kick, save, drift, main_driver.cc:175-188. -/
noncomputable def kickDrift (z : Config i) (dt : ℝ) (s : Fin n → Particle (i + 1)) : Fin n → Particle (i + 1) :=
  applyAll (drift dt) (applyAll saveVelocityhalf (applyAll (kickV dt) (kickEnergy z dt s)))

/-- The branch of the other iterations, main_driver.cc:174-245. -/
noncomputable def nextBranch (z : Config i) (w : Schedule i n) (st : State i n) : Option (State i n) :=
  (thermo z st.clock.dt false w (kickDrift z st.clock.dt st.parts)).bind fun s =>
    (energy z st.clock.dt st.clock.iteration w (applyAll (kickV st.clock.dt) (forces z st.clock.iteration w s))).map fun s =>
      ⟨st.clock, kickEnergy z st.clock.dt s⟩

/-- The D-th root of `x`, `x`, `sqrt(x)` or `cbrt(x)`; the argument is positive. -/
noncomputable def root (i : Fin 3) (x : ℝ) : ℝ := x ^ (1 / ((i : ℕ) + 1 : ℝ))

/-- `compute_smoothinglength`, default_physics.h:824-848. -/
noncomputable def newH (z : Config i) (a : Particle (i + 1)) : ℝ := root i (a.mass / a.rho) * z.eta * z.width

/-- `compute_smoothinglength` and `compute_average_smoothinglength`, default_physics.h:824-848, 880-900, main_driver.cc:247-256. -/
noncomputable def updateH (z : Config i) (s : Fin n → Particle (i + 1)) : Fin n → Particle (i + 1) :=
  match z.hMode with
  | .variable => fun a => { s a with h := newH z (s a) }
  | .uniform => fun a => { s a with h := 1 / (n : ℝ) * ∑ b, newH z (s b) }
  | .fixed => s

open Classical in
/-- `check_negativity`, default_physics.h:950-978. -/
noncomputable def checkNegativity (z : Config i) (s : Fin n → Particle (i + 1)) : Option (Fin n → Particle (i + 1)) :=
  if ∀ a, 0 ≤ (s a).rho ∧ 0 ≤ (s a).P ∧ (z.evolve = true → 0 ≤ (s a).u) then some s else none

/-- The body of the loop, main_driver.cc:98-277. -/
noncomputable def iteration (z : Config i) (w : Schedule i n) (st : State i n) : Option (State i n) :=
  (if st.clock.iteration = z.initialIteration then firstBranch z w st else nextBranch z w st).bind fun st =>
    (checkNegativity z (updateH z st.parts)).bind fun s =>
      (adaptStep z ⟨st.clock, s⟩).map fun st => { st with clock := Timestep.advance z.adaptive st.clock }

/-- A run: one schedule per iteration. -/
noncomputable def run (z : Config i) (ws : List (Schedule i n)) (st : State i n) : Option (State i n) :=
  ws.foldlM (fun st w => iteration z w st) st

open Classical in
/-- The loop `do ... while(not physics::termination_criteria())`, main_driver.cc:98-279, with `final_iteration` and `final_time`; one schedule per iteration. The second component says whether the loop
has ended; if not, the schedules are used up. -/
noncomputable def mainLoop (z : Config i) (finalIteration : Int) (finalTime : ℝ) : List (Schedule i n) → State i n → Option (State i n × Bool)
  | [], st => some (st, false)
  | w :: ws, st => (iteration z w st).bind fun st =>
      if Timestep.terminate finalIteration finalTime st.clock then some (st, true) else mainLoop z finalIteration finalTime ws st

end FleCSPH.Driver

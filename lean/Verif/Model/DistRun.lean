import Verif.Model.Driver
/-!
Model of the main loop of the hydro driver, app/drivers/hydro/main_driver.cc:98-279, on several processes, for a fixed time step, in exact real arithmetic.

Every particle has a home, the process which updates it; the other processes hold copies of it, made when the tree is built or when a request is answered, and these copies are not updated until the tree
is built again. Which copies exist, when data is sent and when it arrives is arbitrary; the messages of the traversal and its end are in Model/Ghosts.lean and Model/SphRun.lean, the lists of neighbours
it delivers in Props/C13dist.lean. Periodic boundaries and outputs are left out, as in Model/Driver.lean.
-/
namespace FleCSPH.DistRun
open FleCSPH.Geometry FleCSPH.Sph FleCSPH.Integration FleCSPH.Driver

/-- The particle data of all processes: `val`, `entities_` of the home of each particle; `copy`, `shared_entities_` of each process, tree_topology.h:2104-2105; `flight`, the replies which were sent and not
yet received (receiver, particle, data). -/
structure DState (P : Type) (n : Nat) where
  val : Fin n → P
  copy : Nat → Fin n → Option P
  flight : List (Nat × Fin n × P)

variable {P : Type} {n : Nat}

/-- `get_entity`: what process `p` finds for particle `b`, tree_topology.h:1003-1013. -/
def DState.see (home : Fin n → Nat) (d : DState P n) (p : Nat) (b : Fin n) : Option P := if home b = p then some (d.val b) else d.copy p b

/-- The new data of particle `a`, written by its home. -/
def DState.put (d : DState P n) (a : Fin n) (x : P) : DState P n := { d with val := Function.update d.val a x }

/-- A reply is sent: the data of particle `b` as it is now, tree_topology.h:1384-1463. -/
def DState.send (d : DState P n) (p : Nat) (b : Fin n) : DState P n := { d with flight := (p, b, d.val b) :: d.flight }

/-- A reply is received: `shared_entities_.push_back`, tree_topology.h:1470-1496. -/
def DState.recv (d : DState P n) (p : Nat) (b : Fin n) (x : P) (rest : List (Nat × Fin n × P)) : DState P n :=
  { d with copy := fun q c => if q = p ∧ c = b then some x else d.copy q c, flight := rest }

/-- One pass of `apply_in_smoothinglength(f)`, bodies_system.h:304-307 and tree_topology.h:213-442, on all processes at once: `todo` are the particles which are still to be visited. The home of a particle
calls `f` once it has all neighbours; a failed assertion (`none`) stops the run. The pass ends with a barrier, when every particle was visited and no reply is under way. -/
inductive DPass (home : Fin n → Nat) (f : P → List P → Option P) (nbs : Fin n → List (Fin n)) : List (Fin n) → DState P n → Option (DState P n) → Prop
  | done {d} : d.flight = [] → DPass home f nbs [] d (some d)
  | send {todo d r} (p b) : home b ≠ p → DPass home f nbs todo (d.send p b) r → DPass home f nbs todo d r
  | recv {todo d r} (before after p b x) : d.flight = before ++ (p, b, x) :: after → DPass home f nbs todo (d.recv p b x (before ++ after)) r → DPass home f nbs todo d r
  | visit {d r} (before after a l x) : (nbs a).mapM (d.see home (home a)) = some l → f (d.val a) l = some x → DPass home f nbs (before ++ after) (d.put a x) r →
      DPass home f nbs (before ++ a :: after) d r
  | fail {d} (before after a l) : (nbs a).mapM (d.see home (home a)) = some l → f (d.val a) l = none → DPass home f nbs (before ++ a :: after) d none

/-- The calls of the driver on the particle system. -/
inductive Op (P : Type)
  /-- `apply_all(f)`, bodies_system.h:318-324 -/
  | all (f : P → Option P)
  /-- `apply_in_smoothinglength(f)`, the k-th of the iteration -/
  | pass (k : Nat) (f : P → List P → Option P)
  /-- `reset_ghosts()`, bodies_system.h:273-275 -/
  | reset
  /-- `update_iteration()`, bodies_system.h:152-262 -/
  | update
  /-- `get_all(compute_average_smoothinglength, getNBodies())`: all particles get the mean of a quantity -/
  | mean (g : P → ℝ) (set : ℝ → P → P)

/-- What building the tree again does: no particle changes, all old copies are gone (`clean`, tree_topology.h:142-157), and `share_nodes_` may have made new ones. -/
structure Rebuilt (d d' : DState P n) : Prop where
  val : d'.val = d.val
  copy : ∀ p b x, d'.copy p b = some x → x = d.val b
  flight : d'.flight = []

variable {i : Fin 3}

/-- A list of calls on `procs` processes. `near` says which neighbour lists the traversal may deliver for a state. The calls are synchronised: `apply_all` acts on the particles of each process only, and
every other call ends with all processes (tree_topology.h:432; collective calls in build_tree and in the reductions). The last argument is the outcome, with the homes at the end. -/
inductive DExec (near : (Fin n → P) → (Fin n → List (Fin n)) → Prop) (procs : Nat) : List (Op P) → (Fin n → Nat) → DState P n → Option ((Fin n → Nat) × DState P n) → Prop
  | nil {home d} : DExec near procs [] home d (some (home, d))
  | all {f ops home d r} (v) : (∀ a, f (d.val a) = some (v a)) → DExec near procs ops home { d with val := v } r → DExec near procs (.all f :: ops) home d r
  | allFail {f ops home d} (a) : f (d.val a) = none → DExec near procs (.all f :: ops) home d none
  | pass {k f ops home d d' r} (nbs order) : near d.val nbs → order.Nodup → (∀ a, a ∈ order) → DPass home f nbs order d (some d') → DExec near procs ops home d' r →
      DExec near procs (.pass k f :: ops) home d r
  | passFail {k f ops home d} (nbs order) : near d.val nbs → order.Nodup → (∀ a, a ∈ order) → DPass home f nbs order d none → DExec near procs (.pass k f :: ops) home d none
  | reset {ops home d d' r} : Rebuilt d d' → DExec near procs ops home d' r → DExec near procs (.reset :: ops) home d r
  | update {ops home home' d d' r} : (∀ a, home' a < procs) → Rebuilt d d' → DExec near procs ops home' d' r → DExec near procs (.update :: ops) home d r
  | mean {g set ops home d r} : (∀ a, home a < procs) →
      DExec near procs ops home { d with val := fun a => set (1 / (n : ℝ) * ∑ p ∈ Finset.range procs, ∑ b with home b = p, g (d.val b)) (d.val a) } r →
      DExec near procs (.mean g set :: ops) home d r

/-! ### The calls of one iteration -/

/-- The energy kick, main_driver.cc:176-181, 228, 241. -/
noncomputable def kickOps (z : Config i) (dt : ℝ) : List (Op (Particle (i + 1))) :=
  if z.evolve then if z.thermokinetic then [.all fun a => some (kickE dt a)] else [.all fun a => some (kickU dt a)] else []

/-- The energy equation, main_driver.cc:145-171, 214-243: `m` passes are left, with `reset_ghosts` between two passes. -/
noncomputable def energyOps (z : Config i) (dt : ℝ) (iteration : Int) : Nat → List (Op (Particle (i + 1)))
  | 0 => []
  | m + 1 =>
    (if z.thermokinetic then
      .pass (4 + m) (fun a l => some (computeDedt z.sph a l)) :: ((if iteration < z.sph.relaxationSteps then [.all fun a => some (addDragDedt z.beta z.gamma a)] else []) ++
        [.all (Eos.recomputePressureSoundspeedThermokinetic z.eos z.eosParams z.phi dt)])
    else
      .pass (4 + m) (fun a l => some (computeDudt z.sph iteration a l)) :: ((if iteration < z.sph.relaxationSteps then [.all fun a => some (addDragDudt z.beta z.gamma a)] else []) ++
        [.all fun a => some (Eos.recomputePressureSoundspeed z.eos z.eosParams dt a)])) ++
    (if 0 < m then [.reset] else []) ++ energyOps z dt iteration m

/-- Density, pressure, sound speed, main_driver.cc:118, 193. -/
noncomputable def densityOp (z : Config i) (dt : ℝ) : Op (Particle (i + 1)) := .pass 0 (Eos.computeDensityPressureSoundspeed z.sph z.eos z.eosParams (setup z dt))

/-- The adaptive viscosity, main_driver.cc:121-124, 195-198. No `reset_ghosts` comes before it. -/
noncomputable def alphaOps (z : Config i) (dt : ℝ) : List (Op (Particle (i + 1))) :=
  match z.sph.visc with
  | .constant => []
  | .cullen => [.pass 1 (Cullen.computeAlpha z.sph ⟨z.alphaMax, z.delta, z.l, dt⟩)]

/-- Acceleration and relaxation terms, main_driver.cc:128-135, 202-207. -/
noncomputable def forceOps (z : Config i) (iteration : Int) : List (Op (Particle (i + 1))) :=
  [.reset, .pass 2 fun a l => some (computeAcceleration z.sph a l)] ++
  if iteration < z.sph.relaxationSteps then
    [.all fun a => some (addDragAcceleration z.beta z.gamma a), .pass 3 fun a l => some (addShortRangeRepulsion z.repulsionRadius z.repulsionGamma a l)]
  else []

/-- The first iteration, main_driver.cc:102-173. -/
noncomputable def firstOps (z : Config i) (dt : ℝ) (iteration : Int) : List (Op (Particle (i + 1))) :=
  [.update, .all fun a => some (Eos.init z.eos z.eosParams a)] ++
  (if z.thermokinetic then [.all fun a => some (setTotalEnergy z.phi a)] else []) ++
  (match z.sph.visc with
    | .constant => []
    | .cullen => [.all fun a => some (Cullen.initializeAlpha z.sph a)]) ++
  [densityOp z dt, .all fun a => some (saveVelocityhalf a)] ++ alphaOps z dt ++ forceOps z iteration ++
  (if z.evolve then energyOps z dt iteration z.updates else [])

/-- The other iterations, main_driver.cc:174-245. -/
noncomputable def nextOps (z : Config i) (dt : ℝ) (iteration : Int) : List (Op (Particle (i + 1))) :=
  kickOps z dt ++ [.all fun a => some (kickV dt a), .all fun a => some (saveVelocityhalf a), .all fun a => some (drift dt a), .update, densityOp z dt] ++
  alphaOps z dt ++ forceOps z iteration ++ [.all fun a => some (kickV dt a), .reset] ++
  (if z.evolve then energyOps z dt iteration z.updates else []) ++ kickOps z dt

open Classical in
/-- The end of every iteration, main_driver.cc:247-265: smoothing lengths and `check_negativity`. -/
noncomputable def lastOps (z : Config i) : List (Op (Particle (i + 1))) :=
  (match z.hMode with
    | .variable => [.all fun a => some { a with h := newH z a }]
    | .uniform => [.mean (newH z) fun x a => { a with h := x }]
    | .fixed => []) ++
  [.all fun a => if 0 ≤ a.rho ∧ 0 ≤ a.P ∧ (z.evolve = true → 0 ≤ a.u) then some a else none]

/-- All calls of one iteration. -/
noncomputable def iterationOps (z : Config i) (c : Timestep.Clock) : List (Op (Particle (i + 1))) :=
  (if c.iteration = z.initialIteration then firstOps z c.dt c.iteration else nextOps z c.dt c.iteration) ++ lastOps z

/-- A run of several iterations with `adaptive_timestep` off, main_driver.cc:98-277: the clock, which is the same on all processes, the homes and the particle data. -/
inductive DRun (near : (Fin n → Particle (i + 1)) → (Fin n → List (Fin n)) → Prop) (procs : Nat) (z : Config i) :
    Nat → Timestep.Clock → (Fin n → Nat) → DState (Particle (i + 1)) n → Option (Timestep.Clock × (Fin n → Particle (i + 1))) → Prop
  | nil {c home d} : DRun near procs z 0 c home d (some (c, d.val))
  | fail {N c home d} : DExec near procs (iterationOps z c) home d none → DRun near procs z (N + 1) c home d none
  | cons {N c home home' d d' r} : DExec near procs (iterationOps z c) home d (some (home', d')) → DRun near procs z N (Timestep.advance false c) home' d' r →
      DRun near procs z (N + 1) c home d r

end FleCSPH.DistRun

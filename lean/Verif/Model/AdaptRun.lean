import Verif.Model.DistRun
/-!
Model of the main loop of the hydro driver, app/drivers/hydro/main_driver.cc:98-279, on several processes with `adaptive_timestep` on, in exact real arithmetic. The calls on the particles and what the processes
know of each other are those of Model/DistRun.lean, the clock is that of Model/Timestep.lean. Periodic boundaries and outputs are left out, as in Model/Driver.lean.
-/
namespace FleCSPH.AdaptRun
open FleCSPH.Geometry FleCSPH.Sph FleCSPH.Integration FleCSPH.Driver FleCSPH.DistRun

variable {i : Fin 3} {n : Nat}

/-- `apply_all(compute_dt)`, main_driver.cc:140, 270. -/
noncomputable def stepOp (z : Config i) : Op (Particle (i + 1)) := .all (Timestep.computeDt (stepSettings z))

/-- What `set_adaptive_timestep` sees, default_physics.h:762-768: each process looks at the particles it is home of, then `reduce_min` takes the smallest over all processes. -/
noncomputable def limits (procs : Nat) (home : Fin n → Nat) (s : Fin n → Particle (i + 1)) : List (List ℝ) :=
  (List.range procs).map fun p => ((List.finRange n).filter fun a => home a = p).map fun a => (s a).dt

/-- The first iteration up to the time step, main_driver.cc:102-135. -/
noncomputable def firstForces (z : Config i) (dt : ℝ) (iteration : Int) : List (Op (Particle (i + 1))) :=
  [.update, .all fun a => some (Eos.init z.eos z.eosParams a)] ++
  (if z.thermokinetic then [.all fun a => some (setTotalEnergy z.phi a)] else []) ++
  (match z.sph.visc with
    | .constant => []
    | .cullen => [.all fun a => some (Cullen.initializeAlpha z.sph a)]) ++
  [densityOp z dt, .all fun a => some (saveVelocityhalf a)] ++ alphaOps z dt ++ forceOps z iteration

/-- The first iteration after its time step was set, main_driver.cc:145-173, 247-265; `dt` is the new time step. -/
noncomputable def firstRest (z : Config i) (dt : ℝ) (iteration : Int) : List (Op (Particle (i + 1))) :=
  (if z.evolve then energyOps z dt iteration z.updates else []) ++ lastOps z

/-- One iteration, main_driver.cc:98-277. The first argument is the clock before it; the outcome is the clock after the first call of `set_adaptive_timestep` (the clock before, if there is only one), the clock
after `advance_time`, the homes and the particles; `none` is a failed assertion. The clock is computed by every process from the same numbers and is the same on all of them. -/
inductive AIter (near : (Fin n → Particle (i + 1)) → (Fin n → List (Fin n)) → Prop) (procs : Nat) (z : Config i) :
    Timestep.Clock → (Fin n → Nat) → DState (Particle (i + 1)) n → Option (Timestep.Clock × Timestep.Clock × (Fin n → Nat) × DState (Particle (i + 1)) n) → Prop
  | first {c home d home1 d1 home2 d2 c1} : c.iteration = z.initialIteration →
      DExec near procs (firstForces z c.dt c.iteration ++ [stepOp z]) home d (some (home1, d1)) →
      c1 = Timestep.setAdaptive z.outputs (limits procs home1 d1.val) c →
      DExec near procs (firstRest z c1.dt c1.iteration ++ [stepOp z]) home1 d1 (some (home2, d2)) →
      AIter near procs z c home d (some (c1, Timestep.advance true (Timestep.setAdaptive z.outputs (limits procs home2 d2.val) c1), home2, d2))
  | firstFail {c home d} : c.iteration = z.initialIteration → DExec near procs (firstForces z c.dt c.iteration ++ [stepOp z]) home d none → AIter near procs z c home d none
  | restFail {c home d home1 d1 c1} : c.iteration = z.initialIteration →
      DExec near procs (firstForces z c.dt c.iteration ++ [stepOp z]) home d (some (home1, d1)) →
      c1 = Timestep.setAdaptive z.outputs (limits procs home1 d1.val) c →
      DExec near procs (firstRest z c1.dt c1.iteration ++ [stepOp z]) home1 d1 none → AIter near procs z c home d none
  | next {c home d home2 d2} : c.iteration ≠ z.initialIteration →
      DExec near procs (nextOps z c.dt c.iteration ++ lastOps z ++ [stepOp z]) home d (some (home2, d2)) →
      AIter near procs z c home d (some (c, Timestep.advance true (Timestep.setAdaptive z.outputs (limits procs home2 d2.val) c), home2, d2))
  | nextFail {c home d} : c.iteration ≠ z.initialIteration → DExec near procs (nextOps z c.dt c.iteration ++ lastOps z ++ [stepOp z]) home d none → AIter near procs z c home d none

/-- A run of several iterations, main_driver.cc:98-279, with the clocks its iterations set. -/
inductive ARun (near : (Fin n → Particle (i + 1)) → (Fin n → List (Fin n)) → Prop) (procs : Nat) (z : Config i) :
    Nat → Timestep.Clock → (Fin n → Nat) → DState (Particle (i + 1)) n → List (Timestep.Clock × Timestep.Clock) → Option (Timestep.Clock × (Fin n → Particle (i + 1))) → Prop
  | nil {c home d} : ARun near procs z 0 c home d [] (some (c, d.val))
  | fail {N c home d} : AIter near procs z c home d none → ARun near procs z (N + 1) c home d [] none
  | cons {N c c1 c2 home home' d d' steps r} : AIter near procs z c home d (some (c1, c2, home', d')) → ARun near procs z N c2 home' d' steps r →
      ARun near procs z (N + 1) c home d ((c1, c2) :: steps) r

end FleCSPH.AdaptRun

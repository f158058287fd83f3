import Verif.Model.DistRun
import Verif.Model.Sequence
import Verif.Model.Update
import Verif.Spec.Iteration
/-!
Model of the main loop of the newtonian driver, app/drivers/newtonian/main_driver.cc:103-298, with `enable_fmm`, on several processes, for a fixed time step, in exact real arithmetic: the calls of the
hydro driver (Model/DistRun.lean) with `gravitation_fmm` between the acceleration and the relaxation terms, and the total energy set once more in the first iteration. The program asserts three dimensions
(bodies_system.h:283); the model is for any. Periodic boundaries and outputs are left out.
-/
namespace FleCSPH.Newtonian
open FleCSPH.Geometry FleCSPH.Sph FleCSPH.Integration FleCSPH.Driver FleCSPH.DistRun FleCSPH.Cofm FleCSPH.Key

variable {i : Fin 3} {n : Nat}

/-! ### Gravity of the particles -/

/-- What the tree keeps of a particle: `coordinates()`, `mass()`, `radius()`, body.h. -/
def bodyOf (a : Particle (i + 1)) : Body (i + 1) := ⟨a.pos, a.mass, a.h⟩

/-- The settings: bits of a key, the largest number of cofm.h, `fmm_macangle`, `gravitational_constant`. -/
structure Gravity where
  bits : Nat
  big : ℝ
  angle : ℝ
  const : ℝ

/-- `gravitation_fmm` on `2^m` processes, bodies_system.h:282-288, for particles whose potential and acceleration were set to zero (default_physics.h:406-407). The tree is that of `update_iteration` (or, with the
same positions, masses, smoothing lengths and keys, of `reset_ghosts`, bodies_system.h:273-275), from any division of the particles, and any traversals were made on it before. `v` are the particles
before, `v'` after: every process writes potential and acceleration of its particles. -/
def Gravitated (g : Gravity) (m : Nat) (v v' : Fin n → Particle (i + 1)) : Prop :=
  ∃ (sort : Psort.StdSort) (vec : Fin (2 ^ m) → List (Fin n)) (old : Fin n → Nat) (junk : Nat → Fin (2 ^ m) → Update.Ent (i + 1)) (fuel : Nat) (out : Fin (2 ^ m) → List (Update.Ent (i + 1)))
    (s : List (ShareTable.Proc (Startup.Data (i + 1)))) (tbl : Nat → Ghosts.Table) (dat : Nat → DistGravity.DataTable (i + 1)) (T : DistGravity.DState (i + 1)) (ids : Ghosts.Key → Int),
    Spec.Division n (2 ^ m) vec ∧ n ≤ fuel ∧ Update.update g.bits sort junk fuel g.big (fun r => (vec r).map fun a => ⟨bodyOf (v a), (v a).id, old a⟩) = some (out, s) ∧
    (∀ p, ∀ x ∈ out p, ∀ e, Spec.LeafOf (maxDepth g.bits (i + 1)) (i + 1) (Update.ranksOf out).flatten x.key e → ids e = x.id) ∧
    DistGravity.After (2 ^ m) (2 ^ (i.val + 1)) (maxDepth g.bits (i + 1) + 2) s tbl dat ∧ DistGravity.DRun (2 ^ m) (2 ^ (i.val + 1)) g.angle (DistGravity.begin_ (2 ^ m) s tbl dat) T ∧
    (∀ p < 2 ^ m, Ghosts.exited (2 ^ m) T.run p) ∧
    ∀ p : Fin (2 ^ m), ∃ F, DistGravity.gravity (2 ^ (i.val + 1)) p (T.run.tbl p) (T.dat p) g.const ids (maxDepth g.bits (i + 1) + 1) (T.run.results p) = some F ∧
      ∀ a, ∀ x ∈ out p, x.id = (v a).id → ∀ e, Spec.LeafOf (maxDepth g.bits (i + 1)) (i + 1) (Update.ranksOf out).flatten x.key e → v' a = { v a with gpot := F.pot e, gacc := F.acc e }

/-! ### The calls of one iteration -/

/-- The acceleration, main_driver.cc:135-136, 217-218. -/
noncomputable def accOps (z : Config i) : List (Op (Particle (i + 1))) := [.reset, .pass 2 fun a l => some (computeAcceleration z.sph a l)]

/-- The relaxation terms, main_driver.cc:141-146, 223-226. -/
noncomputable def relaxOps (z : Config i) (iteration : Int) : List (Op (Particle (i + 1))) :=
  if iteration < z.sph.relaxationSteps then
    [.all fun a => some (addDragAcceleration z.beta z.gamma a), .pass 3 fun a l => some (addShortRangeRepulsion z.repulsionRadius z.repulsionGamma a l)]
  else []

/-- The first iteration before gravity, main_driver.cc:110-136. -/
noncomputable def firstHead (z : Config i) (dt : ℝ) : List (Op (Particle (i + 1))) :=
  [.update, .all fun a => some (Eos.init z.eos z.eosParams a)] ++
  (match z.sph.visc with
    | .constant => []
    | .cullen => [.all fun a => some (Cullen.initializeAlpha z.sph a)]) ++
  (if z.thermokinetic then [.all fun a => some (setTotalEnergy z.phi a)] else []) ++
  [densityOp z dt, .all fun a => some (saveVelocityhalf a)] ++ alphaOps z dt ++ accOps z

/-- The first iteration after gravity, main_driver.cc:141-187. -/
noncomputable def firstTail (z : Config i) (dt : ℝ) (iteration : Int) : List (Op (Particle (i + 1))) :=
  relaxOps z iteration ++ (if z.thermokinetic then [.all fun a => some (setTotalEnergy z.phi a)] else []) ++ (if z.evolve then energyOps z dt iteration z.updates else [])

/-- The other iterations before gravity, main_driver.cc:190-218. -/
noncomputable def nextHead (z : Config i) (dt : ℝ) : List (Op (Particle (i + 1))) :=
  kickOps z dt ++ [.all fun a => some (kickV dt a), .all fun a => some (saveVelocityhalf a), .all fun a => some (drift dt a), .update, densityOp z dt] ++ alphaOps z dt ++ accOps z

/-- The other iterations after gravity, main_driver.cc:223-263. -/
noncomputable def nextTail (z : Config i) (dt : ℝ) (iteration : Int) : List (Op (Particle (i + 1))) :=
  relaxOps z iteration ++ [.all fun a => some (kickV dt a), .reset] ++ (if z.evolve then energyOps z dt iteration z.updates else []) ++ kickOps z dt

/-- One iteration before gravity. -/
noncomputable def headOps (z : Config i) (c : Timestep.Clock) : List (Op (Particle (i + 1))) :=
  if c.iteration = z.initialIteration then firstHead z c.dt else nextHead z c.dt

/-- One iteration after gravity, to the end (`lastOps`: main_driver.cc:265-284). -/
noncomputable def tailOps (z : Config i) (c : Timestep.Clock) : List (Op (Particle (i + 1))) :=
  (if c.iteration = z.initialIteration then firstTail z c.dt c.iteration else nextTail z c.dt c.iteration) ++ lastOps z

/-- How a run ends: all iterations are done; an assertion failed; or two particles came into one cell of the finest grid of the keys, for which the tree cannot be built. -/
inductive Outcome (i : Fin 3) (n : Nat)
  | done (c : Timestep.Clock) (s : Fin n → Particle (i + 1))
  | failed
  | clash (iteration : Int)

/-- A run of several iterations with `adaptive_timestep` off on `procs` processes, main_driver.cc:103-298. `sep` says for which particles the tree can be built, `grav` is the effect of gravity. That the
particles clash shows here at the call of gravity, before which they have not moved since the tree was built. -/
inductive NRun (near : (Fin n → Particle (i + 1)) → (Fin n → List (Fin n)) → Prop) (sep : (Fin n → Particle (i + 1)) → Prop) (grav : (Fin n → Particle (i + 1)) → (Fin n → Particle (i + 1)) → Prop)
    (procs : Nat) (z : Config i) : Nat → Timestep.Clock → (Fin n → Nat) → DState (Particle (i + 1)) n → Outcome i n → Prop
  | nil {c home d} : NRun near sep grav procs z 0 c home d (.done c d.val)
  | failHead {N c home d} : DExec near procs (headOps z c) home d none → NRun near sep grav procs z (N + 1) c home d .failed
  | clash {N c home home' d d'} : DExec near procs (headOps z c) home d (some (home', d')) → ¬sep d'.val → NRun near sep grav procs z (N + 1) c home d (.clash c.iteration)
  | failTail {N c home home' d d' v} : DExec near procs (headOps z c) home d (some (home', d')) → sep d'.val → grav d'.val v → DExec near procs (tailOps z c) home' { d' with val := v } none →
      NRun near sep grav procs z (N + 1) c home d .failed
  | cons {N c home home' home'' d d' d'' v r} : DExec near procs (headOps z c) home d (some (home', d')) → sep d'.val → grav d'.val v →
      DExec near procs (tailOps z c) home' { d' with val := v } (some (home'', d'')) → NRun near sep grav procs z N (Timestep.advance false c) home'' d'' r →
      NRun near sep grav procs z (N + 1) c home d r

/-- A run of the newtonian driver on `2^m` processes. -/
abbrev Run (near : (Fin n → Particle (i + 1)) → (Fin n → List (Fin n)) → Prop) (g : Gravity) (m : Nat) (z : Config i) :=
  NRun (n := n) near (fun s => Spec.Separate (maxDepth g.bits (i + 1)) fun a => bodyOf (s a)) (Gravitated g m) (2 ^ m) z

end FleCSPH.Newtonian

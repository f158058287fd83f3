import Verif.Model.AdaptRun
import Verif.Model.Newtonian
/-!
Model of the main loop of the newtonian driver, app/drivers/newtonian/main_driver.cc:103-298, with `enable_fmm` and `adaptive_timestep` on, on several processes, in exact real arithmetic. Gravity and the calls
on the particles are those of Model/Newtonian.lean, the time step is that of Model/AdaptRun.lean. Periodic boundaries and outputs are left out.
-/
namespace FleCSPH.AdaptNewton
open FleCSPH.Geometry FleCSPH.Sph FleCSPH.Integration FleCSPH.Driver FleCSPH.DistRun FleCSPH.Newtonian FleCSPH.AdaptRun FleCSPH.Key

variable {i : Fin 3} {n : Nat}

/-- The first iteration between gravity and its time step, main_driver.cc:141-151. -/
noncomputable def midOps (z : Config i) (iteration : Int) : List (Op (Particle (i + 1))) :=
  relaxOps z iteration ++ (if z.thermokinetic then [.all fun a => some (setTotalEnergy z.phi a)] else [])

/-- How an iteration ends: the clock after the first call of `set_adaptive_timestep` (the clock before, if there is only one), the clock after `advance_time`, the homes and the particles; or a failed assertion;
or two particles came into one cell of the finest grid of the keys. -/
inductive End (i : Fin 3) (n : Nat)
  | done (c1 c2 : Timestep.Clock) (home : Fin n → Nat) (d : DState (Particle (i + 1)) n)
  | failed
  | clash

/-- One iteration, main_driver.cc:103-296: the calls before gravity (110-136, 190-218), gravity (137-140, 219-222), the calls after it (141-284; in the first iteration with a time step set in between, 153-159),
`compute_dt` and `set_adaptive_timestep` (286-292) and `advance_time` (296). In the first iteration the calls after the first time step (161-187, 265-284) are those of the hydro driver. -/
inductive NIter (near : (Fin n → Particle (i + 1)) → (Fin n → List (Fin n)) → Prop) (sep : (Fin n → Particle (i + 1)) → Prop) (grav : (Fin n → Particle (i + 1)) → (Fin n → Particle (i + 1)) → Prop)
    (procs : Nat) (z : Config i) (c : Timestep.Clock) (home : Fin n → Nat) (d : DState (Particle (i + 1)) n) : End i n → Prop
  | failHead : DExec near procs (headOps z c) home d none → NIter near sep grav procs z c home d .failed
  | clash {home' d'} : DExec near procs (headOps z c) home d (some (home', d')) → ¬sep d'.val → NIter near sep grav procs z c home d .clash
  | first {home' d' v home1 d1 home2 d2 c1} : c.iteration = z.initialIteration → DExec near procs (headOps z c) home d (some (home', d')) → sep d'.val → grav d'.val v →
      DExec near procs (midOps z c.iteration ++ [stepOp z]) home' { d' with val := v } (some (home1, d1)) → c1 = Timestep.setAdaptive z.outputs (limits procs home1 d1.val) c →
      DExec near procs (firstRest z c1.dt c1.iteration ++ [stepOp z]) home1 d1 (some (home2, d2)) →
      NIter near sep grav procs z c home d (.done c1 (Timestep.advance true (Timestep.setAdaptive z.outputs (limits procs home2 d2.val) c1)) home2 d2)
  | failMid {home' d' v} : c.iteration = z.initialIteration → DExec near procs (headOps z c) home d (some (home', d')) → sep d'.val → grav d'.val v →
      DExec near procs (midOps z c.iteration ++ [stepOp z]) home' { d' with val := v } none → NIter near sep grav procs z c home d .failed
  | failRest {home' d' v home1 d1 c1} : c.iteration = z.initialIteration → DExec near procs (headOps z c) home d (some (home', d')) → sep d'.val → grav d'.val v →
      DExec near procs (midOps z c.iteration ++ [stepOp z]) home' { d' with val := v } (some (home1, d1)) → c1 = Timestep.setAdaptive z.outputs (limits procs home1 d1.val) c →
      DExec near procs (firstRest z c1.dt c1.iteration ++ [stepOp z]) home1 d1 none → NIter near sep grav procs z c home d .failed
  | next {home' d' v home2 d2} : c.iteration ≠ z.initialIteration → DExec near procs (headOps z c) home d (some (home', d')) → sep d'.val → grav d'.val v →
      DExec near procs (tailOps z c ++ [stepOp z]) home' { d' with val := v } (some (home2, d2)) →
      NIter near sep grav procs z c home d (.done c (Timestep.advance true (Timestep.setAdaptive z.outputs (limits procs home2 d2.val) c)) home2 d2)
  | failNext {home' d' v} : c.iteration ≠ z.initialIteration → DExec near procs (headOps z c) home d (some (home', d')) → sep d'.val → grav d'.val v →
      DExec near procs (tailOps z c ++ [stepOp z]) home' { d' with val := v } none → NIter near sep grav procs z c home d .failed

/-- A run of several iterations, main_driver.cc:103-298, with the clocks its iterations set. -/
inductive NRun (near : (Fin n → Particle (i + 1)) → (Fin n → List (Fin n)) → Prop) (sep : (Fin n → Particle (i + 1)) → Prop) (grav : (Fin n → Particle (i + 1)) → (Fin n → Particle (i + 1)) → Prop)
    (procs : Nat) (z : Config i) : Nat → Timestep.Clock → (Fin n → Nat) → DState (Particle (i + 1)) n → List (Timestep.Clock × Timestep.Clock) → Outcome i n → Prop
  | nil {c home d} : NRun near sep grav procs z 0 c home d [] (.done c d.val)
  | failed {N c home d} : NIter near sep grav procs z c home d .failed → NRun near sep grav procs z (N + 1) c home d [] .failed
  | clash {N c home d} : NIter near sep grav procs z c home d .clash → NRun near sep grav procs z (N + 1) c home d [] (.clash c.iteration)
  | cons {N c c1 c2 home home' d d' steps r} : NIter near sep grav procs z c home d (.done c1 c2 home' d') → NRun near sep grav procs z N c2 home' d' steps r →
      NRun near sep grav procs z (N + 1) c home d ((c1, c2) :: steps) r

/-- An iteration and a run of the newtonian driver on `2^m` processes. -/
abbrev Iter (near : (Fin n → Particle (i + 1)) → (Fin n → List (Fin n)) → Prop) (g : Gravity) (m : Nat) (z : Config i) :=
  NIter (n := n) near (fun s => Spec.Separate (maxDepth g.bits (i + 1)) fun a => bodyOf (s a)) (Gravitated g m) (2 ^ m) z
abbrev Run (near : (Fin n → Particle (i + 1)) → (Fin n → List (Fin n)) → Prop) (g : Gravity) (m : Nat) (z : Config i) :=
  NRun (n := n) near (fun s => Spec.Separate (maxDepth g.bits (i + 1)) fun a => bodyOf (s a)) (Gravitated g m) (2 ^ m) z

end FleCSPH.AdaptNewton

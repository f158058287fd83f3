import Verif.Model.Program
import Verif.Model.AdaptRun
/-!
The hydro driver from the positions of the particles to their new state, app/drivers/hydro/main_driver.cc:98-279, with `adaptive_timestep` on: the calls of Model/AdaptRun.lean with the trees and messages of
Model/Program.lean. Periodic boundaries and outputs are left out.
-/
namespace FleCSPH.AdaptProgram
open FleCSPH.Geometry FleCSPH.Sph FleCSPH.Driver FleCSPH.DistRun FleCSPH.AdaptRun FleCSPH.Program

variable {i : Fin 3} {n m : Nat}

/-- What `set_adaptive_timestep` sees, default_physics.h:762-768 and bodies_system.h:336-338: each process runs over its particles in the order of `entities_`, then `reduce_min` takes the smallest over all
processes. -/
def limits (T : Trees i n m) (s : Fin n → Particle (i + 1)) : List (List ℝ) := (List.finRange (2 ^ m)).map fun p => (T.vec p).map fun a => (s a).dt

/-- How an iteration ends: with the clock after the first call of `set_adaptive_timestep` (the clock before, if there is only one), the clock after `advance_time`, trees and particles; with a failed
assertion; or with two particles in one cell of the finest grid of the keys. -/
inductive IterEnd (i : Fin 3) (n m : Nat)
  | ok (c1 c2 : Timestep.Clock) (T : Trees i n m) (d : DState (Particle (i + 1)) n)
  | failed
  | clash

/-- One iteration, main_driver.cc:98-277. -/
inductive Iter (g : Settings) (z : Config i) : Timestep.Clock → Trees i n m → DState (Particle (i + 1)) n → IterEnd i n m → Prop
  | first {c T d T1 d1 c1 T2 d2} : c.iteration = z.initialIteration →
      PExec g (firstForces z c.dt c.iteration ++ [stepOp z]) T d (.ended T1 d1) →
      c1 = Timestep.setAdaptive z.outputs (limits T1 d1.val) c →
      PExec g (firstRest z c1.dt c1.iteration ++ [stepOp z]) T1 d1 (.ended T2 d2) →
      Iter g z c T d (.ok c1 (Timestep.advance true (Timestep.setAdaptive z.outputs (limits T2 d2.val) c1)) T2 d2)
  | firstFail {c T d} : c.iteration = z.initialIteration → PExec g (firstForces z c.dt c.iteration ++ [stepOp z]) T d .failed → Iter g z c T d .failed
  | firstClash {c T d} : c.iteration = z.initialIteration → PExec g (firstForces z c.dt c.iteration ++ [stepOp z]) T d .clash → Iter g z c T d .clash
  | restFail {c T d T1 d1 c1} : c.iteration = z.initialIteration →
      PExec g (firstForces z c.dt c.iteration ++ [stepOp z]) T d (.ended T1 d1) →
      c1 = Timestep.setAdaptive z.outputs (limits T1 d1.val) c →
      PExec g (firstRest z c1.dt c1.iteration ++ [stepOp z]) T1 d1 .failed → Iter g z c T d .failed
  | next {c T d T2 d2} : c.iteration ≠ z.initialIteration →
      PExec g (nextOps z c.dt c.iteration ++ lastOps z ++ [stepOp z]) T d (.ended T2 d2) →
      Iter g z c T d (.ok c (Timestep.advance true (Timestep.setAdaptive z.outputs (limits T2 d2.val) c)) T2 d2)
  | nextFail {c T d} : c.iteration ≠ z.initialIteration → PExec g (nextOps z c.dt c.iteration ++ lastOps z ++ [stepOp z]) T d .failed → Iter g z c T d .failed
  | nextClash {c T d} : c.iteration ≠ z.initialIteration → PExec g (nextOps z c.dt c.iteration ++ lastOps z ++ [stepOp z]) T d .clash → Iter g z c T d .clash

/-- A run of several iterations, main_driver.cc:98-279, with the clocks its iterations set. -/
inductive Run (g : Settings) (z : Config i) :
    Nat → Timestep.Clock → Trees i n m → DState (Particle (i + 1)) n → List (Timestep.Clock × Timestep.Clock) → Newtonian.Outcome i n → Prop
  | nil {c T d} : Run g z 0 c T d [] (.done c d.val)
  | fail {N c T d} : Iter g z c T d .failed → Run g z (N + 1) c T d [] .failed
  | clash {N c T d} : Iter g z c T d .clash → Run g z (N + 1) c T d [] (.clash c.iteration)
  | cons {N c c1 c2 T T' d d' steps r} : Iter g z c T d (.ok c1 c2 T' d') → Run g z N c2 T' d' steps r → Run g z (N + 1) c T d ((c1, c2) :: steps) r

end FleCSPH.AdaptProgram

import Verif.Model.AdaptProgram
import Verif.Model.AdaptNewton
/-!
The newtonian driver from the positions of the particles to their new state, app/drivers/newtonian/main_driver.cc:103-298, with `enable_fmm` and `adaptive_timestep` on: the calls of Model/AdaptNewton.lean with the
trees and messages of Model/Program.lean, gravity included. Periodic boundaries and outputs are left out.
-/
namespace FleCSPH.NewtonProgram
open FleCSPH.Geometry FleCSPH.Sph FleCSPH.Driver FleCSPH.DistRun FleCSPH.AdaptRun FleCSPH.Program FleCSPH.AdaptProgram FleCSPH.AdaptNewton FleCSPH.Newtonian

variable {i : Fin 3} {n m : Nat}

/-- One iteration, main_driver.cc:103-296: the calls before gravity (110-136, 190-218), gravity on the trees as they are then (137-140, 219-222), the calls after it, in the first iteration with a time step set in
between (141-159), `compute_dt` and `set_adaptive_timestep` (286-292) and `advance_time` (296). -/
inductive Iter (g : Settings) (z : Config i) : Timestep.Clock → Trees i n m → DState (Particle (i + 1)) n → IterEnd i n m → Prop
  | failHead {c T d} : PExec g (headOps z c) T d .failed → Iter g z c T d .failed
  | clash {c T d} : PExec g (headOps z c) T d .clash → Iter g z c T d .clash
  | first {c T d T1 d1 T2 v T3 d3 c1 T4 d4} : c.iteration = z.initialIteration → PExec g (headOps z c) T d (.ended T1 d1) → Pulled g T1 T2 d1.val v →
      PExec g (midOps z c.iteration ++ [stepOp z]) T2 { d1 with val := v } (.ended T3 d3) → c1 = Timestep.setAdaptive z.outputs (AdaptProgram.limits T3 d3.val) c →
      PExec g (firstRest z c1.dt c1.iteration ++ [stepOp z]) T3 d3 (.ended T4 d4) →
      Iter g z c T d (.ok c1 (Timestep.advance true (Timestep.setAdaptive z.outputs (AdaptProgram.limits T4 d4.val) c1)) T4 d4)
  | failMid {c T d T1 d1 T2 v} : c.iteration = z.initialIteration → PExec g (headOps z c) T d (.ended T1 d1) → Pulled g T1 T2 d1.val v →
      PExec g (midOps z c.iteration ++ [stepOp z]) T2 { d1 with val := v } .failed → Iter g z c T d .failed
  | failRest {c T d T1 d1 T2 v T3 d3 c1} : c.iteration = z.initialIteration → PExec g (headOps z c) T d (.ended T1 d1) → Pulled g T1 T2 d1.val v →
      PExec g (midOps z c.iteration ++ [stepOp z]) T2 { d1 with val := v } (.ended T3 d3) → c1 = Timestep.setAdaptive z.outputs (AdaptProgram.limits T3 d3.val) c →
      PExec g (firstRest z c1.dt c1.iteration ++ [stepOp z]) T3 d3 .failed → Iter g z c T d .failed
  | next {c T d T1 d1 T2 v T3 d3} : c.iteration ≠ z.initialIteration → PExec g (headOps z c) T d (.ended T1 d1) → Pulled g T1 T2 d1.val v →
      PExec g (tailOps z c ++ [stepOp z]) T2 { d1 with val := v } (.ended T3 d3) →
      Iter g z c T d (.ok c (Timestep.advance true (Timestep.setAdaptive z.outputs (AdaptProgram.limits T3 d3.val) c)) T3 d3)
  | failNext {c T d T1 d1 T2 v} : c.iteration ≠ z.initialIteration → PExec g (headOps z c) T d (.ended T1 d1) → Pulled g T1 T2 d1.val v →
      PExec g (tailOps z c ++ [stepOp z]) T2 { d1 with val := v } .failed → Iter g z c T d .failed

/-- A run of several iterations, main_driver.cc:103-298, with the clocks its iterations set. -/
inductive Run (g : Settings) (z : Config i) :
    Nat → Timestep.Clock → Trees i n m → DState (Particle (i + 1)) n → List (Timestep.Clock × Timestep.Clock) → Newtonian.Outcome i n → Prop
  | nil {c T d} : Run g z 0 c T d [] (.done c d.val)
  | fail {N c T d} : Iter g z c T d .failed → Run g z (N + 1) c T d [] .failed
  | clash {N c T d} : Iter g z c T d .clash → Run g z (N + 1) c T d [] (.clash c.iteration)
  | cons {N c c1 c2 T T' d d' steps r} : Iter g z c T d (.ok c1 c2 T' d') → Run g z N c2 T' d' steps r → Run g z (N + 1) c T d ((c1, c2) :: steps) r

end FleCSPH.NewtonProgram

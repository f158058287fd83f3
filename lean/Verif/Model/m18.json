[{"file": "Verif/Model/RoundedUpdate.lean", "old": "then R.fl (b.pos j + b.radius) else r.2", "new": "then R.fl (b.pos j - b.radius) else r.2", "definition": "RoundedUpdate.extend", "edit": "upper end stores the lower end of the disc", "claim": "C95: one iteration in floating-point arithmetic"}, {"file": "Verif/Model/RoundedUpdate.lean", "old": "if R.fl (b.pos j - b.radius) < r.1 then", "new": "if R.fl (b.pos j - b.radius) > r.1 then", "definition": "RoundedUpdate.extend", "edit": "comparison of the lower end reversed", "claim": "C95: one iteration in floating-point arithmetic"}, {"file": "Verif/Model/RoundedUpdate.lean", "old": "(extend R j) (b.pos j, b.pos j)", "new": "(extend R j) (0, 0)", "definition": "RoundedUpdate.localRange", "edit": "range starts at the origin", "claim": "C95: one iteration in floating-point arithmetic"}, {"file": "Verif/Model/RoundedUpdate.lean", "old": "rs.foldl (fun m q => min m (q j).1) (r j).1", "new": "(r j).1", "definition": "RoundedUpdate.computeRange", "edit": "minimum over the processes left out", "claim": "C95: one iteration in floating-point arithmetic"}, {"file": "Verif/Model/RoundedUpdate.lean", "old": "rs.foldl (fun m q => max m (q j).2) (r j).2", "new": "rs.foldl (fun m q => max m (q j).1) (r j).2", "definition": "RoundedUpdate.computeRange", "edit": "maximum of the lower ends", "claim": "C95: one iteration in floating-point arithmetic"}, {"file": "Verif/Model/RoundedUpdate.lean", "old": "(axis fun j => (range j).1) (axis fun j => (range j).2)", "new": "(axis fun j => (range j).2) (axis fun j => (range j).1)", "definition": "RoundedUpdate.setKey", "edit": "corners of the range swapped", "claim": "C95: one iteration in floating-point arithmetic"}, {"file": "Verif/Model/RoundedUpdate.lean", "old": "else (computeKeys R bits range vec).bind fun keyed =>", "new": "else (some vec).bind fun keyed =>", "definition": "RoundedUpdate.arrange", "edit": "keys not recomputed", "claim": "C95: one iteration in floating-point arithmetic"}, {"file": "Verif/Model/RoundedUpdate.lean", "old": "if \u2200 j, (range j).1 = (range j).2 then none", "new": "if \u2203 j, (range j).1 = (range j).2 then none", "definition": "RoundedUpdate.arrange", "edit": "stops when the range is flat in one direction", "claim": "C95: one iteration in floating-point arithmetic"}, {"file": "Verif/Model/RoundedUpdate.lean", "old": "less (itemOf a) (itemOf b)", "new": "less (itemOf b) (itemOf a)", "definition": "RoundedUpdate.arrange", "edit": "sorts in the other direction", "claim": "C95: one iteration in floating-point arithmetic"}, {"file": "Verif/Model/RoundedUpdate.lean", "old": "(fun x => .inl (bodyAt out x)) (ranksOf out)", "new": "(fun x => .inl (bodyAt vec x)) (ranksOf out)", "definition": "RoundedUpdate.update", "edit": "trees of the particles before the sort", "claim": "C95: one iteration in floating-point arithmetic"}, {"file": "Verif/Model/RoundedUpdate.lean", "old": "(ranksOf out)).map fun s => (out, s)", "new": "(ranksOf out)).map fun s => (vec, s)", "definition": "RoundedUpdate.update", "edit": "sorted particles not stored", "claim": "C95: one iteration in floating-point arithmetic"}, {"file": "Verif/Model/RoundedClock.lean", "old": "if t < initialTime then initialTime else t", "new": "t", "definition": "RoundedClock.start", "edit": "first output before the initial time", "claim": "C96: the clock in floating-point arithmetic"}, {"file": "Verif/Model/RoundedClock.lean", "old": "(R.fl (initialTime / o.interval k))))", "new": "(R.fl (o.interval k / initialTime))))", "definition": "RoundedClock.start", "edit": "quotient inverted", "claim": "C96: the clock in floating-point arithmetic"}, {"file": "Verif/Model/RoundedClock.lean", "old": "min dtmin (R.fl (dt / 2)) else dt", "new": "min dtmin dt else dt", "definition": "RoundedClock.adapt", "edit": "step not halved", "claim": "C96: the clock in floating-point arithmetic"}, {"file": "Verif/Model/RoundedClock.lean", "old": "min dtmin (R.fl (dt / 2)) else dt", "new": "R.fl (dt / 2) else dt", "definition": "RoundedClock.adapt", "edit": "limit ignored when it is below half the step", "claim": "C96: the clock in floating-point arithmetic"}, {"file": "Verif/Model/RoundedClock.lean", "old": "if dtmin > R.fl (2 * dt) then R.fl (dt * 2) else dt", "new": "if dtmin > dt then R.fl (dt * 2) else dt", "definition": "RoundedClock.adapt", "edit": "doubles past the limit", "claim": "C96: the clock in floating-point arithmetic"}, {"file": "Verif/Model/RoundedClock.lean", "old": "if dtmin > R.fl (2 * dt) then R.fl (dt * 2) else dt", "new": "dt", "definition": "RoundedClock.adapt", "edit": "step never grows", "claim": "C96: the clock in floating-point arithmetic"}, {"file": "Verif/Model/RoundedClock.lean", "old": "if c.totaltime = c.t k then", "new": "if c.totaltime \u2260 c.t k then", "definition": "RoundedClock.catchUp", "edit": "output time advanced when not reached", "claim": "C96: the clock in floating-point arithmetic"}, {"file": "Verif/Model/RoundedClock.lean", "old": "dt := if c.dtSaved > 0 then c.dtSaved else c.dt, t :=", "new": "t :=", "definition": "RoundedClock.catchUp", "edit": "saved step not restored", "claim": "C96: the clock in floating-point arithmetic"}, {"file": "Verif/Model/RoundedClock.lean", "old": "(R.fl (c.t k + o.interval k))", "new": "(c.t k)", "definition": "RoundedClock.catchUp", "edit": "output time not advanced", "claim": "C96: the clock in floating-point arithmetic"}, {"file": "Verif/Model/RoundedClock.lean", "old": "dtSaved := c.dt, totaltimeNext := if", "new": "totaltimeNext := if", "definition": "RoundedClock.align", "edit": "step not saved", "claim": "C96: the clock in floating-point arithmetic"}, {"file": "Verif/Model/RoundedClock.lean", "old": "if k = .screen then c.t k else min c.totaltimeNext (c.t k)", "new": "c.totaltimeNext", "definition": "RoundedClock.align", "edit": "next time not aligned with the output", "claim": "C96: the clock in floating-point arithmetic"}, {"file": "Verif/Model/RoundedClock.lean", "old": "if R.fl (c.totaltime + c.dt) > R.fl (c.t k - R.fl (R.fl (1 / 10) * o.interval k)) then", "new": "if R.fl (c.totaltime + c.dt) > R.fl (c.t k + R.fl (R.fl (1 / 10) * o.interval k)) then", "definition": "RoundedClock.align", "edit": "tolerance on the wrong side", "claim": "C96: the clock in floating-point arithmetic"}, {"file": "Verif/Model/RoundedClock.lean", "old": "block R o .h5 (block R o .scalar (block R o .screen c))", "new": "block R o .h5 (block R o .screen c)", "definition": "RoundedClock.setAdaptive", "edit": "block of the scalar output missing", "claim": "C96: the clock in floating-point arithmetic"}, {"file": "Verif/Model/RoundedClock.lean", "old": "totaltimeNext := R.fl (c.totaltime + dt) }", "new": "totaltimeNext := c.totaltime }", "definition": "RoundedClock.setAdaptive", "edit": "next time not advanced", "claim": "C96: the clock in floating-point arithmetic"}, {"file": "Verif/Model/RoundedClock.lean", "old": "{ c with dt := R.fl (c.totaltimeNext - c.totaltime) }", "new": "c", "definition": "RoundedClock.setAdaptive", "edit": "step not set to the way of the clock", "claim": "C96: the clock in floating-point arithmetic"}, {"file": "Verif/Model/RoundedClock.lean", "old": "if adaptive then c.totaltimeNext else R.fl (c.totaltime + c.dt)", "new": "if adaptive then R.fl (c.totaltime + c.dt) else R.fl (c.totaltime + c.dt)", "definition": "RoundedClock.advance", "edit": "adaptive clock adds the step", "claim": "C96: the clock in floating-point arithmetic"}, {"file": "Verif/Model/RoundedClock.lean", "old": "if adaptive then c.totaltimeNext else R.fl (c.totaltime + c.dt)", "new": "if adaptive then c.totaltimeNext else c.totaltime", "definition": "RoundedClock.advance", "edit": "fixed clock stands still", "claim": "C96: the clock in floating-point arithmetic"}, {"file": "Verif/Model/RoundedClock.lean", "old": "iteration := c.iteration + 1, totaltime", "new": "totaltime", "definition": "RoundedClock.advance", "edit": "iteration not counted", "claim": "C96: the clock in floating-point arithmetic"}, {"file": "Verif/Model/RoundedClock.lean", "old": "(setAdaptive R o first c0)", "new": "c0", "definition": "RoundedClock.clockAt", "edit": "first call left out", "claim": "C96: the clock in floating-point arithmetic"}, {"file": "Verif/Model/AdaptRun.lean", "old": "(List.range procs).map fun p => ((List.finRange n)", "new": "(List.range (procs - 1)).map fun p => ((List.finRange n)", "definition": "AdaptRun.limits", "edit": "last process left out of the reduction", "claim": "C97: adaptive steps on several processes"}, {"file": "Verif/Model/AdaptRun.lean", "old": "filter fun a => home a = p)", "new": "filter fun a => home a = 0)", "definition": "AdaptRun.limits", "edit": "limits of the first process only", "claim": "C97: adaptive steps on several processes"}, {"file": "Verif/Model/AdaptRun.lean", "old": ".map fun a => (s a).dt", "new": ".map fun a => (s a).vsig", "definition": "AdaptRun.limits", "edit": "reduces the signal speeds", "claim": "C97: adaptive steps on several processes"}, {"file": "Verif/Model/AdaptRun.lean", "old": ".all (Timestep.computeDt (stepSettings z))", "new": ".all fun a => some { a with dt := Timestep.baseDt (stepSettings z) { a with vsig := 0 } }", "definition": "AdaptRun.stepOp", "edit": "signal speed left out of the limit", "claim": "C97: adaptive steps on several processes"}, {"file": "Verif/Model/AdaptRun.lean", "old": "firstRest z c1.dt c1.iteration ++ [stepOp z]) home1 d1 (some (home2, d2)) \u2192", "new": "firstRest z c1.dt c1.iteration) home1 d1 (some (home2, d2)) \u2192", "definition": "AdaptRun.AIter.first", "edit": "second compute_dt left out", "claim": "C97: adaptive steps on several processes"}, {"file": "Verif/Model/AdaptRun.lean", "old": "      DExec near procs (firstForces z c.dt c.iteration ++ [stepOp z]) home d (some (home1, d1)) \u2192\n      c1 = Timestep.setAdaptive z.outputs (limits procs home1 d1.val) c \u2192\n      DExec near procs (firstRest z c1.dt c1.iteration ++ [stepOp z]) home1 d1 (some (home2, d2)) \u2192", "new": "      DExec near procs (firstForces z c.dt c.iteration ++ [stepOp z]) home d (some (home1, d1)) \u2192\n      c1 = c \u2192\n      DExec near procs (firstRest z c1.dt c1.iteration ++ [stepOp z]) home1 d1 (some (home2, d2)) \u2192", "definition": "AdaptRun.AIter.first", "edit": "step not set before the energy equation of the first iteration", "claim": "C97: adaptive steps on several processes"}, {"file": "Verif/Model/AdaptRun.lean", "old": "AIter near procs z c home d (some (c, Timestep.advance true (Timestep.setAdaptive z.outputs (limits procs home2 d2.val) c), home2, d2))", "new": "AIter near procs z c home d (some (c, Timestep.advance true c, home2, d2))", "definition": "AdaptRun.AIter.next", "edit": "step not set at the end of an iteration", "claim": "C97: adaptive steps on several processes"}, {"file": "Verif/Model/AdaptRun.lean", "old": "AIter near procs z c home d (some (c, Timestep.advance true (Timestep.setAdaptive z.outputs (limits procs home2 d2.val) c), home2, d2))", "new": "AIter near procs z c home d (some (c, Timestep.setAdaptive z.outputs (limits procs home2 d2.val) c, home2, d2))", "definition": "AdaptRun.AIter.next", "edit": "time not advanced", "claim": "C97: adaptive steps on several processes"}, {"file": "Verif/Model/AdaptRun.lean", "old": "AIter near procs z c home d (some (c, Timestep.advance true (Timestep.setAdaptive z.outputs (limits procs home2 d2.val) c), home2, d2))", "new": "AIter near procs z c home d (some (c, Timestep.advance true (Timestep.setAdaptive z.outputs (limits procs home d.val) c), home2, d2))", "definition": "AdaptRun.AIter.next", "edit": "limits of the particles before the iteration", "claim": "C97: adaptive steps on several processes"}, {"file": "Verif/Model/AdaptRun.lean", "old": "AIter near procs z c home d (some (c1, Timestep.advance true (Timestep.setAdaptive z.outputs (limits procs home2 d2.val) c1), home2, d2))", "new": "AIter near procs z c home d (some (c1, Timestep.advance true (Timestep.setAdaptive z.outputs (limits procs home2 d2.val) c1), home2, d1))", "definition": "AdaptRun.AIter.first", "edit": "particles after the forces kept", "claim": "C97: adaptive steps on several processes"}, {"file": "Verif/Model/AdaptRun.lean", "old": "alphaOps z dt ++ forceOps z iteration", "new": "alphaOps z dt", "definition": "AdaptRun.firstForces", "edit": "forces left out", "claim": "C97: adaptive steps on several processes"}, {"file": "Verif/Model/AdaptRun.lean", "old": "(if z.evolve then energyOps z dt iteration z.updates else []) ++ lastOps z", "new": "lastOps z", "definition": "AdaptRun.firstRest", "edit": "energy equation left out", "claim": "C97: adaptive steps on several processes"}, {"file": "Verif/Model/AdaptRun.lean", "old": "  (if z.thermokinetic then [.all fun a => some (setTotalEnergy z.phi a)] else []) ++", "new": "", "definition": "AdaptRun.firstForces", "edit": "total energy not set", "claim": "C97: adaptive steps on several processes"}, {"file": "Verif/Model/AdaptRun.lean", "old": "ARun near procs z (N + 1) c home d ((c1, c2) :: steps) r", "new": "ARun near procs z (N + 1) c home d steps r", "definition": "AdaptRun.ARun", "edit": "(bookkeeping of the model) clocks not recorded", "claim": "C97: adaptive steps on several processes"}]
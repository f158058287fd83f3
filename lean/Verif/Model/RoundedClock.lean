import Verif.Model.Timestep
import Verif.Model.Rounding
/-!
The clock of Model/Timestep.lean with every operation rounded. Comparisons and minima are exact. The clock holds the same globals. Overflow and underflow are not modelled; the literal 1e24 is taken as it is written.
-/
namespace FleCSPH.RoundedClock
open FleCSPH.Timestep (Clock Outputs Kind truncate smallest)
open FleCSPH.Rounded (Rounding)

variable (R : Rounding)

/-- `set_initial_time_iteration`, analysis.h:220-249. The conversion of the `int64_t` to `double` rounds. -/
noncomputable def start (o : Outputs) (initialIteration : Int) (initialTime initialDt : ℝ) : Clock :=
  { iteration := initialIteration, dt := initialDt, dtSaved := 0, totaltime := initialTime, totaltimeNext := 0
    t := fun k =>
      if o.interval k > 0 then
        let t := R.fl (o.interval k * R.fl (truncate (R.fl (initialTime / o.interval k))))
        if t < initialTime then initialTime else t
      else 0 }

/-- default_physics.h:770-774. -/
noncomputable def adapt (dtmin dt : ℝ) : ℝ :=
  let dt := if dtmin < dt then min dtmin (R.fl (dt / 2)) else dt
  if dtmin > R.fl (2 * dt) then R.fl (dt * 2) else dt

open Classical in
/-- The first half of the block of one kind of output, default_physics.h:783-787, 797-801, 811-815. -/
noncomputable def catchUp (o : Outputs) (k : Kind) (c : Clock) : Clock :=
  if c.totaltime = c.t k then
    { c with dt := if c.dtSaved > 0 then c.dtSaved else c.dt, t := Function.update c.t k (R.fl (c.t k + o.interval k)) }
  else c

open Classical in
/-- The second half, default_physics.h:788-791, 802-805, 816-819. The literal 0.1 is rounded, too. -/
noncomputable def align (o : Outputs) (k : Kind) (c : Clock) : Clock :=
  if R.fl (c.totaltime + c.dt) > R.fl (c.t k - R.fl (R.fl (1 / 10) * o.interval k)) then
    { c with dtSaved := c.dt, totaltimeNext := if k = .screen then c.t k else min c.totaltimeNext (c.t k) }
  else c

/-- The block of one kind of output. -/
noncomputable def block (o : Outputs) (k : Kind) (c : Clock) : Clock :=
  if o.interval k > 0 then align R o k (catchUp R o k c) else c

/-- `set_adaptive_timestep`, default_physics.h:760-823. -/
noncomputable def setAdaptive (o : Outputs) (limits : List (List ℝ)) (c : Clock) : Clock :=
  let dt := adapt R (smallest limits) c.dt
  let c := { c with dt := dt, totaltimeNext := R.fl (c.totaltime + dt) }
  let c := block R o .h5 (block R o .scalar (block R o .screen c))
  { c with dt := R.fl (c.totaltimeNext - c.totaltime) }

/-- `advance_time`, default_physics.h:852-860. -/
noncomputable def advance (adaptive : Bool) (c : Clock) : Clock :=
  { c with iteration := c.iteration + 1, totaltime := if adaptive then c.totaltimeNext else R.fl (c.totaltime + c.dt) }

/-- The clock at the beginning of an iteration of the main loop of an adaptive run, main_driver.cc:98-279: the first
iteration calls `set_adaptive_timestep` once more (limits `first`), `rest` holds the limits at the end of each iteration. -/
noncomputable def clockAt (o : Outputs) (c0 : Clock) (first : List (List ℝ)) (rest : List (List (List ℝ))) : Clock :=
  match rest with
  | [] => c0
  | l :: ls => (l :: ls).foldl (fun c l => advance R true (setAdaptive R o l c)) (setAdaptive R o first c0)

end FleCSPH.RoundedClock

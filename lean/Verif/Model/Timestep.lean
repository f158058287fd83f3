import Verif.Model.Sph
/-!
Model of the time stepping of a run: `compute_dt`, `set_adaptive_timestep`, `advance_time`, `termination_criteria` of
include/physics/default_physics.h, `set_initial_time_iteration` and the output decisions of include/physics/analysis.h, and
their order in app/drivers/hydro/main_driver.cc. Exact real arithmetic.
-/
namespace FleCSPH.Timestep
open FleCSPH.Geometry FleCSPH.Kernels FleCSPH.Sph

variable {d : Nat}

/-- The parameters `compute_dt` uses: `sph_eta`, `kernel_width`, `timestep_cfl_factor`, `sph_viscosity_alpha`,
`evolve_internal_energy and thermokinetic_formulation`, `external_force::potential`. -/
structure Settings (d : Nat) where
  eta : ℝ
  width : ℝ
  cfl : ℝ
  alpha : ℝ
  thermokinetic : Bool
  phi : Point d → ℝ

/-- `dtmin` before the energy criterion, default_physics.h:603-627. -/
noncomputable def baseDt (c : Settings d) (a : Particle d) : ℝ :=
  let tiny := 1 / 10 ^ 24
  let dx := a.h / (c.eta * c.width)
  let dtv := dx / (magnitude a.vel + tiny)
  let dta := √(dx / (magnitude (a.acc + a.gacc) + tiny))
  let dtc := dx / (tiny + a.vsig * (1 + 6 / 10 * c.alpha))
  c.cfl * min (min dtv dta) dtc

/-- The change of potential and gravitational energy over `dt`, default_physics.h:653-654. -/
noncomputable def deltaE (c : Settings d) (a : Particle d) (dt : ℝ) : ℝ :=
  c.phi (a.pos + dt • a.vel) - c.phi a.pos + -dt * dot a.vel a.gacc

open Classical in
/-- The loop of default_physics.h:652-658; `none` when it does not end within the iterations left. -/
noncomputable def shrink (c : Settings d) (a : Particle d) : Nat → ℝ → Option ℝ
  | 0, _ => none
  | k + 1, dt => if deltaE c a dt < a.u * (1 / 2) then some dt else shrink c a k (dt * (1 / 4))

open Classical in
/-- `compute_dt`, default_physics.h:602-695; `none` is a failed assertion. -/
noncomputable def computeDt (c : Settings d) (a : Particle d) : Option (Particle d) :=
  if c.thermokinetic then
    if 0 < a.u then (shrink c a 20 (baseDt c a)).map fun dt => { a with dt := dt } else none
  else some { a with dt := baseDt c a }

/-- The three kinds of output: screen, scalar reductions, particle data. -/
inductive Kind
  | screen | scalar | h5
deriving DecidableEq

/-- The globals of default_physics.h:31-39; `t` holds `t_screen_output`, `t_scalar_output`, `t_h5data_output`. -/
structure Clock where
  iteration : Int
  dt : ℝ
  dtSaved : ℝ
  totaltime : ℝ
  totaltimeNext : ℝ
  t : Kind → ℝ

/-- `out_screen_dt`, `out_scalar_dt`, `out_h5data_dt` and `out_screen_every`, ... -/
structure Outputs where
  interval : Kind → ℝ
  every : Kind → Int

/-- `(int64_t)x`: truncation towards zero. -/
noncomputable def truncate (x : ℝ) : Int := if 0 ≤ x then ⌊x⌋ else ⌈x⌉

/-- `set_initial_time_iteration`, analysis.h:220-249. -/
noncomputable def start (o : Outputs) (initialIteration : Int) (initialTime initialDt : ℝ) : Clock :=
  { iteration := initialIteration, dt := initialDt, dtSaved := 0, totaltime := initialTime, totaltimeNext := 0
    t := fun k =>
      if o.interval k > 0 then
        let t := o.interval k * truncate (initialTime / o.interval k)
        if t < initialTime then initialTime else t
      else 0 }

/-- The smallest limit of the particles, default_physics.h:762-768: one list per process, `reduce_min` over the processes. -/
noncomputable def smallest (limits : List (List ℝ)) : ℝ :=
  (limits.map fun l => l.foldl min (10 ^ 24)).foldl min (10 ^ 24)

/-- default_physics.h:770-774. -/
noncomputable def adapt (dtmin dt : ℝ) : ℝ :=
  let dt := if dtmin < dt then min dtmin (dt / 2) else dt
  if dtmin > 2 * dt then dt * 2 else dt

open Classical in
/-- The first half of the block of one kind of output, default_physics.h:782-786, 795-799, 808-812. -/
noncomputable def catchUp (o : Outputs) (k : Kind) (c : Clock) : Clock :=
  if c.totaltime = c.t k then
    { c with dt := if c.dtSaved > 0 then c.dtSaved else c.dt, t := Function.update c.t k (c.t k + o.interval k) }
  else c

open Classical in
/-- The second half, default_physics.h:787-790, 800-803, 813-816: the screen block takes the output time, the others the
smaller of the two. -/
noncomputable def align (o : Outputs) (k : Kind) (c : Clock) : Clock :=
  if c.totaltime + c.dt > c.t k - 1 / 10 * o.interval k then
    { c with dtSaved := c.dt, totaltimeNext := if k = .screen then c.t k else min c.totaltimeNext (c.t k) }
  else c

/-- The block of one kind of output. -/
noncomputable def block (o : Outputs) (k : Kind) (c : Clock) : Clock :=
  if o.interval k > 0 then align o k (catchUp o k c) else c

/-- `set_adaptive_timestep`, default_physics.h:760-822. -/
noncomputable def setAdaptive (o : Outputs) (limits : List (List ℝ)) (c : Clock) : Clock :=
  let dt := adapt (smallest limits) c.dt
  let c := { c with dt := dt, totaltimeNext := c.totaltime + dt }
  let c := block o .h5 (block o .scalar (block o .screen c))
  { c with dt := c.totaltimeNext - c.totaltime }

/-- `advance_time`, default_physics.h:852-860. -/
noncomputable def advance (adaptive : Bool) (c : Clock) : Clock :=
  { c with iteration := c.iteration + 1, totaltime := if adaptive then c.totaltimeNext else c.totaltime + c.dt }

/-- `termination_criteria`, default_physics.h:865-872. -/
noncomputable def terminate (finalIteration : Int) (finalTime : ℝ) (c : Clock) : Prop :=
  (finalIteration > 0 ∧ c.iteration > finalIteration) ∨ (finalTime > 0 ∧ c.totaltime > finalTime)

/-- Whether an output routine writes, analysis.h:261-270, 300-309, 416-425. -/
def due (o : Outputs) (k : Kind) (c : Clock) : Prop :=
  if o.interval k > 0 then ¬ c.totaltime < c.t k else ¬ o.every k ≤ 0 ∧ c.iteration.tmod (o.every k) = 0

/-- The clock at the beginning of an iteration of the main loop of an adaptive run, main_driver.cc:98-279: the first
iteration calls `set_adaptive_timestep` once more (limits `first`), `rest` holds the limits at the end of each iteration. -/
noncomputable def clockAt (o : Outputs) (c0 : Clock) (first : List (List ℝ)) (rest : List (List (List ℝ))) : Clock :=
  match rest with
  | [] => c0
  | l :: ls => (l :: ls).foldl (fun c l => advance true (setAdaptive o l c)) (setAdaptive o first c0)

/-- The clock the scalar and data outputs of that iteration see: in the first iteration the time step has been set already. -/
noncomputable def clockMid (o : Outputs) (c0 : Clock) (first : List (List ℝ)) (rest : List (List (List ℝ))) : Clock :=
  match rest with
  | [] => setAdaptive o first c0
  | l :: ls => clockAt o c0 first (l :: ls)

end FleCSPH.Timestep

import Verif.Model.Driver
/-!
Model of what a snapshot holds and of a restart from it: `outputDataHDF5` and `inputDataHDF5` of mpisph/io.h:640-1080, without the file
format, and the order of `set_initial_time_iteration` and `read_bodies` in app/drivers/hydro/main_driver.cc:67, 94.
-/
namespace FleCSPH.Driver
open FleCSPH.Geometry FleCSPH.Sph

variable {i : Fin 3} {n : Nat}

/-- The fields of a particle which are written and read back, io.h:843-858: x, vx, m, rho, h, P, u, id, dt. (`type` and `state` are not in the
model.) The further fields written (accelerations, alpha, ...) are not read. -/
structure Record (d : Nat) where
  id : Nat
  mass : ℝ
  h : ℝ
  pos : Point d
  vel : Point d
  rho : ℝ
  P : ℝ
  u : ℝ
  dt : ℝ

/-- A snapshot: the attributes `time`, `iteration`, `timestep` of the step, io.h:911-914, and the particles. -/
structure Snapshot (i : Fin 3) (n : Nat) where
  time : ℝ
  iteration : Int
  timestep : ℝ
  parts : Fin n → Record (i + 1)

/-- What is written for a particle, io.h:916-1050. -/
def record {d : Nat} (a : Particle d) : Record d := ⟨a.id, a.mass, a.h, a.pos, a.vel, a.rho, a.P, a.u, a.dt⟩

/-- `outputDataHDF5`, io.h:875-914; called between the update of the smoothing lengths and the new time step, main_driver.cc:260. -/
def save (st : State i n) : Snapshot i n := ⟨st.clock.totaltime, st.clock.iteration, st.clock.dt, fun a => record (st.parts a)⟩

/-- A particle read from a snapshot; the other fields are zero after `bodies.resize`. -/
def unrecord {d : Nat} (r : Record d) : Particle d :=
  { id := r.id, mass := r.mass, h := r.h, pos := r.pos, vel := r.vel, vhalf := 0, acc := 0, gacc := 0, gpot := 0, rho := r.rho, P := r.P, cs := 0,
    alpha := 0, u := r.u, e := 0, dudt := 0, dedt := 0, K := 0, divv := 0, ddivvdt := 0, vsig := 0, dt := r.dt, ye := 0 }

/-- The state a run starts from when `initial_iteration` is the iteration of the snapshot and not 0: `set_initial_time_iteration` with the
parameters `initial_time` and `initial_dt`, then `read_bodies`, which overwrites time and time step, io.h:818-838. -/
noncomputable def load (z : Config i) (initialTime initialDt : ℝ) (f : Snapshot i n) : State i n :=
  ⟨{ Timestep.start z.outputs f.iteration initialTime initialDt with dt := f.timestep, totaltime := f.time }, fun a => unrecord (f.parts a)⟩

/-- The state the output of an iteration sees, main_driver.cc:98-256. -/
noncomputable def outputState (z : Config i) (w : Schedule i n) (st : State i n) : Option (State i n) :=
  (if st.clock.iteration = z.initialIteration then firstBranch z w st else nextBranch z w st).map fun st => ⟨st.clock, updateH z st.parts⟩

end FleCSPH.Driver

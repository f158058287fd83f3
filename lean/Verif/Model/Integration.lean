import Verif.Model.Sph
/-! Model of include/physics/integration.h, in exact real arithmetic. `dt` is the global `physics::dt`. -/
namespace FleCSPH.Integration
open FleCSPH.Geometry FleCSPH.Sph

variable {d : Nat}

/-- `save_velocityhalf`, integration.h:53-56. -/
def saveVelocityhalf (a : Particle d) : Particle d := { a with vhalf := a.vel }

/-- `leapfrog_kick_v`, integration.h:66-71. -/
noncomputable def kickV (dt : ℝ) (a : Particle d) : Particle d := { a with vel := a.vel + (1 / 2 * dt) • (a.acc + a.gacc) }

/-- `leapfrog_kick_u`, integration.h:81-85. -/
noncomputable def kickU (dt : ℝ) (a : Particle d) : Particle d := { a with u := a.u + 1 / 2 * dt * a.dudt }

/-- `leapfrog_kick_e`, integration.h:95-99. -/
noncomputable def kickE (dt : ℝ) (a : Particle d) : Particle d := { a with e := a.e + 1 / 2 * dt * a.dedt }

/-- `leapfrog_drift`, integration.h:107-111. -/
noncomputable def drift (dt : ℝ) (a : Particle d) : Particle d := { a with pos := a.pos + dt • a.vel }

end FleCSPH.Integration

import Verif.Model.Boundary
import Verif.Model.DistRun
/-!
Model of the main loop of the hydro driver, app/drivers/hydro/main_driver.cc:98-279, with periodic boundaries, on several processes, for a fixed time step, in exact real arithmetic: the calls of an iteration
(Model/DistRun.lean) act on the particles and their ghosts alike, and `update_iteration` replaces the ghosts (Model/Boundary.lean). The construction of the box is left out; it is undefined in one and two
dimensions (`C24_box_violated`).
-/
namespace FleCSPH.PeriodicRun
open FleCSPH.Geometry FleCSPH.Sph FleCSPH.Driver FleCSPH.DistRun

variable {i : Fin 3} {d : Nat}

/-- A particle and its type: whether `getType() == WALL`. -/
abbrev Typed (d : Nat) := Bool × Particle d

/-- What the periodic boundary looks at. -/
def toBody (x : Typed d) : Boundary.Body d (Particle d) := ⟨x.2.id, x.1, x.2.pos, x.2⟩

/-- The particle with the new id, position and type. -/
def ofBody (b : Boundary.Body d (Particle d)) : Typed d := (b.wall, { b.rest with id := b.id.toNat, pos := b.pos })

open Classical in
/-- `getSmoothinglength`, bodies_system.h:112-124. -/
noncomputable def largestH (ranks : List (List (Boundary.Body d (Particle d)))) : ℝ :=
  (ranks.map fun l => l.foldl (fun s b => if s < b.rest.h then b.rest.h else s) 0).foldl max 0

/-- The periodic part of `update_iteration`, bodies_system.h:160-170, on the particles of all processes: old ghosts are removed, and the new ones lie in a halo of 2.5 times the largest smoothing length. -/
noncomputable def regenerate (sides : Fin (i + 1) → ℝ) (periodic : Fin (i + 1) → Bool) (ranks : List (List (Typed (i + 1)))) : Option (List (List (Typed (i + 1)))) :=
  ((ranks.map fun l => l.map toBody).mapM Boundary.clean).bind fun c =>
    (Boundary.generate i ⟨sides, periodic, 5 / 2 * largestH c⟩ c).map fun out => out.map fun l => l.map ofBody

/-- The particles of all processes: their number, which of them are ghosts, their homes and their data. -/
structure PState (i : Fin 3) where
  n : Nat
  wall : Fin n → Bool
  home : Fin n → Nat
  data : DState (Particle (i + 1)) n

/-- `entities_` of all processes. -/
def PState.ranks (procs : Nat) (σ : PState i) : List (List (Typed (i + 1))) :=
  (List.range procs).map fun p => ((List.finRange σ.n).filter fun a => σ.home a = p).map fun a => (σ.wall a, σ.data.val a)

/-- The particles which are not ghosts. -/
def PState.reals (σ : PState i) : List (Particle (i + 1)) := ((List.finRange σ.n).filter fun a => !σ.wall a).map σ.data.val

/-- A list of calls on `procs` processes with periodic boundaries which ends without a failed assertion. `ok` is what is assumed of the particles whenever `update_iteration` is called. In
`update_iteration`, bodies_system.h:152-262, the ghosts are made, the particles are distributed (C19) and the tree is built: any order and any distribution of the particles may come out, and no old copies are left. -/
inductive PExec (near : ∀ n : Nat, (Fin n → Particle (i + 1)) → (Fin n → List (Fin n)) → Prop) (ok : PState i → Prop) (sides : Fin (i + 1) → ℝ)
    (periodic : Fin (i + 1) → Bool) (procs : Nat) : List (Op (Particle (i + 1))) → PState i → PState i → Prop
  | nil {σ} : PExec near ok sides periodic procs [] σ σ
  | step {o ops σ home d τ} : (∀ h : o = .update, False) → DExec (near σ.n) procs [o] σ.home σ.data (some (home, d)) → PExec near ok sides periodic procs ops ⟨σ.n, σ.wall, home, d⟩ τ →
      PExec near ok sides periodic procs (o :: ops) σ τ
  | update {ops σ out τ υ} : ok σ → regenerate sides periodic (σ.ranks procs) = some out → (List.ofFn fun a => (τ.wall a, τ.data.val a)).Perm out.flatten → (∀ a, τ.home a < procs) →
      (∀ p b x, τ.data.copy p b = some x → x = τ.data.val b) → τ.data.flight = [] → PExec near ok sides periodic procs ops τ υ → PExec near ok sides periodic procs (.update :: ops) σ υ

/-- A run of several iterations with `adaptive_timestep` off, main_driver.cc:98-277. -/
inductive PRun (near : ∀ n : Nat, (Fin n → Particle (i + 1)) → (Fin n → List (Fin n)) → Prop) (ok : PState i → Prop) (sides : Fin (i + 1) → ℝ)
    (periodic : Fin (i + 1) → Bool) (procs : Nat) (z : Config i) : Nat → Timestep.Clock → PState i → PState i → Prop
  | nil {c σ} : PRun near ok sides periodic procs z 0 c σ σ
  | cons {N c σ τ υ} : PExec near ok sides periodic procs (iterationOps z c) σ τ → PRun near ok sides periodic procs z N (Timestep.advance false c) τ υ → PRun near ok sides periodic procs z (N + 1) c σ υ

end FleCSPH.PeriodicRun

import Verif.Model.Sph
import Verif.Model.Conservation
/-!
Model of the scalar reductions and of the line `scalar_output` writes, include/physics/analysis.h:50-215, 297-405, and of the diagnostics, include/diagnostic.h, on several processes, in exact real
arithmetic. The data of the processes is the list of their local particles, `bs.get_all`, bodies_system.h:335-338; the global variables are the same on all processes after a reduction.
-/
namespace FleCSPH.Reductions
open FleCSPH.Geometry FleCSPH.Sph FleCSPH.Conservation
noncomputable section

/-- A local particle: `type() == WALL` (periodic copies and walls) or not, body.h:35, 84. -/
structure Body (d : Nat) where
  wall : Bool
  data : Particle d

variable {d : Nat}

/-- The loop of a reduction over the local particles, analysis.h:58-62: other types than `NORMAL` are left out. -/
def localSum (f : Particle d → ℝ) (l : List (Body d)) : ℝ := l.foldl (fun s b => if b.wall then s else s + f b.data) 0

/-- `reduce_sum`, mpisph/utils.h:256-276: `MPI_Allreduce` with `MPI_SUM`, the values of all processes. -/
def reduceSum (l : List ℝ) : ℝ := l.foldl (· + ·) 0

/-- `compute_total_mass`, analysis.h:72-81. -/
def totalMass (procs : List (List (Body d))) : ℝ := reduceSum (procs.map (localSum fun a => a.mass))

/-- `compute_total_momentum`, analysis.h:55-64. -/
def totalMomentum (procs : List (List (Body d))) : Point d := fun j => reduceSum (procs.map (localSum fun a => a.mass * a.vel j))

/-- `compute_total_energy`, analysis.h:88-125; `phi` is `external_force::potential`. -/
def totalEnergy (thermokinetic fmm : Bool) (phi : Point d → ℝ) (procs : List (List (Body d))) : ℝ :=
  reduceSum (procs.map fun l =>
    (if thermokinetic then localSum (fun a => a.mass * a.e) l else localSum (fun a => a.mass * (1 / 2 * dot a.vel a.vel + a.u + phi a.pos)) l) +
    (if fmm then localSum (fun a => 1 / 2 * a.gpot * a.mass) l else 0))

/-- `compute_total_kinetic_energy`, analysis.h:132-145. -/
def totalKinetic (procs : List (List (Body d))) : ℝ := reduceSum (procs.map (localSum fun a => 1 / 2 * a.mass * dot a.vel a.vel))

/-- `compute_total_internal_energy`, analysis.h:151-162. -/
def totalInternal (procs : List (List (Body d))) : ℝ := reduceSum (procs.map (localSum fun a => a.mass * a.u))

/-- `compute_total_gravitational_energy`, analysis.h:168-181. -/
def totalGravitational (procs : List (List (Body d))) : ℝ := reduceSum (procs.map fun l => localSum (fun a => a.gpot * a.mass) l * (1 / 2))

/-- Component of a point; 0 if there is none. -/
def comp (p : Point d) (k : Nat) : ℝ := if h : k < d then p ⟨k, h⟩ else 0

/-- One component of `compute_total_ang_mom`. -/
def angular (procs : List (List (Body d))) (j k : Nat) : ℝ := reduceSum (procs.map (localSum fun a => a.mass * (comp a.pos j * comp a.vel k - comp a.pos k * comp a.vel j)))

/-- `compute_total_ang_mom`, analysis.h:188-215, the components which are written, analysis.h:388-394. -/
def angularList (procs : List (List (Body d))) : List ℝ :=
  if d = 2 then [angular procs 0 1] else if d = 3 then [angular procs 1 2, angular procs 2 0, angular procs 0 1] else []

/-- The parameters used, params.h. -/
structure Setting (d : Nat) where
  thermokinetic : Bool
  /-- `enable_fmm` -/
  fmm : Bool
  /-- `evolve_internal_energy` -/
  evolve : Bool
  phi : Point d → ℝ

/-- The line of `scalar_output`, analysis.h:317-324, 375-404; `root` is `root_node()->coordinates()`. -/
def scalarRow (z : Setting d) (iteration : Nat) (time dt : ℝ) (root : Point d) (procs : List (List (Body d))) : Scalars where
  iteration := iteration
  time := time
  dt := dt
  mass := totalMass procs
  energy := totalEnergy z.thermokinetic z.fmm z.phi procs
  kinetic := totalKinetic procs
  internal := if z.fmm && !z.evolve then totalGravitational procs else totalInternal procs
  momentum := List.ofFn (totalMomentum procs)
  angular := angularList procs
  root := if d = 3 then List.ofFn root else []

/-- The names of the columns in the header, analysis.h:331-369. -/
def columns (z : Setting d) : List String :=
  if d = 1 then ["iteration", "time", "timestep", "total_mass", "total_energy", "kinetic_energy", "internal_energy", "mom_x"]
  else if d = 2 then ["iteration", "time", "timestep", "total_mass", "total_energy", "kinetic_energy", "internal_energy", "mom_x", "mom_y", "and_mom_z"]
  else if z.fmm && !z.evolve then ["iteration", "time", "timestep", "total_mass", "total_energy", "kinetic_energy", "gravitational_energy", "mom_x", "mom_y", "mom_z", "ang_mom_x", "ang_mom_y", "ang_mom_z",
    "com_x", "com_y", "com_z"]
  else ["iteration", "time", "timestep", "total_mass", "total_energy", "kinetic_energy", "internal_energy", "mom_x", "mom_y", "mom_z", "ang_mom_x", "ang_mom_y", "ang_mom_z", "com_x", "com_y", "com_z"]

/-! ### Diagnostics -/

/-- A local particle of the diagnostics: `getNeighbors()`, `radius()`, `magnitude(getVelocity())`. Particles of all types are counted. -/
structure Item where
  neighbors : Nat
  h : ℝ
  speed : ℝ

/-- `compute_neighbors_stats`, diagnostic.h:46-66: `(N_min, N_max, N_average)` from the value `N_max` had before on each process; `bodies[0]` of a process without particles is undefined behaviour, and so
is the division by zero. Sums stay below 2^63. -/
def neighborStats (prev : List Nat) (procs : List (List Item)) (total : Nat) : Option (Nat × Nat × Nat) :=
  if total = 0 then none
  else (procs.mapM fun (l : List Item) => l.head?.map fun b => l.foldl (fun s x => min s x.neighbors) b.neighbors).bind fun mins =>
    match mins with
    | [] => none
    | m :: ms => some (ms.foldl min m, (List.zipWith (fun p l => l.foldl (fun s x => max s x.neighbors) p) prev procs).foldl max 0,
        (procs.map fun l => l.foldl (fun s x => s + x.neighbors) 0).foldl (· + ·) 0 / total)

/-- `std::numeric_limits<double>::max()` -/
def dblMax : ℝ := (2 - 1 / 2 ^ 52) * 2 ^ 1023
/-- `std::numeric_limits<double>::min()`, the smallest positive normal number -/
def dblMin : ℝ := 1 / 2 ^ 1022

/-- `compute_smoothinglength_stats`, diagnostic.h:73-89: `(h_min, h_max, h_average)`. -/
def smoothingStats (procs : List (List Item)) (total : Nat) : ℝ × ℝ × ℝ :=
  ((procs.map fun l => l.foldl (fun s x => min x.h s) dblMax).foldl min dblMax, (procs.map fun l => l.foldl (fun s x => max x.h s) dblMin).foldl max dblMin,
    reduceSum (procs.map fun l => l.foldl (fun s x => s + x.h) 0) / total)

/-- `compute_velocity_stats`, diagnostic.h:94-107: `(V_min, V_max, V_average)` of one process. There is no reduction. -/
def velocityStats (l : List Item) (total : Nat) : ℝ × ℝ × ℝ :=
  (l.foldl (fun s x => min x.speed s) dblMax, l.foldl (fun s x => max x.speed s) dblMin, l.foldl (fun s x => s + x.speed) 0 / total)

/-- The line of `diagnostic::output`, diagnostic.h:120-152. -/
structure Line where
  h : ℝ × ℝ × ℝ
  /-- `(N_min, N_max, N_average)` -/
  N : Nat × Nat × Nat
  /-- `(V_min, V_max, V_average)` -/
  V : ℝ × ℝ × ℝ

/-- `diagnostic::output` at an iteration at which it is due, diagnostic.h:112-160: rank 0 writes. `nmax` is the value of `N_max`, which is a global variable, the same on all processes; initially 0. -/
def diagnose (nmax : Nat) (procs : List (List Item)) (total : Nat) : Option (Line × Nat) :=
  match procs with
  | [] => none
  | l :: _ => (neighborStats (List.replicate procs.length nmax) procs total).map fun n => (⟨smoothingStats procs total, n, velocityStats l total⟩, n.2.1)

/-- The lines written in the course of a run: one per output. -/
def diagnoseAll (nmax : Nat) : List (List (List Item) × Nat) → Option (List Line)
  | [] => some []
  | (procs, total) :: rest => (diagnose nmax procs total).bind fun r => (diagnoseAll r.2 rest).map (r.1 :: ·)

end
end FleCSPH.Reductions

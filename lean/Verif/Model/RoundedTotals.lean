import Verif.Model.Rounding
import Verif.Model.Reductions
/-!
The scalar reductions in floating-point arithmetic: the functions of Model/Reductions.lean again, with the result of every operation rounded (see Model/Rounding.lean). The value of the external potential is
taken as it is returned.
-/
namespace FleCSPH.Rounded
open FleCSPH.Geometry FleCSPH.Sph FleCSPH.Conservation FleCSPH.Reductions
noncomputable section

variable {d : Nat} (R : Rounding)

/-- `flecsi::dot`, space_vector.h:106-116. -/
def rdot (v w : Point d) : ℝ := (List.finRange d).foldl (fun s j => R.fl (s + R.fl (v j * w j))) 0

/-- The loop of a reduction over the local particles from the value `s`, analysis.h:58-62: other types than `NORMAL` are left out. -/
def localFrom (f : Particle d → ℝ) (s : ℝ) (l : List (Reductions.Body d)) : ℝ := l.foldl (fun s b => if b.wall then s else R.fl (s + f b.data)) s

/-- `MPI_Allreduce` with `MPI_SUM`: the values `f` of the processes are added in some order and with some brackets, which the implementation chooses. `Combined R f l x`: `x` is a possible sum of the
values of the processes `l`. -/
inductive Combined {ι : Type} (f : ι → ℝ) : List ι → ℝ → Prop
  | one (i : ι) : Combined f [i] (f i)
  | add {l m : List ι} {x y : ℝ} : Combined f l x → Combined f m y → Combined f (l ++ m) (R.fl (x + y))
  | order {l m : List ι} {x : ℝ} : l.Perm m → Combined f l x → Combined f m x

/-- `reduce_sum`, mpisph/utils.h:254-257, 273-276, of what each process finds in its particles: the possible results. -/
def ReduceSum (g : List (Reductions.Body d) → ℝ) (procs : List (List (Reductions.Body d))) (x : ℝ) : Prop := Combined R (fun i : Fin procs.length => g procs[i]) (List.finRange procs.length) x

/-- `compute_total_mass`, analysis.h:72-81, on a process. -/
def massOn (l : List (Reductions.Body d)) : ℝ := localFrom R (fun a => a.mass) 0 l

/-- `compute_total_momentum`, analysis.h:55-64, on a process. -/
def momentumOn (j : Fin d) (l : List (Reductions.Body d)) : ℝ := localFrom R (fun a => R.fl (a.mass * a.vel j)) 0 l

/-- `compute_total_energy`, analysis.h:88-125, on a process. -/
def energyOn (thermokinetic fmm : Bool) (phi : Point d → ℝ) (l : List (Reductions.Body d)) : ℝ :=
  let s := if thermokinetic then localFrom R (fun a => R.fl (a.mass * a.e)) 0 l
    else localFrom R (fun a => R.fl (a.mass * R.fl (R.fl (R.fl (1 / 2 * rdot R a.vel a.vel) + a.u) + phi a.pos))) 0 l
  if fmm then localFrom R (fun a => R.fl (R.fl (1 / 2 * a.gpot) * a.mass)) s l else s

/-- `compute_total_kinetic_energy`, analysis.h:132-145, on a process. -/
def kineticOn (l : List (Reductions.Body d)) : ℝ := localFrom R (fun a => R.fl (R.fl (1 / 2 * a.mass) * rdot R a.vel a.vel)) 0 l

/-- `compute_total_internal_energy`, analysis.h:151-162, on a process. -/
def internalOn (l : List (Reductions.Body d)) : ℝ := localFrom R (fun a => R.fl (a.mass * a.u)) 0 l

/-- `compute_total_gravitational_energy`, analysis.h:168-181, on a process. -/
def gravitationalOn (l : List (Reductions.Body d)) : ℝ := R.fl (localFrom R (fun a => R.fl (a.gpot * a.mass)) 0 l * (1 / 2))

/-- One component of `compute_total_ang_mom`, analysis.h:188-215, on a process. -/
def angularOn (j k : Nat) (l : List (Reductions.Body d)) : ℝ :=
  localFrom R (fun a => R.fl (a.mass * R.fl (R.fl (comp a.pos j * comp a.vel k) - R.fl (comp a.pos k * comp a.vel j)))) 0 l

/-- The axes of the components of the angular momentum which are written, analysis.h:388-394. -/
def planes (d : Nat) : List (Nat × Nat) := if d = 2 then [(0, 1)] else if d = 3 then [(1, 2), (2, 0), (0, 1)] else []

/-- A line `scalar_output` may write, analysis.h:317-324, 375-404; `print` is the rounding of a number to the 13 digits of `std::setprecision(12)` in scientific notation, analysis.h:377; the iteration is
an integer; `root` is `root_node()->coordinates()`. -/
structure RowWritten (print : ℝ → ℝ) (z : Setting d) (iteration : Nat) (time dt : ℝ) (root : Point d) (procs : List (List (Reductions.Body d))) (row : Scalars) : Prop where
  iteration : row.iteration = iteration
  time : row.time = print time
  dt : row.dt = print dt
  mass : ∃ x, ReduceSum R (massOn R) procs x ∧ row.mass = print x
  energy : ∃ x, ReduceSum R (energyOn R z.thermokinetic z.fmm z.phi) procs x ∧ row.energy = print x
  kinetic : ∃ x, ReduceSum R (kineticOn R) procs x ∧ row.kinetic = print x
  internal : ∃ x, ReduceSum R (if z.fmm && !z.evolve then gravitationalOn R else internalOn R) procs x ∧ row.internal = print x
  momentum : List.Forall₂ (fun j y => ∃ x, ReduceSum R (momentumOn R j) procs x ∧ y = print x) (List.finRange d) row.momentum
  angular : List.Forall₂ (fun (p : Nat × Nat) y => ∃ x, ReduceSum R (angularOn R p.1 p.2) procs x ∧ y = print x) (planes d) row.angular
  root : row.root = if d = 3 then List.ofFn fun j => print (root j) else []

end
end FleCSPH.Rounded

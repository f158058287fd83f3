import Verif.Model.Geometry
import Mathlib.Analysis.SpecialFunctions.Complex.Arg
import Mathlib.Analysis.SpecialFunctions.Trigonometric.Inverse
import Mathlib.Analysis.SpecialFunctions.Pow.Real
/-!
Model of the weighted Voronoi relaxation, include/physics/wvt.h and app/drivers/wvt/main_driver.cc, in exact real arithmetic. `i : Fin 3` stands for `gdimension - 1`. A division by zero is
`none`.
-/
namespace FleCSPH.Wvt
open FleCSPH.Geometry
noncomputable section

/-- `magnitude`, space_vector.h:121-132 (in one dimension the absolute value, which is the same). -/
def mag {d : Nat} (p : Point d) : ℝ := √(∑ j, p j * p j)

/-- `dot`, space_vector.h:103-115. -/
def dot {d : Nat} (p q : Point d) : ℝ := ∑ j, p j * q j

/-- `atan2(y, x)`: the angle of the point in (-π, π], 0 at the origin. -/
def atan2 (y x : ℝ) : ℝ := Complex.arg ⟨x, y⟩

/-- `cartesian_to_spherical` in one dimension, wvt.h:124-129. -/
def toSpherical1 (p : Point 1) : Point 1 := ![mag p]

/-- In two dimensions, wvt.h:124-125, 130-133. -/
def toSpherical2 (p : Point 2) : Point 2 := ![mag p, atan2 (p 1) (p 0)]

open Classical in
/-- In three dimensions, wvt.h:124-125, 134-138. -/
def toSpherical3 (p : Point 3) : Option (Point 3) :=
  if mag p = 0 then none else some ![mag p, atan2 (p 1) (p 0), Real.arccos (p 2 / mag p)]

/-- `cartesian_to_spherical`, wvt.h:122-140. -/
def toSpherical : (i : Fin 3) → Point (i + 1) → Option (Point (i + 1))
  | 0, p => some (toSpherical1 p)
  | 1, p => some (toSpherical2 p)
  | 2, p => toSpherical3 p

/-- `spherical_to_cartesian`, wvt.h:148-166. -/
def toCartesian : (i : Fin 3) → Point (i + 1) → Point (i + 1)
  | 0, s => (![s (0 : Fin 1)] : Point 1)
  | 1, s => (![s (0 : Fin 2) * Real.cos (s (1 : Fin 2)), s (0 : Fin 2) * Real.sin (s (1 : Fin 2))] : Point 2)
  | 2, s =>
    (![s (0 : Fin 3) * Real.sin (s (2 : Fin 3)) * Real.cos (s (1 : Fin 3)), s (0 : Fin 3) * Real.sin (s (2 : Fin 3)) * Real.sin (s (1 : Fin 3)),
      s (0 : Fin 3) * Real.cos (s (2 : Fin 3))] : Point 3)

open Classical in
/-- `remove_radial_acc`, wvt.h:176-182. -/
def removeRadialAcc {d : Nat} (pos acc : Point d) : Option (Point d) :=
  if mag pos = 0 then none
  else
    let n : Point d := fun j => 1 / mag pos * pos j
    some fun j => 2 * (acc j - dot n acc * n j)

/-- The step size, wvt.h:510-518: after the final iteration it decreases from a tenth to zero during the cool down. -/
def stepSize (mu : ℝ) (final coolDown iteration : Int) : Option ℝ :=
  if iteration > final then
    if coolDown = 0 then none else some (max (-(1 / 10) * mu / (coolDown : ℝ) * ((iteration - final : Int) : ℝ) + 1 / 10 * mu) 0)
  else some mu

/-- The position after a step of size `m`, wvt.h:521. -/
def moved {d : Nat} (x a : Point d) (m : ℝ) : Point d := fun j => x j + m * a j

open Classical in
/-- The loop which halves the step, wvt.h:529-536; `none` when the fuel is used up. -/
def shrink {d : Nat} (b : ℝ) (x a : Point d) : Nat → ℝ → Option ℝ
  | 0, _ => none
  | fuel + 1, m => if mag (moved x a m) / b > 101 / 100 ∧ m > 1 / 10 ^ 10 then shrink b x a fuel (m * (1 / 2)) else some m

/-- `rs[0] = rs[0] - 2.0 * (rs[0] - boundary)`, wvt.h:544. -/
def mirror {d : Nat} (b : ℝ) (s : Point (d + 1)) : Point (d + 1) := Function.update s 0 (s 0 - 2 * (s 0 - b))

open Classical in
/-- The new position computed by `wvt_displacement`, wvt.h:520-547, for a step size. -/
def displace (i : Fin 3) (b : ℝ) (x a : Point (i + 1)) (mu : ℝ) (fuel : Nat) : Option (Point (i + 1)) :=
  if b = 0 then none
  else
    (shrink b x a fuel mu).bind fun m =>
      if mag (moved x a m) / b ≥ 1 then (toSpherical i (moved x a m)).bind fun s => some (toCartesian i (mirror b s)) else some (moved x a m)

/-- The volume of a ball of radius `h`: 2h, πh², 4πh³/3, wvt.h:366, 375, 384 and 369, 378, 387. -/
def ball : Fin 3 → ℝ → ℝ
  | 0, h => 2 * h
  | 1, h => Real.pi * (h * h)
  | 2, h => Real.pi * 4 * (h * h * h) / 3

/-- The root which turns a ratio of volumes into a ratio of lengths, wvt.h:370, 379, 388. -/
def root : Fin 3 → ℝ → ℝ
  | 0, v => v
  | 1, v => √v
  | 2, v => v ^ ((1 : ℝ) / 3)

/-- `mpi_utils::reduce_sum` of the sum of a quantity over the particles of each process. -/
def reduceSum {α : Type} (ranks : List (List α)) (f : α → ℝ) : ℝ := (ranks.map fun l => (l.map f).sum).sum

open Classical in
/-- `compute_smoothinglength_wvt`, wvt.h:358-396, on the smoothing lengths of the particles of all processes. -/
def rescale (i : Fin 3) (b ngb : ℝ) (ranks : List (List ℝ)) : Option (List (List ℝ)) :=
  if reduceSum ranks (ball i) = 0 then none else some (ranks.map fun l => l.map fun h => h * root i (ball i b * ngb / reduceSum ranks (ball i)))

open Classical in
/-- `check_convergence_wvt`, wvt.h:405-467, on the acceleration and the smoothing length of the particles of all processes: whether `wvt_converged` is set. The other four counters are only
computed. -/
def checkConvergence (i : Fin 3) (mu ngb point : ℝ) (ranks : List (List (Point (i + 1) × ℝ))) (converged : Bool) : Option Bool :=
  let nbs : Nat := (ranks.map List.length).sum
  let cnt : Nat := (ranks.map fun l => (l.filter fun q => decide (mag (fun j => mu * q.1 j) > 1 / 1000 * ((1 / ngb) ^ ((1 : ℝ) / ((i : ℝ) + 1)) * q.2))).length).sum
  if nbs = 0 ∨ ngb = 0 then none else some (if (cnt : ℝ) * 100 / (nbs : ℝ) < point then true else converged)

end

/-- What an iteration of the driver does, app/drivers/wvt/main_driver.cc:122-233. -/
inductive Step
  | initial | relax | cool
  deriving DecidableEq

/-- An iteration as seen from outside. -/
structure Record where
  iteration : Int
  step : Step
  /-- `wvt_set_density`, main_driver.cc:213-218 -/
  reset : Bool
  /-- `write_bodies`, main_driver.cc:220-226 -/
  snapshot : Bool

/-- The parameters of the driver. -/
structure Run where
  initial : Int
  final : Int
  coolDown : Int
  every : Int
  check : Bool

/-- Which branch, main_driver.cc:126, 142, 179. -/
def Run.step (r : Run) (k : Int) : Step := if k = r.initial then .initial else if k ≤ r.final then .relax else .cool

/-- Whether the relaxation is converged after iteration `k`, main_driver.cc:172-177: the check is made only by relaxation steps. `conv` tells what the check finds. -/
def Run.converged (r : Run) (conv : Int → Bool) (k : Int) (old : Bool) : Bool :=
  old || (r.step k = .relax && (decide (k > r.initial) && r.check) && conv k)

/-- The loop, main_driver.cc:122-233; `none` when the fuel is used up. C++ `%` is `Int.tmod`. -/
def Run.loop (r : Run) (conv : Int → Bool) : Nat → Int → Bool → Option (List Record)
  | 0, _, _ => none
  | fuel + 1, k, old =>
    let c := r.converged conv k old
    let last : Bool := c || decide (k = r.final + r.coolDown)
    let rec1 : Record := ⟨k, r.step k, last, (decide (r.every > 0) && decide (k.tmod r.every = 0)) || last⟩
    if k + 1 ≤ r.final + r.coolDown ∧ c = false then (r.loop conv fuel (k + 1) c).map (rec1 :: ·) else some [rec1]

end FleCSPH.Wvt

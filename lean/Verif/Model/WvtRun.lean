import Verif.Model.WvtForces
import Verif.Model.Driver
/-!
Model of whole runs of the relaxation, app/drivers/wvt/main_driver.cc:122-233, in exact real arithmetic. The particles keep their index: how they are sorted and distributed over the processes
(`update_iteration`) and how the neighbours are found is left open, as a function from states to neighbour lists.
-/
namespace FleCSPH.Wvt
open FleCSPH.Geometry FleCSPH.Kernels
open FleCSPH.Sph (Particle passM accumulate)
open FleCSPH.Driver (applyAllM)
noncomputable section

/-- The parameters of a run. -/
structure Setup where
  forces : Forces
  profile : Profile
  run : Run
  /-- `wvt_mu` -/
  mu : ℝ
  /-- `sph_variable_h` -/
  variableH : Bool
  /-- `wvt_convergence_point` -/
  point : ℝ

/-- What the code leaves open: the neighbours the tree finds, in a state, and the order in which a pass of an iteration visits the particles. -/
structure Search (i : Fin 3) (n : Nat) where
  lists : (Fin n → Particle (i + 1)) → Fin n → List (Fin n)
  order : Int → Bool → List (Fin n)

variable {i : Fin 3} {n : Nat}

open Classical in
/-- `wvt::compute_density`, wvt.h:83-114; a failed assertion is `none`. -/
def wvtDensity (κ : Kernel) (i : Fin 3) (a : Particle (i + 1)) (nbs : List (Particle (i + 1))) : Option (Particle (i + 1)) :=
  let rho := accumulate nbs fun b => b.mass * kernel κ i (magnitude (a.pos - b.pos)) (1 / 2 * (a.h + b.h))
  if 0 < nbs.length ∧ 0 < rho then some { a with rho := rho } else none

open Classical in
/-- `compute_smoothinglength_wvt`, wvt.h:358-396, on all particles (`rescale` is the same on lists). -/
def rescaleAll (S : Setup) (s : Fin n → Particle (i + 1)) : Option (Fin n → Particle (i + 1)) :=
  let total := reduceSum [List.ofFn fun a => (s a).h] (ball i)
  if total = 0 then none else some fun a => { s a with h := (s a).h * root i (ball i S.forces.radius * S.profile.ngb / total) }

/-- `compute_density`, then `wvt_acceleration`, main_driver.cc:133-139, 157-166, 195-203. -/
def passes (S : Setup) (w : Search i n) (k : Int) (s : Fin n → Particle (i + 1)) : Option (Fin n → Particle (i + 1)) :=
  (passM (wvtDensity S.forces.kernel i) (w.lists s) (w.order k false) s).bind fun s1 => passM (wvtAcceleration S.forces i) (w.lists s1) (w.order k true) s1

/-- The work of an iteration, main_driver.cc:126-207; `eos::init` and the standard deviation set nothing that is read here. -/
def iteration (S : Setup) (w : Search i n) (fuel : Nat) (k : Int) (s : Fin n → Particle (i + 1)) : Option (Fin n → Particle (i + 1)) :=
  if S.run.step k = .initial then passes S w k s
  else
    (stepSize S.mu S.run.final S.run.coolDown k).bind fun m =>
      (applyAllM (wvtDisplacement S.profile S.forces.kernel i S.forces.radius m fuel) s).bind fun s1 =>
        (if S.variableH then rescaleAll S s1 else some s1).bind fun s2 => passes S w k s2

/-- `check_convergence_wvt`, main_driver.cc:172-177. -/
def converged (S : Setup) (k : Int) (s : Fin n → Particle (i + 1)) (old : Bool) : Option Bool :=
  if S.run.step k = .relax ∧ k > S.run.initial ∧ S.run.check = true then
    checkConvergence i S.mu S.profile.ngb S.point [List.ofFn fun a => ((s a).acc, (s a).h)] old
  else some old

/-- The loop, main_driver.cc:122-233: each iteration with the particles at its end, as they are written if `snapshot` is set. `steps` bounds the number of iterations, `fuel` that of the halvings of a step. -/
def relaxation (S : Setup) (w : Search i n) (fuel : Nat) : Nat → Int → Bool → (Fin n → Particle (i + 1)) → Option (List (Record × (Fin n → Particle (i + 1))))
  | 0, _, _, _ => none
  | steps + 1, k, old, s =>
    (iteration S w fuel k s).bind fun s1 => (converged S k s1 old).bind fun c =>
      let last : Bool := c || decide (k = S.run.final + S.run.coolDown)
      (if last then applyAllM (wvtSetDensity S.profile S.forces.kernel i) s1 else some s1).bind fun s2 =>
        let rec1 : Record := ⟨k, S.run.step k, last, (decide (S.run.every > 0) && decide (k.tmod S.run.every = 0)) || last⟩
        if k + 1 ≤ S.run.final + S.run.coolDown ∧ c = false then (relaxation S w fuel steps (k + 1) c s2).map ((rec1, s2) :: ·) else some [(rec1, s2)]

end
end FleCSPH.Wvt

import Mathlib.Analysis.SpecialFunctions.Pow.Real
/-!
Model of tools/starID_tools/nsID_tov/tov_solver_h5part.py, which makes the initial data of a neutron star: the equation of state and its inverse, the integration of the equations of stellar structure, and the data sets `u` and `h` of the
particles. Numbers are real numbers; `none` is `nan` (a power of a negative number), from `solve_for_h` on an `IndexError`. The branch `isentropic` (switched off, line 24), the code units (switched off, line 25), the conversion to cgs, the
interpolation and the random places of the particles are left out.
-/
namespace FleCSPH.TovStar

/-- `K0`, `rho1` and `G`, tov_solver_h5part.py:31-33; the values do not matter. -/
structure Consts where
  K0 : ℝ
  rho1 : ℝ
  G : ℝ

/-- `P1`, tov_solver_h5part.py:36, with `Gamma0` of line 29. -/
noncomputable def Consts.P1 (k : Consts) : ℝ := k.K0 * k.rho1 ^ (5 / 3 : ℝ)

/-- `K1`, tov_solver_h5part.py:37, with `Gamma1` of line 30. -/
noncomputable def Consts.K1 (k : Consts) : ℝ := k.P1 / k.rho1 ^ (5 / 2 : ℝ)

/-- `eos`, tov_solver_h5part.py:77-81, for densities that are not negative. -/
noncomputable def eos (k : Consts) (rho : ℝ) : ℝ := if rho < k.rho1 then k.K0 * rho ^ (5 / 3 : ℝ) else k.K1 * rho ^ (5 / 2 : ℝ)

/-- `inv_eos`, tov_solver_h5part.py:83-87; `none`: `nan`, for a negative pressure. -/
noncomputable def invEos (k : Consts) (P : ℝ) : Option ℝ :=
  if P < 0 then none else if P < k.P1 then some ((P / k.K0) ^ (1 / (5 / 3) : ℝ)) else some ((P / k.K1) ^ (1 / (5 / 2) : ℝ))

/-- `tov`, tov_solver_h5part.py:90-95: the derivatives of pressure and mass. -/
noncomputable def tov (k : Consts) (y : ℝ × ℝ) (r : ℝ) : Option (ℝ × ℝ) :=
  (invEos k y.1).map fun rho => (-k.G * rho * y.2 / r ^ 2, 4 * Real.pi * rho * r ^ 2)

/-- `rk4`, tov_solver_h5part.py:69-74. -/
noncomputable def rk4 (f : ℝ × ℝ → ℝ → Option (ℝ × ℝ)) (y : ℝ × ℝ) (x h : ℝ) : Option (ℝ × ℝ) := do
  let k1 ← f y x
  let k1 := (k1.1 * h, k1.2 * h)
  let k2 ← f (y.1 + 0.5 * k1.1, y.2 + 0.5 * k1.2) (x + 0.5 * h)
  let k2 := (k2.1 * h, k2.2 * h)
  let k3 ← f (y.1 + 0.5 * k2.1, y.2 + 0.5 * k2.2) (x + 0.5 * h)
  let k3 := (k3.1 * h, k3.2 * h)
  let k4 ← f (y.1 + k3.1, y.2 + k3.2) (x + h)
  let k4 := (k4.1 * h, k4.2 * h)
  return (y.1 + k1.1 / 6 + k2.1 / 3 + k3.1 / 3 + k4.1 / 6, y.2 + k1.2 / 6 + k2.2 / 3 + k3.2 / 3 + k4.2 / 6)

/-- A shell: radius, pressure, mass within. -/
structure Shell where
  r : ℝ
  P : ℝ
  m : ℝ

/-- The loop and the cut, tov_solver_h5part.py:115-122, from the shell `i` on, with `len(r) - 1 - i` shells to come: the shell at which it stops is not kept. -/
noncomputable def shells (k : Consts) (dr : ℝ) : ℕ → ℝ → ℝ × ℝ → List Shell
  | 0, _, _ => []
  | n + 1, r, y =>
    if 0 < y.1 then
      ⟨r, y.1, y.2⟩ :: match rk4 (tov k) y r dr with
        | none => []
        | some y' => shells k dr n (r + dr) y'
    else []

/-- `sol_tov`, tov_solver_h5part.py:105-122, on a grid of `len` radii. -/
noncomputable def solve (k : Consts) (dr : ℝ) (len : ℕ) (rhoC : ℝ) : List Shell :=
  shells k dr (len - 1) dr (eos k rhoC, 4 / 3 * Real.pi * rhoC * dr ^ 3)

/-- `solve_for_h`, tov_solver_h5part.py:213-220, on the distances of all particles; `target_num_neighbors` is 50 (line 20). -/
noncomputable def hOf (dist : List ℝ) : Option ℝ := (dist.mergeSort fun a b => decide (a ≤ b))[50 - 1]?

/-- A particle: its radius and its distances to all particles. -/
structure Place where
  r : ℝ
  dist : List ℝ

/-- The data set `h`, tov_solver_h5part.py:223-224, 248. -/
noncomputable def hWritten (p : Place) : Option ℝ := (hOf p.dist).map fun h => h / p.r

/-- The data set `u`, tov_solver_h5part.py:138, 152, 181, 203, 243: an interpolation of zeros. -/
def uWritten (_ : Place) : ℝ := 0

end FleCSPH.TovStar

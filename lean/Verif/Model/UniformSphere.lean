import Mathlib.Analysis.SpecialFunctions.Pow.Real
import Mathlib.Analysis.SpecialFunctions.Trigonometric.Inverse
/-!
Model of tools/gen_uniform_sphere.py, which makes the initial data of a sphere for tests of the conservation of momentum. The random numbers are arguments: three numbers from 0 to 1 for each particle. Numbers are real numbers; the unused functions
`get_v_sound` and `get_position` and the pressures, which are not written, are left out.
-/
namespace FleCSPH.UniformSphere

/-- The three random numbers of a particle (divided by the upper ends of their ranges), gen_uniform_sphere.py:62-64. -/
structure Draw where
  a : ℝ
  b : ℝ
  c : ℝ

/-- A particle, gen_uniform_sphere.py:79-89. -/
structure Particle where
  x : ℝ
  y : ℝ
  z : ℝ
  vx : ℝ
  vy : ℝ
  vz : ℝ
  m : ℝ
  h : ℝ
  u : ℝ

/-- `get_volume`, gen_uniform_sphere.py:46-47. -/
noncomputable def volume (r : ℝ) : ℝ := 4 / 3 * Real.pi * r ^ 3

/-- `get_density`, gen_uniform_sphere.py:49-52; `TOTAL_MASS` and `SPHERE_RADIUS` are 1 (lines 20, 21). -/
noncomputable def density : ℝ := 1 / volume 1

/-- `get_u`, gen_uniform_sphere.py:40-41; `POLY_K` is 0.5, `POLY_GAMMA` 1.5 (lines 18, 19). -/
noncomputable def energy (rho : ℝ) : ℝ := 0.5 * rho ^ (1.5 - 1 : ℝ) / (1.5 - 1)

/-- `get_p`, gen_uniform_sphere.py:34-35. -/
noncomputable def pressure (rho : ℝ) : ℝ := 0.5 * rho ^ (1.5 : ℝ)

/-- `rpart`, gen_uniform_sphere.py:62. -/
noncomputable def radius (d : Draw) : ℝ := (3 / 4 * (1 / Real.pi) * d.a) ^ (1 / 3 : ℝ)

/-- `thetapart`, gen_uniform_sphere.py:63. -/
noncomputable def theta (d : Draw) : ℝ := Real.arccos (2 * d.b - 1)

/-- `phipart`, gen_uniform_sphere.py:64. -/
noncomputable def phi (d : Draw) : ℝ := 2 * Real.pi * d.c

/-- `approximate_h`, gen_uniform_sphere.py:73-77; `NUM_NEIGHBORS` is 200 (line 22). -/
noncomputable def smoothing (n : ℕ) : ℝ := (200 / (n / volume 1) * (3 / 4) / Real.pi) ^ (1 / 3 : ℝ)

/-- The particle of a draw as it is computed, gen_uniform_sphere.py:67-71, 79-89. -/
noncomputable def computed (n : ℕ) (v : ℝ) (d : Draw) : Particle where
  x := radius d * Real.cos (phi d) * Real.sin (theta d)
  y := radius d * Real.sin (phi d) * Real.sin (theta d)
  z := radius d * Real.cos (theta d)
  vx := v * Real.sin (theta d) * Real.cos (phi d)
  vy := v * Real.sin (theta d) * Real.sin (phi d)
  vz := v * Real.cos (theta d)
  m := 1 / n
  h := smoothing n
  u := energy density

/-- The particle as it is written, gen_uniform_sphere.py:94-102: all three coordinates from `xpart`, all three velocities from `vxpart`. -/
def written (p : Particle) : Particle := { p with y := p.x, z := p.x, vy := p.vx, vz := p.vx }

/-- The file, gen_uniform_sphere.py:79-102. -/
noncomputable def file (v : ℝ) (ds : List Draw) : List Particle := ds.map fun d => written (computed ds.length v d)

end FleCSPH.UniformSphere

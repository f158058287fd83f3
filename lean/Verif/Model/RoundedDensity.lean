import Verif.Model.Rounding
import Verif.Model.Kernels
/-!
The kernels and the density in floating-point arithmetic: the functions of Model/Kernels.lean and `Sph.computeDensity` again, with the result of every operation rounded (see Model/Rounding.lean).
`std::pow` is taken to be accurate to one rounding. Literals and small integers are exact.
-/
namespace FleCSPH.Rounded
open FleCSPH.Geometry FleCSPH.Cofm FleCSPH.Kernels Real

variable (R : Rounding)

/-- The constants of kernels.h:40-46; `M_PI` is rounded. -/
noncomputable def sigma : Kernel → Fin 3 → ℝ
  | .cubicSpline => ![R.fl (4 / 3), R.fl (40 / R.fl (7 * R.fl π)), R.fl (8 / R.fl π)]
  | .quinticSpline => ![R.fl (1 / 40), R.fl (63 / R.fl (478 * R.fl π)), R.fl (81 / R.fl (359 * R.fl π))]
  | .wendlandC2 => ![5 / 4, R.fl (7 / R.fl π), R.fl (21 / R.fl (2 * R.fl π))]
  | .wendlandC4 => ![3 / 2, R.fl (9 / R.fl π), R.fl (495 / R.fl (32 * R.fl π))]
  | .wendlandC6 => ![R.fl (55 / 32), R.fl (78 / R.fl (7 * R.fl π)), R.fl (1365 / R.fl (64 * R.fl π))]
  | _ => 0

/-- kernels.h:106-121. -/
noncomputable def cubicSpline (i : Fin 3) (r h : ℝ) : ℝ :=
  let rh := R.fl (R.fl (2 * r) / h)
  if rh < 2 then
    R.fl ((if rh < 1 then R.fl (R.fl (1 - R.fl (R.fl (3 / 2 * rh) * rh)) + R.fl (R.fl (R.fl (3 / 4 * rh) * rh) * rh))
      else R.fl (R.fl (R.fl (1 / 4 * R.fl (2 - rh)) * R.fl (2 - rh)) * R.fl (2 - rh))) * R.fl (sigma R .cubicSpline i / R.fl (h ^ (i + 1 : ℕ))))
  else 0

/-- kernels.h:219-236. -/
noncomputable def quinticSpline (i : Fin 3) (r h : ℝ) : ℝ :=
  let rh := R.fl (R.fl (3 * r) / h)
  if rh < 3 then
    let w3 := R.fl (R.fl (3 - rh) ^ 5)
    let w2 := if rh < 2 then R.fl (w3 + R.fl (-6 * R.fl (R.fl (2 - rh) ^ 5))) else w3
    let w1 := if rh < 1 then R.fl (w2 + R.fl (15 * R.fl (R.fl (1 - rh) ^ 5))) else w2
    R.fl (w1 * R.fl (sigma R .quinticSpline i / R.fl (h ^ (i + 1 : ℕ))))
  else 0

/-- `h`, `h * h`, `h * h * h` in the Wendland kernels. -/
noncomputable def volume (i : Fin 3) (h : ℝ) : ℝ := ![h, R.fl (h * h), R.fl (R.fl (h * h) * h)] i

/-- kernels.h:282-312. -/
noncomputable def wendlandC2 (i : Fin 3) (r h : ℝ) : ℝ :=
  let rh := R.fl (r / h)
  let t := R.fl (1 - rh)
  let rh2 := R.fl (t * t)
  let s := R.fl (sigma R .wendlandC2 i / volume R i h)
  match i with
  | 0 => R.fl (R.fl (R.fl (s * rh2) * t) * R.fl (R.fl (3 * rh) + 1)) * fac (rh < 1)
  | _ => R.fl (R.fl (R.fl (s * rh2) * rh2) * R.fl (R.fl (4 * rh) + 1)) * fac (rh < 1)

/-- kernels.h:375-410. -/
noncomputable def wendlandC4 (i : Fin 3) (r h : ℝ) : ℝ :=
  let rh := R.fl (r / h)
  let t := R.fl (1 - rh)
  let rh2 := R.fl (t * t)
  let s := R.fl (sigma R .wendlandC4 i / volume R i h)
  match i with
  | 0 => R.fl (R.fl (R.fl (s * R.fl (rh2 * t)) * rh2) * R.fl (1 + R.fl (rh * R.fl (5 + R.fl (rh * 8))))) * fac (rh < 1)
  | _ => R.fl (R.fl (s * R.fl (R.fl (rh2 * rh2) * rh2)) * R.fl (1 + R.fl (rh * R.fl (6 + R.fl (R.fl (rh * 35) / 3))))) * fac (rh < 1)

/-- kernels.h:477-512. -/
noncomputable def wendlandC6 (i : Fin 3) (r h : ℝ) : ℝ :=
  let rh := R.fl (r / h)
  let t := R.fl (1 - rh)
  let rh2 := R.fl (t * t)
  let rh4 := R.fl (rh2 * rh2)
  let s := R.fl (sigma R .wendlandC6 i / volume R i h)
  match i with
  | 0 => R.fl (R.fl (R.fl (s * R.fl (rh2 * t)) * rh4) * R.fl (1 + R.fl (rh * R.fl (7 + R.fl (rh * R.fl (19 + R.fl (rh * 21))))))) * fac (rh < 1)
  | _ => R.fl (R.fl (R.fl (s * rh4) * rh4) * R.fl (1 + R.fl (rh * R.fl (8 + R.fl (rh * R.fl (25 + R.fl (rh * 32))))))) * fac (rh < 1)

/-- `sph_kernel_function` for the splines and the Wendland kernels; the others are left out. -/
noncomputable def kernel : Kernel → Fin 3 → ℝ → ℝ → ℝ
  | .cubicSpline => cubicSpline R
  | .quinticSpline => quinticSpline R
  | .wendlandC2 => wendlandC2 R
  | .wendlandC4 => wendlandC4 R
  | .wendlandC6 => wendlandC6 R
  | _ => fun _ _ _ => 0

/-- The term of a neighbour, default_physics.h:203-213. `magnitude(pos_a - pos_b)`, space_vector.h:121-131, does the operations of `distance(pos_a, pos_b)`. -/
noncomputable def term (κ : Kernel) {i : Fin 3} (a b : Body (i + 1)) : ℝ := R.fl (b.mass * kernel R κ i (distance R a.pos b.pos) (R.fl (1 / 2 * R.fl (a.h + b.h))))

open Classical in
/-- `compute_density`, default_physics.h:193-228. A failed assertion is `none`. -/
noncomputable def computeDensity (κ : Kernel) {i : Fin 3} (a : Body (i + 1)) (nbs : List (Body (i + 1))) : Option ℝ :=
  let rho := (nbs.map (term R κ a)).foldl (fun s y => R.fl (s + y)) 0
  if 0 < nbs.length ∧ 0 < rho then some rho else none

end FleCSPH.Rounded

import Verif.Model.Geometry
import Mathlib.Analysis.SpecialFunctions.Pow.Real
import Mathlib.Analysis.SpecialFunctions.Trigonometric.Basic
/-!
Model of include/physics/kernels.h in exact real arithmetic. The index `i : Fin 3` stands for `gdimension - 1`;
`pow(h, gdimension)` is `h ^ (i + 1)`. A function with one specialisation per dimension is one definition by cases.
-/
namespace FleCSPH.Kernels
open FleCSPH.Geometry Real

/-- The kernels `select` knows, kernels.h:711-745; the sinc kernel carries `sph_sinc_index`. -/
inductive Kernel
  | cubicSpline | quinticSpline | wendlandC2 | wendlandC4 | wendlandC6 | gaussian | superGaussian
  | sinc (index : ℝ)

/-- `cubic_spline_sigma`, kernels.h:40. -/
noncomputable def cubicSplineSigma : Fin 3 → ℝ := ![4 / 3, 40 / (7 * π), 8 / π]
/-- `quintic_spline_sigma`, kernels.h:41-42. -/
noncomputable def quinticSplineSigma : Fin 3 → ℝ := ![1 / 40, 63 / (478 * π), 81 / (359 * π)]
/-- `wendland_c2_sigma`, kernels.h:43. -/
noncomputable def wendlandC2Sigma : Fin 3 → ℝ := ![5 / 4, 7 / π, 21 / (2 * π)]
/-- `wendland_c4_sigma`, kernels.h:44. -/
noncomputable def wendlandC4Sigma : Fin 3 → ℝ := ![3 / 2, 9 / π, 495 / (32 * π)]
/-- `wendland_c6_sigma`, kernels.h:45-46. -/
noncomputable def wendlandC6Sigma : Fin 3 → ℝ := ![55 / 32, 78 / (7 * π), 1365 / (64 * π)]
/-- `gaussian_sigma`, kernels.h:47-50 (first 16 digits). -/
noncomputable def gaussianSigma : Fin 3 → ℝ :=
  ![1692606141154149 / 10 ^ 15, 2865142562336414 / 10 ^ 15, 4850986001888353 / 10 ^ 15]
/-- `super_gaussian_sigma`, kernels.h:51-56 (first 16 digits). -/
noncomputable def superGaussianSigma : Fin 3 → ℝ :=
  ![1692252656324906 / 10 ^ 15, 2861963420893510 / 10 ^ 15, 4832807459979630 / 10 ^ 15]
/-- `TINY`, kernels.h:64, with `DBL_MIN` = 2^-1022. -/
noncomputable def tiny : ℝ := 10 ^ 10 / 2 ^ 1022

/-- `set_sinc_kernel_normalization`, kernels.h:58-77. -/
noncomputable def sincSigma (si : ℝ) : Fin 3 → ℝ :=
  ![2 * (-15404568 / 10 ^ 9 + 36632876 / 10 ^ 8 * √si + -46519576 / 10 ^ 11 * si + 73658324 / 10 ^ 9 / √si),
    4 * (52245027 / 10 ^ 9 + 13090245 / 10 ^ 8 * si + 19358485 / 10 ^ 9 / si + -61642906 / 10 ^ 10 / (si * si)),
    8 * (27012593 / 10 ^ 9 + 20410827 / 10 ^ 9 * √si + 37451957 / 10 ^ 10 * si + 47013839 / 10 ^ 9 * √si * si)]

/-- A condition used as a factor. -/
noncomputable def fac (c : Prop) [Decidable c] : ℝ := if c then 1 else 0

/-- kernels.h:106-121. -/
noncomputable def cubicSpline (i : Fin 3) (r h : ℝ) : ℝ :=
  let rh := 2 * r / h
  if rh < 2 then
    (if rh < 1 then 1 - 3 / 2 * rh * rh + 3 / 4 * rh * rh * rh else 1 / 4 * (2 - rh) * (2 - rh) * (2 - rh)) *
      (cubicSplineSigma i / h ^ (i + 1 : ℕ))
  else 0

/-- kernels.h:132-153: the factor of `vecP / (r + TINY)`. -/
noncomputable def cubicSplineSlope (i : Fin 3) (r h : ℝ) : ℝ :=
  let rh := 2 * r / h
  if rh < 2 then
    2 * cubicSplineSigma i / h ^ (i + 2 : ℕ) *
      (if rh < 1 then -3 * rh + 9 / 4 * rh * rh else -3 / 4 * (2 - rh) * (2 - rh))
  else 0

/-- kernels.h:167-178. -/
noncomputable def gaussian (i : Fin 3) (r h : ℝ) : ℝ :=
  let rh := 3 * r / h
  if rh ≤ 3 then gaussianSigma i / h ^ (i + 1 : ℕ) * exp (-rh * rh) else 0

/-- kernels.h:189-203. -/
noncomputable def gaussianSlope (i : Fin 3) (r h : ℝ) : ℝ :=
  let rh := 3 * r / h
  if rh < 3 then 3 * gaussianSigma i / h ^ (i + 2 : ℕ) * (-2 * rh * exp (-rh * rh)) else 0

/-- kernels.h:217-235. -/
noncomputable def quinticSpline (i : Fin 3) (r h : ℝ) : ℝ :=
  let rh := 3 * r / h
  if rh < 3 then
    ((3 - rh) ^ 5 + (if rh < 2 then -6 * (2 - rh) ^ 5 else 0) + (if rh < 1 then 15 * (1 - rh) ^ 5 else 0)) *
      (quinticSplineSigma i / h ^ (i + 1 : ℕ))
  else 0

/-- kernels.h:246-268. -/
noncomputable def quinticSplineSlope (i : Fin 3) (r h : ℝ) : ℝ :=
  let rh := 3 * r / h
  if rh < 3 then
    3 * quinticSplineSigma i / h ^ (i + 2 : ℕ) *
      (-5 * (3 - rh) ^ 4 + (if rh < 2 then 30 * (2 - rh) ^ 4 else 0) + (if rh < 1 then -75 * (1 - rh) ^ 4 else 0))
  else 0

/-- kernels.h:282-312. -/
noncomputable def wendlandC2 (i : Fin 3) (r h : ℝ) : ℝ :=
  let rh := r / h
  let rh2 := (1 - rh) * (1 - rh)
  match i with
  | 0 => wendlandC2Sigma 0 / h * rh2 * (1 - rh) * (3 * rh + 1) * fac (rh < 1)
  | 1 => wendlandC2Sigma 1 / (h * h) * rh2 * rh2 * (4 * rh + 1) * fac (rh < 1)
  | 2 => wendlandC2Sigma 2 / (h * h * h) * rh2 * rh2 * (4 * rh + 1) * fac (rh < 1)

/-- kernels.h:322-361. -/
noncomputable def wendlandC2Slope (i : Fin 3) (r h : ℝ) : ℝ :=
  let rh := r / h
  let rh2 := (1 - rh) * (1 - rh)
  match i with
  | 0 => fac (rh < 1) * (wendlandC2Sigma 0 / (h * h) * (-12 * rh * rh2))
  | 1 => fac (rh < 1) * (2 * wendlandC2Sigma 1 / (h * h * h) * (-10 * rh * rh2 * (1 - rh)))
  | 2 => fac (rh < 1) * (2 * wendlandC2Sigma 2 / (h * h * h * h) * (-10 * rh * rh2 * (1 - rh)))

/-- kernels.h:375-410. -/
noncomputable def wendlandC4 (i : Fin 3) (r h : ℝ) : ℝ :=
  let rh := r / h
  let rh2 := (1 - rh) * (1 - rh)
  match i with
  | 0 => wendlandC4Sigma 0 / h * (rh2 * (1 - rh)) * rh2 * (1 + rh * (5 + rh * 8)) * fac (rh < 1)
  | 1 => wendlandC4Sigma 1 / (h * h) * (rh2 * rh2 * rh2) * (1 + rh * (6 + rh * 35 / 3)) * fac (rh < 1)
  | 2 => wendlandC4Sigma 2 / (h * h * h) * (rh2 * rh2 * rh2) * (1 + rh * (6 + rh * 35 / 3)) * fac (rh < 1)

/-- kernels.h:420-463. -/
noncomputable def wendlandC4Slope (i : Fin 3) (r h : ℝ) : ℝ :=
  let rh := r / h
  let rh2 := (1 - rh) * (1 - rh)
  match i with
  | 0 => fac (rh < 1) * (14 * wendlandC4Sigma 0 / (h * h) * (-rh * rh2 * rh2 * (1 + 4 * rh)))
  | 1 => fac (rh < 1) * (14 * wendlandC4Sigma 1 / (h * h * h) * (-4 / 3 * rh * (rh2 * (1 - rh)) * rh2 * (1 + 5 * rh)))
  | 2 => fac (rh < 1) * (14 * wendlandC4Sigma 2 / (h * h * h * h) * (-4 / 3 * rh * (rh2 * (1 - rh)) * rh2 * (1 + 5 * rh)))

/-- kernels.h:477-512. -/
noncomputable def wendlandC6 (i : Fin 3) (r h : ℝ) : ℝ :=
  let rh := r / h
  let rh2 := (1 - rh) * (1 - rh)
  let rh4 := rh2 * rh2
  match i with
  | 0 => wendlandC6Sigma 0 / h * (rh2 * (1 - rh)) * rh4 * (1 + rh * (7 + rh * (19 + rh * 21))) * fac (rh < 1)
  | 1 => wendlandC6Sigma 1 / (h * h) * rh4 * rh4 * (1 + rh * (8 + rh * (25 + rh * 32))) * fac (rh < 1)
  | 2 => wendlandC6Sigma 2 / (h * h * h) * rh4 * rh4 * (1 + rh * (8 + rh * (25 + rh * 32))) * fac (rh < 1)

/-- kernels.h:522-566. -/
noncomputable def wendlandC6Slope (i : Fin 3) (r h : ℝ) : ℝ :=
  let rh := r / h
  let rh2 := (1 - rh) * (1 - rh)
  let rh3 := rh2 * (1 - rh)
  let rh4 := rh2 * rh2
  match i with
  | 0 => wendlandC6Sigma 0 / (h * h) * (-6 * rh * rh3 * rh3 * (3 + rh * (18 + rh * 35))) * fac (rh < 1)
  | 1 => fac (rh < 1) * (wendlandC6Sigma 1 / (h * h * h) * (-22 * rh * rh4 * rh3 * (1 + rh * (7 + rh * 16))))
  | 2 => fac (rh < 1) * (wendlandC6Sigma 2 / (h * h * h * h) * (-22 * rh * rh4 * rh3 * (1 + rh * (7 + rh * 16))))

/-- kernels.h:581-589. -/
noncomputable def superGaussian (i : Fin 3) (r h : ℝ) : ℝ :=
  let rh := 3 * r / h
  superGaussianSigma i / h ^ (i + 1 : ℕ) * exp (-(rh * rh)) * (((i : ℕ) + 1 : ℝ) / 2 + 1 - rh * rh) * fac (|rh| < 3)

/-- kernels.h:599-611. -/
noncomputable def superGaussianSlope (i : Fin 3) (r h : ℝ) : ℝ :=
  let rh := 3 * r / h
  fac (rh < 3) * (3 * superGaussianSigma i / h ^ (i + 2 : ℕ) * (exp (-rh * rh) * (2 * rh ^ 3 - (((i : ℕ) + 1 : ℝ) + 4) * rh)))

/-- The value `sinc` of kernels.h:641-648; `eps` = 1e-24 and its fourth root 1e-6. -/
noncomputable def sincValue (x : ℝ) : ℝ :=
  if 1 / 10 ^ 6 < x then sin x / x
  else if 1 / 10 ^ 24 < x then 1 + x * x * (1 / 20 * (x * x) - 1) / 6
  else 1

/-- kernels.h:625-654. -/
noncomputable def sincKernel (n : ℝ) (i : Fin 3) (r h : ℝ) : ℝ :=
  if |r / h| < 1 then sincSigma n i / h ^ (i + 1 : ℕ) * sincValue (|r / h| * π) ^ n else 0

/-- The value `dWdr` of kernels.h:682-693. -/
noncomputable def sincDeriv (n x : ℝ) : ℝ :=
  if 1 / 10 ^ 6 < x then -n * (sin x / x) ^ (n - 1) * π * (sin x / x / x - cos x / x)
  else if 1 / 10 ^ 24 < x then -n * x / 3 * π * (1 - 1 / 2 * (x * x) * (1 / 5 - (n - 1) / 18))
  else 0

/-- kernels.h:664-697. -/
noncomputable def sincSlope (n : ℝ) (i : Fin 3) (r h : ℝ) : ℝ :=
  if |r / h| < 1 then sincSigma n i / h ^ (i + 2 : ℕ) * sincDeriv n (|r / h| * π) else 0

/-- `sph_kernel_function` as chosen by `select`, kernels.h:711-745. -/
noncomputable def kernel : Kernel → Fin 3 → ℝ → ℝ → ℝ
  | .cubicSpline => cubicSpline
  | .quinticSpline => quinticSpline
  | .wendlandC2 => wendlandC2
  | .wendlandC4 => wendlandC4
  | .wendlandC6 => wendlandC6
  | .gaussian => gaussian
  | .superGaussian => superGaussian
  | .sinc n => sincKernel n

/-- The radial factor of `sph_kernel_gradient`, as chosen by `select`. -/
noncomputable def slope : Kernel → Fin 3 → ℝ → ℝ → ℝ
  | .cubicSpline => cubicSplineSlope
  | .quinticSpline => quinticSplineSlope
  | .wendlandC2 => wendlandC2Slope
  | .wendlandC4 => wendlandC4Slope
  | .wendlandC6 => wendlandC6Slope
  | .gaussian => gaussianSlope
  | .superGaussian => superGaussianSlope
  | .sinc n => sincSlope n

/-- `flecsi::magnitude`, space_vector.h:118-132; in one dimension the square root of the square is the absolute value. -/
noncomputable def magnitude {d : Nat} (p : Point d) : ℝ := √(∑ i, p i * p i)

/-- `sph_kernel_gradient`, e.g. kernels.h:132-153: `vecP * sigma * dWdr / (r + TINY)`. -/
noncomputable def kernelGradient (κ : Kernel) (i : Fin 3) (p : Point (i + 1)) (h : ℝ) : Point (i + 1) :=
  fun j => p j * slope κ i (magnitude p) h / (magnitude p + tiny)

/-- `kernel_width`, kernels.h:79-80 and 748-767. -/
noncomputable def kernelWidth : Kernel → ℝ
  | .quinticSpline | .gaussian | .superGaussian => 3
  | _ => 2

end FleCSPH.Kernels

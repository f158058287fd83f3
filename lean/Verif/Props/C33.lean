import Verif.Lemmas.KernelIntegral
/-! C33: kernels are normalised. -/
namespace FleCSPH
open Kernels MeasureTheory

/-- The integral over space of each polynomial kernel is 1, in every dimension, except for the quintic spline in three
dimensions (`i` is the dimension minus one). -/
theorem C33_partial (κ : Kernel) (hκ : Poly κ) (i : Fin 3) (hi : κ = .quinticSpline → i ≠ 2) (h : ℝ) (hh : 0 < h) :
    ∫ x : EuclideanSpace ℝ (Fin (i + 1)), kernel κ i ‖x‖ h = 1 := by
  have hpi := Real.pi_pos
  rw [integral_kernel hκ i hh, moment hκ]
  cases hκ <;> rcases fin3 i with rfl | rfl | rfl
  all_goals first
    | exact absurd rfl (hi rfl)
    | simp [terms, sigma, scale, ballVol, cubicSplineSigma, quinticSplineSigma, wendlandC2Sigma, wendlandC4Sigma, wendlandC6Sigma, Nat.factorial]
      field_simp
      norm_num

/-- The quintic spline in three dimensions is not normalised: its integral is 360/359. -/
theorem C33_violated (h : ℝ) (hh : 0 < h) :
    ∫ x : EuclideanSpace ℝ (Fin 3), kernel .quinticSpline 2 ‖x‖ h = 360 / 359 := by
  have hpi := Real.pi_pos
  have := integral_kernel .quinticSpline 2 hh
  rw [moment .quinticSpline] at this
  refine this.trans ?_
  simp [terms, sigma, scale, ballVol, quinticSplineSigma, Nat.factorial]
  field_simp
  norm_num

/-- Non-vacuity. -/
example : Poly .cubicSpline ∧ Poly .wendlandC6 := ⟨.cubicSpline, .wendlandC6⟩

end FleCSPH

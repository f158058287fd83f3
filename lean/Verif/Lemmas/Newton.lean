import Mathlib.Analysis.InnerProductSpace.PiL2
import Mathlib.Analysis.InnerProductSpace.Calculus
import Mathlib.Analysis.SpecialFunctions.Sqrt
import Mathlib.Analysis.Calculus.Deriv.Inv
/-! How much the field of a point mass changes when the displacement changes by a given fraction. -/
namespace FleCSPH.Newton

variable {E : Type*} [NormedAddCommGroup E] [InnerProductSpace ℝ E]

omit [InnerProductSpace ℝ E] in
theorem norm_ratio {u v : E} {θ : ℝ} (h : ‖u - v‖ ≤ θ * ‖v‖) : |‖u‖ - ‖v‖| ≤ θ * ‖v‖ :=
  le_trans (abs_norm_sub_norm_le u v) h

theorem kernel_err {u v : E} {θ : ℝ} (hu : u ≠ 0) (hv : v ≠ 0) (hθ : 0 ≤ θ) (h : ‖u - v‖ ≤ θ * ‖v‖) :
    ‖(‖u‖ ^ 3)⁻¹ • u - (‖v‖ ^ 3)⁻¹ • v‖ ≤ (4 * θ + 5 * θ ^ 2 + 2 * θ ^ 3) / ‖u‖ ^ 2 := by
  have hu' : 0 < ‖u‖ := norm_pos_iff.mpr hu
  have hv' : 0 < ‖v‖ := norm_pos_iff.mpr hv
  have hr := abs_le.mp (norm_ratio h)
  set s := ‖u‖ / ‖v‖ with hs
  have hs0 : 0 < s := by positivity
  have hsu : ‖u‖ = s * ‖v‖ := by rw [hs]; field_simp
  have hs1 : s ≤ 1 + θ := by
    rw [hs, div_le_iff₀ hv']; linarith [hr.2]
  have hs2 : 1 - θ ≤ s := by
    rw [hs, le_div_iff₀ hv']; linarith [hr.1]
  have e1 : (‖u‖ ^ 3)⁻¹ • u - (‖v‖ ^ 3)⁻¹ • v = (‖v‖ ^ 3)⁻¹ • (u - v) + ((‖u‖ ^ 3)⁻¹ - (‖v‖ ^ 3)⁻¹) • u := by
    rw [smul_sub, sub_smul]; abel
  rw [e1, le_div_iff₀ (by positivity)]
  have h1 : ‖(‖v‖ ^ 3)⁻¹ • (u - v)‖ ≤ (‖v‖ ^ 3)⁻¹ * (θ * ‖v‖) := by
    rw [norm_smul, Real.norm_of_nonneg (by positivity)]
    exact mul_le_mul_of_nonneg_left h (by positivity)
  have h2 : ‖((‖u‖ ^ 3)⁻¹ - (‖v‖ ^ 3)⁻¹) • u‖ = |(‖u‖ ^ 3)⁻¹ - (‖v‖ ^ 3)⁻¹| * ‖u‖ := by
    rw [norm_smul, Real.norm_eq_abs]
  have h3 : |(‖u‖ ^ 3)⁻¹ - (‖v‖ ^ 3)⁻¹| * ‖u‖ * ‖u‖ ^ 2 = |1 - s ^ 3| := by
    have : (‖u‖ ^ 3)⁻¹ - (‖v‖ ^ 3)⁻¹ = (1 - s ^ 3) * (‖u‖ ^ 3)⁻¹ := by
      rw [hs]; field_simp
    rw [this, abs_mul, abs_of_pos (a := (‖u‖ ^ 3)⁻¹) (by positivity)]
    field_simp
  have h4 : |1 - s ^ 3| ≤ 3 * θ + 3 * θ ^ 2 + θ ^ 3 := by
    have hs3 : s ^ 3 ≤ (1 + θ) ^ 3 := pow_le_pow_left₀ hs0.le hs1 3
    rw [abs_le]
    constructor
    · nlinarith
    · by_cases h1 : θ ≤ 1
      · have : (1 - θ) ^ 3 ≤ s ^ 3 := pow_le_pow_left₀ (by linarith) hs2 3
        nlinarith [sq_nonneg θ]
      · have : 0 < s ^ 3 := by positivity
        nlinarith [sq_nonneg θ, pow_nonneg hθ 3]
  have h5 : (‖v‖ ^ 3)⁻¹ * (θ * ‖v‖) * ‖u‖ ^ 2 = θ * s ^ 2 := by
    rw [hsu]; field_simp
  have h6 : θ * s ^ 2 ≤ θ * (1 + θ) ^ 2 := mul_le_mul_of_nonneg_left (pow_le_pow_left₀ hs0.le hs1 2) hθ
  calc ‖(‖v‖ ^ 3)⁻¹ • (u - v) + ((‖u‖ ^ 3)⁻¹ - (‖v‖ ^ 3)⁻¹) • u‖ * ‖u‖ ^ 2
      ≤ ((‖v‖ ^ 3)⁻¹ * (θ * ‖v‖) + |(‖u‖ ^ 3)⁻¹ - (‖v‖ ^ 3)⁻¹| * ‖u‖) * ‖u‖ ^ 2 := by
        apply mul_le_mul_of_nonneg_right _ (by positivity)
        exact le_trans (norm_add_le _ _) (add_le_add h1 (le_of_eq h2))
    _ = θ * s ^ 2 + |1 - s ^ 3| := by rw [add_mul, h5, h3]
    _ ≤ 4 * θ + 5 * θ ^ 2 + 2 * θ ^ 3 := by nlinarith

theorem potential_err {u v r : E} {θ : ℝ} (hu : u ≠ 0) (hv : v ≠ 0) (hθ : 0 ≤ θ) (h : ‖u - v‖ ≤ θ * ‖v‖) (hr : ‖r‖ ≤ θ * ‖v‖) :
    |-‖u‖⁻¹ - (-‖v‖⁻¹ + inner ℝ r ((‖v‖ ^ 3)⁻¹ • v))| ≤ (2 * θ + θ ^ 2) / ‖u‖ := by
  have hu' : 0 < ‖u‖ := norm_pos_iff.mpr hu
  have hv' : 0 < ‖v‖ := norm_pos_iff.mpr hv
  have hb := abs_le.mp (norm_ratio h)
  have h1 : |‖v‖⁻¹ - ‖u‖⁻¹| * ‖u‖ ≤ θ := by
    have : ‖v‖⁻¹ - ‖u‖⁻¹ = (‖u‖ - ‖v‖) * (‖u‖ * ‖v‖)⁻¹ := by field_simp
    rw [this, abs_mul, abs_of_pos (a := (‖u‖ * ‖v‖)⁻¹) (by positivity)]
    have : |‖u‖ - ‖v‖| * (‖u‖ * ‖v‖)⁻¹ * ‖u‖ = |‖u‖ - ‖v‖| / ‖v‖ := by field_simp
    rw [this, div_le_iff₀ hv']
    exact norm_ratio h
  have h2 : |inner ℝ r ((‖v‖ ^ 3)⁻¹ • v)| ≤ θ / ‖v‖ := by
    refine le_trans (abs_real_inner_le_norm _ _) ?_
    rw [norm_smul, Real.norm_of_nonneg (by positivity)]
    have : θ / ‖v‖ = (θ * ‖v‖) * ((‖v‖ ^ 3)⁻¹ * ‖v‖) := by field_simp
    rw [this]
    exact mul_le_mul_of_nonneg_right hr (by positivity)
  have h3 : θ / ‖v‖ * ‖u‖ ≤ θ * (1 + θ) := by
    have : θ / ‖v‖ * ‖u‖ = θ * (‖u‖ / ‖v‖) := by ring
    rw [this]
    apply mul_le_mul_of_nonneg_left _ hθ
    rw [div_le_iff₀ hv']; linarith [hb.2]
  rw [le_div_iff₀ hu']
  have e : -‖u‖⁻¹ - (-‖v‖⁻¹ + inner ℝ r ((‖v‖ ^ 3)⁻¹ • v)) = (‖v‖⁻¹ - ‖u‖⁻¹) - inner ℝ r ((‖v‖ ^ 3)⁻¹ • v) := by ring
  rw [e]
  calc |(‖v‖⁻¹ - ‖u‖⁻¹) - inner ℝ r ((‖v‖ ^ 3)⁻¹ • v)| * ‖u‖
      ≤ (|‖v‖⁻¹ - ‖u‖⁻¹| + θ / ‖v‖) * ‖u‖ := by
        apply mul_le_mul_of_nonneg_right _ hu'.le
        exact le_trans (abs_sub _ _) (add_le_add (le_refl _) h2)
    _ ≤ 2 * θ + θ ^ 2 := by rw [add_mul]; nlinarith

/-- The acceleration is minus the gradient of the potential. -/
theorem potential_deriv (G : ℝ) {x y : E} (hxy : x ≠ y) (v : E) :
    HasDerivAt (fun t : ℝ => -G / ‖x + t • v - y‖) (-(inner ℝ ((-G * (‖x - y‖ ^ 3)⁻¹) • (x - y)) v)) 0 := by
  have hne : x - y ≠ 0 := sub_ne_zero.mpr hxy
  have hpos : 0 < ‖x - y‖ := norm_pos_iff.mpr hne
  have h0 : HasDerivAt (fun t : ℝ => x + t • v - y) v 0 := by
    have h := (((hasDerivAt_id (0 : ℝ)).smul_const v).const_add x).sub_const y
    rw [one_smul] at h
    exact h
  have h1 : HasDerivAt (fun t : ℝ => ‖x + t • v - y‖ ^ 2) (2 * inner ℝ (x - y) v) 0 := by
    have := h0.norm_sq
    simpa using this
  have h2 : HasDerivAt (fun t : ℝ => √(‖x + t • v - y‖ ^ 2)) (2 * inner ℝ (x - y) v / (2 * √(‖x + (0 : ℝ) • v - y‖ ^ 2))) 0 :=
    h1.sqrt (by simp [hne])
  have h3 : HasDerivAt (fun t : ℝ => ‖x + t • v - y‖) (inner ℝ (x - y) v / ‖x - y‖) 0 := by
    convert h2 using 1
    · funext t; rw [Real.sqrt_sq (norm_nonneg _)]
    · rw [Real.sqrt_sq (norm_nonneg _)]; simp; field_simp
  have h4 := (h3.inv (by simpa using hne)).const_mul (-G)
  refine h4.congr_deriv ?_
  rw [inner_smul_left, conj_trivial, zero_smul, add_zero]
  field_simp

end FleCSPH.Newton

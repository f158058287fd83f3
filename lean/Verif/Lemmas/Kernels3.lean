import Verif.Lemmas.Kernels2
import Verif.Lemmas.Gravity3
/-! The gradients of the kernels. -/
namespace FleCSPH.Kernels
open FleCSPH.Geometry Real Set

theorem magnitude_euc {d : Nat} (p : Point d) : magnitude p = ‖euc p‖ := by
  rw [magnitude, EuclideanSpace.norm_eq]
  congr 1
  refine Finset.sum_congr rfl fun i _ => ?_
  rw [Real.norm_eq_abs, sq_abs, sq]; rfl

theorem magnitude_nonneg {d : Nat} (p : Point d) : 0 ≤ magnitude p := Real.sqrt_nonneg _

theorem magnitude_pos {d : Nat} {p : Point d} (hp : p ≠ 0) : 0 < magnitude p := by
  rw [magnitude_euc, norm_pos_iff]
  intro h
  apply hp
  funext i
  have := congrArg (fun v : EuclideanSpace ℝ (Fin d) => v i) h
  simpa [euc] using this

theorem magnitude_smul {d : Nat} (v : Point d) (t : ℝ) : magnitude (t • v) = magnitude v * |t| := by
  rw [magnitude, magnitude]
  have : ∑ i, (t • v) i * (t • v) i = t ^ 2 * ∑ i, v i * v i := by
    rw [Finset.mul_sum]; refine Finset.sum_congr rfl fun i _ => ?_
    simp only [Pi.smul_apply, smul_eq_mul]; ring
  rw [this, Real.sqrt_mul (sq_nonneg t), Real.sqrt_sq_eq_abs, mul_comm]

theorem magnitude_neg {d : Nat} (p : Point d) : magnitude (-p) = magnitude p := by
  simp [magnitude]

theorem hasDerivAt_magnitude {d : Nat} {p : Point d} (hp : p ≠ 0) (v : Point d) :
    HasDerivAt (fun t : ℝ => magnitude (p + t • v)) ((∑ j, p j * v j) / magnitude p) 0 := by
  have hpos := magnitude_pos hp
  have hS : HasDerivAt (fun t : ℝ => ∑ j, (p + t • v) j * (p + t • v) j) (∑ j, 2 * (p j * v j)) 0 := by
    have := HasDerivAt.fun_sum (u := Finset.univ) (A := fun (j : Fin d) (t : ℝ) => (p + t • v) j * (p + t • v) j)
      (A' := fun j => 2 * (p j * v j)) (x := 0) (fun j _ => by
        have h1 : HasDerivAt (fun t : ℝ => (p + t • v) j) (v j) 0 := by
          have h : HasDerivAt (fun t : ℝ => p j + t * v j) (0 + 1 * v j) 0 := (hasDerivAt_const (0 : ℝ) (p j)).add ((hasDerivAt_id (0 : ℝ)).mul_const (v j))
          simpa using h
        refine (h1.mul h1).congr_deriv ?_
        simp; ring)
    exact this
  have h0 : (∑ j, (p + (0 : ℝ) • v) j * (p + (0 : ℝ) • v) j) = ∑ j, p j * p j := by simp
  have hne : (∑ j, (p + (0 : ℝ) • v) j * (p + (0 : ℝ) • v) j) ≠ 0 := by
    rw [h0]; exact (Real.sqrt_pos.mp hpos).ne'
  have := hS.sqrt hne
  refine HasDerivAt.congr_deriv this ?_
  rw [h0, ← Finset.mul_sum, magnitude]
  have : √(∑ j, p j * p j) ≠ 0 := hpos.ne'
  field_simp

/-- From the radial derivative to the directional derivative. -/
theorem directional (κ : Kernel) (i : Fin 3) {p : Point (i + 1)} (hp : p ≠ 0) (v : Point (i + 1)) {h : ℝ}
    (hd : HasDerivAt (fun r => kernel κ i r h) (slope κ i (magnitude p) h) (magnitude p)) :
    HasDerivAt (fun t : ℝ => kernel κ i (magnitude (p + t • v)) h)
      ((magnitude p + tiny) / magnitude p * ∑ j, kernelGradient κ i p h j * v j) 0 := by
  have hpos := magnitude_pos hp
  have htiny : 0 < tiny := by unfold tiny; positivity
  have h0 : magnitude (p + (0 : ℝ) • v) = magnitude p := by simp
  have hd' : HasDerivAt (fun r => kernel κ i r h) (slope κ i (magnitude p) h) (magnitude (p + (0 : ℝ) • v)) := by rw [h0]; exact hd
  refine (hd'.comp (0 : ℝ) (hasDerivAt_magnitude hp v)).congr_deriv ?_
  have : ∑ j, kernelGradient κ i p h j * v j = slope κ i (magnitude p) h / (magnitude p + tiny) * ∑ j, p j * v j := by
    rw [Finset.mul_sum]; refine Finset.sum_congr rfl fun j _ => ?_
    simp only [kernelGradient]; ring
  rw [this]
  have : magnitude p + tiny ≠ 0 := by positivity
  field_simp

theorem radial_poly {κ : Kernel} (hκ : Poly κ) (i : Fin 3) (r : ℝ) {h : ℝ} (hh : 0 < h) :
    HasDerivAt (fun r => kernel κ i r h) (slope κ i r h) r := by
  rw [slope_eq hκ i r hh]
  simp only [kernel_eq hκ]
  have h1 : HasDerivAt (fun r : ℝ => scale κ * r / h) (scale κ / h) r := by
    have : HasDerivAt (fun r : ℝ => scale κ * r / h) (scale κ * 1 / h) r := ((hasDerivAt_id r).const_mul (scale κ)).div_const h
    simpa using this
  have h2 : HasDerivAt (fun r : ℝ => prof κ i (scale κ * r / h)) (dprof κ i (scale κ * r / h) * (scale κ / h)) r :=
    by have := HasDerivAt.comp r (hasDerivAt_prof hκ i (scale κ * r / h)) h1; exact this
  exact h2.const_mul _

theorem radial_gaussian (i : Fin 3) {r h : ℝ} (hh : 0 < h) (hr : r < h) :
    HasDerivAt (fun r => kernel .gaussian i r h) (slope .gaussian i r h) r := by
  have hlt : ∀ s, s < h → 3 * s / h < 3 := fun s hs => by rw [div_lt_iff₀ hh]; linarith
  have h1 : HasDerivAt (fun r : ℝ => 3 * r / h) (3 / h) r := by
    have : HasDerivAt (fun r : ℝ => 3 * r / h) (3 * 1 / h) r := ((hasDerivAt_id r).const_mul 3).div_const h
    simpa using this
  have h2 : HasDerivAt (fun r : ℝ => gaussianSigma i / h ^ (i + 1 : ℕ) * exp (-(3 * r / h) * (3 * r / h)))
      (gaussianSigma i / h ^ (i + 1 : ℕ) * (exp (-(3 * r / h) * (3 * r / h)) * (-(3 / h) * (3 * r / h) + -(3 * r / h) * (3 / h)))) r :=
    ((h1.fun_neg.mul h1).exp).const_mul _
  have he : (fun r => kernel .gaussian i r h) =ᶠ[nhds r] fun r : ℝ => gaussianSigma i / h ^ (i + 1 : ℕ) * exp (-(3 * r / h) * (3 * r / h)) := by
    filter_upwards [Iio_mem_nhds hr] with s hs
    simp only [kernel, gaussian]
    rw [if_pos (hlt s hs).le]
  refine (h2.congr_of_eventuallyEq he).congr_deriv ?_
  simp only [slope, gaussianSlope]
  rw [if_pos (hlt r hr), pow_succ h (i + 1)]
  field_simp
  ring

theorem radial_superGaussian (i : Fin 3) {r h : ℝ} (hh : 0 < h) (hr0 : 0 < r) (hr : r < h) :
    HasDerivAt (fun r => kernel .superGaussian i r h) (slope .superGaussian i r h) r := by
  have hlt : ∀ s, s < h → 3 * s / h < 3 := fun s hs => by rw [div_lt_iff₀ hh]; linarith
  have h1 : HasDerivAt (fun r : ℝ => 3 * r / h) (3 / h) r := by
    have : HasDerivAt (fun r : ℝ => 3 * r / h) (3 * 1 / h) r := ((hasDerivAt_id r).const_mul 3).div_const h
    simpa using this
  have h3 : HasDerivAt (fun r : ℝ => 3 * r / h * (3 * r / h)) (3 / h * (3 * r / h) + 3 * r / h * (3 / h)) r := h1.mul h1
  have h2 : HasDerivAt (fun r : ℝ => superGaussianSigma i / h ^ (i + 1 : ℕ) * exp (-(3 * r / h * (3 * r / h))) *
      (((i : ℕ) + 1 : ℝ) / 2 + 1 - 3 * r / h * (3 * r / h)))
      (superGaussianSigma i / h ^ (i + 1 : ℕ) * (exp (-(3 * r / h * (3 * r / h))) * (-(3 / h * (3 * r / h) + 3 * r / h * (3 / h)))) *
        (((i : ℕ) + 1 : ℝ) / 2 + 1 - 3 * r / h * (3 * r / h)) +
        superGaussianSigma i / h ^ (i + 1 : ℕ) * exp (-(3 * r / h * (3 * r / h))) * (-(3 / h * (3 * r / h) + 3 * r / h * (3 / h)))) r :=
    (h3.fun_neg.exp.const_mul _).mul (h3.const_sub _)
  have he : (fun r => kernel .superGaussian i r h) =ᶠ[nhds r] fun r : ℝ => superGaussianSigma i / h ^ (i + 1 : ℕ) * exp (-(3 * r / h * (3 * r / h))) *
      (((i : ℕ) + 1 : ℝ) / 2 + 1 - 3 * r / h * (3 * r / h)) := by
    filter_upwards [Iio_mem_nhds hr, Ioi_mem_nhds hr0] with s hs hs0
    simp only [kernel, superGaussian]
    have hs0' : 0 < s := hs0
    rw [fac, if_pos, mul_one]
    rw [abs_of_nonneg (by positivity)]; exact hlt s hs
  refine (h2.congr_of_eventuallyEq he).congr_deriv ?_
  simp only [slope, superGaussianSlope]
  rw [fac, if_pos (hlt r hr), pow_succ h (i + 1), neg_mul]
  field_simp
  ring

theorem radial_sinc (n : ℝ) (i : Fin 3) {r h : ℝ} (hh : 0 < h) (hr0 : 1 / 10 ^ 6 < π * r / h) (hr : r < h) :
    HasDerivAt (fun r => kernel (.sinc n) i r h) (slope (.sinc n) i r h) r := by
  have hpi := pi_pos
  have c6 : (0 : ℝ) < 1 / 10 ^ 6 := by positivity
  have hx : ∀ s, π * s / h = s / h * π := fun s => by ring
  have hrp : 0 < r := by
    by_contra hn
    have : π * r / h ≤ 0 := div_nonpos_of_nonpos_of_nonneg (mul_nonpos_of_nonneg_of_nonpos hpi.le (not_lt.mp hn)) hh.le
    linarith
  set x := r / h * π with hxdef
  rw [hx] at hr0
  have hx0 : 0 < x := c6.trans hr0
  have hxpi : x < π := by
    have : r / h < 1 := (div_lt_one hh).mpr hr
    rw [hxdef]; nlinarith
  have h1 : HasDerivAt (fun r : ℝ => r / h * π) (π / h) r := by
    have : HasDerivAt (fun r : ℝ => r / h * π) (1 / h * π) r := ((hasDerivAt_id r).div_const h).mul_const π
    refine this.congr_deriv ?_; ring
  have h2 : HasDerivAt (fun r : ℝ => sin (r / h * π) / (r / h * π)) ((cos x * (π / h) * x - sin x * (π / h)) / x ^ 2) r :=
    (h1.sin).div h1 hx0.ne'
  have hsp : 0 < sin x / x := div_pos (sin_pos_of_pos_of_lt_pi hx0 hxpi) hx0
  have h3 : HasDerivAt (fun r : ℝ => sincSigma n i / h ^ (i + 1 : ℕ) * (sin (r / h * π) / (r / h * π)) ^ n)
      (sincSigma n i / h ^ (i + 1 : ℕ) * ((cos x * (π / h) * x - sin x * (π / h)) / x ^ 2 * n * (sin x / x) ^ (n - 1))) r :=
    (h2.rpow_const (Or.inl hsp.ne')).const_mul _
  have hev : ∀ᶠ s in nhds r, 1 / 10 ^ 6 < s / h * π := h1.continuousAt.eventually (lt_mem_nhds hr0)
  have he : (fun r => kernel (.sinc n) i r h) =ᶠ[nhds r] fun r : ℝ => sincSigma n i / h ^ (i + 1 : ℕ) * (sin (r / h * π) / (r / h * π)) ^ n := by
    filter_upwards [Iio_mem_nhds hr, Ioi_mem_nhds hrp, hev] with s hs hs0 hs1
    show sincKernel n i s h = _
    rw [sincKernel_in i hh (le_of_lt hs0) hs, sincValue, if_pos hs1]
  refine (h3.congr_of_eventuallyEq he).congr_deriv ?_
  show _ = sincSlope n i r h
  obtain ⟨g1, g2, _⟩ := sinc_arg hh hrp.le hr
  rw [sincSlope, if_pos g1, g2, sincDeriv, if_pos hr0, pow_succ h (i + 1)]
  have : x ≠ 0 := hx0.ne'
  rw [← hxdef]
  clear_value x
  generalize (sin x / x) ^ (n - 1) = A
  generalize sin x = s
  generalize cos x = c
  field_simp
  ring

theorem slope_out (κ : Kernel) (i : Fin 3) {r h : ℝ} (hh : 0 < h) (hr : h ≤ r) : slope κ i r h = 0 := by
  have h1 : ¬ r / h < 1 := by rw [not_lt, one_le_div hh]; exact hr
  have h2 : ¬ 2 * r / h < 2 := by rw [not_lt, le_div_iff₀ hh]; linarith
  have h3 : ¬ 3 * r / h < 3 := by rw [not_lt, le_div_iff₀ hh]; linarith
  have h4 : ¬ |r / h| < 1 := by rw [abs_of_nonneg (div_nonneg (hh.le.trans hr) hh.le)]; exact h1
  cases κ <;> (try rcases fin3 i with rfl | rfl | rfl) <;>
    simp [slope, cubicSplineSlope, quinticSplineSlope, wendlandC2Slope, wendlandC4Slope, wendlandC6Slope,
      gaussianSlope, superGaussianSlope, sincSlope, fac, h1, h2, h3, h4]

theorem slope_zero {κ : Kernel} (hκ : Poly κ) (i : Fin 3) {h : ℝ} : slope κ i 0 h = 0 := by
  cases hκ <;> rcases fin3 i with rfl | rfl | rfl <;>
    simp [slope, cubicSplineSlope, quinticSplineSlope, wendlandC2Slope, wendlandC4Slope, wendlandC6Slope] <;> norm_num

theorem hasDerivAt_abs {f : ℝ → ℝ} (hf : HasDerivAt f 0 0) (c : ℝ) : HasDerivAt (fun t => f (c * |t|)) 0 0 := by
  rw [hasDerivAt_iff_isLittleO] at hf ⊢
  simp only [sub_zero, smul_zero, abs_zero, mul_zero] at hf ⊢
  have ht : Filter.Tendsto (fun t : ℝ => c * |t|) (nhds 0) (nhds 0) := by
    have : Continuous fun t : ℝ => c * |t| := continuous_const.mul continuous_abs
    simpa using this.tendsto 0
  refine (hf.comp_tendsto ht).trans_isBigO ?_
  apply Asymptotics.IsBigO.of_bound |c|
  refine Filter.Eventually.of_forall fun t => ?_
  simp

theorem hasDerivAt_sincPoly (x : ℝ) : HasDerivAt sincPoly (x ^ 3 / 30 - x / 3) x := by
  have h : HasDerivAt (fun r : ℝ => 1 - r ^ 2 / 6 + r ^ 4 / 120) (0 - ((2 : ℕ) : ℝ) * x ^ (2 - 1) / 6 + ((4 : ℕ) : ℝ) * x ^ (4 - 1) / 120) x :=
    ((hasDerivAt_const _ 1).sub ((hasDerivAt_pow 2 _).div_const 6)).add ((hasDerivAt_pow 4 _).div_const 120)
  have he : sincPoly = fun r : ℝ => 1 - r ^ 2 / 6 + r ^ 4 / 120 := by funext r; rw [sincPoly]; ring
  rw [he]
  refine h.congr_deriv ?_
  norm_num
  ring

theorem hasDerivAt_series (c x : ℝ) : HasDerivAt (fun r => c * sincPoly r ^ 4) (c * (4 * sincPoly x ^ 3 * (x ^ 3 / 30 - x / 3))) x := by
  have := ((hasDerivAt_sincPoly x).pow 4).const_mul c
  refine HasDerivAt.congr_deriv this ?_
  norm_num

end FleCSPH.Kernels

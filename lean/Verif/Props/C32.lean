import Verif.Lemmas.Kernels3
/-! C32: the kernel gradients are the gradients of the kernels. -/
namespace FleCSPH
open Kernels Geometry Real Set

/-- The derivative of a polynomial kernel at the separation `p`, in any direction `v`, is the scalar product of `v` and the
kernel gradient, corrected for the `TINY` in its denominator. This includes `p = 0`, where both vanish. -/
theorem C32_partial (κ : Kernel) (hκ : Poly κ) (i : Fin 3) (p v : Point (i + 1)) (h : ℝ) (hh : 0 < h) :
    (p ≠ 0 → HasDerivAt (fun t : ℝ => kernel κ i (magnitude (p + t • v)) h)
      ((magnitude p + tiny) / magnitude p * ∑ j, kernelGradient κ i p h j * v j) 0) ∧
    (p = 0 → HasDerivAt (fun t : ℝ => kernel κ i (magnitude (p + t • v)) h) 0 0 ∧ kernelGradient κ i p h = 0) := by
  refine ⟨fun hp => directional κ i hp v (radial_poly hκ i _ hh), fun hp => ?_⟩
  subst hp
  refine ⟨?_, ?_⟩
  · have h0 := radial_poly hκ i 0 hh
    rw [slope_zero hκ] at h0
    have := hasDerivAt_abs h0 (magnitude v)
    simp only [zero_add, magnitude_smul]
    exact this
  · funext j; simp [kernelGradient]

/-- The same for the Gaussian kernels strictly inside the support. -/
theorem C32_gaussian_partial (κ : Kernel) (hκ : κ = .gaussian ∨ κ = .superGaussian) (i : Fin 3) (p v : Point (i + 1)) (h : ℝ)
    (hh : 0 < h) (hp : p ≠ 0) (hp' : magnitude p < h) :
    HasDerivAt (fun t : ℝ => kernel κ i (magnitude (p + t • v)) h)
      ((magnitude p + tiny) / magnitude p * ∑ j, kernelGradient κ i p h j * v j) 0 := by
  rcases hκ with rfl | rfl
  · exact directional _ i hp v (radial_gaussian i hh hp')
  · exact directional _ i hp v (radial_superGaussian i hh (magnitude_pos hp) hp')

/-- The same for the sinc kernel of any index, inside the support and beyond its series branch. -/
theorem C32_sinc_partial (n : ℝ) (i : Fin 3) (p v : Point (i + 1)) (h : ℝ)
    (hh : 0 < h) (hp : 1 / 10 ^ 6 < π * magnitude p / h) (hp' : magnitude p < h) :
    HasDerivAt (fun t : ℝ => kernel (.sinc n) i (magnitude (p + t • v)) h)
      ((magnitude p + tiny) / magnitude p * ∑ j, kernelGradient (.sinc n) i p h j * v j) 0 := by
  have hp0 : p ≠ 0 := by
    rintro rfl
    have : magnitude (0 : Point (i + 1)) = 0 := by simp [magnitude]
    rw [this] at hp
    norm_num at hp
  exact directional _ i hp0 v (radial_sinc n i hh hp hp')

/-- Exchanging the two particles changes the sign of the gradient, for every kernel. -/
theorem C32_antisymmetric (κ : Kernel) (i : Fin 3) (a b : Point (i + 1)) (h : ℝ) :
    kernelGradient κ i (b - a) h = -kernelGradient κ i (a - b) h := by
  have hm : magnitude (b - a) = magnitude (a - b) := by rw [← magnitude_neg, neg_sub]
  funext j
  simp only [kernelGradient, hm, Pi.neg_apply, Pi.sub_apply]
  ring

/-- The gradient vanishes from `h` on, for every kernel. -/
theorem C32_support (κ : Kernel) (i : Fin 3) (p : Point (i + 1)) (h : ℝ) (hh : 0 < h) (hp : h ≤ magnitude p) :
    kernelGradient κ i p h = 0 := by
  funext j
  simp [kernelGradient, slope_out κ i hh hp]

/-- The Gaussian kernel has no derivative at its support radius: it jumps there. -/
theorem C32_gaussian_violated (i : Fin 3) (h : ℝ) (hh : 0 < h) : ¬ ∃ D, HasDerivAt (fun r => kernel .gaussian i r h) D h := by
  rintro ⟨D, hD⟩
  have hs := gaussianSigma_pos i
  have hpos : 0 < kernel .gaussian i h h := by
    simp only [kernel, gaussian]
    rw [if_pos (by rw [div_le_iff₀ hh])]
    positivity
  have ht := hD.continuousAt.tendsto.mono_left (nhdsWithin_le_nhds (s := Ioi h))
  have h0 : Filter.Tendsto (fun r => kernel .gaussian i r h) (nhdsWithin h (Ioi h)) (nhds 0) := by
    refine tendsto_const_nhds.congr' ?_
    filter_upwards [self_mem_nhdsWithin] with r hr
    simp only [kernel, gaussian]
    rw [if_neg]
    rw [not_le, lt_div_iff₀ hh]; linarith [mem_Ioi.mp hr]
  exact hpos.ne (tendsto_nhds_unique h0 ht)

/-- The series branch of the sinc gradient is not the derivative of the series branch of the sinc kernel, for the
default index 4: at `π r / h = 5e-7` the derivative differs from the radial factor. -/
theorem C32_sinc_violated (i : Fin 3) :
    ∃ D, HasDerivAt (fun r => kernel (.sinc 4) i r π) D (5 / 10 ^ 7) ∧ D ≠ slope (.sinc 4) i (5 / 10 ^ 7) π := by
  have hpi := pi_pos
  have hpi2 := two_le_pi
  have hs := sincSigma_pos (n := 4) (by norm_num) (by norm_num) i
  have hin : ∀ s : ℝ, s / π * π = s := fun s => by field_simp
  have hW := hasDerivAt_series (sincSigma 4 i / π ^ (i + 1 : ℕ)) (5 / 10 ^ 7)
  refine ⟨_, hW.congr_of_eventuallyEq ?_, ?_⟩
  · have h1 : (5 / 10 ^ 7 : ℝ) < 1 / 10 ^ 6 := by norm_num
    have h2 : (1 / 10 ^ 24 : ℝ) < 5 / 10 ^ 7 := by norm_num
    filter_upwards [Iio_mem_nhds h1, Ioi_mem_nhds h2] with s hs1 hs2
    have hs1' : s < 1 / 10 ^ 6 := hs1
    have hs2' : 1 / 10 ^ 24 < s := hs2
    have hs0 : 0 ≤ s := le_trans (by positivity) hs2'.le
    show sincKernel 4 i s π = _
    rw [sincKernel_in i hpi hs0 (hs1'.trans (by linarith [show (1 / 10 ^ 6 : ℝ) < 1 by norm_num])), hin, sincValue, if_neg hs1'.le.not_gt, if_pos hs2']
    rw [show (4 : ℝ) = ((4 : ℕ) : ℝ) by norm_num, rpow_natCast]; rfl
  · show _ ≠ sincSlope 4 i (5 / 10 ^ 7) π
    obtain ⟨g1, g2, _⟩ := sinc_arg (r := 5 / 10 ^ 7) hpi (by norm_num) (by linarith [show (5 / 10 ^ 7 : ℝ) < 1 by norm_num])
    rw [sincSlope, if_pos g1, g2, hin, sincDeriv, if_neg (by norm_num), if_pos (by norm_num), pow_succ π (i + 1)]
    intro heq
    have hc : sincSigma 4 i / π ^ ((i : ℕ) + 1) ≠ 0 := by positivity
    have hdiv : sincSigma 4 i / (π ^ ((i : ℕ) + 1) * π) = sincSigma 4 i / π ^ ((i : ℕ) + 1) * π⁻¹ := by field_simp
    rw [hdiv, mul_assoc (_ / _) π⁻¹] at heq
    have := mul_left_cancel₀ hc heq
    rw [sincPoly] at this
    norm_num at this
    field_simp at this
    norm_num at this

/-- Non-vacuity: a separation inside the support and beyond the series branch. -/
example : ∃ p : Point 2, p ≠ 0 ∧ magnitude p < 2 ∧ 1 / 10 ^ 6 < π * magnitude p / 2 := by
  refine ⟨fun j => if j = 0 then 1 else 0, fun h => by simpa using congrFun h 0, ?_, ?_⟩
  · simp [magnitude]
  · simp [magnitude]; linarith [two_le_pi]

end FleCSPH

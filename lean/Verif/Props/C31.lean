import Verif.Lemmas.Kernels2
import Verif.Spec.Kernels
/-! C31: kernels are non-negative, compactly supported, continuous and non-increasing. -/
namespace FleCSPH
open Kernels Real Set

/-- The cubic and quintic splines and the three Wendland kernels, in each of the three dimensions, for every `h > 0`. -/
theorem C31_partial (κ : Kernel) (hκ : Poly κ) (i : Fin 3) (h : ℝ) (hh : 0 < h) :
    Spec.IsKernel (fun r => kernel κ i r h) h ∧ ∀ r, 0 ≤ r → r < h → 0 < kernel κ i r h := by
  have hs := sigma_pos hκ i
  have hc : 0 < sigma κ i / h ^ (i + 1 : ℕ) := by positivity
  have sp : 0 < scale κ := scale_pos
  have pos : ∀ r, 0 ≤ r → r < h → 0 < kernel κ i r h := by
    intro r hr hr'
    rw [kernel_eq hκ]
    refine mul_pos hc (prof_pos hκ i (by positivity) ?_)
    rw [div_lt_iff₀ hh]; exact mul_lt_mul_of_pos_left hr' sp
  have supp : ∀ r, h ≤ r → kernel κ i r h = 0 := by
    intro r hr
    rw [kernel_eq hκ, prof_zero hκ, mul_zero]
    rw [le_div_iff₀ hh]; exact mul_le_mul_of_nonneg_left hr sp.le
  refine ⟨⟨?_, supp, ?_, ?_⟩, pos⟩
  · intro r hr
    rcases lt_or_ge r h with h1 | h1
    · exact (pos r hr h1).le
    · exact (supp r h1).ge
  · have : Continuous (prof κ i) := continuous_iff_continuousAt.mpr fun x => (hasDerivAt_prof hκ i x).continuousAt
    simp only [kernel_eq hκ]
    exact (continuous_const.mul (this.comp ((continuous_const.mul continuous_id).div_const h))).continuousOn
  · intro r s hr hrs
    show kernel κ i s h ≤ kernel κ i r h
    rw [kernel_eq hκ, kernel_eq hκ]
    refine mul_le_mul_of_nonneg_left (antitoneOn_prof hκ i ?_ ?_ ?_) hc.le
    · exact mem_Ici.mpr (by positivity)
    · exact mem_Ici.mpr (div_nonneg (mul_nonneg sp.le (hr.trans hrs)) hh.le)
    · exact div_le_div_of_nonneg_right (mul_le_mul_of_nonneg_left hrs sp.le) hh.le

/-- The Gaussian kernel is non-negative, non-increasing and zero beyond `h`. -/
theorem C31_gaussian_partial (i : Fin 3) (h : ℝ) (hh : 0 < h) :
    (∀ r, 0 ≤ kernel .gaussian i r h) ∧ (∀ r, h < r → kernel .gaussian i r h = 0) ∧
      ∀ r s, 0 ≤ r → r ≤ s → kernel .gaussian i s h ≤ kernel .gaussian i r h := by
  have hs := gaussianSigma_pos i
  have nn : ∀ r, 0 ≤ kernel .gaussian i r h := by
    intro r; simp only [kernel, gaussian]; split_ifs <;> positivity
  refine ⟨nn, ?_, ?_⟩
  · intro r hr
    simp only [kernel, gaussian]
    rw [if_neg]
    rw [not_le, lt_div_iff₀ hh]; linarith
  · intro r s hr hrs
    have hd : 3 * r / h ≤ 3 * s / h := div_le_div_of_nonneg_right (by linarith) hh.le
    by_cases h1 : 3 * s / h ≤ 3
    · simp only [kernel, gaussian]
      rw [if_pos h1, if_pos (hd.trans h1)]
      refine mul_le_mul_of_nonneg_left (exp_le_exp.mpr ?_) (by positivity)
      have : 0 ≤ 3 * r / h := by positivity
      nlinarith
    · have : kernel .gaussian i s h = 0 := by simp only [kernel, gaussian]; rw [if_neg h1]
      rw [this]; exact nn r

/-- The Gaussian kernel does not vanish at its support radius, hence jumps there. -/
theorem C31_gaussian_violated (i : Fin 3) (h : ℝ) (hh : 0 < h) :
    0 < kernel .gaussian i h h ∧ ¬ Spec.IsKernel (fun r => kernel .gaussian i r h) h := by
  have hs := gaussianSigma_pos i
  have : 0 < kernel .gaussian i h h := by
    simp only [kernel, gaussian]
    rw [if_pos (by rw [div_le_iff₀ hh])]
    positivity
  exact ⟨this, fun hk => this.ne' (hk.support h le_rfl)⟩

/-- The super-Gaussian kernel vanishes from `h` on, and is negative at two thirds of its support radius. -/
theorem C31_super_gaussian_violated (i : Fin 3) (h : ℝ) (hh : 0 < h) :
    (∀ r, h ≤ r → kernel .superGaussian i r h = 0) ∧ kernel .superGaussian i (2 / 3 * h) h < 0 ∧
      ¬ Spec.IsKernel (fun r => kernel .superGaussian i r h) h := by
  have hs := superGaussianSigma_pos i
  have neg : kernel .superGaussian i (2 / 3 * h) h < 0 := by
    simp only [kernel, superGaussian]
    have e : 3 * (2 / 3 * h) / h = 2 := by field_simp
    rw [e]
    have hi : ((i : ℕ) : ℝ) ≤ 2 := by exact_mod_cast (by omega : (i : ℕ) ≤ 2)
    have hf : fac (|(2 : ℝ)| < 3) = 1 := by rw [fac, if_pos]; norm_num
    rw [hf, mul_one]
    refine mul_neg_of_pos_of_neg (by positivity) (by linarith)
  refine ⟨?_, neg, fun hk => absurd (hk.nonneg (2 / 3 * h) (by positivity)) (not_le.mpr neg)⟩
  intro r hr
  simp only [kernel, superGaussian]
  have : fac (|3 * r / h| < 3) = 0 := by
    rw [fac, if_neg]
    rw [not_lt, abs_of_nonneg (by have := hh.trans_le hr; positivity), le_div_iff₀ hh]; linarith
  rw [this, mul_zero]

/-- The sinc kernel is non-negative, non-increasing and zero from `h` on, for every index between 1 and 1000. -/
theorem C31_sinc_partial (n : ℝ) (hn : 1 ≤ n) (hn' : n ≤ 1000) (i : Fin 3) (h : ℝ) (hh : 0 < h) :
    (∀ r, 0 ≤ r → 0 ≤ kernel (.sinc n) i r h) ∧ (∀ r, h ≤ r → kernel (.sinc n) i r h = 0) ∧
      ∀ r s, 0 ≤ r → r ≤ s → kernel (.sinc n) i s h ≤ kernel (.sinc n) i r h := by
  have hs := sincSigma_pos hn hn' i
  have nn : ∀ r, 0 ≤ r → 0 ≤ sincKernel n i r h := by
    intro r hr
    rcases lt_or_ge r h with h1 | h1
    · obtain ⟨_, _, h3, h4⟩ := sinc_arg hh hr h1
      rw [sincKernel_in i hh hr h1]
      have := rpow_nonneg (sincValue_nonneg h3 h4) n
      positivity
    · exact (sincKernel_out i hh h1).ge
  refine ⟨nn, fun r hr => sincKernel_out i hh hr, ?_⟩
  intro r s hr hrs
  show sincKernel n i s h ≤ sincKernel n i r h
  rcases lt_or_ge s h with h1 | h1
  · obtain ⟨_, _, h3, h4⟩ := sinc_arg hh (hr.trans hrs) h1
    obtain ⟨_, _, h5, h6⟩ := sinc_arg hh hr (hrs.trans_lt h1)
    rw [sincKernel_in i hh (hr.trans hrs) h1, sincKernel_in i hh hr (hrs.trans_lt h1)]
    refine mul_le_mul_of_nonneg_left (rpow_le_rpow (sincValue_nonneg h3 h4) (sincValue_anti h5 ?_ h4) (by linarith)) (by positivity)
    exact mul_le_mul_of_nonneg_right (div_le_div_of_nonneg_right hrs hh.le) pi_pos.le
  · rw [sincKernel_out i hh h1]; exact nn r hr

/-- The sinc kernel jumps where its series branch ends. -/
theorem C31_sinc_violated (n : ℝ) (hn : 1 ≤ n) (hn' : n ≤ 1000) (i : Fin 3) (h : ℝ) (hh : 0 < h) :
    ¬ Spec.IsKernel (fun r => kernel (.sinc n) i r h) h := by
  intro hk
  have hs := sincSigma_pos hn hn' i
  have hpi := pi_pos
  have hpi3 := two_le_pi
  have c6 : (0 : ℝ) < 1 / 10 ^ 6 := by positivity
  set r₀ : ℝ := 1 / 10 ^ 6 * h / π with hr₀
  have hr0 : 0 < r₀ := by positivity
  have hr0h : r₀ < h := by
    rw [hr₀, div_lt_iff₀ hpi]; nlinarith
  have hx0 : r₀ / h * π = 1 / 10 ^ 6 := by rw [hr₀]; field_simp
  have hc : 0 < sincSigma n i / h ^ (i + 1 : ℕ) := by positivity
  have hcont : ContinuousAt (fun r => sincKernel n i r h) r₀ := (hk.continuous r₀ (mem_Ici.mpr hr0.le)).continuousAt (Ici_mem_nhds hr0)
  -- the limit from the right
  have hr : Filter.Tendsto (fun r => sincKernel n i r h) (nhdsWithin r₀ (Ioi r₀))
      (nhds (sincSigma n i / h ^ (i + 1 : ℕ) * (sin (1 / 10 ^ 6) / (1 / 10 ^ 6)) ^ n)) := by
    have hcont2 : ContinuousAt (fun r => sincSigma n i / h ^ (i + 1 : ℕ) * (sin (r / h * π) / (r / h * π)) ^ n) r₀ := by
      apply ContinuousAt.mul continuousAt_const
      apply ContinuousAt.rpow_const
      · apply ContinuousAt.div
        · fun_prop
        · fun_prop
        · rw [hx0]; norm_num
      · right; linarith
    have ht := hcont2.tendsto.mono_left (nhdsWithin_le_nhds (s := Ioi r₀))
    rw [hx0] at ht
    refine ht.congr' ?_
    have hlt : ∀ᶠ r in nhdsWithin r₀ (Ioi r₀), r < h := nhdsWithin_le_nhds (Iio_mem_nhds hr0h)
    filter_upwards [self_mem_nhdsWithin, hlt] with r hr hrh
    have hr' : r₀ < r := hr
    rw [sincKernel_in i hh (hr0.trans hr').le hrh, sincValue, if_pos]
    rw [← hx0]
    exact mul_lt_mul_of_pos_right (div_lt_div_of_pos_right hr' hh) hpi
  have heq := tendsto_nhds_unique hr (hcont.tendsto.mono_left nhdsWithin_le_nhds)
  have hval : sincKernel n i r₀ h = sincSigma n i / h ^ (i + 1 : ℕ) * sincPoly (1 / 10 ^ 6) ^ n := by
    rw [sincKernel_in i hh hr0.le hr0h, hx0, sincValue, if_neg (lt_irrefl _), if_pos (by norm_num)]; rfl
  simp only [hval] at heq
  have hlt : (sin (1 / 10 ^ 6) / (1 / 10 ^ 6)) ^ n < sincPoly (1 / 10 ^ 6) ^ n :=
    rpow_lt_rpow (div_nonneg (sin_nonneg_of_nonneg_of_le_pi c6.le (by linarith)) c6.le) (sinc_lt_poly c6) (by linarith)
  exact absurd heq (mul_lt_mul_of_pos_left hlt hc).ne

/-- Non-vacuity. -/
example : Poly .cubicSpline ∧ Poly .quinticSpline ∧ Poly .wendlandC2 ∧ Poly .wendlandC4 ∧ Poly .wendlandC6 :=
  ⟨.cubicSpline, .quinticSpline, .wendlandC2, .wendlandC4, .wendlandC6⟩

end FleCSPH

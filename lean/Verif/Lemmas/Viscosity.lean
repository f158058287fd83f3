import Verif.Lemmas.SphSum
import Verif.Lemmas.Density
/-! Signs of the artificial viscosity and of the kernel slopes. -/
namespace FleCSPH.Sph
open FleCSPH.Geometry FleCSPH.Kernels FleCSPH.Spec

theorem tiny_pos : 0 < tiny := by unfold tiny; positivity

variable {i : Fin 3}

theorem sin_ge_mul_cos {x : ℝ} (hx : 0 ≤ x) (hx' : x ≤ Real.pi) : x * Real.cos x ≤ Real.sin x := by
  have hd : ∀ y, HasDerivAt (fun y => Real.sin y - y * Real.cos y) (y * Real.sin y) y := by
    intro y
    have := (Real.hasDerivAt_sin y).sub ((hasDerivAt_id y).mul (Real.hasDerivAt_cos y))
    refine this.congr_deriv ?_
    simp only [id]; ring
  have hm : MonotoneOn (fun y => Real.sin y - y * Real.cos y) (Set.Icc 0 Real.pi) := by
    refine monotoneOn_of_deriv_nonneg (convex_Icc _ _) (fun y _ => (hd y).continuousAt.continuousWithinAt)
      (fun y _ => (hd y).differentiableAt.differentiableWithinAt) fun y hy => ?_
    rw [interior_Icc] at hy
    rw [(hd y).deriv]
    exact mul_nonneg hy.1.le (Real.sin_nonneg_of_nonneg_of_le_pi hy.1.le hy.2.le)
  have := hm ⟨le_rfl, Real.pi_pos.le⟩ ⟨hx, hx'⟩ hx
  simp only [Real.sin_zero, zero_mul, sub_zero] at this
  linarith

/-- The radial factor of the gradient is never positive. -/
theorem slope_nonpos {κ : Kernel} (hκ : NonNegKernel κ) {r h : ℝ} (hr : 0 ≤ r) (hh : 0 < h) : slope κ i r h ≤ 0 := by
  rcases hκ with hκ | rfl | ⟨n, h1, h2, rfl⟩
  · rw [slope_eq hκ i r hh]
    have := sigma_pos hκ i
    have hs : 0 < scale κ := scale_pos
    exact mul_nonpos_of_nonneg_of_nonpos (by positivity)
      (mul_nonpos_of_nonpos_of_nonneg (dprof_nonpos hκ i (by positivity)) (by positivity))
  · have := gaussianSigma_pos i
    simp only [Kernels.slope, gaussianSlope]
    split_ifs with h3
    · refine mul_nonpos_of_nonneg_of_nonpos (by positivity) ?_
      have h4 : 0 ≤ 3 * r / h := by positivity
      have := Real.exp_pos (-(3 * r / h) * (3 * r / h))
      nlinarith [mul_nonneg h4 this.le]
    · exact le_rfl
  · have hs := sincSigma_pos h1 h2 i
    simp only [Kernels.slope, sincSlope]
    split_ifs with h3
    · refine mul_nonpos_of_nonneg_of_nonpos (by positivity) ?_
      have hx0 : 0 ≤ |r / h| * Real.pi := by positivity
      have hx1 : |r / h| * Real.pi ≤ Real.pi := by nlinarith [Real.pi_pos]
      generalize |r / h| * Real.pi = x at hx0 hx1
      simp only [sincDeriv]
      split_ifs with h4 h5
      · have hxp : 0 < x := lt_trans (by positivity) h4
        have e1 : 0 ≤ (Real.sin x / x) ^ (n - 1) :=
          Real.rpow_nonneg (div_nonneg (Real.sin_nonneg_of_nonneg_of_le_pi hx0 hx1) hx0) _
        have e2 : 0 ≤ Real.sin x / x / x - Real.cos x / x := by
          have := sin_ge_mul_cos hx0 hx1
          rw [← sub_div]
          refine div_nonneg ?_ hx0
          rw [sub_nonneg, le_div_iff₀ hxp]; linarith
        have e3 : 0 ≤ n * (Real.sin x / x) ^ (n - 1) * Real.pi * (Real.sin x / x / x - Real.cos x / x) := by
          have := Real.pi_pos
          have : 0 ≤ n := by linarith
          positivity
        nlinarith
      · have h6 : x ≤ 1 / 10 ^ 6 := not_lt.mp h4
        have hb : 0 ≤ 1 - 1 / 2 * (x * x) * (1 / 5 - (n - 1) / 18) := by
          have : x * x ≤ 1 := by nlinarith
          have : 0 ≤ x * x * (n - 1) := mul_nonneg (mul_self_nonneg x) (by linarith)
          nlinarith
        have e3 : 0 ≤ n * x / 3 * Real.pi * (1 - 1 / 2 * (x * x) * (1 / 5 - (n - 1) / 18)) := by
          have := Real.pi_pos
          have : 0 ≤ n := by linarith
          positivity
        have e4 : -n * x / 3 * Real.pi * (1 - 1 / 2 * (x * x) * (1 / 5 - (n - 1) / 18)) =
          -(n * x / 3 * Real.pi * (1 - 1 / 2 * (x * x) * (1 / 5 - (n - 1) / 18))) := by ring
        rw [e4]; linarith
      · exact le_rfl
    · exact le_rfl

theorem mu_nonpos {d : Nat} {eps h : ℝ} (he : 0 ≤ eps) (hh : 0 < h) (v x : Point d) : mu eps h v x ≤ 0 := by
  have ht := tiny_pos
  have hd := dot_self_nonneg x
  have hden : 0 < dot x x + eps * h * h + tiny := by positivity
  simp only [mu, fac]
  split_ifs with h1
  · rw [mul_one]
    exact div_nonpos_of_nonpos_of_nonneg (by nlinarith) hden.le
  · rw [mul_zero]

theorem mu_zero {d : Nat} {eps h : ℝ} {v x : Point d} (h1 : 0 ≤ dot v x) : mu eps h v x = 0 := by
  simp only [mu, fac, if_neg (not_lt.mpr h1), mul_zero]

theorem mu_neg {d : Nat} {eps h : ℝ} (he : 0 ≤ eps) (hh : 0 < h) {v x : Point d} (h1 : dot v x < 0) : mu eps h v x < 0 := by
  have ht := tiny_pos
  have hd := dot_self_nonneg x
  have hden : 0 < dot x x + eps * h * h + tiny := by positivity
  simp only [mu, fac, if_pos h1, mul_one]
  exact div_neg_of_neg_of_pos (by nlinarith) hden

theorem artificialViscosity_nonneg (p : Params i) (ha : 0 ≤ p.alpha) (hb : 0 ≤ p.beta) {al rho c m : ℝ} (hal : 0 ≤ al) (hr : 0 < rho)
    (hc : 0 ≤ c) (hm : m ≤ 0) : 0 ≤ artificialViscosity p al rho c m := by
  simp only [artificialViscosity]
  split
  · refine div_nonneg (mul_nonneg_of_nonpos_of_nonpos ?_ hm) hr.le
    nlinarith [mul_nonneg ha hc, mul_nonneg hb (neg_nonneg.mpr hm)]
  · refine div_nonneg (mul_nonneg_of_nonpos_of_nonpos ?_ hm) hr.le
    nlinarith [mul_nonneg hal hc, mul_nonneg hal (neg_nonneg.mpr hm)]

theorem viscOf_nonneg (p : Params i) (ha : 0 ≤ p.alpha) (hb : 0 ≤ p.beta) (he : 0 ≤ p.eps) {a b : Particle (i + 1)}
    (hal : 0 ≤ a.alpha + b.alpha) (hr : 0 < a.rho + b.rho) (hc : 0 ≤ a.cs + b.cs) (hh : 0 < a.h + b.h) : 0 ≤ viscOf p a b :=
  artificialViscosity_nonneg p ha hb (by linarith) (by linarith) (by linarith) (mu_nonpos he (by linarith) _ _)

theorem viscOf_receding (p : Params i) {a b : Particle (i + 1)} (h : 0 ≤ dot (a.vhalf - b.vhalf) (a.pos - b.pos)) : viscOf p a b = 0 := by
  simp only [viscOf, mu_zero h, artificialViscosity]
  split <;> simp

theorem dot_gradOf (p : Params i) (a b : Particle (i + 1)) (v : Point (i + 1)) :
    dot v (gradOf p a b) = dot v (a.pos - b.pos) * (slope p.kernel i (magnitude (a.pos - b.pos)) (1 / 2 * (a.h + b.h)) /
      (magnitude (a.pos - b.pos) + tiny)) := by
  simp only [dot, gradOf, kernelGradient, Finset.sum_mul]
  exact Finset.sum_congr rfl fun j _ => by ring

theorem gradOf_self (p : Params i) {a b : Particle (i + 1)} (h : b.pos = a.pos) : gradOf p a b = 0 := by
  funext j; simp [gradOf, kernelGradient, h]

end FleCSPH.Sph

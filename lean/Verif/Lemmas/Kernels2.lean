import Verif.Lemmas.Kernels
import Mathlib.Analysis.SpecialFunctions.Trigonometric.Bounds
import Mathlib.Analysis.SpecialFunctions.Trigonometric.Deriv
import Mathlib.Analysis.Convex.SpecificFunctions.Deriv
import Mathlib.Analysis.SpecialFunctions.Pow.Deriv
import Mathlib.Analysis.SpecialFunctions.Pow.Continuity
/-! The Gaussian and the sinc kernels. -/
namespace FleCSPH.Kernels
open FleCSPH.Geometry Real Set

theorem cos_lt_quartic {x : ℝ} (hx : 0 < x) : cos x < 1 - x ^ 2 / 2 + x ^ 4 / 24 := by
  have key : StrictMonoOn (fun y : ℝ => 1 - y ^ 2 / 2 + y ^ 4 / 24 - cos y) (Ici 0) := by
    apply strictMonoOn_of_deriv_pos (convex_Ici 0) (by fun_prop)
    intro y hy
    rw [interior_Ici] at hy
    have h1 : HasDerivAt (fun y : ℝ => 1 - y ^ 2 / 2 + y ^ 4 / 24 - cos y) (-(y) + y ^ 3 / 6 + sin y) y := by
      have := ((((hasDerivAt_const y (1 : ℝ)).sub ((hasDerivAt_pow 2 y).div_const 2)).add ((hasDerivAt_pow 4 y).div_const 24)).sub (hasDerivAt_cos y))
      refine HasDerivAt.congr_deriv this ?_
      norm_num; ring
    rw [h1.deriv]
    have := sin_gt_sub_cube (mem_Ioi.mp hy)
    linarith
  have := key (mem_Ici.mpr le_rfl) (mem_Ici.mpr hx.le) hx
  simp at this
  linarith

theorem sin_lt_quintic {x : ℝ} (hx : 0 < x) : sin x < x - x ^ 3 / 6 + x ^ 5 / 120 := by
  have key : StrictMonoOn (fun y : ℝ => y - y ^ 3 / 6 + y ^ 5 / 120 - sin y) (Ici 0) := by
    apply strictMonoOn_of_deriv_pos (convex_Ici 0) (by fun_prop)
    intro y hy
    rw [interior_Ici] at hy
    have h1 : HasDerivAt (fun y : ℝ => y - y ^ 3 / 6 + y ^ 5 / 120 - sin y) (1 - y ^ 2 / 2 + y ^ 4 / 24 - cos y) y := by
      have := ((((hasDerivAt_id y).sub ((hasDerivAt_pow 3 y).div_const 6)).add ((hasDerivAt_pow 5 y).div_const 120)).sub (hasDerivAt_sin y))
      refine HasDerivAt.congr_deriv this ?_
      norm_num; ring
    rw [h1.deriv]
    have := cos_lt_quartic (mem_Ioi.mp hy)
    linarith
  have := key (mem_Ici.mpr le_rfl) (mem_Ici.mpr hx.le) hx
  simp at this
  linarith

/-- The series branch of the sinc. -/
noncomputable def sincPoly (x : ℝ) : ℝ := 1 + x * x * (1 / 20 * (x * x) - 1) / 6

theorem sinc_lt_poly {x : ℝ} (hx : 0 < x) : sin x / x < sincPoly x := by
  rw [div_lt_iff₀ hx, sincPoly]
  have := sin_lt_quintic hx
  linarith [show (1 + x * x * (1 / 20 * (x * x) - 1) / 6) * x = x - x ^ 3 / 6 + x ^ 5 / 120 by ring]

theorem sincPoly_anti {x y : ℝ} (hx : 0 ≤ x) (hxy : x ≤ y) (hy : y ≤ 1) : sincPoly y ≤ sincPoly x := by
  have h1 : x * x ≤ y * y := mul_self_le_mul_self hx hxy
  have h2 : y * y ≤ 1 := by nlinarith
  unfold sincPoly
  nlinarith [mul_nonneg (sub_nonneg.mpr h1) (by nlinarith : 0 ≤ 20 - (x * x + y * y))]

theorem sin_div_anti {x y : ℝ} (hx : 0 < x) (hxy : x ≤ y) (hy : y ≤ π) : sin y / y ≤ sin x / x := by
  have hy0 : 0 < y := by linarith
  rw [div_le_div_iff₀ hy0 hx]
  have hya : y ∈ Icc 0 π := ⟨hy0.le, hy⟩
  have h0a : (0 : ℝ) ∈ Icc 0 π := ⟨le_rfl, pi_pos.le⟩
  have hx1 : (0 : ℝ) ≤ x / y := by positivity
  have hx2 : (0 : ℝ) ≤ 1 - x / y := by rw [sub_nonneg, div_le_one hy0]; exact hxy
  have hc := strictConcaveOn_sin_Icc.concaveOn.2 hya h0a hx1 hx2 (by ring)
  simp only [smul_eq_mul, sin_zero, mul_zero, add_zero] at hc
  have : x / y * y = x := by field_simp
  rw [this] at hc
  rw [div_mul_eq_mul_div, div_le_iff₀ hy0] at hc
  linarith

theorem sincValue_nonneg {x : ℝ} (hx : 0 ≤ x) (hx' : x ≤ π) : 0 ≤ sincValue x := by
  unfold sincValue
  split_ifs with h1 h2
  · exact div_nonneg (sin_nonneg_of_nonneg_of_le_pi hx hx') hx
  · have : x ≤ 1 / 10 ^ 6 := not_lt.mp h1
    have h3 : x * x ≤ 1 := by
      have : x ≤ 1 := this.trans (by norm_num)
      nlinarith
    nlinarith [mul_self_nonneg x, mul_self_nonneg (x * x)]
  · norm_num

theorem sincPoly_le_one {x : ℝ} (hx : 0 ≤ x) (hx' : x ≤ 1) : sincPoly x ≤ 1 := by
  have := sincPoly_anti le_rfl hx hx'
  simpa [sincPoly] using this

theorem sincValue_anti {x y : ℝ} (hx : 0 ≤ x) (hxy : x ≤ y) (hy : y ≤ π) : sincValue y ≤ sincValue x := by
  have e : ∀ x, sincValue x = if 1 / 10 ^ 6 < x then sin x / x else if 1 / 10 ^ 24 < x then sincPoly x else 1 := fun x => rfl
  rw [e, e]
  have c6 : (0 : ℝ) < 1 / 10 ^ 6 := by positivity
  have c24 : (0 : ℝ) < 1 / 10 ^ 24 := by positivity
  have c1 : (1 : ℝ) / 10 ^ 6 ≤ 1 := by norm_num
  by_cases h1 : 1 / 10 ^ 6 < x
  · rw [if_pos h1, if_pos (h1.trans_le hxy)]
    exact sin_div_anti (c6.trans h1) hxy hy
  · rw [if_neg h1]
    have h1' := not_lt.mp h1
    by_cases h2 : 1 / 10 ^ 6 < y
    · rw [if_pos h2]
      have hy0 : 0 < y := c6.trans h2
      have ha : sin y / y ≤ sincPoly (1 / 10 ^ 6) := (sin_div_anti c6 h2.le hy).trans (sinc_lt_poly c6).le
      split_ifs with h3
      · exact ha.trans (sincPoly_anti hx h1' c1)
      · exact ha.trans (sincPoly_le_one c6.le c1)
    · rw [if_neg h2]
      have h2' := not_lt.mp h2
      by_cases h3 : 1 / 10 ^ 24 < x
      · rw [if_pos h3, if_pos (h3.trans_le hxy)]
        exact sincPoly_anti hx hxy (h2'.trans c1)
      · rw [if_neg h3]
        split_ifs
        · exact sincPoly_le_one (hx.trans hxy) (h2'.trans c1)
        · exact le_rfl

theorem sincSigma_pos {n : ℝ} (h1 : 1 ≤ n) (h2 : n ≤ 1000) (i : Fin 3) : 0 < sincSigma n i := by
  have hs1 : 1 ≤ √n := by rw [Real.one_le_sqrt]; exact h1
  have hsq : √n * √n = n := Real.mul_self_sqrt (by linarith)
  have hs2 : √n ≤ 32 := by
    rw [Real.sqrt_le_left (by norm_num)]; linarith
  rcases fin3 i with rfl | rfl | rfl
  · show 0 < 2 * (-15404568 / 10 ^ 9 + 36632876 / 10 ^ 8 * √n + -46519576 / 10 ^ 11 * n + 73658324 / 10 ^ 9 / √n)
    have : 0 ≤ (73658324 : ℝ) / 10 ^ 9 / √n := by positivity
    nlinarith
  · show 0 < 4 * (52245027 / 10 ^ 9 + 13090245 / 10 ^ 8 * n + 19358485 / 10 ^ 9 / n + -61642906 / 10 ^ 10 / (n * n))
    have h3 : (0 : ℝ) ≤ 19358485 / 10 ^ 9 / n := by positivity
    have h4 : (61642906 : ℝ) / 10 ^ 10 / (n * n) ≤ 61642906 / 10 ^ 10 := div_le_self (by norm_num) (by nlinarith)
    rw [neg_div, neg_div]
    nlinarith
  · show 0 < 8 * (27012593 / 10 ^ 9 + 20410827 / 10 ^ 9 * √n + 37451957 / 10 ^ 10 * n + 47013839 / 10 ^ 9 * √n * n)
    positivity

theorem sinc_arg {r h : ℝ} (hh : 0 < h) (hr : 0 ≤ r) (hr' : r < h) :
    |r / h| < 1 ∧ |r / h| * π = r / h * π ∧ 0 ≤ r / h * π ∧ r / h * π ≤ π := by
  have h1 : 0 ≤ r / h := by positivity
  have h2 : r / h < 1 := (div_lt_one hh).mpr hr'
  rw [abs_of_nonneg h1]
  have := pi_pos
  exact ⟨h2, rfl, by positivity, by nlinarith⟩

theorem sincKernel_in {n r h : ℝ} (i : Fin 3) (hh : 0 < h) (hr : 0 ≤ r) (hr' : r < h) :
    sincKernel n i r h = sincSigma n i / h ^ (i + 1 : ℕ) * sincValue (r / h * π) ^ n := by
  obtain ⟨h1, h2, _⟩ := sinc_arg hh hr hr'
  rw [sincKernel, if_pos h1, h2]

theorem sincKernel_out {n r h : ℝ} (i : Fin 3) (hh : 0 < h) (hr : h ≤ r) : sincKernel n i r h = 0 := by
  rw [sincKernel, if_neg]
  rw [not_lt, abs_of_nonneg (by have := hh.trans_le hr; positivity), one_le_div hh]; exact hr

theorem gaussianSigma_pos (i : Fin 3) : 0 < gaussianSigma i := by
  rcases fin3 i with rfl | rfl | rfl <;> simp [gaussianSigma]

theorem superGaussianSigma_pos (i : Fin 3) : 0 < superGaussianSigma i := by
  rcases fin3 i with rfl | rfl | rfl <;> simp [superGaussianSigma]

end FleCSPH.Kernels

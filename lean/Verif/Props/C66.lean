import Verif.Spec.Textbook
import Mathlib.Tactic.Positivity
import Mathlib.Tactic.Linarith
import Mathlib.Tactic.FieldSimp
import Mathlib.Tactic.FinCases
/-! C66: the kernel chosen by its name is the kernel of that name, and the kernel width is its support in units of the conventional smoothing length. -/
namespace FleCSPH
open Kernels Spec Real

private theorem cut_pos {x : ℝ} (h : 0 ≤ x) (n : Nat) : cut x n = x ^ n := by rw [cut, max_eq_left h]
private theorem cut_neg {x : ℝ} (h : x ≤ 0) {n : Nat} (hn : n ≠ 0) : cut x n = 0 := by rw [cut, max_eq_right h, zero_pow hn]

/-- C66 for all kernels but sinc: up to a positive factor that depends on the dimension only, divided by `h^dim`, the kernel is the one of the literature at the distance measured in units of
`h / kernel_width`. -/
theorem C66_shapes (κ : Kernel) (hκ : ∀ n, κ ≠ .sinc n) (i : Fin 3) : ∃ C : ℝ, 0 < C ∧ ∀ r h : ℝ, 0 ≤ r → 0 < h → kernel κ i r h = C / h ^ (i + 1 : ℕ) * textbook κ (i + 1) (kernelWidth κ * r / h) := by
  have hpi := pi_pos
  cases κ with
  | sinc n => exact absurd rfl (hκ n)
  | cubicSpline =>
    refine ⟨cubicSplineSigma i / 4, ?_, fun r h hr hh => ?_⟩
    · fin_cases i <;> simp [cubicSplineSigma] <;> positivity
    · simp only [kernel, cubicSpline, textbook, kernelWidth]
      have hq : 0 ≤ 2 * r / h := by positivity
      generalize 2 * r / h = q at *
      split_ifs with h1 h2
      · rw [cut_pos (by linarith), cut_pos (by linarith)]; ring
      · rw [cut_pos (by linarith), cut_neg (by linarith) (by norm_num)]; ring
      · rw [cut_neg (by linarith) (by norm_num), cut_neg (by linarith) (by norm_num)]; ring
  | quinticSpline =>
    refine ⟨quinticSplineSigma i, ?_, fun r h hr hh => ?_⟩
    · fin_cases i <;> simp [quinticSplineSigma] <;> positivity
    · simp only [kernel, quinticSpline, textbook, kernelWidth]
      have hq : 0 ≤ 3 * r / h := by positivity
      generalize 3 * r / h = q at *
      split_ifs with h1 h2 h3 h3
      · rw [cut_pos (by linarith), cut_pos (by linarith), cut_pos (by linarith)]; ring
      · rw [cut_pos (by linarith), cut_pos (by linarith), cut_neg (by linarith) (by norm_num)]; ring
      · linarith
      · rw [cut_pos (by linarith), cut_neg (by linarith) (by norm_num), cut_neg (by linarith) (by norm_num)]; ring
      · rw [cut_neg (by linarith) (by norm_num), cut_neg (by linarith) (by norm_num), cut_neg (by linarith) (by norm_num)]; ring
  | wendlandC2 =>
    refine ⟨wendlandC2Sigma i, ?_, fun r h hr hh => ?_⟩
    · fin_cases i <;> simp [wendlandC2Sigma] <;> positivity
    · have e : 2 * r / h = 2 * (r / h) := by ring
      have e2 : ∀ x : ℝ, 1 - 2 * x / 2 = 1 - x := fun x => by ring
      simp only [kernel, wendlandC2, textbook, kernelWidth, e, e2]
      generalize r / h = x
      fin_cases i <;> simp only [fac] <;> by_cases h1 : x < 1 <;> simp only [h1, if_true, if_false] <;>
        first
        | (simp only [cut_pos (show (0 : ℝ) ≤ 1 - x by linarith)]; simp; ring)
        | (simp [cut_neg (show 1 - x ≤ (0 : ℝ) by linarith)])
  | wendlandC4 =>
    refine ⟨wendlandC4Sigma i, ?_, fun r h hr hh => ?_⟩
    · fin_cases i <;> simp [wendlandC4Sigma] <;> positivity
    · have e : 2 * r / h = 2 * (r / h) := by ring
      have e2 : ∀ x : ℝ, 1 - 2 * x / 2 = 1 - x := fun x => by ring
      simp only [kernel, wendlandC4, textbook, kernelWidth, e, e2]
      generalize r / h = x
      fin_cases i <;> simp only [fac] <;> by_cases h1 : x < 1 <;> simp only [h1, if_true, if_false] <;>
        first
        | (simp only [cut_pos (show (0 : ℝ) ≤ 1 - x by linarith)]; simp; ring)
        | (simp [cut_neg (show 1 - x ≤ (0 : ℝ) by linarith)])
  | wendlandC6 =>
    refine ⟨wendlandC6Sigma i, ?_, fun r h hr hh => ?_⟩
    · fin_cases i <;> simp [wendlandC6Sigma] <;> positivity
    · have e : 2 * r / h = 2 * (r / h) := by ring
      have e2 : ∀ x : ℝ, 1 - 2 * x / 2 = 1 - x := fun x => by ring
      simp only [kernel, wendlandC6, textbook, kernelWidth, e, e2]
      generalize r / h = x
      fin_cases i <;> simp only [fac] <;> by_cases h1 : x < 1 <;> simp only [h1, if_true, if_false] <;>
        first
        | (simp only [cut_pos (show (0 : ℝ) ≤ 1 - x by linarith)]; simp; ring)
        | (simp [cut_neg (show 1 - x ≤ (0 : ℝ) by linarith)])
  | gaussian =>
    refine ⟨gaussianSigma i, ?_, fun r h hr hh => ?_⟩
    · fin_cases i <;> simp [gaussianSigma]
    · rw [show kernelWidth .gaussian = 3 from rfl]
      simp only [kernel, gaussian, textbook]
      generalize 3 * r / h = q
      split_ifs
      · rw [show -q * q = -q ^ 2 by ring]
      · rw [mul_zero]
  | superGaussian =>
    refine ⟨superGaussianSigma i, ?_, fun r h hr hh => ?_⟩
    · fin_cases i <;> simp [superGaussianSigma]
    · rw [show kernelWidth .superGaussian = 3 from rfl]
      have hq : 0 ≤ 3 * r / h := by positivity
      simp only [kernel, superGaussian, textbook, fac]
      generalize 3 * r / h = q at *
      rw [abs_of_nonneg hq]
      split_ifs
      · rw [show -(q * q) = -q ^ 2 by ring]; push_cast; ring
      · simp

/-- C66 for the sinc kernels, at distances at least a millionth of the support: missing are smaller distances, at which the code takes the beginning of the power series of sinc. -/
theorem C66_sinc_partial (n : ℝ) (i : Fin 3) (r h : ℝ) (hh : 0 < h) (hr : h / 10 ^ 6 ≤ r) :
    kernel (.sinc n) i r h = sincSigma n i / h ^ (i + 1 : ℕ) * textbook (.sinc n) (i + 1) (kernelWidth (.sinc n) * r / h) := by
  have e : 2 * r / h = 2 * (r / h) := by ring
  have hx : 1 / 10 ^ 6 ≤ r / h := by rw [div_le_div_iff₀ (by positivity) hh]; linarith
  simp only [kernel, sincKernel, textbook, kernelWidth, e]
  generalize r / h = x at *
  have h0 : 0 < x := lt_of_lt_of_le (by positivity) hx
  rw [abs_of_pos h0]
  have h3 : 1 / 10 ^ 6 < x * π := by nlinarith [two_le_pi]
  by_cases h1 : x < 1
  · rw [if_pos h1, if_pos (by linarith), sincValue, if_pos h3, show π / 2 * (2 * x) = x * π by ring]
  · rw [if_neg h1, if_neg (by linarith), mul_zero]

/-- Below that distance the value the code takes for sinc differs from it by at most `10^-24`. -/
theorem C66_sinc_near (x : ℝ) (hx : 0 < x) (hx1 : x ≤ 1 / 10 ^ 6) : |sincValue x - sin x / x| ≤ 1 / 10 ^ 24 := by
  have hb := sin_bound (x := x) (by rw [abs_of_pos hx]; linarith)
  rw [abs_of_pos hx] at hb
  have h1 : |1 - x ^ 2 / 6 - sin x / x| ≤ x ^ 4 / 100 := by
    have e : 1 - x ^ 2 / 6 - sin x / x = -((sin x - (x - x ^ 3 / 6)) / x) := by field_simp; ring
    rw [e, abs_neg, abs_div, abs_of_pos hx, div_le_iff₀ hx]
    linarith
  have h4 : x ^ 4 ≤ (1 / 10 ^ 6) ^ 4 := pow_le_pow_left₀ hx.le hx1 4
  have hp4 : 0 < x ^ 4 := by positivity
  rw [abs_le] at h1 ⊢
  rw [sincValue, if_neg (by linarith)]
  split_ifs with h2
  · have e : 1 + x * x * (1 / 20 * (x * x) - 1) / 6 = 1 - x ^ 2 / 6 + x ^ 4 / 120 := by ring
    rw [e]
    constructor <;> linarith [h1.1, h1.2]
  · have h5 : x ^ 2 ≤ (1 / 10 ^ 24) ^ 2 := pow_le_pow_left₀ hx.le (by linarith) 2
    have hp2 : 0 < x ^ 2 := by positivity
    constructor <;> linarith [h1.1, h1.2]

/-- The sinc kernels have the conventional width 2. -/
example : kernelWidth (.sinc 5) * (1 : ℝ) / 1 = 2 := by norm_num [kernelWidth]

/-- The kernels are not zero inside their support. -/
example : kernel .quinticSpline 0 (1 / 2) 1 ≠ 0 := by
  simp only [kernel, quinticSpline, quinticSplineSigma]
  norm_num

end FleCSPH

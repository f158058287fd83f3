import Verif.Model.Kernels
import Mathlib.Analysis.Calculus.Deriv.MeanValue
import Mathlib.Analysis.Calculus.Deriv.Pow
import Mathlib.Analysis.Calculus.Deriv.Inv
/-! Kernels in terms of truncated powers. -/
namespace FleCSPH.Kernels
open FleCSPH.Geometry Real

theorem fin3 (i : Fin 3) : i = 0 ∨ i = 1 ∨ i = 2 := by omega

/-- Truncated difference. -/
noncomputable def tp (a x : ℝ) : ℝ := max (a - x) 0

theorem tp_of_lt {a x : ℝ} (h : x < a) : tp a x = a - x := max_eq_left (by linarith)
theorem tp_of_ge {a x : ℝ} (h : a ≤ x) : tp a x = 0 := max_eq_right (by linarith)
theorem tp_nonneg (a x : ℝ) : 0 ≤ tp a x := le_max_right _ _

theorem continuous_tp (a : ℝ) : Continuous (tp a) := (continuous_const.sub continuous_id).max continuous_const

theorem hasDerivAt_tp_pow (a x : ℝ) (n : ℕ) : HasDerivAt (fun y => tp a y ^ (n + 2)) (-((n + 2 : ℕ) : ℝ) * tp a x ^ (n + 1)) x := by
  rcases lt_trichotomy x a with h | h | h
  · have h1 : HasDerivAt (fun y : ℝ => (a - y) ^ (n + 2)) (((n + 2 : ℕ) : ℝ) * (a - x) ^ (n + 1) * (-1)) x := by
      have := ((hasDerivAt_id x).const_sub a).pow (n + 2)
      exact this
    have h2 : (fun y => tp a y ^ (n + 2)) =ᶠ[nhds x] fun y => (a - y) ^ (n + 2) := by
      filter_upwards [Iio_mem_nhds h] with y hy
      rw [tp_of_lt hy]
    rw [tp_of_lt h]
    refine (h1.congr_of_eventuallyEq h2).congr_deriv ?_
    ring
  · subst h
    rw [tp_of_ge (le_refl x), zero_pow (by omega), mul_zero]
    rw [hasDerivAt_iff_isLittleO]
    have h1 : (fun y => tp x y ^ (n + 2) - tp x x ^ (n + 2) - (y - x) • (0 : ℝ)) = fun y => tp x y ^ (n + 2) := by
      funext y; rw [tp_of_ge (le_refl x)]; simp
    rw [h1]
    have h2 : (fun y => tp x y ^ (n + 2)) =O[nhds x] fun y => (y - x) ^ (n + 2) := by
      apply Asymptotics.IsBigO.of_bound 1
      filter_upwards with y
      rw [norm_pow, norm_pow, one_mul]
      apply pow_le_pow_left₀ (norm_nonneg _)
      rw [Real.norm_of_nonneg (tp_nonneg _ _), Real.norm_eq_abs, tp]
      exact max_le (by rw [abs_sub_comm]; exact le_abs_self _) (abs_nonneg _)
    refine h2.trans_isLittleO ?_
    have h3 : Filter.Tendsto (fun y : ℝ => y - x) (nhds x) (nhds 0) := by
      have : Filter.Tendsto (fun y : ℝ => y - x) (nhds x) (nhds (x - x)) := by
        apply Continuous.tendsto; fun_prop
      simpa using this
    have h4 : (fun z : ℝ => z ^ (n + 2)) =o[nhds 0] fun z => z := by
      have := Asymptotics.isLittleO_pow_pow (𝕜 := ℝ) (m := 1) (n := n + 2) (by omega)
      simpa using this
    exact h4.comp_tendsto h3
  · have h2 : (fun y => tp a y ^ (n + 2)) =ᶠ[nhds x] fun _ => (0 : ℝ) := by
      filter_upwards [Ioi_mem_nhds h] with y hy
      rw [tp_of_ge (le_of_lt hy), zero_pow (by omega)]
    rw [tp_of_ge h.le, zero_pow (by omega), mul_zero]
    exact (hasDerivAt_const x (0 : ℝ)).congr_of_eventuallyEq h2

/-- The compactly supported, polynomial kernels. -/
inductive Poly : Kernel → Prop
  | cubicSpline : Poly .cubicSpline
  | quinticSpline : Poly .quinticSpline
  | wendlandC2 : Poly .wendlandC2
  | wendlandC4 : Poly .wendlandC4
  | wendlandC6 : Poly .wendlandC6

/-- The scale of the argument. -/
noncomputable def scale : Kernel → ℝ
  | .cubicSpline => 2
  | .quinticSpline => 3
  | _ => 1

noncomputable def sigma : Kernel → Fin 3 → ℝ
  | .cubicSpline => cubicSplineSigma
  | .quinticSpline => quinticSplineSigma
  | .wendlandC2 => wendlandC2Sigma
  | .wendlandC4 => wendlandC4Sigma
  | .wendlandC6 => wendlandC6Sigma
  | _ => 0

/-- The profile of the kernel. -/
noncomputable def prof : Kernel → Fin 3 → ℝ → ℝ
  | .cubicSpline, _, x => 1 / 4 * tp 2 x ^ 3 - tp 1 x ^ 3
  | .quinticSpline, _, x => tp 3 x ^ 5 - 6 * tp 2 x ^ 5 + 15 * tp 1 x ^ 5
  | .wendlandC2, 0, x => tp 1 x ^ 3 * (3 * x + 1)
  | .wendlandC2, _, x => tp 1 x ^ 4 * (4 * x + 1)
  | .wendlandC4, 0, x => tp 1 x ^ 5 * (1 + x * (5 + x * 8))
  | .wendlandC4, _, x => tp 1 x ^ 6 * (1 + x * (6 + x * 35 / 3))
  | .wendlandC6, 0, x => tp 1 x ^ 7 * (1 + x * (7 + x * (19 + x * 21)))
  | .wendlandC6, _, x => tp 1 x ^ 8 * (1 + x * (8 + x * (25 + x * 32)))
  | _, _, _ => 0

/-- Its derivative. -/
noncomputable def dprof : Kernel → Fin 3 → ℝ → ℝ
  | .cubicSpline, _, x => -3 / 4 * tp 2 x ^ 2 + 3 * tp 1 x ^ 2
  | .quinticSpline, _, x => -5 * tp 3 x ^ 4 + 30 * tp 2 x ^ 4 - 75 * tp 1 x ^ 4
  | .wendlandC2, 0, x => -12 * x * tp 1 x ^ 2
  | .wendlandC2, _, x => -20 * x * tp 1 x ^ 3
  | .wendlandC4, 0, x => -14 * x * tp 1 x ^ 4 * (1 + 4 * x)
  | .wendlandC4, _, x => -56 / 3 * x * tp 1 x ^ 5 * (1 + 5 * x)
  | .wendlandC6, 0, x => -6 * x * tp 1 x ^ 6 * (3 + x * (18 + x * 35))
  | .wendlandC6, _, x => -22 * x * tp 1 x ^ 7 * (1 + x * (7 + x * 16))
  | _, _, _ => 0

theorem kernel_eq {κ : Kernel} (hκ : Poly κ) (i : Fin 3) (r h : ℝ) :
    kernel κ i r h = sigma κ i / h ^ (i + 1 : ℕ) * prof κ i (scale κ * r / h) := by
  cases hκ with
  | cubicSpline =>
    simp only [kernel, cubicSpline, sigma, prof, scale]
    by_cases h2 : 2 * r / h < 2
    · rw [if_pos h2, tp_of_lt h2]
      by_cases h1 : 2 * r / h < 1
      · rw [if_pos h1, tp_of_lt h1]; ring
      · rw [if_neg h1, tp_of_ge (not_lt.mp h1)]; ring
    · rw [if_neg h2, tp_of_ge (not_lt.mp h2), tp_of_ge (by linarith [not_lt.mp h2])]; ring
  | quinticSpline =>
    simp only [kernel, quinticSpline, sigma, prof, scale]
    by_cases h3 : 3 * r / h < 3
    · rw [if_pos h3, tp_of_lt h3]
      by_cases h2 : 3 * r / h < 2
      · rw [if_pos h2, tp_of_lt h2]
        by_cases h1 : 3 * r / h < 1
        · rw [if_pos h1, tp_of_lt h1]; ring
        · rw [if_neg h1, tp_of_ge (not_lt.mp h1)]; ring
      · rw [if_neg h2, tp_of_ge (not_lt.mp h2), if_neg (by linarith), tp_of_ge (by linarith [not_lt.mp h2])]; ring
    · rw [if_neg h3, tp_of_ge (not_lt.mp h3), tp_of_ge (by linarith [not_lt.mp h3]), tp_of_ge (by linarith [not_lt.mp h3])]; ring
  | wendlandC2 =>
    rcases fin3 i with rfl | rfl | rfl <;> simp only [kernel, wendlandC2, sigma, prof, scale, fac] <;>
    · rw [one_mul]
      by_cases h1 : r / h < 1
      · simp [h1, tp_of_lt h1]; ring
      · simp [h1, tp_of_ge (not_lt.mp h1)]
  | wendlandC4 =>
    rcases fin3 i with rfl | rfl | rfl <;> simp only [kernel, wendlandC4, sigma, prof, scale, fac] <;>
    · rw [one_mul]
      by_cases h1 : r / h < 1
      · simp [h1, tp_of_lt h1]; ring
      · simp [h1, tp_of_ge (not_lt.mp h1)]
  | wendlandC6 =>
    rcases fin3 i with rfl | rfl | rfl <;> simp only [kernel, wendlandC6, sigma, prof, scale, fac] <;>
    · rw [one_mul]
      by_cases h1 : r / h < 1
      · simp [h1, tp_of_lt h1]; ring
      · simp [h1, tp_of_ge (not_lt.mp h1)]

theorem slope_eq {κ : Kernel} (hκ : Poly κ) (i : Fin 3) (r : ℝ) {h : ℝ} (hh : 0 < h) :
    slope κ i r h = sigma κ i / h ^ (i + 1 : ℕ) * (dprof κ i (scale κ * r / h) * (scale κ / h)) := by
  cases hκ with
  | cubicSpline =>
    simp only [slope, cubicSplineSlope, sigma, dprof, scale]
    by_cases h2 : 2 * r / h < 2
    · rw [if_pos h2, tp_of_lt h2]
      by_cases h1 : 2 * r / h < 1
      · rw [if_pos h1, tp_of_lt h1]; field_simp; ring
      · rw [if_neg h1, tp_of_ge (not_lt.mp h1)]; field_simp; ring
    · rw [if_neg h2, tp_of_ge (not_lt.mp h2), tp_of_ge (by linarith [not_lt.mp h2])]; ring
  | quinticSpline =>
    simp only [slope, quinticSplineSlope, sigma, dprof, scale]
    by_cases h3 : 3 * r / h < 3
    · rw [if_pos h3, tp_of_lt h3]
      by_cases h2 : 3 * r / h < 2
      · rw [if_pos h2, tp_of_lt h2]
        by_cases h1 : 3 * r / h < 1
        · rw [if_pos h1, tp_of_lt h1]; field_simp; ring
        · rw [if_neg h1, tp_of_ge (not_lt.mp h1)]; field_simp; ring
      · rw [if_neg h2, tp_of_ge (not_lt.mp h2), if_neg (by linarith), tp_of_ge (by linarith [not_lt.mp h2])]; field_simp; ring
    · rw [if_neg h3, tp_of_ge (not_lt.mp h3), tp_of_ge (by linarith [not_lt.mp h3]), tp_of_ge (by linarith [not_lt.mp h3])]; ring
  | wendlandC2 =>
    rcases fin3 i with rfl | rfl | rfl <;> simp only [slope, wendlandC2Slope, sigma, dprof, scale, fac] <;>
    · rw [one_mul]
      by_cases h1 : r / h < 1
      · simp [h1, tp_of_lt h1]; field_simp; try ring
      · simp [h1, tp_of_ge (not_lt.mp h1)]
  | wendlandC4 =>
    rcases fin3 i with rfl | rfl | rfl <;> simp only [slope, wendlandC4Slope, sigma, dprof, scale, fac] <;>
    · rw [one_mul]
      by_cases h1 : r / h < 1
      · simp [h1, tp_of_lt h1]; field_simp; try ring
      · simp [h1, tp_of_ge (not_lt.mp h1)]
  | wendlandC6 =>
    rcases fin3 i with rfl | rfl | rfl <;> simp only [slope, wendlandC6Slope, sigma, dprof, scale, fac] <;>
    · rw [one_mul]
      by_cases h1 : r / h < 1
      · simp [h1, tp_of_lt h1]; field_simp; try ring
      · simp [h1, tp_of_ge (not_lt.mp h1)]

theorem hasDerivAt_prof {κ : Kernel} (hκ : Poly κ) (i : Fin 3) (x : ℝ) : HasDerivAt (prof κ i) (dprof κ i x) x := by
  have hx : HasDerivAt (fun y : ℝ => y) 1 x := hasDerivAt_id x
  -- truncated power times polynomial
  have mulP : ∀ (n : ℕ) (q : ℝ → ℝ) (q' : ℝ), HasDerivAt q q' x →
      HasDerivAt (fun y => tp 1 y ^ (n + 2) * q y) (-((n + 2 : ℕ) : ℝ) * tp 1 x ^ (n + 1) * q x + tp 1 x ^ (n + 2) * q') x :=
    fun n q q' hq => (hasDerivAt_tp_pow 1 x n).mul hq
  cases hκ with
  | cubicSpline =>
    have h := ((hasDerivAt_tp_pow 2 x 1).const_mul (1 / 4)).sub (hasDerivAt_tp_pow 1 x 1)
    refine h.congr_deriv ?_
    simp only [dprof]; norm_num; ring
  | quinticSpline =>
    have h := ((hasDerivAt_tp_pow 3 x 3).sub ((hasDerivAt_tp_pow 2 x 3).const_mul 6)).add ((hasDerivAt_tp_pow 1 x 3).const_mul 15)
    refine h.congr_deriv ?_
    simp only [dprof]; norm_num; ring
  | wendlandC2 =>
    have q1 : HasDerivAt (fun y : ℝ => 3 * y + 1) 3 x := by
      refine ((hx.const_mul 3).add_const 1).congr_deriv (by ring)
    have q2 : HasDerivAt (fun y : ℝ => 4 * y + 1) 4 x := by
      refine ((hx.const_mul 4).add_const 1).congr_deriv (by ring)
    rcases fin3 i with rfl | rfl | rfl
    · refine (mulP 1 _ _ q1).congr_deriv ?_
      show _ = -12 * x * tp 1 x ^ 2
      rcases lt_or_ge x 1 with h | h
      · rw [tp_of_lt h]; push_cast; ring
      · rw [tp_of_ge h]; ring
    all_goals
      refine (mulP 2 _ _ q2).congr_deriv ?_
      simp only [dprof]
      rcases lt_or_ge x 1 with h | h
      · rw [tp_of_lt h]; push_cast; ring
      · rw [tp_of_ge h]; ring
  | wendlandC4 =>
    have q1 : HasDerivAt (fun y : ℝ => 1 + y * (5 + y * 8)) (5 + 16 * x) x := by
      refine ((hx.mul ((hx.mul_const 8).const_add 5)).const_add 1).congr_deriv (by ring)
    have q2 : HasDerivAt (fun y : ℝ => 1 + y * (6 + y * 35 / 3)) (6 + 70 / 3 * x) x := by
      refine ((hx.mul (((hx.mul_const 35).div_const 3).const_add 6)).const_add 1).congr_deriv (by ring)
    rcases fin3 i with rfl | rfl | rfl
    · refine (mulP 3 _ _ q1).congr_deriv ?_
      show _ = -14 * x * tp 1 x ^ 4 * (1 + 4 * x)
      rcases lt_or_ge x 1 with h | h
      · rw [tp_of_lt h]; push_cast; ring
      · rw [tp_of_ge h]; ring
    all_goals
      refine (mulP 4 _ _ q2).congr_deriv ?_
      simp only [dprof]
      rcases lt_or_ge x 1 with h | h
      · rw [tp_of_lt h]; push_cast; ring
      · rw [tp_of_ge h]; ring
  | wendlandC6 =>
    have q1 : HasDerivAt (fun y : ℝ => 1 + y * (7 + y * (19 + y * 21))) (7 + x * (38 + 63 * x)) x := by
      have h : HasDerivAt (fun y : ℝ => 7 + y * (19 + y * 21)) (19 + 42 * x) x := by
        refine ((hx.mul ((hx.mul_const 21).const_add 19)).const_add 7).congr_deriv (by ring)
      refine ((hx.mul h).const_add 1).congr_deriv (by ring)
    have q2 : HasDerivAt (fun y : ℝ => 1 + y * (8 + y * (25 + y * 32))) (8 + x * (50 + 96 * x)) x := by
      have h : HasDerivAt (fun y : ℝ => 8 + y * (25 + y * 32)) (25 + 64 * x) x := by
        refine ((hx.mul ((hx.mul_const 32).const_add 25)).const_add 8).congr_deriv (by ring)
      refine ((hx.mul h).const_add 1).congr_deriv (by ring)
    rcases fin3 i with rfl | rfl | rfl
    · refine (mulP 5 _ _ q1).congr_deriv ?_
      show _ = -6 * x * tp 1 x ^ 6 * (3 + x * (18 + x * 35))
      rcases lt_or_ge x 1 with h | h
      · rw [tp_of_lt h]; push_cast; ring
      · rw [tp_of_ge h]; ring
    all_goals
      refine (mulP 6 _ _ q2).congr_deriv ?_
      simp only [dprof]
      rcases lt_or_ge x 1 with h | h
      · rw [tp_of_lt h]; push_cast; ring
      · rw [tp_of_ge h]; ring

theorem dprof_nonpos {κ : Kernel} (hκ : Poly κ) (i : Fin 3) {x : ℝ} (hx : 0 ≤ x) : dprof κ i x ≤ 0 := by
  have h1 := tp_nonneg 1 x
  cases hκ with
  | cubicSpline =>
    simp only [dprof]
    rcases lt_or_ge x 1 with h | h
    · rw [tp_of_lt h, tp_of_lt (by linarith)]; nlinarith
    · rw [tp_of_ge h]; nlinarith [sq_nonneg (tp 2 x)]
  | quinticSpline =>
    simp only [dprof]
    rcases lt_or_ge x 1 with h | h
    · rw [tp_of_lt h, tp_of_lt (by linarith), tp_of_lt (by linarith)]
      have e : -5 * (3 - x) ^ 4 + 30 * (2 - x) ^ 4 - 75 * (1 - x) ^ 4 = -(x * (120 * (1 - x) * (1 + x) + 50 * x ^ 3)) := by ring
      rw [e]
      have : 0 ≤ 120 * (1 - x) * (1 + x) + 50 * x ^ 3 := by
        have : 0 ≤ 1 - x := by linarith
        positivity
      nlinarith
    · rw [tp_of_ge h]
      rcases lt_or_ge x 2 with h' | h'
      · rw [tp_of_lt h', tp_of_lt (by linarith)]
        have : (2 * (2 - x)) ^ 4 ≤ (3 - x) ^ 4 := pow_le_pow_left₀ (by linarith) (by linarith) 4
        nlinarith [pow_nonneg (show 0 ≤ 2 - x by linarith) 4]
      · rw [tp_of_ge h']; nlinarith [pow_nonneg (tp_nonneg 3 x) 4]
  | wendlandC2 =>
    rcases fin3 i with rfl | rfl | rfl <;> simp only [dprof] <;>
    · simp only [neg_mul, Left.neg_nonpos_iff]; positivity
  | wendlandC4 =>
    rcases fin3 i with rfl | rfl | rfl <;> simp only [dprof] <;>
    · simp only [neg_mul, Left.neg_nonpos_iff, neg_div]; positivity
  | wendlandC6 =>
    rcases fin3 i with rfl | rfl | rfl <;> simp only [dprof] <;>
    · simp only [neg_mul, Left.neg_nonpos_iff]; positivity

theorem scale_pos {κ : Kernel} : 0 < scale κ := by
  cases κ <;> simp [scale]

theorem prof_zero {κ : Kernel} (hκ : Poly κ) (i : Fin 3) {x : ℝ} (hx : scale κ ≤ x) : prof κ i x = 0 := by
  cases hκ with
  | cubicSpline => simp only [scale] at hx; simp only [prof]; rw [tp_of_ge hx, tp_of_ge (by linarith)]; ring
  | quinticSpline => simp only [scale] at hx; simp only [prof]; rw [tp_of_ge hx, tp_of_ge (by linarith), tp_of_ge (by linarith)]; ring
  | wendlandC2 => simp only [scale] at hx; rcases fin3 i with rfl | rfl | rfl <;> · simp only [prof]; rw [tp_of_ge hx]; ring
  | wendlandC4 => simp only [scale] at hx; rcases fin3 i with rfl | rfl | rfl <;> · simp only [prof]; rw [tp_of_ge hx]; ring
  | wendlandC6 => simp only [scale] at hx; rcases fin3 i with rfl | rfl | rfl <;> · simp only [prof]; rw [tp_of_ge hx]; ring

theorem dprof_zero {κ : Kernel} (hκ : Poly κ) (i : Fin 3) {x : ℝ} (hx : scale κ ≤ x) : dprof κ i x = 0 := by
  cases hκ with
  | cubicSpline => simp only [scale] at hx; simp only [dprof]; rw [tp_of_ge hx, tp_of_ge (by linarith)]; ring
  | quinticSpline => simp only [scale] at hx; simp only [dprof]; rw [tp_of_ge hx, tp_of_ge (by linarith), tp_of_ge (by linarith)]; ring
  | wendlandC2 => simp only [scale] at hx; rcases fin3 i with rfl | rfl | rfl <;> · simp only [dprof]; rw [tp_of_ge hx]; ring
  | wendlandC4 => simp only [scale] at hx; rcases fin3 i with rfl | rfl | rfl <;> · simp only [dprof]; rw [tp_of_ge hx]; ring
  | wendlandC6 => simp only [scale] at hx; rcases fin3 i with rfl | rfl | rfl <;> · simp only [dprof]; rw [tp_of_ge hx]; ring

theorem antitoneOn_prof {κ : Kernel} (hκ : Poly κ) (i : Fin 3) : AntitoneOn (prof κ i) (Set.Ici 0) := by
  apply antitoneOn_of_deriv_nonpos (convex_Ici 0)
  · exact fun x _ => (hasDerivAt_prof hκ i x).continuousAt.continuousWithinAt
  · exact fun x _ => (hasDerivAt_prof hκ i x).differentiableAt.differentiableWithinAt
  · intro x hx
    rw [interior_Ici] at hx
    rw [(hasDerivAt_prof hκ i x).deriv]
    exact dprof_nonpos hκ i (le_of_lt hx)

theorem prof_pos {κ : Kernel} (hκ : Poly κ) (i : Fin 3) {x : ℝ} (hx : 0 ≤ x) (hx' : x < scale κ) : 0 < prof κ i x := by
  cases hκ with
  | cubicSpline =>
    simp only [scale] at hx'
    have key : ∀ y, 1 ≤ y → y < 2 → 0 < prof .cubicSpline i y := by
      intro y h1 h2
      simp only [prof]
      rw [tp_of_ge h1, tp_of_lt h2]
      have : 0 < 2 - y := by linarith
      have := pow_pos this 3
      linarith
    rcases lt_or_ge x 1 with h | h
    · exact lt_of_lt_of_le (key 1 (le_refl _) (by norm_num)) (antitoneOn_prof .cubicSpline i hx (by norm_num : (0 : ℝ) ≤ 1) h.le)
    · exact key x h hx'
  | quinticSpline =>
    simp only [scale] at hx'
    have key : ∀ y, 1 ≤ y → y < 3 → 0 < prof .quinticSpline i y := by
      intro y h1 h2
      simp only [prof]
      rw [tp_of_ge h1, tp_of_lt h2]
      have h3 : 0 < 3 - y := by linarith
      have h4 := pow_pos h3 5
      rcases lt_or_ge y 2 with h' | h'
      · rw [tp_of_lt h']
        have : (2 * (2 - y)) ^ 5 ≤ (3 - y) ^ 5 := pow_le_pow_left₀ (by linarith) (by linarith) 5
        nlinarith [pow_pos (show 0 < 2 - y by linarith) 5]
      · rw [tp_of_ge h']; linarith
    rcases lt_or_ge x 1 with h | h
    · exact lt_of_lt_of_le (key 1 (le_refl _) (by norm_num)) (antitoneOn_prof .quinticSpline i hx (by norm_num : (0 : ℝ) ≤ 1) h.le)
    · exact key x h hx'
  | wendlandC2 =>
    simp only [scale] at hx'
    have : 0 < 1 - x := by linarith
    rcases fin3 i with rfl | rfl | rfl <;> simp only [prof] <;> rw [tp_of_lt hx'] <;> positivity
  | wendlandC4 =>
    simp only [scale] at hx'
    have : 0 < 1 - x := by linarith
    rcases fin3 i with rfl | rfl | rfl <;> simp only [prof] <;> rw [tp_of_lt hx'] <;> positivity
  | wendlandC6 =>
    simp only [scale] at hx'
    have : 0 < 1 - x := by linarith
    rcases fin3 i with rfl | rfl | rfl <;> simp only [prof] <;> rw [tp_of_lt hx'] <;> positivity

theorem sigma_pos {κ : Kernel} (hκ : Poly κ) (i : Fin 3) : 0 < sigma κ i := by
  have := Real.pi_pos
  cases hκ with
  | cubicSpline => rcases fin3 i with rfl | rfl | rfl <;> simp [sigma, cubicSplineSigma] <;> positivity
  | quinticSpline => rcases fin3 i with rfl | rfl | rfl <;> simp [sigma, quinticSplineSigma] <;> positivity
  | wendlandC2 => rcases fin3 i with rfl | rfl | rfl <;> simp [sigma, wendlandC2Sigma] <;> positivity
  | wendlandC4 => rcases fin3 i with rfl | rfl | rfl <;> simp [sigma, wendlandC4Sigma] <;> positivity
  | wendlandC6 => rcases fin3 i with rfl | rfl | rfl <;> simp [sigma, wendlandC6Sigma] <;> positivity

end FleCSPH.Kernels

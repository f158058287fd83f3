import Verif.Lemmas.Kernels
import Mathlib.MeasureTheory.Measure.Lebesgue.VolumeOfBalls
import Mathlib.MeasureTheory.Integral.IntegralEqImproper
import Mathlib.MeasureTheory.Integral.IntervalIntegral.Basic
import Mathlib.Analysis.SpecialFunctions.Integrals.Basic
/-! Moments of the polynomial kernels. -/
namespace FleCSPH.Kernels
open FleCSPH.Geometry Real MeasureTheory Set
open scoped Nat

theorem trunc_base (a : ℝ) (ha : 0 ≤ a) (n : ℕ) (hn : 0 < n) :
    IntegrableOn (fun x => tp a x ^ n) (Ioi 0) ∧ ∫ x in Ioi (0 : ℝ), tp a x ^ n = a ^ (n + 1) / (n + 1) := by
  have hc : Continuous fun x => tp a x ^ n := (continuous_tp a).pow n
  have hz : ∀ x ∈ Ioi (0 : ℝ) \ Ioc 0 a, tp a x ^ n = 0 := by
    intro x hx
    have : a ≤ x := by
      by_contra h
      exact hx.2 ⟨hx.1, (not_le.mp h).le⟩
    rw [tp_of_ge this, zero_pow (by omega)]
  have hi : IntegrableOn (fun x => tp a x ^ n) (Ioc 0 a) := (hc.integrableOn_Icc (a := 0) (b := a)).mono_set Ioc_subset_Icc_self
  constructor
  · refine (hi.of_forall_sdiff_eq_zero measurableSet_Ioi hz)
  · rw [setIntegral_eq_of_subset_of_forall_sdiff_eq_zero measurableSet_Ioi Ioc_subset_Ioi_self hz,
      ← intervalIntegral.integral_of_le ha]
    have h1 : ∫ x in (0 : ℝ)..a, tp a x ^ n = ∫ x in (0 : ℝ)..a, (a - x) ^ n := by
      apply intervalIntegral.integral_congr
      intro x hx
      rw [uIcc_of_le ha] at hx
      show tp a x ^ n = (a - x) ^ n
      rw [tp, max_eq_left (by linarith [hx.2])]
    rw [h1, intervalIntegral.integral_comp_sub_left (fun x => x ^ n) a, sub_self, sub_zero, integral_pow, zero_pow (by omega), sub_zero]

/-- The beta integral with a truncated power. -/
theorem trunc_integral (a : ℝ) (ha : 0 ≤ a) (m : ℕ) : ∀ n : ℕ, 0 < n →
    IntegrableOn (fun x => x ^ m * tp a x ^ n) (Ioi 0) ∧
      ∫ x in Ioi (0 : ℝ), x ^ m * tp a x ^ n = (m ! * n ! : ℕ) / ((m + n + 1)! : ℕ) * a ^ (m + n + 1) := by
  induction m with
  | zero =>
    intro n hn
    obtain ⟨h1, h2⟩ := trunc_base a ha n hn
    refine ⟨by simpa using h1, ?_⟩
    simp only [pow_zero, one_mul]
    rw [h2, Nat.zero_add, Nat.factorial_succ]
    push_cast
    have : ((n ! : ℕ) : ℝ) ≠ 0 := by positivity
    field_simp
    simp
  | succ m ih =>
    intro n hn
    obtain ⟨h1, h2⟩ := ih n hn
    obtain ⟨h3, h4⟩ := ih (n + 1) (by omega)
    have he : (fun x => x ^ (m + 1) * tp a x ^ n) = fun x => a * (x ^ m * tp a x ^ n) - x ^ m * tp a x ^ (n + 1) := by
      funext x
      rcases lt_or_ge x a with h | h
      · rw [tp_of_lt h]; ring
      · rw [tp_of_ge h, zero_pow (by omega), zero_pow (by omega)]; ring
    rw [he]
    refine ⟨(h1.const_mul a).sub h3, ?_⟩
    rw [integral_sub (h1.const_mul a) h3, integral_const_mul, h2, h4]
    have e1 : m + 1 + n + 1 = (m + n + 1) + 1 := by ring
    have e2 : m + (n + 1) + 1 = (m + n + 1) + 1 := by ring
    rw [e1, e2, Nat.factorial_succ (m + n + 1), Nat.factorial_succ n, Nat.factorial_succ m]
    push_cast
    have : (((m + n + 1)! : ℕ) : ℝ) ≠ 0 := by positivity
    field_simp
    ring

/-- The profile as a sum of terms `c * x ^ m * tp a x ^ n`. -/
noncomputable def terms : Kernel → Fin 3 → List (ℝ × ℕ × ℕ × ℝ)
  | .cubicSpline, _ => [(1 / 4, 0, 3, 2), (-1, 0, 3, 1)]
  | .quinticSpline, _ => [(1, 0, 5, 3), (-6, 0, 5, 2), (15, 0, 5, 1)]
  | .wendlandC2, 0 => [(1, 0, 3, 1), (3, 1, 3, 1)]
  | .wendlandC2, _ => [(1, 0, 4, 1), (4, 1, 4, 1)]
  | .wendlandC4, 0 => [(1, 0, 5, 1), (5, 1, 5, 1), (8, 2, 5, 1)]
  | .wendlandC4, _ => [(1, 0, 6, 1), (6, 1, 6, 1), (35 / 3, 2, 6, 1)]
  | .wendlandC6, 0 => [(1, 0, 7, 1), (7, 1, 7, 1), (19, 2, 7, 1), (21, 3, 7, 1)]
  | .wendlandC6, _ => [(1, 0, 8, 1), (8, 1, 8, 1), (25, 2, 8, 1), (32, 3, 8, 1)]
  | _, _ => []

theorem prof_terms {κ : Kernel} (hκ : Poly κ) (i : Fin 3) (x : ℝ) :
    prof κ i x = ((terms κ i).map fun t => t.1 * (x ^ t.2.1 * tp t.2.2.2 x ^ t.2.2.1)).sum := by
  cases hκ <;> rcases fin3 i with rfl | rfl | rfl <;> simp only [prof, terms, List.map_cons, List.map_nil, List.sum_cons, List.sum_nil] <;> ring

theorem terms_ok {κ : Kernel} (hκ : Poly κ) (i : Fin 3) : ∀ t ∈ terms κ i, 0 < t.2.2.1 ∧ 0 ≤ t.2.2.2 := by
  cases hκ <;> rcases fin3 i with rfl | rfl | rfl <;> simp [terms]

/-- A moment of the profile. -/
theorem moment {κ : Kernel} (hκ : Poly κ) (i : Fin 3) (k : ℕ) :
    ∫ x in Ioi (0 : ℝ), x ^ k * prof κ i x = ((terms κ i).map fun t =>
      (t.1 : ℝ) * ((((t.2.1 + k) ! * t.2.2.1 ! : ℕ) : ℝ) / (((t.2.1 + k + t.2.2.1 + 1)! : ℕ) : ℝ) * t.2.2.2 ^ (t.2.1 + k + t.2.2.1 + 1))).sum := by
  have key : ∀ l : List (ℝ × ℕ × ℕ × ℝ), (∀ t ∈ l, 0 < t.2.2.1 ∧ 0 ≤ t.2.2.2) →
      IntegrableOn (fun x => x ^ k * (l.map fun t => t.1 * (x ^ t.2.1 * tp t.2.2.2 x ^ t.2.2.1)).sum) (Ioi 0) ∧
      ∫ x in Ioi (0 : ℝ), x ^ k * (l.map fun t => t.1 * (x ^ t.2.1 * tp t.2.2.2 x ^ t.2.2.1)).sum = (l.map fun t =>
      (t.1 : ℝ) * ((((t.2.1 + k) ! * t.2.2.1 ! : ℕ) : ℝ) / (((t.2.1 + k + t.2.2.1 + 1)! : ℕ) : ℝ) * t.2.2.2 ^ (t.2.1 + k + t.2.2.1 + 1))).sum := by
    intro l
    induction l with
    | nil => intro _; simp
    | cons t l ih =>
      intro hl
      obtain ⟨g1, g2⟩ := ih (fun t ht => hl t (List.mem_cons_of_mem _ ht))
      obtain ⟨h0, h0'⟩ := hl t (List.mem_cons_self ..)
      obtain ⟨h1, h2⟩ := trunc_integral t.2.2.2 h0' (t.2.1 + k) t.2.2.1 h0
      have he : (fun x => x ^ k * ((t :: l).map fun t => t.1 * (x ^ t.2.1 * tp t.2.2.2 x ^ t.2.2.1)).sum) =
          fun x => t.1 * (x ^ (t.2.1 + k) * tp t.2.2.2 x ^ t.2.2.1) + x ^ k * (l.map fun t => t.1 * (x ^ t.2.1 * tp t.2.2.2 x ^ t.2.2.1)).sum := by
        funext x
        rw [List.map_cons, List.sum_cons, pow_add]; ring
      rw [he]
      refine ⟨(h1.const_mul t.1).add g1, ?_⟩
      rw [integral_add (h1.const_mul t.1) g1, integral_const_mul, h2, g2, List.map_cons, List.sum_cons]
  have := (key (terms κ i) (terms_ok hκ i)).2
  simp only [← prof_terms hκ i] at this
  exact this

/-- The volume of the unit ball in the three dimensions. -/
noncomputable def ballVol : Fin 3 → ℝ := ![2, π, π * 4 / 3]

theorem ball_real (i : Fin 3) : (volume : Measure (EuclideanSpace ℝ (Fin (i + 1)))).real (Metric.ball 0 1) = ballVol i := by
  rcases fin3 i with rfl | rfl | rfl
  · rw [measureReal_def]
    have := InnerProductSpace.volume_ball_of_dim_odd (E := EuclideanSpace ℝ (Fin 1)) (k := 0) (by simp) 0 1
    show (volume (Metric.ball (0 : EuclideanSpace ℝ (Fin 1)) 1)).toReal = 2
    rw [this]; simp
  · rw [measureReal_def]
    show (volume (Metric.ball (0 : EuclideanSpace ℝ (Fin 2)) 1)).toReal = π
    rw [EuclideanSpace.volume_ball_fin_two]; simp [Real.pi_pos.le]
  · rw [measureReal_def]
    show (volume (Metric.ball (0 : EuclideanSpace ℝ (Fin 3)) 1)).toReal = π * 4 / 3
    rw [EuclideanSpace.volume_ball_fin_three]
    have : 0 ≤ π * 4 / 3 := by have := Real.pi_pos; positivity
    simp [ENNReal.toReal_ofReal this]

/-- The integral of a polynomial kernel over space. -/
theorem integral_kernel {κ : Kernel} (hκ : Poly κ) (i : Fin 3) {h : ℝ} (hh : 0 < h) :
    ∫ x : EuclideanSpace ℝ (Fin (i + 1)), kernel κ i ‖x‖ h =
      ((i : ℕ) + 1) * ballVol i * sigma κ i / scale κ ^ (i + 1 : ℕ) * ∫ x in Ioi (0 : ℝ), x ^ (i : ℕ) * prof κ i x := by
  have hs : 0 < scale κ := scale_pos
  rw [integral_fun_norm_addHaar volume (fun y => kernel κ i y h), ball_real]
  have hf : Module.finrank ℝ (EuclideanSpace ℝ (Fin (i + 1))) = i + 1 := by simp
  rw [hf, Nat.add_sub_cancel, nsmul_eq_mul, smul_eq_mul]
  have he : (fun y : ℝ => y ^ (i : ℕ) • kernel κ i y h) =
      fun y => sigma κ i / h ^ (i + 1 : ℕ) * (h / scale κ) ^ (i : ℕ) * ((scale κ / h * y) ^ (i : ℕ) * prof κ i (scale κ / h * y)) := by
    funext y
    rw [kernel_eq hκ, smul_eq_mul]
    have : scale κ * y / h = scale κ / h * y := by ring
    rw [this]
    rw [mul_pow (scale κ / h), ← mul_assoc (_ * _), ← mul_assoc]
    have : (h / scale κ) ^ (i : ℕ) * (scale κ / h) ^ (i : ℕ) = 1 := by
      rw [← mul_pow]
      have : h / scale κ * (scale κ / h) = 1 := by field_simp
      rw [this, one_pow]
    calc _ = sigma κ i / h ^ (i + 1 : ℕ) * (1 * y ^ (i : ℕ)) * prof κ i (scale κ / h * y) := by ring
      _ = _ := by rw [← this]; ring
  rw [he, integral_const_mul, integral_comp_mul_left_Ioi (fun x => x ^ (i : ℕ) * prof κ i x) 0 (by positivity : 0 < scale κ / h), mul_zero,
    smul_eq_mul]
  push_cast
  rw [div_pow, pow_succ, pow_succ]
  field_simp

end FleCSPH.Kernels

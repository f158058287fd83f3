import Verif.Model.Wvt
import Mathlib.Tactic.Linarith
import Mathlib.Tactic.FieldSimp
import Mathlib.Tactic.LinearCombination
import Mathlib.Tactic.Ring
import Mathlib.Tactic.NormNum
import Mathlib.Tactic.FinCases
import Mathlib.Algebra.Order.Archimedean.Basic
/-! Lemmas on the relaxation: round trips of coordinates, the halving loop, the reflection. -/
namespace FleCSPH.Wvt
open FleCSPH.Geometry

theorem mag_nonneg {d : Nat} (p : Point d) : 0 ≤ mag p := Real.sqrt_nonneg _

theorem mag_sq {d : Nat} (p : Point d) : mag p * mag p = ∑ j, p j * p j :=
  Real.mul_self_sqrt (Finset.sum_nonneg fun j _ => mul_self_nonneg (p j))

theorem mag_eq_zero {d : Nat} (p : Point d) : mag p = 0 ↔ p = 0 := by
  constructor
  · intro h
    have h1 : ∑ j, p j * p j = 0 := by rw [← mag_sq, h, zero_mul]
    rw [Finset.sum_eq_zero_iff_of_nonneg fun j _ => mul_self_nonneg (p j)] at h1
    funext j
    exact mul_self_eq_zero.1 (h1 j (Finset.mem_univ j))
  · rintro rfl
    simp [mag]

/-- Two non-negative numbers with the same square. -/
theorem mag_eq_of_sq {d : Nat} (p : Point d) (r : ℝ) (hr : 0 ≤ r) (h : ∑ j, p j * p j = r * r) : mag p = r := by
  unfold mag
  rw [h, Real.sqrt_mul_self hr]

theorem mag_smul {d : Nat} (c : ℝ) (p : Point d) : mag (fun j => c * p j) = |c| * mag p := by
  refine mag_eq_of_sq _ _ (mul_nonneg (abs_nonneg c) (mag_nonneg p)) ?_
  have h : ∑ j, c * p j * (c * p j) = c * c * ∑ j, p j * p j := by
    rw [Finset.mul_sum]
    exact Finset.sum_congr rfl fun j _ => by ring
  rw [h, ← mag_sq, ← abs_mul_abs_self c]
  ring

/-- Cauchy–Schwarz and the triangle inequality, by the norm of Euclidean space. -/
theorem mag_eq_norm {d : Nat} (p : Point d) : mag p = ‖(WithLp.toLp 2 p : EuclideanSpace ℝ (Fin d))‖ := by
  rw [EuclideanSpace.norm_eq]
  unfold mag
  congr 1
  refine Finset.sum_congr rfl fun j _ => ?_
  rw [Real.norm_eq_abs, sq_abs]
  ring

theorem mag_moved_le {d : Nat} (x a : Point d) (m : ℝ) (hm : 0 ≤ m) : mag (moved x a m) ≤ mag x + m * mag a := by
  have h : mag (fun j => m * a j) = m * mag a := by rw [mag_smul, abs_of_nonneg hm]
  rw [← h]
  simp only [mag_eq_norm]
  exact norm_add_le (WithLp.toLp 2 x : EuclideanSpace ℝ (Fin d)) (WithLp.toLp 2 fun j => m * a j)

theorem polar (x y : ℝ) : √(x * x + y * y) * Real.cos (atan2 y x) = x ∧ √(x * x + y * y) * Real.sin (atan2 y x) = y := by
  have h : √(x * x + y * y) = ‖(⟨x, y⟩ : ℂ)‖ := by
    rw [Complex.norm_def, Complex.normSq_mk]
  rw [h]
  unfold atan2
  exact ⟨Complex.norm_mul_cos_arg _, Complex.norm_mul_sin_arg _⟩

theorem spherical1 (p : Point 1) : toSpherical1 p 0 = |p 0| := by
  show mag p = _
  unfold mag
  rw [Fin.sum_univ_one, Real.sqrt_mul_self_eq_abs]

theorem mag2 (p : Point 2) : mag p = √(p 0 * p 0 + p 1 * p 1) := by
  unfold mag
  rw [Fin.sum_univ_two]

theorem mag3_sq (p : Point 3) : mag p * mag p = p 0 * p 0 + p 1 * p 1 + p 2 * p 2 := by
  rw [mag_sq, Fin.sum_univ_three]

theorem arccos3 (p : Point 3) (h : mag p ≠ 0) : mag p * Real.cos (Real.arccos (p 2 / mag p)) = p 2 ∧
    mag p * Real.sin (Real.arccos (p 2 / mag p)) = √(p 0 * p 0 + p 1 * p 1) := by
  have hpos : 0 < mag p := lt_of_le_of_ne (mag_nonneg p) (Ne.symm h)
  have hsq := mag3_sq p
  have hle : |p 2| ≤ mag p := abs_le_of_sq_le_sq (by nlinarith [mul_self_nonneg (p 0), mul_self_nonneg (p 1)]) hpos.le
  obtain ⟨h1, h2⟩ := abs_le.1 hle
  constructor
  · rw [Real.cos_arccos ((le_div_iff₀ hpos).2 (by linarith)) ((div_le_iff₀ hpos).2 (by linarith))]
    field_simp
  · rw [Real.sin_arccos]
    have h3 : (1 : ℝ) - (p 2 / mag p) ^ 2 = (p 0 * p 0 + p 1 * p 1) / (mag p * mag p) := by
      rw [eq_div_iff (mul_pos hpos hpos).ne']
      have : p 2 / mag p * mag p = p 2 := by field_simp
      have e : (1 - (p 2 / mag p) ^ 2) * (mag p * mag p) = mag p * mag p - (p 2 / mag p * mag p) ^ 2 := by ring
      rw [e, this, hsq]
      ring
    rw [h3, Real.sqrt_div' _ (mul_self_nonneg _), Real.sqrt_mul_self hpos.le]
    field_simp

/-- In polar coordinates scaling the radius moves the point along its ray. -/
theorem cartesian_scale (i : Fin 3) (s : Point (i + 1)) (c : ℝ) : toCartesian i (Function.update s 0 (c * s 0)) = fun j => c * toCartesian i s j := by
  fin_cases i
  · funext j
    fin_cases j
    show Function.update s (0 : Fin 1) (c * s 0) 0 = c * s 0
    simp
  · funext j
    fin_cases j
    · show Function.update s (0 : Fin 2) (c * s 0) 0 * Real.cos (Function.update s (0 : Fin 2) (c * s 0) 1) = c * (s (0 : Fin 2) * Real.cos (s (1 : Fin 2)))
      simp
      ring
    · show Function.update s (0 : Fin 2) (c * s 0) 0 * Real.sin (Function.update s (0 : Fin 2) (c * s 0) 1) = c * (s (0 : Fin 2) * Real.sin (s (1 : Fin 2)))
      simp
      ring
  · funext j
    have h0 : Function.update s (0 : Fin 3) (c * s 0) 0 = c * s 0 := by simp
    have h1 : Function.update s (0 : Fin 3) (c * s 0) 1 = s (1 : Fin 3) := Function.update_of_ne (by decide) _ _
    have h2 : Function.update s (0 : Fin 3) (c * s 0) 2 = s (2 : Fin 3) := Function.update_of_ne (by decide) _ _
    fin_cases j
    · show Function.update s (0 : Fin 3) (c * s 0) 0 * Real.sin (Function.update s (0 : Fin 3) (c * s 0) 2) * Real.cos (Function.update s (0 : Fin 3) (c * s 0) 1) =
        c * (s (0 : Fin 3) * Real.sin (s (2 : Fin 3)) * Real.cos (s (1 : Fin 3)))
      rw [h0, h1, h2]
      ring
    · show Function.update s (0 : Fin 3) (c * s 0) 0 * Real.sin (Function.update s (0 : Fin 3) (c * s 0) 2) * Real.sin (Function.update s (0 : Fin 3) (c * s 0) 1) =
        c * (s (0 : Fin 3) * Real.sin (s (2 : Fin 3)) * Real.sin (s (1 : Fin 3)))
      rw [h0, h1, h2]
      ring
    · show Function.update s (0 : Fin 3) (c * s 0) 0 * Real.cos (Function.update s (0 : Fin 3) (c * s 0) 2) = c * (s (0 : Fin 3) * Real.cos (s (2 : Fin 3)))
      rw [h0, h2]
      ring

/-- The spherical coordinates of a point other than the origin of space, and the way back: the absolute value in one dimension. -/
theorem round (i : Fin 3) (p : Point (i + 1)) (h : i = 2 → p ≠ 0) :
    ∃ s, toSpherical i p = some s ∧ s 0 = mag p ∧ (i ≠ 0 → toCartesian i s = p) ∧ (i = 0 → toCartesian i s = fun j => |p j|) := by
  fin_cases i
  · refine ⟨toSpherical1 p, rfl, rfl, fun h => absurd rfl h, fun _ => ?_⟩
    funext j
    fin_cases j
    exact spherical1 p
  · refine ⟨toSpherical2 p, rfl, rfl, fun _ => ?_, fun h => absurd h (by decide)⟩
    obtain ⟨h1, h2⟩ := polar (p (0 : Fin 2)) (p (1 : Fin 2))
    have hm := mag2 p
    rw [← hm] at h1 h2
    funext j
    fin_cases j
    · exact h1
    · exact h2
  · have hne : mag p ≠ 0 := fun h0 => h rfl ((mag_eq_zero p).1 h0)
    refine ⟨![mag p, atan2 (p (1 : Fin 3)) (p (0 : Fin 3)), Real.arccos (p (2 : Fin 3) / mag p)], ?_, rfl, fun _ => ?_, fun h => absurd h (by decide)⟩
    · show toSpherical3 p = _
      unfold toSpherical3
      rw [if_neg hne]
    obtain ⟨h1, h2⟩ := polar (p (0 : Fin 3)) (p (1 : Fin 3))
    obtain ⟨h3, h4⟩ := arccos3 p hne
    funext j
    fin_cases j
    · show mag p * Real.sin (Real.arccos (p (2 : Fin 3) / mag p)) * Real.cos (atan2 (p (1 : Fin 3)) (p (0 : Fin 3))) = p (0 : Fin 3)
      rw [h4, h1]
    · show mag p * Real.sin (Real.arccos (p (2 : Fin 3) / mag p)) * Real.sin (atan2 (p (1 : Fin 3)) (p (0 : Fin 3))) = p (1 : Fin 3)
      rw [h4, h2]
    · exact h3

/-- The loop ends, with a step which is not larger and not negative, and either the particle is within 1.01 of the radius or the step is at most 1e-10. -/
theorem shrink_ends {d : Nat} (b : ℝ) (x a : Point d) (mu : ℝ) (hmu : 0 ≤ mu) :
    ∃ fuel0 m, (∀ fuel, fuel0 ≤ fuel → shrink b x a fuel mu = some m) ∧ 0 ≤ m ∧ m ≤ mu ∧ (mag (moved x a m) / b ≤ 101 / 100 ∨ m ≤ 1 / 10 ^ 10) ∧
      (m = mu ∨ 1 / 10 ^ 10 / 2 < m) := by
  obtain ⟨n, hn⟩ : ∃ n : ℕ, mu < 2 ^ n * (1 / 10 ^ 10) := by
    obtain ⟨n, hn⟩ := pow_unbounded_of_one_lt (mu * 10 ^ 10) (one_lt_two : (1 : ℝ) < 2)
    refine ⟨n, ?_⟩
    have h10 : (0 : ℝ) < 10 ^ 10 := by norm_num
    rw [mul_one_div, lt_div_iff₀ h10]
    exact hn
  induction n generalizing mu with
  | zero =>
    refine ⟨1, mu, fun fuel hf => ?_, hmu, le_rfl, Or.inr (by simpa using hn.le), Or.inl rfl⟩
    obtain ⟨f, rfl⟩ : ∃ f, fuel = f + 1 := ⟨fuel - 1, by omega⟩
    unfold shrink
    rw [if_neg]
    rintro ⟨-, h⟩
    rw [pow_zero, one_mul] at hn
    exact lt_asymm h hn
  | succ n ih =>
    by_cases hc : mag (moved x a mu) / b > 101 / 100 ∧ mu > 1 / 10 ^ 10
    · obtain ⟨f0, m, h1, h2, h3, h4, h5⟩ := ih (mu * (1 / 2)) (by linarith) (by rw [pow_succ] at hn; linarith)
      refine ⟨f0 + 1, m, fun fuel hf => ?_, h2, by linarith, h4, ?_⟩
      · obtain ⟨f, rfl⟩ : ∃ f, fuel = f + 1 := ⟨fuel - 1, by omega⟩
        unfold shrink
        rw [if_pos hc]
        exact h1 f (by omega)
      · right
        rcases h5 with rfl | h5
        · linarith [hc.2]
        · exact h5
    · refine ⟨1, mu, fun fuel hf => ?_, hmu, le_rfl, ?_, Or.inl rfl⟩
      · obtain ⟨f, rfl⟩ : ∃ f, fuel = f + 1 := ⟨fuel - 1, by omega⟩
        unfold shrink
        rw [if_neg hc]
      · by_contra hcon
        push Not at hcon
        exact hc ⟨hcon.1, hcon.2⟩

/-- What the displacement gives, when the loop ends with step `m`. -/
theorem displace_eq (i : Fin 3) (b : ℝ) (hb : 0 < b) (x a : Point (i + 1)) (mu : ℝ) (fuel : Nat) (m : ℝ) (h : shrink b x a fuel mu = some m) :
    (mag (moved x a m) < b → displace i b x a mu fuel = some (moved x a m)) ∧
    (b ≤ mag (moved x a m) → ∃ q, displace i b x a mu fuel = some q ∧ mag q = |2 * b - mag (moved x a m)| ∧
      (i ≠ 0 → q = fun j => (2 * b - mag (moved x a m)) / mag (moved x a m) * moved x a m j) ∧ (i = 0 → q = fun _ => 2 * b - mag (moved x a m))) := by
  constructor
  · intro hlt
    unfold displace
    rw [if_neg hb.ne', h]
    show (if _ then _ else _) = _
    rw [if_neg]
    rw [ge_iff_le, not_le, div_lt_one hb]
    exact hlt
  · intro hle
    have hpos : 0 < mag (moved x a m) := lt_of_lt_of_le hb hle
    have hne : moved x a m ≠ 0 := fun h0 => hpos.ne' ((mag_eq_zero _).2 h0)
    obtain ⟨s, hs1, hs2, hs3, hs4⟩ := round i (moved x a m) fun _ => hne
    obtain ⟨r, hr⟩ : ∃ r, r = mag (moved x a m) := ⟨_, rfl⟩
    rw [← hr] at hs2 hpos hle ⊢
    have hmir : mirror b s = Function.update s 0 ((2 * b - r) / r * s 0) := by
      unfold mirror
      congr 1
      rw [hs2]
      field_simp
      ring
    have hd : displace i b x a mu fuel = some (fun j => (2 * b - r) / r * toCartesian i s j) := by
      unfold displace
      rw [if_neg hb.ne', h]
      show (if _ then _ else _) = _
      rw [if_pos (by rw [ge_iff_le, one_le_div hb, ← hr]; exact hle), hs1]
      show some (toCartesian i (mirror b s)) = _
      rw [hmir, cartesian_scale]
    refine ⟨_, hd, ?_, ?_, ?_⟩
    · rw [mag_smul]
      have hm : mag (toCartesian i s) = r := by
        by_cases hi : i = 0
        · subst hi
          rw [hs4 rfl, hr]
          refine mag_eq_of_sq _ _ (mag_nonneg _) ?_
          rw [mag_sq]
          exact Finset.sum_congr rfl fun j _ => abs_mul_abs_self _
        · rw [hs3 hi, hr]
      rw [hm, abs_div, abs_of_pos hpos]
      field_simp
    · intro hi
      rw [hs3 hi]
    · intro hi
      subst hi
      rw [hs4 rfl]
      funext j
      have hj : j = (0 : Fin 1) := Subsingleton.elim (α := Fin 1) _ _
      subst hj
      have : r = |moved x a m (0 : Fin 1)| := by
        rw [hr]
        exact spherical1 (moved x a m)
      show (2 * b - r) / r * |moved x a m (0 : Fin 1)| = _
      rw [← this]
      field_simp

end FleCSPH.Wvt

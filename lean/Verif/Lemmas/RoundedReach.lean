import Verif.Lemmas.RoundedForces
/-! Beyond the mean of the smoothing lengths the computed gradients are exactly zero. -/
namespace FleCSPH.Rounded
open FleCSPH.Geometry FleCSPH.Kernels FleCSPH.Sph FleCSPH.Spec

variable {R : Rounding}

theorem magnitude_diff {d : Nat} (p q : Point d) : magnitude R (diff R p q) = distance R p q := by
  unfold magnitude distance squares diff
  rw [List.foldl_map]

theorem scaled_zero {d : Nat} (p : Point d) (c : Prop) [Decidable c] (hc : ¬c) (sigma dWdr r : ℝ) : scaled R p c sigma dWdr r = 0 := by
  funext j
  simp [scaled, fac, hc, fl_zero]

theorem gradient_zero (hu : R.u < 1) (κ : Kernel) (i : Fin 3) (p : Point (i + 1)) {h : ℝ} (hh : 0 < h) (h0 : 0 ≤ magnitude R p) (hr : h ≤ (1 - R.u) ^ 2 * magnitude R p) : gradient R κ i p h = 0 := by
  have hu0 := R.nonneg
  obtain ⟨r, hrd⟩ : ∃ r, r = magnitude R p := ⟨_, rfl⟩
  have one : ∀ x : ℝ, 0 ≤ x → h ≤ (1 - R.u) * x → 1 ≤ R.fl (x / h) := by
    intro x hx h1
    refine le_trans ?_ (fl_ge (div_nonneg hx hh.le))
    rw [← mul_div_assoc, le_div_iff₀ hh]
    linarith
  have two : ∀ k : ℝ, 0 < k → ¬R.fl (R.fl (k * r) / h) < k := by
    intro k hk
    rw [not_lt]
    have h1 := fl_ge (R := R) (mul_nonneg hk.le (hrd ▸ h0))
    have h2 : 0 ≤ R.fl (k * r) := fl_nonneg hu.le (mul_nonneg hk.le (hrd ▸ h0))
    refine le_trans ?_ (fl_ge (div_nonneg h2 hh.le))
    rw [← mul_div_assoc, le_div_iff₀ hh]
    have h3 := mul_le_mul_of_nonneg_left h1 (show 0 ≤ 1 - R.u by linarith)
    have h4 := mul_le_mul_of_nonneg_left hr hk.le
    rw [← hrd] at h4
    nlinarith
  have hone : ¬R.fl (r / h) < 1 := by
    rw [not_lt]
    refine one r (hrd ▸ h0) (hr.trans ?_)
    rw [← hrd, sq, mul_assoc]
    have : 0 ≤ (1 - R.u) * r := mul_nonneg (by linarith) (hrd ▸ h0)
    nlinarith
  cases κ
  case cubicSpline => simp only [gradient, cubicGradient]; rw [← hrd, if_neg (two 2 (by norm_num))]
  case gaussian => simp only [gradient, gaussianGradient]; rw [← hrd, if_neg (two 3 (by norm_num))]
  case quinticSpline => simp only [gradient, quinticGradient]; rw [← hrd, if_neg (two 3 (by norm_num))]
  case wendlandC2 => simp only [gradient, wendlandC2Gradient]; rw [← hrd, scaled_zero _ _ hone]
  case wendlandC4 => simp only [gradient, wendlandC4Gradient]; rw [← hrd, scaled_zero _ _ hone]
  case wendlandC6 => simp only [gradient, wendlandC6Gradient]; rw [← hrd, scaled_zero _ _ hone]
  case superGaussian => simp only [gradient, superGaussianGradient]; rw [← hrd, scaled_zero _ _ (two 3 (by norm_num))]
  case sinc => simp only [gradient, sincGradient]; rw [← hrd, if_neg (not_lt.mpr ((not_lt.mp hone).trans (le_abs_self _)))]

/-- Beyond the mean of the smoothing lengths, up to eleven roundings, there is no force. -/
theorem gradR_zero (hu : R.u < 1) {i : Fin 3} (p : Params i) (a b : Particle (i + 1)) (ha : 0 < a.h) (hb : 0 < b.h)
    (hd : (a.h + b.h) / 2 ≤ (1 - R.u) ^ 11 * √(∑ j, (a.pos j - b.pos j) ^ 2)) : gradR R p a b = 0 := by
  have hu0 := R.nonneg
  have hi : (i : Nat) + 1 ≤ 3 := by omega
  obtain ⟨n0, n1⟩ := near_distance (R := R) hu.le hi a.pos b.pos
  have e : Geometry.distance a.pos b.pos = √(∑ j, (a.pos j - b.pos j) ^ 2) := by
    unfold Geometry.distance
    simp only [sq]
  have m0 : 0 < (1 - R.u) := by linarith
  have m1 : 0 < R.fl (a.h + b.h) := lt_of_lt_of_le (mul_pos m0 (by linarith)) (fl_ge (by linarith))
  have m2 : 0 < mean R a.h b.h := lt_of_lt_of_le (mul_pos m0 (by linarith)) (fl_ge (by linarith))
  have m3 : (1 - R.u) ^ 2 * mean R a.h b.h ≤ (a.h + b.h) / 2 := by
    have h1 := (near_fl (R := R) (x := a.h + b.h) (by linarith) hu.le).2
    have h2 := (near_fl (R := R) (x := 1 / 2 * R.fl (a.h + b.h)) (by linarith) hu.le).2
    rw [pow_one] at h1 h2
    unfold mean
    nlinarith
  refine gradient_zero hu p.kernel i _ m2 ?_ ?_
  · rw [magnitude_diff]; exact n0
  · rw [magnitude_diff]
    have h3 := mul_le_mul_of_nonneg_left n1.1 (pow_pos m0 4).le
    rw [← mul_assoc, ← pow_add, e] at h3
    have h4 : (1 - R.u) ^ 2 * mean R a.h b.h ≤ (1 - R.u) ^ 2 * ((1 - R.u) ^ 2 * distance R a.pos b.pos) := by
      rw [← mul_assoc, ← pow_add]
      exact m3.trans (hd.trans h3)
    exact le_of_mul_le_mul_left h4 (pow_pos m0 2)

theorem push_zero (hu : R.u < 1) {i : Fin 3} (p : Params i) (a b : Particle (i + 1)) (ha : 0 < a.h) (hb : 0 < b.h)
    (hd : (a.h + b.h) / 2 ≤ (1 - R.u) ^ 11 * √(∑ j, (a.pos j - b.pos j) ^ 2)) : push R p a b = 0 := by
  funext j
  simp [push, gradR_zero hu p a b ha hb hd, fl_zero]

theorem rdot_zero {d : Nat} (v : Point d) : rdot R v 0 = 0 := by
  unfold rdot
  have : ∀ l : List (Fin d), l.foldl (fun s j => R.fl (s + R.fl (v j * (0 : Point d) j))) 0 = 0 := by
    intro l
    induction l with
    | nil => rfl
    | cons j l ih => simpa [fl_zero] using ih
  exact this _

theorem work_zero (hu : R.u < 1) {i : Fin 3} (p : Params i) (a b : Particle (i + 1)) (ha : 0 < a.h) (hb : 0 < b.h)
    (hd : (a.h + b.h) / 2 ≤ (1 - R.u) ^ 11 * √(∑ j, (a.pos j - b.pos j) ^ 2)) : work R p a b = 0 := by
  simp [work, gradR_zero hu p a b ha hb hd, fl_zero, rdot_zero]

end FleCSPH.Rounded

import Verif.Model.RoundedForces
import Verif.Lemmas.RoundedTotals
import Verif.Lemmas.SphSum
/-! Forces between pairs in floating-point arithmetic whose rounding does not depend on the sign. -/
namespace FleCSPH.Rounded
open FleCSPH.Geometry FleCSPH.Kernels FleCSPH.Sph FleCSPH.Spec

variable {R : Rounding}

theorem fl_zero : R.fl 0 = 0 := by
  have := R.err 0
  simpa using this

theorem magnitude_neg {d : Nat} (p : Point d) : magnitude R (-p) = magnitude R p := by
  unfold magnitude
  simp only [Pi.neg_apply, abs_neg, neg_mul_neg]

theorem rdot_neg_neg {d : Nat} (v w : Point d) : rdot R (-v) (-w) = rdot R v w := by
  unfold rdot
  simp only [Pi.neg_apply, neg_mul_neg]

theorem mean_comm (x y : ℝ) : mean R x y = mean R y x := by rw [mean, mean, add_comm]

section
variable (hR : Mirrored R)
include hR

theorem diff_comm {d : Nat} (p q : Point d) : diff R q p = -diff R p q := by
  funext j
  rw [Pi.neg_apply, diff, diff, ← hR, neg_sub]

theorem along_neg {d : Nat} (p : Point d) (sigma dWdr r : ℝ) : along R (-p) sigma dWdr r = -along R p sigma dWdr r := by
  have h : ∀ x, R.fl (-x) = -R.fl x := hR
  funext j
  simp only [along, Pi.neg_apply, neg_mul, h, neg_div]

theorem scaled_neg {d : Nat} (p : Point d) (c : Prop) [Decidable c] (sigma dWdr r : ℝ) : scaled R (-p) c sigma dWdr r = -scaled R p c sigma dWdr r := by
  have h : ∀ x, R.fl (-x) = -R.fl x := hR
  funext j
  simp only [scaled, Pi.neg_apply, neg_mul, h]

theorem gradient_neg (κ : Kernel) (i : Fin 3) (p : Point (i + 1)) (h : ℝ) : gradient R κ i (-p) h = -gradient R κ i p h := by
  cases κ
  case cubicSpline => simp only [gradient, cubicGradient]; rw [magnitude_neg, along_neg hR]; split_ifs <;> simp
  case gaussian => simp only [gradient, gaussianGradient]; rw [magnitude_neg, along_neg hR]; split_ifs <;> simp
  case quinticSpline => simp only [gradient, quinticGradient]; rw [magnitude_neg, along_neg hR]; split_ifs <;> simp
  case wendlandC2 => simp only [gradient, wendlandC2Gradient]; rw [magnitude_neg, scaled_neg hR]
  case wendlandC4 => simp only [gradient, wendlandC4Gradient]; rw [magnitude_neg, scaled_neg hR]
  case wendlandC6 => simp only [gradient, wendlandC6Gradient]; rw [magnitude_neg, scaled_neg hR]
  case superGaussian => simp only [gradient, superGaussianGradient]; rw [magnitude_neg, scaled_neg hR]
  case sinc => simp only [gradient, sincGradient]; rw [magnitude_neg, along_neg hR]; split_ifs <;> simp

theorem rdot_neg {d : Nat} (v w : Point d) : rdot R v (-w) = -rdot R v w := by
  unfold rdot
  have : ∀ (l : List (Fin d)) (z : ℝ), l.foldl (fun s j => R.fl (s + R.fl (v j * (-w) j))) (-z) = -l.foldl (fun s j => R.fl (s + R.fl (v j * w j))) z := by
    intro l
    induction l with
    | nil => intro z; rfl
    | cons j l ih => intro z; rw [List.foldl_cons, List.foldl_cons, Pi.neg_apply, mul_neg, hR, ← neg_add, hR, ih]
  simpa using this (List.finRange d) 0

omit hR in
theorem muR_symm {d : Nat} (eps h : ℝ) (v p : Point d) : muR R eps h (-v) (-p) = muR R eps h v p := by
  unfold muR
  rw [rdot_neg_neg, rdot_neg_neg]

theorem viscR_symm {i : Fin 3} (p : Params i) (a b : Particle (i + 1)) : viscR R p b a = viscR R p a b := by
  unfold viscR
  rw [mean_comm b.alpha, mean_comm b.rho, mean_comm b.cs, mean_comm b.h, diff_comm hR a.vhalf, diff_comm hR a.pos, muR_symm]

theorem gradR_neg {i : Fin 3} (p : Params i) (a b : Particle (i + 1)) : gradR R p b a = -gradR R p a b := by
  unfold gradR
  rw [mean_comm b.h, diff_comm hR a.pos, gradient_neg hR]

end

/-- `x t` and `y t'` when `t` is `y z` and `t'` is `x z` up to two roundings. -/
theorem pair_close (hu : R.u ≤ 1 / 16) {x y z t t' : ℝ} (h : Err R 2 (y * z) t |y * z|) (h' : Err R 2 (x * z) t' |x * z|) : |x * t - y * t'| ≤ 5 * R.u * |x * t| := by
  have h0 := R.nonneg
  have hd : (1 + R.u) ^ 2 - 1 ≤ 33 / 16 * R.u := by nlinarith
  obtain ⟨W, hW⟩ : ∃ W, W = |x| * |y * z| := ⟨_, rfl⟩
  have hW0 : 0 ≤ W := hW ▸ mul_nonneg (abs_nonneg _) (abs_nonneg _)
  have hW' : |y| * |x * z| = W := by rw [hW, abs_mul, abs_mul]; ring
  have e1 : |x * t - x * (y * z)| ≤ 33 / 16 * R.u * W := by
    rw [← mul_sub, abs_mul, hW]
    have := mul_le_mul_of_nonneg_left (h.2.trans (mul_le_mul_of_nonneg_right hd (abs_nonneg _))) (abs_nonneg x)
    linarith
  have e2 : |y * t' - x * (y * z)| ≤ 33 / 16 * R.u * W := by
    rw [show x * (y * z) = y * (x * z) by ring, ← mul_sub, abs_mul, ← hW']
    have := mul_le_mul_of_nonneg_left (h'.2.trans (mul_le_mul_of_nonneg_right hd (abs_nonneg _))) (abs_nonneg y)
    linarith
  have e3 : |x * t - y * t'| ≤ 33 / 8 * R.u * W := by
    have := abs_sub (x * t - x * (y * z)) (y * t' - x * (y * z))
    rw [sub_sub_sub_cancel_right] at this
    linarith
  have e4 : W ≤ |x * t| + 33 / 16 * R.u * W := by
    have := abs_sub (x * t) (x * t - x * (y * z))
    rw [sub_sub_cancel, abs_mul, ← hW] at this
    linarith
  have e5 : 33 / 16 * R.u * W ≤ 33 / 256 * W := mul_le_mul_of_nonneg_right (by linarith) hW0
  have e6 : W ≤ 256 / 223 * |x * t| := by linarith
  have e7 := mul_le_mul_of_nonneg_left e6 (show 0 ≤ 33 / 8 * R.u by linarith)
  have e8 : 0 ≤ R.u * |x * t| := mul_nonneg h0 (abs_nonneg _)
  linarith

/-- A sum over the neighbour lists of contributions which nearly cancel in pairs. -/
theorem sum_pairs {n : Nat} (nbs : Fin n → List (Fin n)) (hn : ∀ a, (nbs a).Nodup) (c z : Fin n → Fin n → ℝ) {K : ℝ} (hz : ∀ a b, 0 ≤ z a b) (hc : ∀ a b, |c a b + c b a| ≤ K * z a b) (hK : 0 ≤ K) :
    |∑ a, ((nbs a).map (c a)).sum| ≤ K / 2 * ∑ a, ((nbs a).map (z a)).sum + ∑ a, ∑ b, if b ∈ nbs a ∧ a ∉ nbs b then |c a b| else 0 := by
  obtain ⟨B, hB⟩ : ∃ B : ℝ, B = ∑ a, ∑ b, if b ∈ nbs a ∧ a ∈ nbs b then c a b else 0 := ⟨_, rfl⟩
  obtain ⟨O, hO⟩ : ∃ O : ℝ, O = ∑ a, ∑ b, if b ∈ nbs a ∧ a ∉ nbs b then c a b else 0 := ⟨_, rfl⟩
  have e1 : ∑ a, ((nbs a).map (c a)).sum = B + O := by
    rw [hB, hO, ← Finset.sum_add_distrib]
    refine Finset.sum_congr rfl fun a _ => ?_
    rw [sum_list _ (hn a), ← Finset.sum_add_distrib]
    refine Finset.sum_congr rfl fun b _ => ?_
    by_cases h1 : b ∈ nbs a <;> by_cases h2 : a ∈ nbs b <;> simp [h1, h2]
  have e2 : 2 * B = ∑ a, ∑ b, if b ∈ nbs a ∧ a ∈ nbs b then c a b + c b a else 0 := by
    rw [two_mul]
    conv_lhs => rw [hB]; arg 2; rw [Finset.sum_comm]
    rw [← Finset.sum_add_distrib]
    refine Finset.sum_congr rfl fun a _ => ?_
    rw [← Finset.sum_add_distrib]
    refine Finset.sum_congr rfl fun b _ => ?_
    by_cases h1 : b ∈ nbs a <;> by_cases h2 : a ∈ nbs b <;> simp [h1, h2]
  have e3 : |2 * B| ≤ K * ∑ a, ((nbs a).map (z a)).sum := by
    rw [e2, Finset.mul_sum]
    refine (Finset.abs_sum_le_sum_abs _ _).trans (Finset.sum_le_sum fun a _ => ?_)
    rw [sum_list _ (hn a), Finset.mul_sum]
    refine (Finset.abs_sum_le_sum_abs _ _).trans (Finset.sum_le_sum fun b _ => ?_)
    by_cases h1 : b ∈ nbs a <;> by_cases h2 : a ∈ nbs b
    · simpa [h1, h2] using hc a b
    · simpa [h1, h2] using mul_nonneg hK (hz a b)
    · simp [h1]
    · simp [h1]
  have e4 : |O| ≤ ∑ a, ∑ b, if b ∈ nbs a ∧ a ∉ nbs b then |c a b| else 0 := by
    rw [hO]
    refine (Finset.abs_sum_le_sum_abs _ _).trans (Finset.sum_le_sum fun a _ => ?_)
    refine (Finset.abs_sum_le_sum_abs _ _).trans (Finset.sum_le_sum fun b _ => ?_)
    split_ifs <;> simp
  rw [abs_mul, abs_of_pos (by norm_num : (0 : ℝ) < 2)] at e3
  rw [e1]
  linarith [abs_add_le B O]

/-- The computed gradient is along the line between the particles. -/
theorem gradient_central (κ : Kernel) (i : Fin 3) (p : Point (i + 1)) (h : ℝ) : ∃ c : ℝ, ∀ j, Err R 3 (c * p j) (gradient R κ i p h j) |c * p j| := by
  have h1 : ∀ (sigma dWdr r : ℝ), ∃ c : ℝ, ∀ j, Err R 3 (c * p j) (along R p sigma dWdr r j) |c * p j| := by
    intro sigma dWdr r
    refine ⟨sigma * dWdr * (R.fl (r + tinyR R))⁻¹, fun j => ?_⟩
    refine (((((((Err.refl (R := R) (p j)).mul (Err.refl sigma)).fl).mul (Err.refl dWdr)).fl).mul (Err.refl (R.fl (r + tinyR R))⁻¹)).fl).congr (by ring) ?_
    rw [← abs_mul, ← abs_mul, ← abs_mul]
    congr 1
    ring
  have h2 : ∀ (c : Prop) [Decidable c] (sigma dWdr r : ℝ), ∃ c' : ℝ, ∀ j, Err R 3 (c' * p j) (scaled R p c sigma dWdr r j) |c' * p j| := by
    intro c _ sigma dWdr r
    refine ⟨fac c * R.fl (R.fl (sigma * dWdr) / R.fl (r + tinyR R)), fun j => ?_⟩
    refine ((((Err.refl (R := R) (p j)).mul (Err.refl (fac c * R.fl (R.fl (sigma * dWdr) / R.fl (r + tinyR R))))).fl).congr (by ring) ?_).mono (by omega)
    rw [← abs_mul, mul_comm]
  have h3 : ∃ c : ℝ, ∀ j, Err R 3 (c * p j) ((0 : Point (i + 1)) j) |c * p j| := ⟨0, fun j => by simpa using (Err.refl (R := R) 0).mono (show 0 ≤ 3 by omega)⟩
  cases κ
  case cubicSpline => simp only [gradient, cubicGradient]; split_ifs <;> first | exact h1 _ _ _ | exact h3
  case gaussian => simp only [gradient, gaussianGradient]; split_ifs <;> first | exact h1 _ _ _ | exact h3
  case quinticSpline => simp only [gradient, quinticGradient]; split_ifs <;> first | exact h1 _ _ _ | exact h3
  case wendlandC2 => exact h2 _ _ _ _
  case wendlandC4 => exact h2 _ _ _ _
  case wendlandC6 => exact h2 _ _ _ _
  case superGaussian => exact h2 _ _ _ _
  case sinc => simp only [gradient, sincGradient]; split_ifs <;> first | exact h1 _ _ _ | exact h3

/-- So is the computed contribution to the acceleration. -/
theorem push_central {i : Fin 3} (p : Params i) (a b : Particle (i + 1)) : ∃ c : ℝ, ∀ j, Err R 5 (c * (a.pos j - b.pos j)) (push R p a b j) |c * (a.pos j - b.pos j)| := by
  obtain ⟨c, hc⟩ := gradient_central (R := R) p.kernel i (diff R a.pos b.pos) (mean R a.h b.h)
  obtain ⟨Q, hQ⟩ : ∃ Q, Q = R.fl (-massOf a b * R.fl (R.fl (prho2 R a + prho2 R b) + viscR R p a b)) := ⟨_, rfl⟩
  refine ⟨Q * c, fun j => ?_⟩
  have e : push R p a b j = R.fl (Q * gradient R p.kernel i (diff R a.pos b.pos) (mean R a.h b.h) j) := by rw [hQ]; rfl
  rw [e]
  -- the difference is right up to a rounding, and the gradient up to three more
  have h1 : Err R 1 (a.pos j - b.pos j) (diff R a.pos b.pos j) |a.pos j - b.pos j| := (Err.refl _).fl
  have h2 : Err R 4 (c * (a.pos j - b.pos j)) (gradient R p.kernel i (diff R a.pos b.pos) (mean R a.h b.h) j) |c * (a.pos j - b.pos j)| := by
    refine ⟨le_rfl, ?_⟩
    have h3 := (Err.refl (R := R) c).mul h1
    have h4 := hc j
    have h5 : |c * diff R a.pos b.pos j| ≤ (1 + R.u) ^ 1 * |c * (a.pos j - b.pos j)| := by
      have := h3.abs_le
      rwa [← abs_mul, zero_add] at this
    have h6 := mul_le_mul_of_nonneg_left h5 (show 0 ≤ (1 + R.u) ^ 3 - 1 by linarith [growth (R := R) 3])
    have h7 := abs_add_le (gradient R p.kernel i (diff R a.pos b.pos) (mean R a.h b.h) j - c * diff R a.pos b.pos j) (c * diff R a.pos b.pos j - c * (a.pos j - b.pos j))
    rw [sub_add_sub_cancel] at h7
    have h8 := h3.2
    rw [← abs_mul, zero_add] at h8
    have h9 := h4.2
    rw [show (1 + R.u) ^ 4 = (1 + R.u) ^ 3 * (1 + R.u) ^ 1 by ring]
    linarith
  have h10 := ((Err.refl (R := R) Q).mul h2).fl
  rw [← abs_mul, ← mul_assoc] at h10
  exact h10

/-- The rounded sum of contributions and one more value. -/
theorem sum_close {ι : Type} (t : ι → ℝ) (l : List ι) (x : ℝ) {N : Nat} (hN : l.length ≤ N) (hu : (N + 1 : ℕ) * R.u ≤ 1) :
    |R.fl (l.foldl (fun s b => R.fl (s + t b)) 0 + x) - ((l.map t).sum + x)| ≤ 2 * (N + 1) * R.u * ((l.map fun b => |t b|).sum + |x|) := by
  have h := (((err_foldl (R := R) t t (fun b => |t b|) 0 (fun b => Err.refl _) l (Err.refl 0) le_rfl).add (c := l.length) (by omega) (Nat.zero_le _) (Err.refl x)).fl).mono (show l.length + 1 ≤ N + 1 by omega)
  rw [abs_zero, zero_add, zero_add] at h
  have h2 := growth_le (R := R) (N + 1) hu
  push_cast at h2
  exact h.2.trans (mul_le_mul_of_nonneg_right h2 (add_nonneg (List.sum_nonneg (by simp)) (abs_nonneg _)))

section
variable (hR : Mirrored R)
include hR

theorem push_opposite {i : Fin 3} (p : Params i) (a b : Particle (i + 1)) (hm : a.mass = b.mass) (j : Fin (i + 1)) : push R p b a j = -push R p a b j := by
  have e : massOf b a = massOf a b := by simp only [massOf, ne_comm, hm]
  rw [push, push, e, add_comm (prho2 R b), viscR_symm hR, gradR_neg hR, Pi.neg_apply, mul_neg, hR]

theorem work_opposite {i : Fin 3} (p : Params i) (a b : Particle (i + 1)) (hm : a.mass = b.mass) : work R p b a = -work R p a b := by
  have e : massOf b a = massOf a b := by simp only [massOf, ne_comm, hm]
  rw [work, work, e, viscR_symm hR, gradR_neg hR, rdot_neg hR, rdot_neg hR]
  rw [mul_neg, neg_mul, hR, hR, ← neg_add, ← neg_add, hR, hR, mul_neg, hR, ← neg_add, hR, mul_neg, hR]
  congr 1
  rw [add_comm (R.fl (prho2 R b * _)), mul_comm (prho2 R b), mul_comm (rdot R b.vel _), add_comm (rdot R a.vel _)]

theorem push_close (hu : R.u ≤ 1 / 16) {i : Fin 3} (p : Params i) (a b : Particle (i + 1)) (j : Fin (i + 1)) :
    |a.mass * push R p a b j + b.mass * push R p b a j| ≤ 5 * R.u * |a.mass * push R p a b j| := by
  have e1 : push R p b a j = -R.fl (R.fl (-massOf b a * R.fl (R.fl (prho2 R a + prho2 R b) + viscR R p a b)) * gradR R p a b j) := by
    rw [push, add_comm (prho2 R b), viscR_symm hR, gradR_neg hR, Pi.neg_apply, mul_neg, hR]
  rw [e1, mul_neg, ← sub_eq_add_neg]
  unfold push
  obtain ⟨S, hS⟩ : ∃ S, S = R.fl (R.fl (prho2 R a + prho2 R b) + viscR R p a b) := ⟨_, rfl⟩
  rw [← hS]
  have key : ∀ m : ℝ, Err R 2 (m * (-S * gradR R p a b j)) (R.fl (R.fl (-m * S) * gradR R p a b j)) |m * (-S * gradR R p a b j)| := by
    intro m
    refine ((((Err.refl (-m)).mul (Err.refl S)).fl).mul (Err.refl (gradR R p a b j))).fl.congr (by ring) ?_
    rw [← abs_mul, ← abs_mul]; congr 1; ring
  by_cases hp : b.pos = a.pos
  · have z1 : massOf a b = 0 := by simp [massOf, fac, hp]
    have z2 : massOf b a = 0 := by simp [massOf, fac, hp]
    rw [z1, z2]
    simp [fl_zero]
  · have z1 : massOf a b = b.mass := by simp [massOf, fac, hp]
    have z2 : massOf b a = a.mass := by simp [massOf, fac, Ne.symm hp]
    rw [z1, z2]
    exact pair_close hu (key b.mass) (key a.mass)

theorem work_close (hu : R.u ≤ 1 / 16) {i : Fin 3} (p : Params i) (a b : Particle (i + 1)) : |a.mass * work R p a b + b.mass * work R p b a| ≤ 5 * R.u * |a.mass * work R p a b| := by
  obtain ⟨X, hX⟩ : ∃ X, X = R.fl (R.fl (R.fl (prho2 R a * rdot R b.vel (gradR R p a b)) + R.fl (rdot R a.vel (gradR R p a b) * prho2 R b)) +
      R.fl (R.fl (1 / 2 * viscR R p a b) * R.fl (rdot R b.vel (gradR R p a b) + rdot R a.vel (gradR R p a b)))) := ⟨_, rfl⟩
  have e0 : work R p a b = R.fl (massOf a b * X) := by rw [hX]; rfl
  have e1 : work R p b a = -R.fl (massOf b a * X) := by
    rw [work, viscR_symm hR, gradR_neg hR, rdot_neg hR, rdot_neg hR, hX]
    rw [mul_neg, neg_mul, hR, hR, ← neg_add, ← neg_add, hR, hR, mul_neg, hR, ← neg_add, hR, mul_neg, hR]
    congr 3
    rw [add_comm (R.fl (prho2 R b * _)), mul_comm (prho2 R b), mul_comm (rdot R b.vel _), add_comm (rdot R a.vel _)]
  rw [e0, e1, mul_neg, ← sub_eq_add_neg]
  have key : ∀ m : ℝ, Err R 2 (m * X) (R.fl (m * X)) |m * X| := fun m =>
    ((((Err.refl m).mul (Err.refl X)).fl).congr rfl (abs_mul m X).symm).mono (by omega)
  by_cases hp : b.pos = a.pos
  · have z1 : massOf a b = 0 := by simp [massOf, fac, hp]
    have z2 : massOf b a = 0 := by simp [massOf, fac, hp]
    rw [z1, z2]
    simp [fl_zero]
  · have z1 : massOf a b = b.mass := by simp [massOf, fac, hp]
    have z2 : massOf b a = a.mass := by simp [massOf, fac, Ne.symm hp]
    rw [z1, z2]
    exact pair_close hu (key b.mass) (key a.mass)

end

end FleCSPH.Rounded

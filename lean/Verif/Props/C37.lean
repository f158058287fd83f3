import Verif.Lemmas.Viscosity
import Verif.Model.Integration
/-! C37: the artificial viscosity only dissipates. -/
namespace FleCSPH
open Sph Spec Geometry Kernels Integration

variable {i : Fin 3}

/-- The viscous pressure of a pair is not negative, is zero for particles which do not approach each other, and is
symmetric in the two particles. Both viscosities, every kernel. -/
theorem C37_viscous_pressure (p : Params i) (ha : 0 ≤ p.alpha) (hb : 0 ≤ p.beta) (he : 0 ≤ p.eps) (a b : Particle (i + 1))
    (hal : 0 ≤ a.alpha ∧ 0 ≤ b.alpha) (hr : 0 < a.rho ∧ 0 < b.rho) (hc : 0 ≤ a.cs ∧ 0 ≤ b.cs) (hh : 0 < a.h ∧ 0 < b.h) :
    0 ≤ viscOf p a b ∧ viscOf p b a = viscOf p a b ∧
      (0 ≤ ∑ j, (a.vhalf j - b.vhalf j) * (a.pos j - b.pos j) → viscOf p a b = 0) :=
  ⟨viscOf_nonneg p ha hb he (by linarith) (by linarith) (by linarith) (by linarith), viscOf_symm p a b, fun h => viscOf_receding p h⟩

/-- If the velocities are those the viscosity is computed with, the rate of change of internal energy is at least the
pressure work: viscosity heats. -/
theorem C37_heating_partial (p : Params i) (hκ : NonNegKernel p.kernel) (ha : 0 ≤ p.alpha) (hb : 0 ≤ p.beta) (he : 0 ≤ p.eps)
    (a : Particle (i + 1)) (nbs : List (Particle (i + 1))) (iteration : Int) (hit : p.relaxationSteps ≤ iteration)
    (h0 : a.vhalf = a.vel ∧ 0 ≤ a.alpha ∧ 0 < a.rho ∧ 0 ≤ a.cs ∧ 0 < a.h)
    (h1 : ∀ b ∈ nbs, b.vhalf = b.vel ∧ 0 ≤ b.mass ∧ 0 ≤ b.alpha ∧ 0 < b.rho ∧ 0 ≤ b.cs ∧ 0 < b.h) :
    a.P / a.rho ^ 2 * (nbs.map fun b => b.mass *
        ∑ j, (a.vel j - b.vel j) * kernelGradient p.kernel i (a.pos - b.pos) ((a.h + b.h) / 2) j).sum ≤
      (computeDudt p iteration a nbs).dudt := by
  obtain ⟨e0, a0, r0, c0, hh0⟩ := h0
  simp only [computeDudt, if_neg (not_lt.mpr hit), accumulate_eq]
  have hsum : (nbs.map fun b => b.mass *
        ∑ j, (a.vel j - b.vel j) * kernelGradient p.kernel i (a.pos - b.pos) ((a.h + b.h) / 2) j).sum =
      (nbs.map fun b => massOf a b * dot (a.vel - b.vel) (gradOf p a b)).sum := by
    congr 1
    refine List.map_congr_left fun b _ => ?_
    have eh : (a.h + b.h) / 2 = 1 / 2 * (a.h + b.h) := by ring
    rw [eh]
    show b.mass * dot (a.vel - b.vel) (gradOf p a b) = _
    by_cases h : b.pos = a.pos
    · rw [gradOf_self p h]; simp [dot]
    · simp [massOf, fac, h]
  rw [hsum, sq]
  have hvisc : 0 ≤ (nbs.map fun b => massOf a b * dot (a.vel - b.vel) (gradOf p a b) * viscOf p a b).sum := by
    refine List.sum_nonneg fun x hx => ?_
    obtain ⟨b, hbm, rfl⟩ := List.mem_map.mp hx
    obtain ⟨e1, m1, a1, r1, c1, hh1⟩ := h1 b hbm
    have hm : 0 ≤ massOf a b := by simp only [massOf, fac]; split_ifs <;> simp [m1]
    by_cases hd : 0 ≤ dot (a.vhalf - b.vhalf) (a.pos - b.pos)
    · rw [viscOf_receding p hd, mul_zero]
    · refine mul_nonneg (mul_nonneg hm ?_) (viscOf_nonneg p ha hb he (by linarith) (by linarith) (by linarith) (by linarith))
      rw [dot_gradOf, ← e0, ← e1]
      refine mul_nonneg_of_nonpos_of_nonpos (not_le.mp hd).le (div_nonpos_of_nonpos_of_nonneg
        (slope_nonpos hκ (magnitude_nonneg _) (by linarith)) (add_nonneg (magnitude_nonneg _) tiny_pos.le))
  linarith

/-- In the driver the velocities have been kicked between the two: two particles without pressure approach each other at
the half step, `compute_acceleration` and the kick make them recede, and then `compute_dudt`, which takes the viscosity from
the half step, cools them. -/
theorem C37_violated : ∃ (p : Params 0) (s : Fin 2 → Particle 1) (dt : ℝ),
    0 < p.alpha ∧ 0 < p.beta ∧ 0 < p.eps ∧ Poly p.kernel ∧ p.external = (fun _ => 0) ∧ p.relaxationSteps = 0 ∧ 0 < dt ∧
    (∀ k, (s k).vhalf = (s k).vel ∧ 0 < (s k).mass ∧ 0 < (s k).rho ∧ 0 ≤ (s k).cs ∧ 0 < (s k).h ∧ (s k).P = 0) ∧
    (let s1 := applyAll (kickV dt) (fun k => computeAcceleration p (s k) [s 0, s 1])
     (computeDudt p 1 (s1 0) [s1 0, s1 1]).dudt < 0) := by
  let p : Params 0 := ⟨.wendlandC2, .constant, 1, 2, 1 / 100, fun _ => 0, 0⟩
  let a : Particle 1 := ⟨0, 1, 1, fun _ => 0, fun _ => 1, fun _ => 1, 0, 0, 0, 1, 0, 0, 0, 0, 0, 0, 0, 0, 0, 0, 0, 0, 0⟩
  let b : Particle 1 := ⟨1, 1, 1, fun _ => 1 / 2, fun _ => 0, fun _ => 0, 0, 0, 0, 1, 0, 0, 0, 0, 0, 0, 0, 0, 0, 0, 0, 0, 0⟩
  let s : Fin 2 → Particle 1 := ![a, b]
  have hv : 0 < viscOf p a b := by
    have hd : dot (a.vhalf - b.vhalf) (a.pos - b.pos) < 0 := by
      show ∑ j : Fin 1, ((1 : ℝ) - 0) * (0 - 1 / 2) < 0
      norm_num
    have hm := mu_neg (d := 1) (eps := p.eps) (h := 1 / 2 * (a.h + b.h)) (by norm_num [p]) (by norm_num [a, b]) hd
    show 0 < (-1 * (1 / 2 * (0 + 0)) + 2 * mu p.eps (1 / 2 * (a.h + b.h)) (a.vhalf - b.vhalf) (a.pos - b.pos)) *
      mu p.eps (1 / 2 * (a.h + b.h)) (a.vhalf - b.vhalf) (a.pos - b.pos) / (1 / 2 * (1 + 1))
    generalize mu p.eps (1 / 2 * (a.h + b.h)) (a.vhalf - b.vhalf) (a.pos - b.pos) = m at *
    have := mul_pos_of_neg_of_neg hm hm
    have : 0 < (-1 * (1 / 2 * (0 + 0)) + 2 * m) * m := by nlinarith
    exact div_pos this (by norm_num)
  have hmag : magnitude (a.pos - b.pos) = 1 / 2 := by
    show √(∑ j : Fin 1, ((0 : ℝ) - 1 / 2) * (0 - 1 / 2)) = _
    rw [Fin.sum_univ_one, show ((0 : ℝ) - 1 / 2) * (0 - 1 / 2) = (1 / 2) ^ 2 by norm_num, Real.sqrt_sq (by norm_num)]
  have hg : 0 < gradOf p a b 0 := by
    have ht := tiny_pos
    simp only [gradOf, kernelGradient, hmag]
    refine div_pos ?_ (by linarith)
    show 0 < ((0 : ℝ) - 1 / 2) * wendlandC2Slope 0 (1 / 2) (1 / 2 * (1 + 1))
    simp only [wendlandC2Slope, wendlandC2Sigma, Matrix.cons_val_zero, fac]
    norm_num
  set piab := viscOf p a b with hpd
  set g := gradOf p a b with hgd
  have hPg : 0 < piab * g 0 := mul_pos hv hg
  refine ⟨p, s, 2 / (piab * g 0), by norm_num [p], by norm_num [p], by norm_num [p], .wendlandC2, rfl, rfl, by positivity, ?_, ?_⟩
  · intro k
    match k with
    | 0 => exact ⟨rfl, one_pos, one_pos, le_rfl, one_pos, rfl⟩
    | 1 => exact ⟨rfl, one_pos, one_pos, le_rfl, one_pos, rfl⟩
  · -- the accelerations
    have mab : massOf a b = 1 := by
      have : b.pos ≠ a.pos := fun h => by have := congrFun h 0; norm_num [a, b] at this
      simp only [massOf, fac, if_pos this, mul_one]; rfl
    have mba : massOf b a = 1 := by
      have : a.pos ≠ b.pos := fun h => by have := congrFun h 0; norm_num [a, b] at this
      simp only [massOf, fac, if_pos this, mul_one]; rfl
    have maa : massOf a a = 0 := by simp [massOf, fac]
    have mbb : massOf b b = 0 := by simp [massOf, fac]
    have hba : gradOf p b a = -g := gradOf_antisymm p a b
    have vba : viscOf p b a = piab := viscOf_symm p a b
    have pa : a.P = 0 := rfl
    have pb : b.P = 0 := rfl
    have xa : p.external a = 0 := rfl
    have xb : p.external b = 0 := rfl
    have acca : (computeAcceleration p a [a, b]).acc = (-piab) • g := by
      simp only [computeAcceleration, accumulate_eq, List.map_cons, List.map_nil, List.sum_cons, List.sum_nil, maa, mab, pa, pb, xa]
      simp [hpd, hgd]
    have accb : (computeAcceleration p b [a, b]).acc = piab • g := by
      simp only [computeAcceleration, accumulate_eq, List.map_cons, List.map_nil, List.sum_cons, List.sum_nil, mba, mbb, pa, pb, xb, hba, vba]
      simp
    intro s1
    have e0 : s1 0 = kickV (2 / (piab * g 0)) (computeAcceleration p a [a, b]) := rfl
    have e1 : s1 1 = kickV (2 / (piab * g 0)) (computeAcceleration p b [a, b]) := rfl
    have v0 : (s1 0).vel = fun _ => 0 := by
      funext j
      rw [show j = 0 from Subsingleton.elim (α := Fin 1) j 0, e0]
      show (1 : ℝ) + 1 / 2 * (2 / (piab * g 0)) * ((computeAcceleration p a [a, b]).acc 0 + 0) = 0
      rw [acca]
      simp only [Pi.smul_apply, smul_eq_mul]
      have := hPg.ne'
      have h3 : 2 / (piab * g 0) * (piab * g 0) = 2 := div_mul_cancel₀ _ this
      linear_combination (-1 / 2) * h3
    have v1 : (s1 1).vel = fun _ => 1 := by
      funext j
      rw [show j = 0 from Subsingleton.elim (α := Fin 1) j 0, e1]
      show (0 : ℝ) + 1 / 2 * (2 / (piab * g 0)) * ((computeAcceleration p b [a, b]).acc 0 + 0) = 1
      rw [accb]
      simp only [Pi.smul_apply, smul_eq_mul]
      have := hPg.ne'
      have h3 : 2 / (piab * g 0) * (piab * g 0) = 2 := div_mul_cancel₀ _ this
      linear_combination (1 / 2) * h3
    have P0 : (s1 0).P = 0 := rfl
    have m00 : massOf (s1 0) (s1 0) = 0 := by simp [massOf, fac]
    have m01 : massOf (s1 0) (s1 1) = 1 := mab
    have g01 : gradOf p (s1 0) (s1 1) = g := rfl
    have p01 : viscOf p (s1 0) (s1 1) = piab := rfl
    simp only [computeDudt, show ¬ (1 : Int) < p.relaxationSteps by decide, if_false, accumulate_eq, List.map_cons, List.map_nil,
      List.sum_cons, List.sum_nil, m00, m01, g01, p01, P0, v0, v1]
    have hdot : dot ((fun _ => (0 : ℝ)) - fun _ => 1) g = -g 0 := by
      show ∑ j : Fin 1, ((0 : ℝ) - 1) * g j = _
      rw [Fin.sum_univ_one]; ring
    rw [hdot]
    clear_value g piab
    have : 0 / ((s1 0).rho * (s1 0).rho) = 0 := zero_div _
    rw [this]
    nlinarith

/-- Non-vacuity of `C37_heating_partial`. -/
example : ∃ (p : Params 1) (a b : Particle 2), NonNegKernel p.kernel ∧ 0 ≤ p.alpha ∧ 0 ≤ p.beta ∧ 0 ≤ p.eps ∧ p.relaxationSteps ≤ 1 ∧
    (a.vhalf = a.vel ∧ 0 ≤ a.alpha ∧ 0 < a.rho ∧ 0 ≤ a.cs ∧ 0 < a.h) ∧
    (b.vhalf = b.vel ∧ 0 ≤ b.mass ∧ 0 ≤ b.alpha ∧ 0 < b.rho ∧ 0 ≤ b.cs ∧ 0 < b.h) ∧ a.vel ≠ b.vel ∧ a.pos ≠ b.pos :=
  ⟨⟨.gaussian, .cullen, 1, 2, 1 / 100, fun _ => 0, 0⟩,
   ⟨0, 1, 1, fun _ => 0, fun _ => 1, fun _ => 1, 0, 0, 0, 1, 1, 1, 1, 0, 0, 0, 0, 0, 0, 0, 0, 0, 0⟩,
   ⟨1, 1, 1, fun _ => 1, fun _ => 0, fun _ => 0, 0, 0, 0, 1, 1, 1, 1, 0, 0, 0, 0, 0, 0, 0, 0, 0, 0⟩,
   Or.inr (Or.inl rfl), by norm_num, by norm_num, by norm_num, by norm_num, ⟨rfl, by norm_num, by norm_num, by norm_num, by norm_num⟩,
   ⟨rfl, by norm_num, by norm_num, by norm_num, by norm_num, by norm_num⟩,
   fun h => by simpa using congrFun h 0, fun h => by simpa using congrFun h 0⟩

end FleCSPH

import Verif.Lemmas.Eos
/-! C38: the equations of state are consistent: signs, continuity, conversions. C59: thermodynamic identities. -/
namespace FleCSPH
open Sph Eos Geometry Real

variable {d : Nat}

/-- The polytropic and the ideal EOS: conversions between pressure, adiabatic constant and internal energy are inverse to each
other, pressures and energies are not negative, the speed of sound squared is `gamma P / rho`. -/
theorem C38_polytropic (q : Params) (hg : 1 < q.gamma) (a : Particle d) (hr : 0 < a.rho) :
    (pressurePoly q (adiabaticPoly q a)).P = a.P ∧
    (adiabaticPoly q (pressurePoly q a)).K = a.K ∧
    (0 ≤ a.K → 0 ≤ (pressurePoly q a).P ∧ 0 ≤ (energyPoly q a).u ∧
      (soundspeedPoly q a).cs ^ 2 = q.gamma * (pressurePoly q a).P / a.rho ∧ 0 ≤ (soundspeedPoly q a).cs) ∧
    (pressureIdeal q (energyPoly q a)).P = (pressurePoly q a).P ∧
    (energyPoly q (adiabaticPoly q (pressureIdeal q a))).u = a.u := by
  have hp := rpow_pos_of_pos hr q.gamma
  have hp1 := rpow_pos_of_pos hr (q.gamma - 1)
  have e : a.rho ^ (q.gamma - 1) = a.rho ^ q.gamma / a.rho := by rw [rpow_sub hr, rpow_one]
  have hg1 : q.gamma - 1 ≠ 0 := by linarith
  refine ⟨?_, ?_, fun hK => ⟨?_, ?_, ?_, sqrt_nonneg _⟩, ?_, ?_⟩
  · simp only [pressurePoly, adiabaticPoly]; field_simp
  · simp only [pressurePoly, adiabaticPoly]; field_simp
  · simp only [pressurePoly]; positivity
  · simp only [energyPoly]
    have : 0 < q.gamma - 1 := by linarith
    positivity
  · have : 0 < q.gamma := by linarith
    simp only [soundspeedPoly, pressurePoly]
    rw [sq_sqrt (by positivity), e]; ring
  · simp only [pressureIdeal, energyPoly, pressurePoly, e]
    field_simp
  · simp only [pressureIdeal, energyPoly, adiabaticPoly, e]
    field_simp

/-- The ideal EOS from the internal energy. -/
theorem C38_ideal (q : Params) (hg : 1 < q.gamma) (a : Particle d) (hr : 0 < a.rho) (hu : 0 ≤ a.u) :
    0 ≤ (pressureIdeal q a).P ∧ (soundspeedIdeal q a).cs ^ 2 = q.gamma * (pressureIdeal q a).P / a.rho ∧ 0 ≤ (soundspeedIdeal q a).cs := by
  have h1 : 0 < q.gamma - 1 := by linarith
  have h2 : 0 < q.gamma := by linarith
  refine ⟨by simp only [pressureIdeal]; positivity, ?_, sqrt_nonneg _⟩
  simp only [soundspeedIdeal, pressureIdeal]
  rw [sq_sqrt (by positivity)]
  field_simp

/-- The piecewise polytrope: pressure and internal energy are continuous functions of the density, also at the threshold, they
are not negative, and the conversions are inverse to each other. -/
theorem C38_piecewise (q : Params) (hg : 1 < q.gamma) (hg2 : 1 < q.gamma2) (ht : 0 < q.thr) (a : Particle d) (hr : 0 < a.rho) :
    (pressurePpt q (adiabaticPpt q a)).P = a.P ∧
    (adiabaticPpt q (pressurePpt q a)).K = a.K ∧
    (0 ≤ a.K → 0 ≤ (pressurePpt q a).P ∧ 0 ≤ (energyPpt q a).u ∧
      (soundspeedPpt q a).cs ^ 2 = (if a.rho < q.thr then q.gamma else q.gamma2) * (pressurePpt q a).P / a.rho ∧
      0 ≤ (soundspeedPpt q a).cs) ∧
    ContinuousOn (fun r => (pressurePpt q { a with rho := r }).P) (Set.Ioi 0) ∧
    ContinuousOn (fun r => (energyPpt q { a with rho := r }).u) (Set.Ioi 0) := by
  have hp := rpow_pos_of_pos hr q.gamma
  have hp2 := rpow_pos_of_pos hr q.gamma2
  have ht1 := rpow_pos_of_pos ht (q.gamma - q.gamma2)
  have ht2 : q.thr ^ (q.gamma2 - q.gamma) = (q.thr ^ (q.gamma - q.gamma2))⁻¹ := by rw [← rpow_neg ht.le]; congr 1; ring
  have e1 : a.rho ^ (q.gamma - 1) = a.rho ^ q.gamma / a.rho := by rw [rpow_sub hr, rpow_one]
  have e2 : a.rho ^ (q.gamma2 - 1) = a.rho ^ q.gamma2 / a.rho := by rw [rpow_sub hr, rpow_one]
  have e3 : q.thr ^ (q.gamma - q.gamma2) * q.thr ^ q.gamma2 = q.thr ^ q.gamma := by rw [← rpow_add ht]; congr 1; ring
  refine ⟨?_, ?_, fun hK => ⟨?_, ?_, ?_, ?_⟩, ?_, ?_⟩
  · simp only [pressurePpt, adiabaticPpt, ht2]
    split_ifs <;> field_simp
  · simp only [pressurePpt, adiabaticPpt, ht2]
    split_ifs <;> field_simp
  · simp only [pressurePpt]
    split_ifs <;> positivity
  · have h1 : 0 < q.gamma - 1 := by linarith
    have h2 : 0 < q.gamma2 - 1 := by linarith
    simp only [energyPpt]
    split_ifs with h
    · positivity
    · have hle : q.thr ^ (q.gamma2 - 1) ≤ a.rho ^ (q.gamma2 - 1) := rpow_le_rpow ht.le (not_lt.mp h) h2.le
      have hk2 : 0 ≤ a.K * q.thr ^ (q.gamma - q.gamma2) := by positivity
      have hd : a.K * q.thr ^ (q.gamma - q.gamma2) * q.thr ^ (q.gamma2 - 1) / (q.gamma2 - 1) ≤
          a.K * q.thr ^ (q.gamma - q.gamma2) * a.rho ^ (q.gamma2 - 1) / (q.gamma2 - 1) := by
        gcongr
      have : 0 ≤ a.K * q.thr ^ (q.gamma - 1) / (q.gamma - 1) := by positivity
      linarith
  · have h1 : 0 < q.gamma := by linarith
    have h2 : 0 < q.gamma2 := by linarith
    simp only [soundspeedPpt, pressurePpt]
    split_ifs with h
    · rw [sq_sqrt (by positivity), e1]; ring
    · rw [sq_sqrt (by positivity), e2]; ring
  · simp only [soundspeedPpt]
    split_ifs <;> exact sqrt_nonneg _
  · simp only [pressurePpt]
    intro r hr
    have hr' : r ≠ 0 := (Set.mem_Ioi.mp hr).ne'
    refine ContinuousAt.continuousWithinAt ?_
    rcases lt_trichotomy r q.thr with h | h | h
    · refine ContinuousAt.congr (f := fun r => a.K * r ^ q.gamma) (continuousAt_const.mul (continuousAt_rpow_const _ _ (Or.inl hr'))) ?_
      filter_upwards [Iio_mem_nhds h] with x hx
      rw [if_pos (Set.mem_Iio.mp hx)]
    · subst h
      have hc1 : ContinuousAt (fun r => a.K * r ^ q.gamma) q.thr := continuousAt_const.mul (continuousAt_rpow_const _ _ (Or.inl hr'))
      have hc2 : ContinuousAt (fun r => a.K * q.thr ^ (q.gamma - q.gamma2) * r ^ q.gamma2) q.thr :=
        continuousAt_const.mul (continuousAt_rpow_const _ _ (Or.inl hr'))
      rw [Metric.continuousAt_iff] at hc1 hc2 ⊢
      intro ε hε
      obtain ⟨δ1, hδ1, H1⟩ := hc1 ε hε
      obtain ⟨δ2, hδ2, H2⟩ := hc2 ε hε
      refine ⟨min δ1 δ2, lt_min hδ1 hδ2, fun {x} hx => ?_⟩
      rw [if_neg (lt_irrefl _)]
      split_ifs
      · have := H1 (hx.trans_le (min_le_left _ _))
        rwa [mul_assoc, e3]
      · exact H2 (hx.trans_le (min_le_right _ _))
    · refine ContinuousAt.congr (f := fun r => a.K * q.thr ^ (q.gamma - q.gamma2) * r ^ q.gamma2)
        (continuousAt_const.mul (continuousAt_rpow_const _ _ (Or.inl hr'))) ?_
      filter_upwards [Ioi_mem_nhds h] with x hx
      rw [if_neg (not_lt.mpr (le_of_lt hx))]
  · simp only [energyPpt]
    intro r hr
    have hr' : r ≠ 0 := (Set.mem_Ioi.mp hr).ne'
    refine ContinuousAt.continuousWithinAt ?_
    have hc1 : ContinuousAt (fun r => a.K * r ^ (q.gamma - 1) / (q.gamma - 1)) r :=
      (continuousAt_const.mul (continuousAt_rpow_const _ _ (Or.inl hr'))).div_const _
    have hc2 : ContinuousAt (fun r => a.K * q.thr ^ (q.gamma - q.gamma2) * r ^ (q.gamma2 - 1) / (q.gamma2 - 1) -
        a.K * q.thr ^ (q.gamma - q.gamma2) * q.thr ^ (q.gamma2 - 1) / (q.gamma2 - 1) + a.K * q.thr ^ (q.gamma - 1) / (q.gamma - 1)) r :=
      (((continuousAt_const.mul (continuousAt_rpow_const _ _ (Or.inl hr'))).div_const _).sub_const _).add_const _
    rcases lt_trichotomy r q.thr with h | h | h
    · refine hc1.congr ?_
      filter_upwards [Iio_mem_nhds h] with x hx
      rw [if_pos (Set.mem_Iio.mp hx)]
    · subst h
      rw [Metric.continuousAt_iff] at hc1 hc2 ⊢
      intro ε hε
      obtain ⟨δ1, hδ1, H1⟩ := hc1 ε hε
      obtain ⟨δ2, hδ2, H2⟩ := hc2 ε hε
      refine ⟨min δ1 δ2, lt_min hδ1 hδ2, fun {x} hx => ?_⟩
      rw [if_neg (lt_irrefl _)]
      split_ifs
      · have := H1 (hx.trans_le (min_le_left _ _))
        rwa [sub_self, zero_add]
      · exact H2 (hx.trans_le (min_le_right _ _))
    · refine hc2.congr ?_
      filter_upwards [Ioi_mem_nhds h] with x hx
      rw [if_neg (not_lt.mpr (le_of_lt hx))]

/-- The white dwarf EOS: pressure and energy are continuous and not negative, the speed of sound is at most that of light
over the square root of three. -/
theorem C38_white_dwarf (a : Particle d) (hr : 0 < a.rho) (hy : 0 < a.ye) :
    0 ≤ (pressureWd a).P ∧ 0 ≤ (energyWd a).u ∧ 0 ≤ (soundspeedWd a).cs ∧ (soundspeedWd a).cs < cLight / √3 ∧
    ContinuousOn (fun r => (pressureWd { a with rho := r }).P) (Set.Ioi 0) ∧
    ContinuousOn (fun r => (energyWd { a with rho := r }).u) (Set.Ioi 0) := by
  have hx := xWd_pos hr hy
  have hA := aWd_pos
  refine ⟨?_, ?_, ?_, ?_, ?_, ?_⟩
  · show 0 ≤ pressureGiven a.rho a.ye
    rw [pressureGiven_eq]
    exact mul_nonneg hA.le (psi_nonneg hx.le)
  · rw [energyWd_eq]
    exact mul_nonneg (by positivity) (eFun_nonneg hx.le)
  · exact mul_nonneg (sqrt_nonneg _) cLight_pos.le
  · show soundspeedGiven a.rho a.ye < _
    rw [soundspeedGiven_eq hr hy, mul_comm, div_eq_mul_inv cLight, ← sqrt_inv]
    refine mul_lt_mul_of_pos_left (sqrt_lt_sqrt (by positivity) ?_) cLight_pos
    rw [inv_eq_one_div, div_lt_div_iff₀ (by positivity) (by norm_num)]
    linarith
  · intro r hr
    exact (hasDerivAt_pressureGiven hr hy).continuousAt.continuousWithinAt
  · intro r hr
    have : ContinuousAt (fun r => aWd / r * eFun (xWd r a.ye)) r :=
      (continuousAt_const.div continuousAt_id (Set.mem_Ioi.mp hr).ne').mul
        ((hasDerivAt_eFun _).comp r (hasDerivAt_xWd hr hy)).continuousAt
    exact this.continuousWithinAt

/-- At zero density the white dwarf's speed of sound is 0/0 in the code: both terms of the quotient vanish. -/
theorem C38_white_dwarf_zero_density_violated (ye : ℝ) :
    let x2 := xWd 0 ye * xWd 0 ye
    (1 + x2) * (6 * x2 - 3) + 3 + x2 * (2 * x2 - 3) = 0 ∧ 3 * ((1 + x2) * (6 * x2 + 1) - 1 + x2 * (2 * x2 + 1)) = 0 := by
  have : xWd 0 ye = 0 := by rw [xWd, zero_mul, zero_div, zero_rpow (by norm_num)]
  simp only [this]
  norm_num

/-- C59, the first law: along an isentrope `du = P / rho^2 d rho`. Polytropic. -/
theorem C59_first_law_polytropic (q : Params) (hg : 1 < q.gamma) (a : Particle d) (hr : 0 < a.rho) :
    HasDerivAt (fun r => (energyPoly q { a with rho := r }).u) ((pressurePoly q a).P / a.rho ^ 2) a.rho ∧
    (0 ≤ a.K → HasDerivAt (fun r => (pressurePoly q { a with rho := r }).P) ((soundspeedPoly q a).cs ^ 2) a.rho) := by
  have hg1 : q.gamma - 1 ≠ 0 := by linarith
  constructor
  · have h := ((hasDerivAt_rpow_const (x := a.rho) (p := q.gamma - 1) (Or.inl hr.ne')).const_mul a.K).div_const (q.gamma - 1)
    refine h.congr_deriv ?_
    simp only [pressurePoly]
    have e : a.rho ^ (q.gamma - 1 - 1) = a.rho ^ q.gamma / a.rho ^ 2 := by
      rw [sub_sub, show (1 : ℝ) + 1 = (2 : ℕ) by norm_num, rpow_sub hr, rpow_natCast]
    rw [e]
    field_simp
  · intro hK
    have h := (hasDerivAt_rpow_const (x := a.rho) (p := q.gamma) (Or.inl hr.ne')).const_mul a.K
    refine h.congr_deriv ?_
    have h2 : 0 < q.gamma := by linarith
    have := rpow_pos_of_pos hr (q.gamma - 1)
    simp only [soundspeedPoly]
    rw [sq_sqrt (by positivity)]; ring

/-- Ideal EOS: along any curve of states obeying the first law, the derivative of the pressure is the speed of sound squared. -/
theorem C59_ideal (q : Params) (hg : 1 < q.gamma) (a : ℝ → Particle d) (r : ℝ) (hr : 0 < r) (hrho : ∀ x, (a x).rho = x)
    (hu : 0 ≤ (a r).u) (hfirst : HasDerivAt (fun x => (a x).u) ((pressureIdeal q (a r)).P / r ^ 2) r) :
    HasDerivAt (fun x => (pressureIdeal q (a x)).P) ((soundspeedIdeal q (a r)).cs ^ 2) r := by
  have h1 : 0 < q.gamma - 1 := by linarith
  have h2 : 0 < q.gamma := by linarith
  have h := (((hasDerivAt_id r).const_mul (q.gamma - 1)).mul hfirst)
  have e : (fun x => (pressureIdeal q (a x)).P) = (fun x => (q.gamma - 1) * id x) * fun x => (a x).u := by
    funext x; simp only [pressureIdeal, hrho, Pi.mul_apply, id]
  rw [e]
  refine h.congr_deriv ?_
  simp only [pressureIdeal, soundspeedIdeal, hrho, id]
  rw [sq_sqrt (by positivity)]
  field_simp
  ring

/-- Piecewise polytrope, on each side of the threshold. -/
theorem C59_first_law_piecewise (q : Params) (hg : 1 < q.gamma) (hg2 : 1 < q.gamma2) (ht : 0 < q.thr) (a : Particle d) (hr : 0 < a.rho)
    (hne : a.rho ≠ q.thr) :
    HasDerivAt (fun r => (energyPpt q { a with rho := r }).u) ((pressurePpt q a).P / a.rho ^ 2) a.rho ∧
    (0 ≤ a.K → HasDerivAt (fun r => (pressurePpt q { a with rho := r }).P) ((soundspeedPpt q a).cs ^ 2) a.rho) := by
  have hg1 : q.gamma - 1 ≠ 0 := by linarith
  have hg21 : q.gamma2 - 1 ≠ 0 := by linarith
  have hg0 : 0 < q.gamma := by linarith
  have hg20 : 0 < q.gamma2 := by linarith
  have e : ∀ g : ℝ, a.rho ^ (g - 1 - 1) = a.rho ^ g / a.rho ^ 2 := by
    intro g
    rw [sub_sub, show (1 : ℝ) + 1 = (2 : ℕ) by norm_num, rpow_sub hr, rpow_natCast]
  have ht1 := rpow_pos_of_pos ht (q.gamma - q.gamma2)
  rcases lt_or_gt_of_ne hne with h | h
  · have hev : ∀ᶠ x in nhds a.rho, x < q.thr := Iio_mem_nhds h
    constructor
    · have h1 := ((hasDerivAt_rpow_const (x := a.rho) (p := q.gamma - 1) (Or.inl hr.ne')).const_mul a.K).div_const (q.gamma - 1)
      refine (h1.congr_of_eventuallyEq ?_).congr_deriv ?_
      · filter_upwards [hev] with x hx
        simp only [energyPpt, if_pos hx]
      · simp only [pressurePpt, if_pos h, e]
        field_simp
    · intro hK
      have h1 := (hasDerivAt_rpow_const (x := a.rho) (p := q.gamma) (Or.inl hr.ne')).const_mul a.K
      refine (h1.congr_of_eventuallyEq ?_).congr_deriv ?_
      · filter_upwards [hev] with x hx
        simp only [pressurePpt, if_pos hx]
      · have := rpow_pos_of_pos hr (q.gamma - 1)
        simp only [soundspeedPpt, if_pos h]
        rw [sq_sqrt (by positivity)]; ring
  · have hev : ∀ᶠ x in nhds a.rho, q.thr < x := Ioi_mem_nhds h
    have hn : ¬ a.rho < q.thr := not_lt.mpr h.le
    constructor
    · have h1 := (((hasDerivAt_rpow_const (x := a.rho) (p := q.gamma2 - 1) (Or.inl hr.ne')).const_mul
        (a.K * q.thr ^ (q.gamma - q.gamma2))).div_const (q.gamma2 - 1)).sub_const
          (a.K * q.thr ^ (q.gamma - q.gamma2) * q.thr ^ (q.gamma2 - 1) / (q.gamma2 - 1)) |>.add_const
          (a.K * q.thr ^ (q.gamma - 1) / (q.gamma - 1))
      refine (h1.congr_of_eventuallyEq ?_).congr_deriv ?_
      · filter_upwards [hev] with x hx
        simp only [energyPpt, if_neg (not_lt.mpr hx.le)]
      · simp only [pressurePpt, if_neg hn, e]
        field_simp
    · intro hK
      have h1 := (hasDerivAt_rpow_const (x := a.rho) (p := q.gamma2) (Or.inl hr.ne')).const_mul (a.K * q.thr ^ (q.gamma - q.gamma2))
      refine (h1.congr_of_eventuallyEq ?_).congr_deriv ?_
      · filter_upwards [hev] with x hx
        simp only [pressurePpt, if_neg (not_lt.mpr hx.le)]
      · have := rpow_pos_of_pos hr (q.gamma2 - 1)
        simp only [soundspeedPpt, if_neg hn]
        rw [sq_sqrt (by positivity)]; ring

/-- White dwarf: the first law holds. -/
theorem C59_first_law_white_dwarf (a : Particle d) (hr : 0 < a.rho) (hy : 0 < a.ye) :
    HasDerivAt (fun r => (energyWd { a with rho := r }).u) ((pressureWd a).P / a.rho ^ 2) a.rho := by
  have h1 : HasDerivAt (fun r : ℝ => aWd / r) (-aWd / a.rho ^ 2) a.rho := by
    have := (hasDerivAt_const a.rho aWd).div (hasDerivAt_id a.rho) hr.ne'
    refine this.congr_deriv ?_
    simp
  have h2 := h1.mul ((hasDerivAt_eFun _).comp a.rho (hasDerivAt_xWd hr hy))
  refine h2.congr_deriv ?_
  show _ = pressureGiven a.rho a.ye / a.rho ^ 2
  rw [pressureGiven_eq]
  simp only [Function.comp, eFun]
  generalize xWd a.rho a.ye = x
  field_simp
  ring

/-- White dwarf: the derivative of the pressure is not the speed of sound squared but smaller by more than a factor 900
as long as `x <= 1` (the electrons are not relativistic): the code divides by the energy of the electrons alone, not by the
mass density. -/
theorem C59_white_dwarf_violated (a : Particle d) (hr : 0 < a.rho) (hy : 0 < a.ye) (hy1 : a.ye ≤ 1) (hx : a.rho * a.ye ≤ bWd) :
    ∃ dPdrho, HasDerivAt (fun r => (pressureWd { a with rho := r }).P) dPdrho a.rho ∧ 0 < dPdrho ∧
      900 * dPdrho < (soundspeedWd a).cs ^ 2 := by
  refine ⟨_, hasDerivAt_pressureGiven hr hy, ?_, ?_⟩
  · have := xWd_pos hr hy
    have := aWd_pos
    have hs : 0 < √(xWd a.rho a.ye * xWd a.rho a.ye + 1) := by positivity
    positivity
  · show _ < soundspeedGiven a.rho a.ye ^ 2
    rw [soundspeedGiven_eq hr hy]
    have hxp := xWd_pos hr hy
    have hc := xWd_cube hr.le hy.le
    have hx1 : xWd a.rho a.ye ≤ 1 := by
      have hb := bWd_pos
      refine rpow_le_one (by positivity) ?_ (by norm_num)
      rw [div_le_one hb]; exact hx
    have hs1 := one_le_sqrt1 (xWd a.rho a.ye)
    generalize xWd a.rho a.ye = x at *
    rw [mul_pow, sq_sqrt (by positivity)]
    have hrho : a.rho = x ^ 3 * bWd / a.ye := by
      rw [hc]
      have := bWd_pos
      field_simp
    rw [hrho]
    have hb := bWd_pos
    have h1 : 900 * (aWd * (8 * x ^ 4 / √(x * x + 1) * (x / (3 * (x ^ 3 * bWd / a.ye))))) ≤ 2400 * aWd / bWd * x ^ 2 := by
      have e : 900 * (aWd * (8 * x ^ 4 / √(x * x + 1) * (x / (3 * (x ^ 3 * bWd / a.ye))))) =
          2400 * aWd / bWd * x ^ 2 * (a.ye / √(x * x + 1)) := by
        have : √(x * x + 1) ≠ 0 := by positivity
        field_simp
        ring
      rw [e]
      have hA := aWd_pos
      refine mul_le_of_le_one_right (by positivity) ?_
      rw [div_le_one (by linarith)]
      linarith
    refine h1.trans_lt ?_
    have hxx : x ^ 2 ≤ 1 := pow_le_one₀ hxp.le hx1
    have h2 : x ^ 2 / 6 ≤ x ^ 2 / (3 * (x ^ 2 + 1)) := by
      apply div_le_div_of_nonneg_left (by positivity) (by positivity)
      linarith
    have h3 : 2400 * aWd / bWd < cLight ^ 2 / 6 := by norm_num [aWd, bWd, cLight]
    have h4 : 0 < x ^ 2 := by positivity
    calc 2400 * aWd / bWd * x ^ 2 < cLight ^ 2 / 6 * x ^ 2 := by gcongr
      _ = x ^ 2 / 6 * cLight ^ 2 := by ring
      _ ≤ _ := by gcongr

/-- Non-vacuity: a particle of density and adiabatic constant one, `gamma = 5/3`, `gamma2 = 4/3`, threshold 1/2. -/
example : ∃ (q : Params) (a : Particle 3), 1 < q.gamma ∧ 1 < q.gamma2 ∧ 0 < q.thr ∧ 0 < a.rho ∧ 0 < a.K ∧ a.rho ≠ q.thr ∧
    0 < a.ye ∧ a.ye ≤ 1 ∧ a.rho * a.ye ≤ bWd :=
  ⟨⟨5 / 3, 4 / 3, 1 / 2⟩, ⟨0, 1, 1, 0, 0, 0, 0, 0, 0, 1, 1, 1, 1, 1, 1, 0, 0, 1, 0, 0, 0, 0, 1 / 2⟩,
    by norm_num, by norm_num, by norm_num, by norm_num, by norm_num, by norm_num, by norm_num, by norm_num, by norm_num [bWd]⟩

end FleCSPH

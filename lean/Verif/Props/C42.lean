import Verif.Lemmas.Force
import Verif.Props.C43
/-! C42: external forces derive from their potentials. -/
namespace FleCSPH
open EForce Spec Geometry DensityProfiles

variable {d : Nat}

/-- Walls along an axis, for every position and every exponent above one. -/
theorem C42_walls (q : EForce.Params) (hn : 1 < q.n) (I : Fin 3) (hI : (I : Nat) < d) (p : Point d) :
    ∃ phi a, (∀ x, potentialSquareWell q I x = some (phi x)) ∧ accelerationSquareWell q I p = some a ∧ DerivesFrom a phi p := by
  have hc : ∀ x : Point d, coord x I = some (x ⟨I, hI⟩) := fun x => by rw [coord, dif_pos hI]
  simp only [potentialSquareWell, accelerationSquareWell, hc, Option.bind_eq_bind, Option.bind_some, Option.pure_def, Option.some.injEq]
  refine ⟨_, _, fun x => rfl, rfl, ?_⟩
  generalize 1 / 2 * q.box I = b
  have hx := derivesFrom_coord (⟨I, hI⟩ : Fin d) p
  have h1 : HasDerivAt (fun t => -t - b) (-1) (p ⟨I, hI⟩) := (hasDerivAt_id _).neg.sub_const b
  have h2 : HasDerivAt (fun t => t - b) 1 (p ⟨I, hI⟩) := (hasDerivAt_id _).sub_const b
  have r1 := HasDerivAt.comp (p ⟨I, hI⟩) (h := fun t => -t - b) (hasDerivAt_ramp hn (-p ⟨I, hI⟩ - b)) h1
  have r2 := HasDerivAt.comp (p ⟨I, hI⟩) (h := fun t => t - b) (hasDerivAt_ramp hn (p ⟨I, hI⟩ - b)) h2
  have := derivesFrom_comp hx ((r1.add r2).mul_const q.a)
  refine derivesFrom_congr_acc (derivesFrom_congr this (Filter.Eventually.of_forall fun x => ?_)) ?_
  · simp only [Pi.add_apply, Function.comp]
    have e1 : (x ⟨I, hI⟩ < -b) = (0 < -x ⟨I, hI⟩ - b) := by rw [eq_iff_iff]; constructor <;> intro h <;> linarith
    have e2 : (x ⟨I, hI⟩ > b) = (0 < x ⟨I, hI⟩ - b) := by rw [eq_iff_iff]; constructor <;> intro h <;> linarith
    simp only [e1, e2]
  · rw [single_smul]
    congr 1
    have e1 : (p ⟨I, hI⟩ < -b) = (0 < -p ⟨I, hI⟩ - b) := by rw [eq_iff_iff]; constructor <;> intro h <;> linarith
    have e2 : (p ⟨I, hI⟩ > b) = (0 < p ⟨I, hI⟩ - b) := by rw [eq_iff_iff]; constructor <;> intro h <;> linarith
    simp only [e1, e2]
    split_ifs <;> ring

/-- The spherical wall, for every position. -/
theorem C42_spherical_wall (q : EForce.Params) (hn : 1 < q.n) (hR : 0 < q.sphereRadius) (p : Point d) :
    DerivesFrom (accelerationSphericalWall q p) (potentialSphericalWall q) p := by
  rcases lt_or_ge (radius p) q.sphereRadius with h | h
  · refine derivesFrom_congr_acc (derivesFrom_congr (derivesFrom_const 0 p) ?_) ?_
    · have : ∀ᶠ x in nhds p, radius x < q.sphereRadius := continuous_radius.continuousAt.eventually_lt continuousAt_const h
      filter_upwards [this] with x hx
      simp only [potentialSphericalWall, if_neg (not_lt.mpr hx.le)]
    · simp only [accelerationSphericalWall, if_neg (not_lt.mpr h.le)]
  · have hr : 0 < radius p := lt_of_lt_of_le hR h
    have h2 : HasDerivAt (fun t => t - q.sphereRadius) 1 (radius p) := (hasDerivAt_id _).sub_const _
    have r := (HasDerivAt.comp (radius p) (h := fun t => t - q.sphereRadius) (hasDerivAt_ramp hn (radius p - q.sphereRadius)) h2).const_mul q.a
    have := derivesFrom_comp (derivesFrom_radius hr) r
    refine derivesFrom_congr_acc (derivesFrom_congr this (Filter.Eventually.of_forall fun x => ?_)) ?_
    · simp only [potentialSphericalWall, Function.comp, gt_iff_lt, sub_pos]
      split_ifs <;> ring
    · funext j
      simp only [accelerationSphericalWall, gt_iff_lt, sub_pos, Pi.smul_apply, smul_eq_mul]
      split_ifs
      · ring
      · simp

/-- Uniform gravity. -/
theorem C42_gravity (q : EForce.Params) (hd : 0 < d) (p : Point d) :
    ∃ phi, (∀ x, potentialGravity q x = some (phi x)) ∧ DerivesFrom (accelerationGravity q p) phi p := by
  by_cases h : d > 1
  · refine ⟨fun x => x ⟨1, h⟩ * q.grav, fun x => by simp [potentialGravity, h, coord], ?_⟩
    have := derivesFrom_comp (derivesFrom_coord ⟨1, h⟩ p) ((hasDerivAt_id (p ⟨1, h⟩)).mul_const q.grav)
    refine derivesFrom_congr_acc this ?_
    rw [single_smul, accelerationGravity, if_pos h]
    simp
  · refine ⟨fun x => x ⟨0, hd⟩ * q.grav, fun x => by simp [potentialGravity, h, coord, hd], ?_⟩
    have := derivesFrom_comp (derivesFrom_coord ⟨0, hd⟩ p) ((hasDerivAt_id (p ⟨0, hd⟩)).mul_const q.grav)
    refine derivesFrom_congr_acc this ?_
    rw [single_smul, accelerationGravity, if_neg h]
    simp

/-- The binary companion in the rotating frame, in three dimensions, except at the companion itself. -/
theorem C42_orbit (q : EForce.Params) (hd : 2 < d) (hm : q.mNs + q.mWd ≠ 0) (hs : q.separation ≠ 0) (p : Point d)
    (hp : ¬ (p ⟨0, by omega⟩ = q.separation ∧ p ⟨1, by omega⟩ = 0 ∧ p ⟨2, hd⟩ = 0)) :
    ∃ phi a, (∀ x, potentialOrbit q x = some (phi x)) ∧ accelerationOrbit q p = some a ∧ DerivesFrom a phi p := by
  have c0 : ∀ x : Point d, coord x 0 = some (x ⟨0, by omega⟩) := fun x => by rw [coord, dif_pos]
  have c1 : ∀ x : Point d, coord x 1 = some (x ⟨1, by omega⟩) := fun x => by rw [coord, dif_pos]
  have c2 : ∀ x : Point d, coord x 2 = some (x ⟨2, hd⟩) := fun x => by rw [coord, dif_pos]
  simp only [potentialOrbit, accelerationOrbit, c0, c1, c2, Option.bind_eq_bind, Option.bind_some, Option.pure_def, Option.some.injEq]
  refine ⟨_, _, fun x => rfl, rfl, ?_⟩
  have x0 := derivesFrom_coord (⟨0, by omega⟩ : Fin d) p
  have x1 := derivesFrom_coord (⟨1, by omega⟩ : Fin d) p
  have x2 := derivesFrom_coord (⟨2, hd⟩ : Fin d) p
  -- the squared distance from the companion
  have sq : ∀ (k : Fin d) (c : ℝ), DerivesFrom (single k (-(2 * (p k - c)))) (fun x => (x k - c) * (x k - c)) p := by
    intro k c
    have h1 : HasDerivAt (fun t : ℝ => t - c) 1 (p k) := (hasDerivAt_id _).sub_const c
    have := derivesFrom_comp (derivesFrom_coord k p) (h1.mul h1)
    refine derivesFrom_congr_acc this ?_
    rw [single_smul]; congr 1; ring
  have sq1 := sq ⟨1, by omega⟩ 0
  have sq2 := sq ⟨2, hd⟩ 0
  simp only [sub_zero] at sq1 sq2
  have hT := derivesFrom_add (derivesFrom_add (sq ⟨0, by omega⟩ q.separation) sq1) sq2
  set T := (p ⟨0, by omega⟩ - q.separation) * (p ⟨0, by omega⟩ - q.separation) + p ⟨1, by omega⟩ * p ⟨1, by omega⟩ + p ⟨2, hd⟩ * p ⟨2, hd⟩ with hTd
  have hTpos : 0 < T := by
    rcases lt_or_eq_of_le (show 0 ≤ T from add_nonneg (add_nonneg (mul_self_nonneg _) (mul_self_nonneg _)) (mul_self_nonneg _)) with h | h
    · exact h
    · exfalso
      apply hp
      have n1 := mul_self_nonneg (p ⟨0, by omega⟩ - q.separation)
      have n2 := mul_self_nonneg (p ⟨1, by omega⟩)
      have n3 := mul_self_nonneg (p ⟨2, hd⟩)
      refine ⟨?_, mul_self_eq_zero.mp (by linarith), mul_self_eq_zero.mp (by linarith)⟩
      have := mul_self_eq_zero.mp (show (p ⟨0, by omega⟩ - q.separation) * (p ⟨0, by omega⟩ - q.separation) = 0 by linarith)
      linarith
  have hsq : 0 < √T := Real.sqrt_pos.mpr hTpos
  have hg : HasDerivAt (fun t => -q.bigG * q.mNs / √t) (q.bigG * q.mNs / (2 * (T * √T))) T := by
    refine ((hasDerivAt_const T (-q.bigG * q.mNs)).div (Real.hasDerivAt_sqrt hTpos.ne') hsq.ne').congr_deriv ?_
    rw [Real.sq_sqrt hTpos.le]
    field_simp
    ring
  have t1 := derivesFrom_comp hT hg
  have hq : ∀ t, HasDerivAt (fun t => -(1 / 2) * q.bigG * (q.mNs + q.mWd) / (q.separation * q.separation * q.separation) * t)
      (-(1 / 2) * q.bigG * (q.mNs + q.mWd) / (q.separation * q.separation * q.separation)) t := by
    intro t
    exact ((hasDerivAt_id t).const_mul _).congr_deriv (mul_one _)
  have t2 := derivesFrom_comp (derivesFrom_add (sq ⟨0, by omega⟩ (q.separation * q.mNs / (q.mNs + q.mWd))) sq1) (hq _)
  refine derivesFrom_congr_acc (derivesFrom_add t1 t2) ?_
  have hcube : √(T * T * T) = T * √T := by
    rw [mul_assoc, Real.sqrt_mul (by positivity), Real.sqrt_mul (by positivity)]
    have := Real.mul_self_sqrt hTpos.le
    calc √T * (√T * √T) = (√T * √T) * √T := by ring
      _ = T * √T := by rw [this]
  rw [hcube]
  funext j
  simp only [single, Pi.add_apply, Pi.smul_apply, smul_eq_mul]
  by_cases h0 : (j : Nat) = 0
  · simp only [h0, if_true]
    norm_num
    field_simp
  · by_cases h1 : (j : Nat) = 1
    · simp only [h1, if_true]
      norm_num
      field_simp
    · by_cases h2 : (j : Nat) = 2
      · simp only [h2, if_true]
        norm_num
        field_simp
      · simp [h0, h1, h2]


/-! ### Support of a density profile -/

/-- The chain rule for the enthalpy of a density profile. -/
private theorem support_radial {f f' : ℝ} {rho : ℝ → ℝ} {K gamma c R : ℝ} {p : Point d} (hg : gamma ≠ 1) (hr : 0 < radius p)
    (hd : HasDerivAt rho f' (radius p / R)) (hf : rho (radius p / R) = f) (hpos : 0 < c * f) :
    DerivesFrom (fun j => K * gamma * (c * f) ^ (gamma - 2) * (c / R * f') * p j / radius p)
      (fun x => -K * gamma * (c * rho (radius x / R)) ^ (gamma - 1) / (gamma - 1)) p := by
  have h1 : HasDerivAt (fun t => t / R) (1 / R) (radius p) := (hasDerivAt_id _).div_const R
  have h2 : HasDerivAt (fun t => c * rho (t / R)) (c * (f' * (1 / R))) (radius p) :=
    (HasDerivAt.comp (radius p) (h := fun t => t / R) (h₂ := rho) hd h1).const_mul c
  have h3 : HasDerivAt (fun t => (c * rho (t / R)) ^ (gamma - 1)) (c * (f' * (1 / R)) * (gamma - 1) * (c * rho (radius p / R)) ^ (gamma - 1 - 1)) (radius p) :=
    h2.rpow_const (Or.inl (by rw [hf]; exact hpos.ne'))
  have h4 := (h3.const_mul (-K * gamma)).div_const (gamma - 1)
  refine derivesFrom_congr_acc (derivesFrom_comp (derivesFrom_radius hr) h4) ?_
  have hg' : gamma - 1 ≠ 0 := sub_ne_zero.mpr hg
  funext j
  rw [hf, Pi.smul_apply, smul_eq_mul, show gamma - 1 - 1 = gamma - 2 by ring]
  field_simp

/-- The profile is smooth at the scaled radius `x`, so that the force can be the gradient of the potential: away from the surface
of the parabolic profile and from the radius where the mesa profile is cut off; the radii below 1e-12, where the code sets the force
to zero, only where the density is constant. -/
def ProfileRegular (x : ℝ) : Profile → Prop
  | .constant => True
  | .parabolic => 1 / 10 ^ 12 < x ∧ x ≠ 1
  | .mesa w => 1 / 10000 ≤ w ∧ w ≤ 1 ∧ x ≠ 9999 / 10000 ∧ (1 / 10 ^ 12 < x ∨ 1 / 10 ^ 12 < 1 - w)
  | .table _ _ _ _ => False

/-- What a regular profile gives. -/
private theorem profile_facts (i : Fin 3) (pr : Profile) (x : ℝ) (hx : 0 ≤ x) (h : ProfileRegular x pr) :
    ∃ f f' : ℝ → ℝ, (∀ y, rho i pr y = some (f y)) ∧ (∀ y, drho i pr y = some (f' y)) ∧ 0 < f 0 ∧
      ((0 < f x ∧ 1 / 10 ^ 12 < x ∧ HasDerivAt f (f' x) x) ∨ (1 / 10 ^ 12 < x ∧ ∀ᶠ y in nhds x, f y ≤ 0) ∨
        (x ≤ 1 / 10 ^ 12 ∧ ∀ᶠ y in nhds x, f y = f 0)) := by
  cases pr with
  | constant =>
    refine ⟨rhoConstant i, drhoConstant i, fun _ => rfl, fun _ => rfl, (C43_constant i 0).2.2.2, ?_⟩
    rcases lt_or_ge (1 / 10 ^ 12) x with h1 | h1
    · exact Or.inl ⟨(C43_constant i x).2.2.2, h1, (C43_constant i x).2.2.1⟩
    · exact Or.inr (Or.inr ⟨h1, Filter.Eventually.of_forall fun y => rfl⟩)
  | parabolic =>
    obtain ⟨h1, h2⟩ := h
    have hpi := Real.pi_pos
    obtain ⟨c, hc, hcr⟩ : ∃ c, 0 < c ∧ ∀ y, rhoParabolic i y = c * (1 - y * y) := by
      simp only [rhoParabolic]
      split_ifs
      · exact ⟨3 / 4, by norm_num, fun _ => rfl⟩
      · exact ⟨2 / Real.pi, by positivity, fun _ => rfl⟩
      · exact ⟨15 / (8 * Real.pi), by positivity, fun _ => rfl⟩
    refine ⟨rhoParabolic i, drhoParabolic i, fun _ => rfl, fun _ => rfl, by rw [hcr]; simpa using hc, ?_⟩
    rcases lt_or_gt_of_ne h2 with h3 | h3
    · refine Or.inl ⟨?_, h1, (C43_parabolic i x).2.2.1⟩
      rw [hcr]
      have : 0 < 1 - x * x := by nlinarith
      positivity
    · refine Or.inr (Or.inl ⟨h1, ?_⟩)
      filter_upwards [Ioi_mem_nhds h3] with y hy
      have hy' : 1 < y := hy
      rw [hcr]
      exact mul_nonpos_of_nonneg_of_nonpos hc.le (by nlinarith)
  | mesa w =>
    obtain ⟨hw0, hw1, h2, h3⟩ := h
    have hw : 0 < w := lt_of_lt_of_le (by norm_num) hw0
    refine ⟨rhoMesa w (mesaRho0 i w), drhoMesa w (mesaRho0 i w), fun _ => rfl, fun _ => rfl,
      (C43_mesa_partial i w hw hw1 0 le_rfl (by norm_num)).2.2.2, ?_⟩
    rcases lt_or_gt_of_ne h2 with h4 | h4
    · have hp := C43_mesa_partial i w hw hw1 x hx h4
      rcases lt_or_ge (1 / 10 ^ 12) x with h5 | h5
      · exact Or.inl ⟨hp.2.2.2, h5, hp.2.2.1⟩
      · have h6 : 1 / 10 ^ 12 < 1 - w := h3.resolve_left (not_lt.mpr h5)
        refine Or.inr (Or.inr ⟨h5, ?_⟩)
        filter_upwards [Iio_mem_nhds (lt_of_le_of_lt h5 h6)] with y hy
        have hy' : y < 1 - w := hy
        have h0 : (0 : ℝ) < 1 - w := lt_trans (by norm_num) h6
        simp only [rhoMesa, if_pos hy', if_pos h0]
    · have h5 : (1 : ℝ) / 10 ^ 12 < x := lt_trans (by norm_num) h4
      refine Or.inr (Or.inl ⟨h5, ?_⟩)
      filter_upwards [Ioi_mem_nhds h4] with y hy
      have a1 : 9999 / 10000 < y := hy
      have a2 : ¬ y < 1 - w := by linarith
      simp only [rhoMesa, if_neg (not_lt.mpr a1.le), if_neg a2]
      exact le_rfl
  | table a b c e => exact h.elim


/-- The support force of a density profile together with its spherical wall, where the profile is smooth. -/
theorem C42_support_partial {i : Fin 3} (q : EForce.Params) (hn : 1 < q.n) (hR : 0 < q.sphereRadius) (hrho : 0 < q.rhoInitial)
    (hg : q.gamma ≠ 1) (p : Point (i + 1)) (hp : ProfileRegular (radius p / q.sphereRadius) q.profile) :
    ∃ phi a, (∀ x : Point (i + 1), potentialSupport q x = some (phi x)) ∧ accelerationSupport q p = some a ∧ DerivesFrom a phi p := by
  have hr0 : 0 ≤ radius p := Real.sqrt_nonneg _
  obtain ⟨f, f', hf, hf', hf0, hcases⟩ := profile_facts i q.profile (radius p / q.sphereRadius) (by positivity) hp
  have hw := C42_spherical_wall q hn hR p
  simp only [potentialSupport, accelerationSupport, hf, hf', Option.bind_eq_bind, Option.bind_some, Option.pure_def, Option.some.injEq]
  have hc : 0 < q.rhoInitial / f 0 := by positivity
  have hcont : Filter.Tendsto (fun x : Point (i + 1) => radius x / q.sphereRadius) (nhds p) (nhds (radius p / q.sphereRadius)) :=
    (continuous_radius.div_const _).continuousAt
  rcases hcases with ⟨h1, h2, h3⟩ | ⟨h1, h2⟩ | ⟨h1, h2⟩
  · have hpos : 0 < q.rhoInitial / f 0 * f (radius p / q.sphereRadius) := by positivity
    have hr : 0 < radius p := by
      rcases lt_or_eq_of_le hr0 with h | h
      · exact h
      · exfalso; rw [← h, zero_div] at h2; norm_num at h2
    rw [if_pos h2, if_pos hpos]
    refine ⟨_, _, fun x => rfl, rfl, ?_⟩
    refine derivesFrom_add ?_ hw
    have := support_radial (K := q.pressureInitial / q.rhoInitial ^ q.gamma) hg hr h3 rfl hpos
    refine derivesFrom_congr_acc (derivesFrom_congr this ?_) ?_
    · have hev : ∀ᶠ x in nhds p, 0 < q.rhoInitial / f 0 * f (radius x / q.sphereRadius) := by
        have hc2 : ContinuousAt (fun x : Point (i + 1) => q.rhoInitial / f 0 * f (radius x / q.sphereRadius)) p :=
          continuousAt_const.mul (ContinuousAt.comp (g := f) h3.continuousAt hcont)
        exact hc2.eventually (lt_mem_nhds hpos)
      filter_upwards [hev] with x hx
      rw [if_pos hx]
    · funext j
      rw [div_mul_eq_div_div]
  · have hx : ¬ q.rhoInitial / f 0 * f (radius p / q.sphereRadius) > 0 :=
      not_lt.mpr (mul_nonpos_of_nonneg_of_nonpos hc.le h2.self_of_nhds)
    rw [if_pos h1, if_neg hx]
    refine ⟨_, _, fun x => rfl, rfl, ?_⟩
    refine derivesFrom_add ?_ hw
    refine derivesFrom_congr_acc (derivesFrom_congr (derivesFrom_const 0 p) ?_) ?_
    · filter_upwards [hcont.eventually h2] with x hx
      rw [if_neg (not_lt.mpr (mul_nonpos_of_nonneg_of_nonpos hc.le hx))]
    · funext j; simp
  · rw [if_neg (not_lt.mpr h1)]
    refine ⟨_, _, fun x => rfl, rfl, ?_⟩
    refine derivesFrom_add ?_ hw
    refine derivesFrom_congr (derivesFrom_const (if q.rhoInitial / f 0 * f 0 > 0 then
      -(q.pressureInitial / q.rhoInitial ^ q.gamma) * q.gamma * (q.rhoInitial / f 0 * f 0) ^ (q.gamma - 1) / (q.gamma - 1) else 0) p) ?_
    filter_upwards [hcont.eventually h2] with x hx
    rw [hx]

/-- Close to the centre of the parabolic profile the code sets the force to zero although its potential has a slope. -/
theorem C42_support_violated {i : Fin 3} (q : EForce.Params) (hR : 0 < q.sphereRadius) (hrho : 0 < q.rhoInitial) (hP : 0 < q.pressureInitial)
    (hg : 1 < q.gamma) (hprofile : q.profile = .parabolic) (p : Point (i + 1)) (hp : p ≠ 0) (hsmall : radius p ≤ q.sphereRadius / 10 ^ 12) :
    accelerationSupport q p = some 0 ∧
    ∀ phi, (∀ x : Point (i + 1), potentialSupport q x = some (phi x)) → ¬ DerivesFrom 0 phi p := by
  have hr : 0 < radius p := (radius_pos_iff p).mpr hp
  have hx12 : radius p / q.sphereRadius ≤ 1 / 10 ^ 12 := by
    rw [div_le_iff₀ hR]; linarith
  have hlt : radius p < q.sphereRadius := by
    refine lt_of_le_of_lt hsmall ?_
    rw [div_lt_iff₀ (by norm_num)]
    nlinarith
  have hw0 : accelerationSphericalWall q p = 0 := by simp only [accelerationSphericalWall, if_neg (not_lt.mpr hlt.le)]
  have hpi := Real.pi_pos
  have hx1 : radius p / q.sphereRadius < 1 := lt_of_le_of_lt hx12 (by norm_num)
  have hx0 : 0 < radius p / q.sphereRadius := by positivity
  obtain ⟨c, hc, hcr, hcd⟩ : ∃ c, 0 < c ∧ (∀ y, rhoParabolic i y = c * (1 - y * y)) ∧ (∀ y, drhoParabolic i y = -(2 * c) * y) := by
    simp only [rhoParabolic, drhoParabolic]
    split_ifs
    · exact ⟨3 / 4, by norm_num, fun _ => rfl, fun _ => by ring⟩
    · exact ⟨2 / Real.pi, by positivity, fun _ => rfl, fun _ => by ring⟩
    · exact ⟨15 / (8 * Real.pi), by positivity, fun _ => rfl, fun _ => by field_simp; ring⟩
  have hf0 : 0 < rhoParabolic i 0 := by rw [hcr]; simpa using hc
  have hfx : 0 < rhoParabolic i (radius p / q.sphereRadius) := by
    rw [hcr]
    have : 0 < 1 - radius p / q.sphereRadius * (radius p / q.sphereRadius) := by nlinarith
    positivity
  refine ⟨?_, ?_⟩
  · simp only [accelerationSupport, hprofile, rho, drho, Option.bind_eq_bind, Option.bind_some, Option.pure_def, if_neg (not_lt.mpr hx12), hw0, add_zero]
  · intro phi hphi hder
    have hpos : 0 < q.rhoInitial / rhoParabolic i 0 * rhoParabolic i (radius p / q.sphereRadius) := by positivity
    have h3 := (C43_parabolic i (radius p / q.sphereRadius)).2.2.1
    have hs := support_radial (K := q.pressureInitial / q.rhoInitial ^ q.gamma) hg.ne' hr h3 rfl hpos
    have hs' : DerivesFrom _ phi p := derivesFrom_congr hs (by
      have hcont : Filter.Tendsto (fun x : Point (i + 1) => radius x / q.sphereRadius) (nhds p) (nhds (radius p / q.sphereRadius)) :=
        (continuous_radius.div_const _).continuousAt
      have hev : ∀ᶠ x in nhds p, 0 < q.rhoInitial / rhoParabolic i 0 * rhoParabolic i (radius x / q.sphereRadius) := by
        have hc2 : ContinuousAt (fun x : Point (i + 1) => q.rhoInitial / rhoParabolic i 0 * rhoParabolic i (radius x / q.sphereRadius)) p :=
          continuousAt_const.mul (ContinuousAt.comp (g := rhoParabolic i) h3.continuousAt hcont)
        exact hc2.eventually (lt_mem_nhds hpos)
      have hev2 : ∀ᶠ x in nhds p, radius x < q.sphereRadius := continuous_radius.continuousAt.eventually_lt continuousAt_const hlt
      filter_upwards [hev, hev2] with x hx hx2
      have := hphi x
      simp only [potentialSupport, hprofile, rho, Option.bind_eq_bind, Option.bind_some, Option.pure_def, Option.some.injEq, if_pos hx,
        potentialSphericalWall, if_neg (not_lt.mpr hx2.le), add_zero] at this
      exact this.symm)
    obtain ⟨L, hL, hL0⟩ := hder
    obtain ⟨M, hM, hM0⟩ := hs'
    have hLM := hL.unique hM
    have key := hM0 p
    rw [← hLM, hL0] at key
    simp only [Pi.zero_apply, zero_mul, Finset.sum_const_zero, neg_zero] at key
    have e : ∑ j, q.pressureInitial / q.rhoInitial ^ q.gamma * q.gamma * (q.rhoInitial / rhoParabolic i 0 * rhoParabolic i (radius p / q.sphereRadius)) ^ (q.gamma - 2) *
        (q.rhoInitial / rhoParabolic i 0 / q.sphereRadius * drhoParabolic i (radius p / q.sphereRadius)) * p j / radius p * p j =
        (q.pressureInitial / q.rhoInitial ^ q.gamma * q.gamma * (q.rhoInitial / rhoParabolic i 0 * rhoParabolic i (radius p / q.sphereRadius)) ^ (q.gamma - 2) *
        (q.rhoInitial / rhoParabolic i 0 / q.sphereRadius * drhoParabolic i (radius p / q.sphereRadius)) / radius p) * ∑ j, p j * p j := by
      rw [Finset.mul_sum]
      exact Finset.sum_congr rfl fun j _ => by ring
    rw [e, hcd] at key
    have hsum : 0 < ∑ j, p j * p j := Real.sqrt_pos.mp hr
    have hK : 0 < q.pressureInitial / q.rhoInitial ^ q.gamma := div_pos hP (Real.rpow_pos_of_pos hrho _)
    have hpw := Real.rpow_pos_of_pos hpos (q.gamma - 2)
    have hg0 : 0 < q.gamma := by linarith
    have : 0 < q.pressureInitial / q.rhoInitial ^ q.gamma * q.gamma * (q.rhoInitial / rhoParabolic i 0 * rhoParabolic i (radius p / q.sphereRadius)) ^ (q.gamma - 2) *
        (q.rhoInitial / rhoParabolic i 0 / q.sphereRadius * (2 * c * (radius p / q.sphereRadius))) / radius p * ∑ j, p j * p j := by
      have : 0 < q.rhoInitial / rhoParabolic i 0 := by positivity
      positivity
    have e2 : ∀ A B C D E S : ℝ, A * (B * (-(2 * C) * D)) / E * S = -(A * (B * (2 * C * D)) / E * S) := by intros; ring
    rw [e2] at key
    linarith

/-! ### Airfoil -/

/-- The point is not on the border of the region where the code applies the airfoil, or the body of the airfoil does not reach it. -/
def AirfoilRegular (q : EForce.Params) (x y : ℝ) : Prop :=
  (|y| ≠ 5 * q.airfoilThickness ∧ x ≠ -q.airfoilSize * (2 / 100) ∧ x ≠ q.airfoilSize * (102 / 100) ∧ x * x ≠ q.airfoilSize * q.airfoilSize) ∨
  airfoilAux q x y < 0

/-- The polynomial under the potential, without square root. -/
private noncomputable def airfoilPoly (q : EForce.Params) (x y : ℝ) : ℝ :=
  q.airfoilThickness * q.airfoilThickness * (x * x) * (q.airfoilSize * q.airfoilSize - x * x) -
    (y - q.airfoilCamber * Real.sin (Real.pi * x / 2)) * (y - q.airfoilCamber * Real.sin (Real.pi * x / 2)) + 2 / 1000

private theorem aux_eq (q : EForce.Params) {x : ℝ} (y : ℝ) (h : hasSurface q x) : airfoilAux q x y = airfoilPoly q x y := by
  have h1 : 0 ≤ q.airfoilSize * q.airfoilSize - x * x := sub_nonneg.mpr h
  have h2 := Real.mul_self_sqrt h1
  simp only [airfoilAux, airfoilPoly]
  have : q.airfoilThickness * x * √(q.airfoilSize * q.airfoilSize - x * x) * (q.airfoilThickness * x * √(q.airfoilSize * q.airfoilSize - x * x)) =
      q.airfoilThickness * q.airfoilThickness * (x * x) * (√(q.airfoilSize * q.airfoilSize - x * x) * √(q.airfoilSize * q.airfoilSize - x * x)) := by ring
  rw [this, h2]

private theorem airfoil_frame (q : EForce.Params) (hd : 1 < d) (p : Point d) :
    DerivesFrom (single 0 (-Real.cos (attackAngle q)) + single 1 (-Real.sin (attackAngle q)))
      (fun x : Point d => airfoilX q (x ⟨0, by omega⟩) (x ⟨1, hd⟩)) p ∧
    DerivesFrom (single 0 (Real.sin (attackAngle q)) + single 1 (-Real.cos (attackAngle q)))
      (fun x : Point d => airfoilY q (x ⟨0, by omega⟩) (x ⟨1, hd⟩)) p := by
  have x0 := derivesFrom_coord (⟨0, by omega⟩ : Fin d) p
  have x1 := derivesFrom_coord (⟨1, hd⟩ : Fin d) p
  have lin : ∀ (k m t : ℝ), HasDerivAt (fun t => (t - k) * m) m t := fun k m t =>
    (((hasDerivAt_id t).sub_const k).mul_const m).congr_deriv (one_mul m)
  have lin2 : ∀ (k m t : ℝ), HasDerivAt (fun t => -(t - k) * m) (-m) t := fun k m t =>
    ((((hasDerivAt_id t).sub_const k).neg).mul_const m).congr_deriv (by ring)
  constructor
  · refine derivesFrom_congr_acc (derivesFrom_add (derivesFrom_comp x0 (lin q.airfoilAnchorX (Real.cos (attackAngle q)) _))
      (derivesFrom_comp x1 (lin q.airfoilAnchorY (Real.sin (attackAngle q)) _))) ?_
    rw [single_smul, single_smul]
    simp
  · refine derivesFrom_congr_acc (derivesFrom_add (derivesFrom_comp x0 (lin2 q.airfoilAnchorX (Real.sin (attackAngle q)) _))
      (derivesFrom_comp x1 (lin q.airfoilAnchorY (Real.cos (attackAngle q)) _))) ?_
    rw [single_smul, single_smul]
    simp

open Classical in
/-- The airfoil, away from the border of its region. -/
theorem C42_airfoil_partial (q : EForce.Params) (hn : 1 < q.n) (hd : 1 < d) (p : Point d)
    (hp : AirfoilRegular q (airfoilX q (p ⟨0, by omega⟩) (p ⟨1, hd⟩)) (airfoilY q (p ⟨0, by omega⟩) (p ⟨1, hd⟩))) :
    ∃ phi a, (∀ x, potentialAirfoil q x = some (phi x)) ∧ accelerationAirfoil q p = some a ∧ DerivesFrom a phi p := by
  have c0 : ∀ x : Point d, coord x 0 = some (x ⟨0, by omega⟩) := fun x => by rw [coord, dif_pos]
  have c1 : ∀ x : Point d, coord x 1 = some (x ⟨1, hd⟩) := fun x => by rw [coord, dif_pos]
  obtain ⟨hX, hY⟩ := airfoil_frame q hd p
  have cX : Continuous fun x : Point d => airfoilX q (x ⟨0, by omega⟩) (x ⟨1, hd⟩) := by
    unfold airfoilX; fun_prop
  have cY : Continuous fun x : Point d => airfoilY q (x ⟨0, by omega⟩) (x ⟨1, hd⟩) := by
    unfold airfoilY; fun_prop
  have cP : Continuous fun x : Point d => airfoilPoly q (airfoilX q (x ⟨0, by omega⟩) (x ⟨1, hd⟩)) (airfoilY q (x ⟨0, by omega⟩) (x ⟨1, hd⟩)) := by
    unfold airfoilPoly; fun_prop
  simp only [potentialAirfoil, accelerationAirfoil, c0, c1, Option.bind_eq_bind, Option.bind_some, Option.pure_def, Option.some.injEq]
  by_cases hz : ∀ᶠ x : Point d in nhds p, ¬ (insideBox q (airfoilX q (x ⟨0, by omega⟩) (x ⟨1, hd⟩)) (airfoilY q (x ⟨0, by omega⟩) (x ⟨1, hd⟩)) ∧
      hasSurface q (airfoilX q (x ⟨0, by omega⟩) (x ⟨1, hd⟩)) ∧
      airfoilAux q (airfoilX q (x ⟨0, by omega⟩) (x ⟨1, hd⟩)) (airfoilY q (x ⟨0, by omega⟩) (x ⟨1, hd⟩)) > 0)
  · -- the potential is zero around the point
    rw [if_neg hz.self_of_nhds]
    refine ⟨_, _, fun x => rfl, rfl, ?_⟩
    refine derivesFrom_congr (derivesFrom_const 0 p) ?_
    filter_upwards [hz] with x hx
    rw [if_neg hx]
  · -- otherwise the point is inside of the region
    have hin : -- strictly inside
        (|airfoilY q (p ⟨0, by omega⟩) (p ⟨1, hd⟩)| < 5 * q.airfoilThickness ∧ airfoilX q (p ⟨0, by omega⟩) (p ⟨1, hd⟩) > -q.airfoilSize * (2 / 100) ∧
        airfoilX q (p ⟨0, by omega⟩) (p ⟨1, hd⟩) < q.airfoilSize * (102 / 100)) ∧
        airfoilX q (p ⟨0, by omega⟩) (p ⟨1, hd⟩) * airfoilX q (p ⟨0, by omega⟩) (p ⟨1, hd⟩) < q.airfoilSize * q.airfoilSize := by
      by_contra hcon
      apply hz
      by_cases hs : airfoilX q (p ⟨0, by omega⟩) (p ⟨1, hd⟩) * airfoilX q (p ⟨0, by omega⟩) (p ⟨1, hd⟩) > q.airfoilSize * q.airfoilSize
      · have : ∀ᶠ x : Point d in nhds p, q.airfoilSize * q.airfoilSize < airfoilX q (x ⟨0, by omega⟩) (x ⟨1, hd⟩) * airfoilX q (x ⟨0, by omega⟩) (x ⟨1, hd⟩) :=
          (cX.mul cX).continuousAt.eventually (lt_mem_nhds hs)
        filter_upwards [this] with x hx h
        exact absurd h.2.1 (not_le.mpr hx)
      · rcases hp with ⟨h1, h2, h3, h4⟩ | h
        · have hs' := lt_of_le_of_ne (not_lt.mp hs) h4
          by_cases hy : 5 * q.airfoilThickness < |airfoilY q (p ⟨0, by omega⟩) (p ⟨1, hd⟩)|
          · have := (continuous_abs.comp cY).continuousAt.eventually (lt_mem_nhds hy)
            filter_upwards [this] with x hx h
            exact absurd h.1.1 (not_lt.mpr hx.le)
          · by_cases hl : airfoilX q (p ⟨0, by omega⟩) (p ⟨1, hd⟩) < -q.airfoilSize * (2 / 100)
            · have := cX.continuousAt.eventually (gt_mem_nhds hl)
              filter_upwards [this] with x hx h
              exact absurd h.1.2.1 (not_lt.mpr hx.le)
            · by_cases hu : q.airfoilSize * (102 / 100) < airfoilX q (p ⟨0, by omega⟩) (p ⟨1, hd⟩)
              · have := cX.continuousAt.eventually (lt_mem_nhds hu)
                filter_upwards [this] with x hx h
                exact absurd h.1.2.2 (not_lt.mpr hx.le)
              · exact absurd ⟨⟨lt_of_le_of_ne (not_lt.mp hy) h1, lt_of_le_of_ne (not_lt.mp hl) (Ne.symm h2), lt_of_le_of_ne (not_lt.mp hu) h3⟩, hs'⟩ hcon
        · rw [aux_eq q _ (not_lt.mp hs)] at h
          have := cP.continuousAt.eventually (gt_mem_nhds h)
          filter_upwards [this] with x hx h
          rw [aux_eq q _ h.2.1] at h
          exact absurd h.2.2 (not_lt.mpr hx.le)
    obtain ⟨hbox, hs⟩ := hin
    have hs' : hasSurface q (airfoilX q (p ⟨0, by omega⟩) (p ⟨1, hd⟩)) := hs.le
    rw [aux_eq q _ hs']
    -- the ramp over the polynomial
    have ev : ∀ᶠ x : Point d in nhds p, insideBox q (airfoilX q (x ⟨0, by omega⟩) (x ⟨1, hd⟩)) (airfoilY q (x ⟨0, by omega⟩) (x ⟨1, hd⟩)) ∧
        hasSurface q (airfoilX q (x ⟨0, by omega⟩) (x ⟨1, hd⟩)) := by
      filter_upwards [(continuous_abs.comp cY).continuousAt.eventually (gt_mem_nhds hbox.1), cX.continuousAt.eventually (lt_mem_nhds hbox.2.1),
        cX.continuousAt.eventually (gt_mem_nhds hbox.2.2), (cX.mul cX).continuousAt.eventually (gt_mem_nhds hs)] with x h1 h2 h3 h4
      exact ⟨⟨h1, h2, h3⟩, h4.le⟩
    set X := airfoilX q (p ⟨0, by omega⟩) (p ⟨1, hd⟩) with hXd
    set Y := airfoilY q (p ⟨0, by omega⟩) (p ⟨1, hd⟩) with hYd
    -- the gradient of the polynomial
    have hsin : HasDerivAt (fun t => q.airfoilCamber * Real.sin (Real.pi * t / 2)) (q.airfoilCamber * (Real.cos (Real.pi * X / 2) * (Real.pi / 2))) X := by
      have h1 : HasDerivAt (fun t => Real.pi * t / 2) (Real.pi / 2) X :=
        (((hasDerivAt_id X).const_mul Real.pi).div_const 2).congr_deriv (by ring)
      exact (h1.sin).const_mul _
    have hup : HasDerivAt (fun t => q.airfoilThickness * q.airfoilThickness * (t * t) * (q.airfoilSize * q.airfoilSize - t * t))
        (q.airfoilThickness * q.airfoilThickness * 2 * X * (q.airfoilSize * q.airfoilSize - 2 * X * X)) X := by
      have h1 : HasDerivAt (fun t : ℝ => t * t) (1 * X + X * 1) X := (hasDerivAt_id X).mul (hasDerivAt_id X)
      exact ((h1.const_mul (q.airfoilThickness * q.airfoilThickness)).mul (h1.const_sub (q.airfoilSize * q.airfoilSize))).congr_deriv (by ring)
    have hneg : ∀ t : ℝ, HasDerivAt (fun t : ℝ => -t) (-1) t := fun t => (hasDerivAt_id t).neg
    have gsin := derivesFrom_comp (derivesFrom_comp hX hsin) (hneg _)
    have gdiff := derivesFrom_add hY gsin
    have gsq := derivesFrom_comp (derivesFrom_mul gdiff gdiff) (hneg _)
    have gpoly := derivesFrom_add (derivesFrom_add (derivesFrom_comp hX hup) gsq) (derivesFrom_const (2 / 1000) p)
    have gall := derivesFrom_comp gpoly ((hasDerivAt_ramp hn _).const_mul q.a)
    have hval : (q.airfoilThickness * q.airfoilThickness * (X * X) * (q.airfoilSize * q.airfoilSize - X * X) +
        -((Y + -(q.airfoilCamber * Real.sin (Real.pi * X / 2))) * (Y + -(q.airfoilCamber * Real.sin (Real.pi * X / 2)))) + 2 / 1000) = airfoilPoly q X Y := by
      simp only [airfoilPoly]; ring
    simp only [← hXd, ← hYd] at gall
    rw [hval] at gall
    have gpot := derivesFrom_congr (g := fun x : Point d => if insideBox q (airfoilX q (x ⟨0, by omega⟩) (x ⟨1, hd⟩)) (airfoilY q (x ⟨0, by omega⟩) (x ⟨1, hd⟩)) ∧
        hasSurface q (airfoilX q (x ⟨0, by omega⟩) (x ⟨1, hd⟩)) ∧
        airfoilAux q (airfoilX q (x ⟨0, by omega⟩) (x ⟨1, hd⟩)) (airfoilY q (x ⟨0, by omega⟩) (x ⟨1, hd⟩)) > 0 then
        q.a * airfoilAux q (airfoilX q (x ⟨0, by omega⟩) (x ⟨1, hd⟩)) (airfoilY q (x ⟨0, by omega⟩) (x ⟨1, hd⟩)) ^ q.n else 0) gall (by
      filter_upwards [ev] with x hx
      have e : ∀ u v : ℝ, (q.airfoilThickness * q.airfoilThickness * (u * u) * (q.airfoilSize * q.airfoilSize - u * u) +
        -((v + -(q.airfoilCamber * Real.sin (Real.pi * u / 2))) * (v + -(q.airfoilCamber * Real.sin (Real.pi * u / 2)))) + 2 / 1000) = airfoilPoly q u v := by
        intro u v; simp only [airfoilPoly]; ring
      rw [e, aux_eq q _ hx.2]
      by_cases h0 : 0 < airfoilPoly q (airfoilX q (x ⟨0, by omega⟩) (x ⟨1, hd⟩)) (airfoilY q (x ⟨0, by omega⟩) (x ⟨1, hd⟩))
      · rw [if_pos ⟨hx.1, hx.2, h0⟩, if_pos h0]
      · rw [if_neg (fun h => h0 h.2.2), if_neg h0, mul_zero])
    by_cases h0 : 0 < airfoilPoly q X Y
    · rw [if_pos ⟨hbox, hs', h0⟩]
      refine ⟨_, _, fun x => rfl, rfl, derivesFrom_congr_acc gpot ?_⟩
      rw [if_pos h0]
      funext j
      simp only [single, Pi.add_apply, Pi.smul_apply, smul_eq_mul, Pi.zero_apply, show Real.pi / 2 * X = Real.pi * X / 2 by ring]
      generalize Real.cos (Real.pi * X / 2) = C
      generalize Real.sin (Real.pi * X / 2) = S
      by_cases j0 : (j : Nat) = 0
      · simp only [j0, if_true]
        norm_num
        ring
      · by_cases j1 : (j : Nat) = 1
        · simp only [j1, if_true]
          norm_num
          ring
        · simp [j0, j1]
    · rw [if_neg (fun h => h0 h.2.2)]
      refine ⟨_, _, fun x => rfl, rfl, derivesFrom_congr_acc gpot ?_⟩
      rw [if_neg h0]
      simp


/-- At the trailing edge of a symmetric airfoil the potential jumps: it is positive on the edge and zero behind it, so that no force is
its gradient there. -/
theorem C42_airfoil_violated (q : EForce.Params) (hd : 1 < d) (ha : 0 < q.a) (hs : 0 < q.airfoilSize) (ht : 0 < q.airfoilThickness)
    (hc : q.airfoilCamber = 0) (hx : q.airfoilAnchorX = 0) (hy : q.airfoilAnchorY = 0) (hal : q.airfoilAttackAngle = 0) :
    ∀ (phi : Point d → ℝ) (a : Point d), (∀ x, potentialAirfoil q x = some (phi x)) → ¬ DerivesFrom a phi (single 0 q.airfoilSize) := by
  intro phi a hphi hder
  have c0 : ∀ x : Point d, coord x 0 = some (x ⟨0, by omega⟩) := fun x => by rw [coord, dif_pos]
  have c1 : ∀ x : Point d, coord x 1 = some (x ⟨1, hd⟩) := fun x => by rw [coord, dif_pos]
  have hX : ∀ u v, airfoilX q u v = u := by intro u v; simp [airfoilX, attackAngle, hx, hy, hal]
  have hY : ∀ u v, airfoilY q u v = v := by intro u v; simp [airfoilY, attackAngle, hx, hy, hal]
  have h0 : ∀ t, (single 0 t : Point d) ⟨0, by omega⟩ = t := fun t => by simp [single]
  have h1 : ∀ t, (single 0 t : Point d) ⟨1, hd⟩ = 0 := fun t => by simp [single]
  obtain ⟨L, hL, -⟩ := hder
  have hcont : ContinuousAt phi (single 0 q.airfoilSize) := hL.continuousAt
  have hat : phi (single 0 q.airfoilSize) = q.a * (2 / 1000 : ℝ) ^ q.n := by
    have := hphi (single 0 q.airfoilSize)
    simp only [potentialAirfoil, c0, c1, h0, h1, hX, hY, Option.bind_eq_bind, Option.bind_some, Option.pure_def, Option.some.injEq] at this
    rw [← this, if_pos]
    · simp [airfoilAux, hc]
    · rw [hX, hY]
      refine ⟨⟨by simpa using ht, by linarith, by linarith⟩, le_rfl, by simp [airfoilAux, hc]⟩
  have hbehind : ∀ t, q.airfoilSize < t → phi (single 0 t) = 0 := by
    intro t ht
    have := hphi (single 0 t)
    simp only [potentialAirfoil, c0, c1, h0, h1, hX, hY, Option.bind_eq_bind, Option.bind_some, Option.pure_def, Option.some.injEq] at this
    rw [← this, if_neg]
    intro h
    rw [hX] at h
    have h2 : t * t ≤ q.airfoilSize * q.airfoilSize := h.2.1
    nlinarith
  have hline : Continuous fun t : ℝ => (single 0 t : Point d) := by
    refine continuous_pi fun j => ?_
    simp only [single]
    split_ifs <;> fun_prop
  have hlim : Filter.Tendsto (fun t : ℝ => phi (single 0 t)) (nhdsWithin q.airfoilSize (Set.Ioi q.airfoilSize)) (nhds (phi (single 0 q.airfoilSize))) :=
    ((ContinuousAt.comp (f := fun t : ℝ => (single 0 t : Point d)) hcont hline.continuousAt).tendsto).mono_left nhdsWithin_le_nhds
  have hzero : Filter.Tendsto (fun t : ℝ => phi (single 0 t)) (nhdsWithin q.airfoilSize (Set.Ioi q.airfoilSize)) (nhds 0) := by
    refine tendsto_const_nhds.congr' ?_
    filter_upwards [self_mem_nhdsWithin] with t ht
    exact (hbehind t ht).symm
  have := tendsto_nhds_unique hlim hzero
  rw [hat] at this
  have hp : 0 < q.a * (2 / 1000 : ℝ) ^ q.n := mul_pos ha (Real.rpow_pos_of_pos (by norm_num) _)
  linarith

/-! ### Any selection of forces -/

/-- The force is smooth at the point: what its own theorem above asks for. -/
def Regular {i : Fin 3} (q : EForce.Params) (p : Point (i + 1)) : Force → Prop
  | .walls I => 1 < q.n ∧ (I : Nat) ≤ i
  | .sphericalWall => 1 < q.n ∧ 0 < q.sphereRadius
  | .gravity => True
  | .orbit => q.mNs + q.mWd ≠ 0 ∧ q.separation ≠ 0 ∧ ∃ h : 2 < (i : Nat) + 1,
      ¬ (p ⟨0, by omega⟩ = q.separation ∧ p ⟨1, by omega⟩ = 0 ∧ p ⟨2, h⟩ = 0)
  | .airfoil => 1 < q.n ∧ ∃ h : 1 < (i : Nat) + 1,
      AirfoilRegular q (airfoilX q (p ⟨0, by omega⟩) (p ⟨1, h⟩)) (airfoilY q (p ⟨0, by omega⟩) (p ⟨1, h⟩))
  | .support => 1 < q.n ∧ 0 < q.sphereRadius ∧ 0 < q.rhoInitial ∧ q.gamma ≠ 1 ∧ ProfileRegular (radius p / q.sphereRadius) q.profile
  | .poison => True

private theorem one_force {i : Fin 3} (q : EForce.Params) (p : Point (i + 1)) (f : Force) (hf : f ≠ .poison) (hr : Regular q p f) :
    ∃ phi a, (∀ x : Point (i + 1), potentialOf q f x = some (phi x)) ∧ accelerationOf q f p = some a ∧ DerivesFrom a phi p := by
  cases f with
  | walls I => exact C42_walls q hr.1 I (Nat.lt_succ_of_le hr.2) p
  | sphericalWall => exact ⟨_, _, fun _ => rfl, rfl, C42_spherical_wall q hr.1 hr.2 p⟩
  | gravity =>
    obtain ⟨phi, h1, h2⟩ := C42_gravity q (Nat.succ_pos i) p
    exact ⟨phi, _, h1, rfl, h2⟩
  | orbit => obtain ⟨h1, h2, h3, h4⟩ := hr; exact C42_orbit q h3 h1 h2 p h4
  | airfoil => obtain ⟨h1, h2, h3⟩ := hr; exact C42_airfoil_partial q h1 h2 p h3
  | support => obtain ⟨h1, h2, h3, h4, h5⟩ := hr; exact C42_support_partial q h1 h2 h3 h4 p h5
  | poison => exact absurd rfl hf

/-- The accelerations selected are those of the potentials selected, except for `poison` which shifts the potential only. -/
private theorem select_lists (efstr : List Char) (ps as : List Force) (h : select efstr = some (ps, as)) : as = ps.filter (· ≠ .poison) := by
  have tok : ∀ t x, parseToken t = some x → x.2 = x.1.filter (· ≠ .poison) := by
    intro t x hx
    simp only [parseToken] at hx
    split_ifs at hx
    any_goals (obtain rfl := Option.some.inj hx; rfl)
    · obtain ⟨l, hl, rfl⟩ := Option.map_eq_some_iff.mp hx
      simp only
      have : ∀ f ∈ l, f ≠ Force.poison := by
        clear hx
        generalize List.take 3 (List.drop 6 t) = cs at hl
        induction cs generalizing l with
        | nil => simp at hl; subst hl; simp
        | cons c cs ih =>
          simp only [List.mapM_cons, Option.bind_eq_bind, Option.pure_def] at hl
          obtain ⟨w, hw, hl⟩ := Option.bind_eq_some_iff.mp hl
          obtain ⟨l', hl', he⟩ := Option.bind_eq_some_iff.mp hl
          obtain rfl := Option.some.inj he
          intro f hf
          rcases List.mem_cons.mp hf with rfl | hf
          · simp only [wallOf] at hw
            split_ifs at hw <;> (obtain rfl := Option.some.inj hw; exact Force.noConfusion)
          · exact ih l' hl' f hf
      rw [List.filter_eq_self.mpr]
      intro f hf
      simpa using this f hf
  simp only [select] at h
  split_ifs at h
  · obtain ⟨rfl, rfl⟩ := Prod.mk.inj (Option.some.inj h); rfl
  · generalize splitComma efstr = ts at h
    have gen : ∀ (ts : List (List Char)) (v : List Force × List Force), v.2 = v.1.filter (· ≠ .poison) →
        ts.foldlM (fun v t => (parseToken t).map fun x => (v.1 ++ x.1, v.2 ++ x.2)) v = some (ps, as) → as = ps.filter (· ≠ .poison) := by
      intro ts
      induction ts with
      | nil =>
        intro v hv hx
        simp only [List.foldlM_nil, Option.pure_def, Option.some.injEq] at hx
        subst hx; exact hv
      | cons t ts ih =>
        intro v hv hx
        simp only [List.foldlM_cons, Option.bind_eq_bind] at hx
        obtain ⟨v', hv', hx⟩ := Option.bind_eq_some_iff.mp hx
        obtain ⟨x, hx1, rfl⟩ := Option.map_eq_some_iff.mp hv'
        refine ih _ ?_ hx
        simp only [List.filter_append, hv, tok t x hx1]
    exact gen ts ([], []) rfl h

/-- Whatever list of forces is selected: where all of them are smooth, the total acceleration is minus the gradient of the total
potential. -/
theorem C42_total_partial {i : Fin 3} (q : EForce.Params) (efstr : List Char) (ps as : List Force) (hsel : select efstr = some (ps, as))
    (p : Point (i + 1)) (hreg : ∀ f ∈ ps, Regular q p f) :
    ∃ phi a, (∀ x : Point (i + 1), potential q ps x = some (phi x)) ∧ acceleration q as p = some a ∧ DerivesFrom a phi p := by
  rw [select_lists efstr ps as hsel]
  clear hsel
  have gen : ∀ (ps : List Force), (∀ f ∈ ps, Regular q p f) → ∀ (phi0 : Point (i + 1) → ℝ) (a0 : Point (i + 1)), DerivesFrom a0 phi0 p →
      ∃ phi a, (∀ x : Point (i + 1), ps.foldlM (fun phi f => (potentialOf q f x).map (phi + ·)) (phi0 x) = some (phi x)) ∧
        (ps.filter (· ≠ .poison)).foldlM (fun a f => (accelerationOf q f p).map (a + ·)) a0 = some a ∧ DerivesFrom a phi p := by
    intro ps
    induction ps with
    | nil => intro _ phi0 a0 h; exact ⟨phi0, a0, fun _ => rfl, rfl, h⟩
    | cons f ps ih =>
      intro hr phi0 a0 h
      by_cases hf : f = .poison
      · subst hf
        obtain ⟨phi, a, h1, h2, h3⟩ := ih (fun g hg => hr g (List.mem_cons_of_mem _ hg)) (fun x => phi0 x + q.poison) a0
          (derivesFrom_congr_acc (derivesFrom_add h (derivesFrom_const q.poison p)) (add_zero a0).symm)
        refine ⟨phi, a, fun x => ?_, ?_, h3⟩
        · simp only [List.foldlM_cons, potentialOf, Option.map_some, Option.bind_eq_bind, Option.bind_some]
          exact h1 x
        · simpa using h2
      · obtain ⟨phi1, a1, g1, g2, g3⟩ := one_force q p f hf (hr f List.mem_cons_self)
        obtain ⟨phi, a, h1, h2, h3⟩ := ih (fun g hg => hr g (List.mem_cons_of_mem _ hg)) (fun x => phi0 x + phi1 x) (a0 + a1) (derivesFrom_add h g3)
        refine ⟨phi, a, fun x => ?_, ?_, h3⟩
        · simp only [List.foldlM_cons, g1, Option.map_some, Option.bind_eq_bind, Option.bind_some]
          exact h1 x
        · rw [List.filter_cons_of_pos (by simpa using hf)]
          simp only [List.foldlM_cons, g2, Option.map_some, Option.bind_eq_bind, Option.bind_some]
          exact h2
  exact gen ps hreg (fun _ => 0) 0 (derivesFrom_const 0 p)

/-- Parameters for the examples: walls of a unit box and gravity. -/
private noncomputable def exampleParams : EForce.Params where
  box := fun _ => 1
  n := 5
  a := 1000
  sphereRadius := 1
  rhoInitial := 1
  pressureInitial := 1
  gamma := 5 / 3
  profile := .parabolic
  grav := 10
  airfoilSize := 2
  airfoilThickness := 5 / 100
  airfoilCamber := 0
  airfoilAnchorX := 0
  airfoilAnchorY := 0
  airfoilAttackAngle := 0
  bigG := 1
  separation := 3
  mNs := 1
  mWd := 1
  poison := 0

/-- Non-vacuity: three kinds of forces selected by a string in two dimensions, at a point inside of the walls. -/
example : select "walls:XY,Gravity,poison".toList = some ([.walls 0, .walls 1, .gravity, .poison], [.walls 0, .walls 1, .gravity]) := by decide +kernel

example : ∀ f ∈ [Force.walls 0, .walls 1, .gravity, .poison, .sphericalWall],
    Regular (i := 1) exampleParams (fun _ => 7 / 10) f := by
  intro f hf
  simp only [List.mem_cons, List.not_mem_nil, or_false] at hf
  rcases hf with rfl | rfl | rfl | rfl | rfl <;> simp [Regular, exampleParams]

/-- The support force of the parabolic profile in one dimension, half way to the surface. -/
example : Regular (i := 0) exampleParams (fun _ => 1 / 2) .support := by
  have : radius (fun _ => 1 / 2 : Point ((0 : Fin 3) + 1)) = 1 / 2 := by
    simp [radius]
  refine ⟨by norm_num [exampleParams], by norm_num [exampleParams], by norm_num [exampleParams], by norm_num [exampleParams], ?_⟩
  rw [this]
  simp only [exampleParams, ProfileRegular]
  norm_num

/-- The orbit in three dimensions. -/
example : Regular (i := 2) exampleParams (fun _ => 1) .orbit := by
  refine ⟨by norm_num [exampleParams], by norm_num [exampleParams], by decide, ?_⟩
  norm_num [exampleParams]

end FleCSPH

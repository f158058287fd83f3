import Verif.Model.DensityProfiles
import Verif.Spec.Profiles
import Verif.Lemmas.Glue
import Mathlib.MeasureTheory.Integral.IntervalIntegral.FundThmCalculus
/-! C43: density profiles: the mass is the integral of the density, the slope its derivative, the total mass one. -/
namespace FleCSPH
open DensityProfiles Spec Real

/-- The three values of `gdimension - 1`. -/
private theorem dim3 (i : Fin 3) : i = 0 ∨ i = 1 ∨ i = 2 := by revert i; decide

private theorem poly2 (c r : ℝ) : HasDerivAt (fun r : ℝ => c * (1 - r * r)) (-(2 * c) * r) r := by
  refine ((((hasDerivAt_id r).mul (hasDerivAt_id r)).const_sub 1).const_mul c).congr_deriv ?_
  simp only [id]; ring

private theorem mass_of_deriv (i : Fin 3) (rho m : ℝ → ℝ) (r : ℝ) (h0 : m 0 = 0)
    (hd : ∀ s ∈ Set.uIcc 0 r, HasDerivAt m (shell i s * rho s) s) (hc : ContinuousOn rho (Set.uIcc 0 r)) : MassWithin i rho r (m r) := by
  have hs : Continuous (shell i) := by
    rcases dim3 i with rfl | rfl | rfl
    · exact continuous_const
    · exact continuous_const.mul continuous_id
    · exact continuous_const.mul (continuous_id.pow 2)
  rw [MassWithin, intervalIntegral.integral_eq_sub_of_hasDerivAt hd ((hs.continuousOn.mul hc).intervalIntegrable), h0, sub_zero]

/-- The constant profile. -/
theorem C43_constant (i : Fin 3) (r : ℝ) :
    MassWithin i (rhoConstant i) r (massConstant i r) ∧ massConstant i 1 = 1 ∧ HasDerivAt (rhoConstant i) (drhoConstant i r) r ∧
    0 < rhoConstant i r := by
  have hpi := pi_pos
  refine ⟨mass_of_deriv i _ _ r ?_ (fun s _ => ?_) ?_, ?_, ?_, ?_⟩
  · rcases dim3 i with rfl | rfl | rfl <;> simp [massConstant]
  · rcases dim3 i with rfl | rfl | rfl
    · refine (hasDerivAt_id s).congr_deriv ?_
      simp [shell, rhoConstant]
    · refine ((hasDerivAt_id s).mul (hasDerivAt_id s)).congr_deriv ?_
      simp [shell, rhoConstant]; field_simp; ring
    · refine (((hasDerivAt_id s).mul (hasDerivAt_id s)).mul (hasDerivAt_id s)).congr_deriv ?_
      simp [shell, rhoConstant]; field_simp; ring
  · rcases dim3 i with rfl | rfl | rfl <;> exact continuousOn_const
  · rcases dim3 i with rfl | rfl | rfl <;> simp [massConstant]
  · exact hasDerivAt_const _ _
  · rcases dim3 i with rfl | rfl | rfl <;> simp [rhoConstant] <;> positivity

/-- The parabolic profile. -/
theorem C43_parabolic (i : Fin 3) (r : ℝ) :
    MassWithin i (rhoParabolic i) r (massParabolic i r) ∧ massParabolic i 1 = 1 ∧ HasDerivAt (rhoParabolic i) (drhoParabolic i r) r ∧
    (|r| ≤ 1 → 0 ≤ rhoParabolic i r) := by
  have hpi := pi_pos
  have hd : ∀ r, HasDerivAt (rhoParabolic i) (drhoParabolic i r) r := by
    intro r
    rcases dim3 i with rfl | rfl | rfl
    · refine (poly2 (3 / 4) r).congr_deriv ?_
      rw [drhoParabolic, if_pos rfl]; ring
    · refine (poly2 (2 / π) r).congr_deriv ?_
      simp [drhoParabolic]; ring
    · refine (poly2 (15 / (8 * π)) r).congr_deriv ?_
      simp [drhoParabolic]; field_simp; ring
  refine ⟨mass_of_deriv i _ _ r ?_ (fun s _ => ?_) (fun s _ => (hd s).continuousAt.continuousWithinAt), ?_, hd r, ?_⟩
  · rcases dim3 i with rfl | rfl | rfl <;> simp [massParabolic]
  · have h1 : HasDerivAt (fun r : ℝ => r) 1 s := hasDerivAt_id s
    have h2 : HasDerivAt (fun r : ℝ => r * r) (1 * s + s * 1) s := h1.mul h1
    have h3 : HasDerivAt (fun r : ℝ => r * r * r) ((1 * s + s * 1) * s + s * s * 1) s := h2.mul h1
    rcases dim3 i with rfl | rfl | rfl
    · refine ((h1.const_mul (1 / 2)).mul (h2.const_sub 3)).congr_deriv ?_
      simp [shell, rhoParabolic]; ring
    · refine (h2.mul (h2.const_sub 2)).congr_deriv ?_
      simp [shell, rhoParabolic]; field_simp; ring
    · refine ((h3.const_mul (1 / 2)).mul ((h2.const_mul 3).const_sub 5)).congr_deriv ?_
      simp [shell, rhoParabolic]; field_simp; ring
  · rcases dim3 i with rfl | rfl | rfl <;> norm_num [massParabolic]
  · intro h
    have h1 : 0 ≤ 1 - r * r := by nlinarith [abs_le.mp h]
    rw [rhoParabolic]
    split_ifs <;> exact mul_nonneg (by positivity) h1

/-- The mass of the mesa profile, without the cut at the surface. -/
private noncomputable def mesaIn (i : Fin 3) (r : ℝ) : ℝ := ![2 * r, π * (r * r), 4 * π / 3 * (r * r * r)] i
private noncomputable def mesaOut (i : Fin 3) (q r : ℝ) : ℝ :=
  ![2 * (r - (r - (1 - q)) * (r - (1 - q)) * (r - (1 - q)) / (3 * (q * q))), π * mesaMassHelper 1 q r, 4 * π * mesaMassHelper 2 q r] i

private theorem mesaIn_deriv (i : Fin 3) (r : ℝ) : HasDerivAt (mesaIn i) (shell i r) r := by
  have h1 : HasDerivAt (fun r : ℝ => r) 1 r := hasDerivAt_id r
  have h2 : HasDerivAt (fun r : ℝ => r * r) (1 * r + r * 1) r := h1.mul h1
  have h3 : HasDerivAt (fun r : ℝ => r * r * r) ((1 * r + r * 1) * r + r * r * 1) r := h2.mul h1
  rcases dim3 i with rfl | rfl | rfl
  · exact (h1.const_mul 2).congr_deriv (by simp [shell])
  · exact (h2.const_mul π).congr_deriv (by simp [shell]; ring)
  · exact (h3.const_mul (4 * π / 3)).congr_deriv (by simp [shell]; ring)

private theorem mesaOut_deriv (i : Fin 3) {q : ℝ} (hq : q ≠ 0) (r : ℝ) :
    HasDerivAt (mesaOut i q) (shell i r * (1 - (r - (1 - q)) * (r - (1 - q)) / (q * q))) r := by
  have h1 : HasDerivAt (fun r : ℝ => r) 1 r := hasDerivAt_id r
  have h2 : HasDerivAt (fun r : ℝ => r * r) (1 * r + r * 1) r := h1.mul h1
  have h3 : HasDerivAt (fun r : ℝ => r * r * r) ((1 * r + r * 1) * r + r * r * 1) r := h2.mul h1
  have h5 : HasDerivAt (fun r : ℝ => r * r * (r * r * r)) _ r := h2.mul h3
  rcases dim3 i with rfl | rfl | rfl
  · have h := h1.sub_const (1 - q)
    refine ((h1.sub (((h.mul h).mul h).div_const (3 * (q * q)))).const_mul 2).congr_deriv ?_
    simp [shell]; field_simp; ring
  · refine (((h2.mul ((((h2.const_mul (1 / 2)).add_const ((1 - q) * (1 - q))).div_const (q * q)).const_sub 1)).add
      ((((h3.const_mul 4).const_add (1 / 2 * ((1 - q) * (1 - q) * (1 - q)))).mul_const (1 - q)).div_const (3 * (q * q)))).const_mul π).congr_deriv ?_
    simp [shell]; field_simp; ring
  · refine (((((((h3.sub_const ((1 - q) * (1 - q) * (1 - q))).div_const 3).mul_const (1 - (1 - q) * (1 - q) / (q * q))).const_add
      ((1 - q) * (1 - q) * (1 - q) / 3)).add
      ((((h2.sub_const ((1 - q) * (1 - q))).const_mul (1 - q)).mul (h2.add_const ((1 - q) * (1 - q)))).div_const (2 * (q * q)))).sub
      ((h5.sub_const ((1 - q) * (1 - q) * ((1 - q) * (1 - q) * (1 - q)))).div_const (5 * (q * q)))).const_mul (4 * π)).congr_deriv ?_
    simp [shell]; field_simp; ring

private theorem mesa_joint (i : Fin 3) {q : ℝ} (hq : q ≠ 0) : mesaIn i (1 - q) = mesaOut i q (1 - q) := by
  rcases dim3 i with rfl | rfl | rfl
  · simp [mesaIn, mesaOut]
  · simp [mesaIn, mesaOut, mesaMassHelper]; field_simp; ring
  · simp [mesaIn, mesaOut, mesaMassHelper]; ring

private theorem mesa_one (i : Fin 3) {q : ℝ} (hq : 0 < q) (hq1 : q ≤ 1) : 0 < mesaOut i q 1 ∧ mesaRho0 i q = 1 / mesaOut i q 1 := by
  have hpi := pi_pos
  rcases dim3 i with rfl | rfl | rfl
  · have e : mesaOut 0 q 1 = 2 * (1 - q / 3) := by simp [mesaOut]; field_simp
    rw [e]
    refine ⟨by linarith, ?_⟩
    have : 1 - q / 3 ≠ 0 := by linarith
    simp [mesaRho0]; field_simp
  · have e : mesaMassHelper 1 q 1 = (1 - q) ^ 2 + 4 / 3 * (1 - q) * q + q ^ 2 / 2 := by
      simp [mesaMassHelper]; field_simp; ring
    have hp : 0 < mesaMassHelper 1 q 1 := by
      rw [e]
      have : 0 ≤ 1 - q := by linarith
      positivity
    exact ⟨mul_pos hpi hp, by simp [mesaRho0, mesaOut]⟩
  · have e : mesaMassHelper 2 q 1 = (1 - q) ^ 3 / 3 + 2 / 3 * (1 - q) ^ 2 * q + (1 - q) * q ^ 2 / 2 + 2 / 15 * q ^ 3 := by
      simp [mesaMassHelper]; field_simp; ring
    have hp : 0 < mesaMassHelper 2 q 1 := by
      rw [e]
      have : 0 ≤ 1 - q := by linarith
      positivity
    exact ⟨by show 0 < 4 * π * mesaMassHelper 2 q 1; positivity, by simp [mesaRho0, mesaOut]⟩

private theorem massMesa_eq (i : Fin 3) (q rho0 r : ℝ) (h : r - 1 < 1 / 10 ^ 12) :
    massMesa i q rho0 r = rho0 * if r < 1 - q then mesaIn i r else mesaOut i q r := by
  rcases dim3 i with rfl | rfl | rfl <;> simp only [massMesa, mesaIn, mesaOut, if_pos h] <;> split_ifs <;> simp_all <;> ring

/-- The mesa profile with a rim of width `0 < q <= 1`, up to the radius 0.9999 where the code cuts the density off. -/
theorem C43_mesa_partial (i : Fin 3) (q : ℝ) (hq : 0 < q) (hq1 : q ≤ 1) (r : ℝ) (hr0 : 0 ≤ r) (hr : r < 9999 / 10000) :
    MassWithin i (rhoMesa q (mesaRho0 i q)) r (massMesa i q (mesaRho0 i q) r) ∧
    massMesa i q (mesaRho0 i q) 1 = 1 ∧
    HasDerivAt (rhoMesa q (mesaRho0 i q)) (drhoMesa q (mesaRho0 i q) r) r ∧
    0 < rhoMesa q (mesaRho0 i q) r := by
  obtain ⟨hpos, hrho0⟩ := mesa_one i hq hq1
  have hrp : 0 < mesaRho0 i q := by rw [hrho0]; positivity
  set rho0 := mesaRho0 i q with hrho0'
  clear_value rho0
  -- the density without the cut
  have glue : ∀ s, HasDerivAt (fun s => if s < 1 - q then rho0 else rho0 * (1 - (s - (1 - q)) * (s - (1 - q)) / (q * q)))
      (if s > 1 - q then -2 * rho0 * (s - (1 - q)) / (q * q) else 0) s := by
    intro s
    refine hasDerivAt_glue (f := fun _ => rho0) (g := fun s => rho0 * (1 - (s - (1 - q)) * (s - (1 - q)) / (q * q))) (fun h => ?_) (fun h => ?_) (by simp)
    · rw [if_neg (not_lt.mpr h)]; exact hasDerivAt_const _ _
    · have h1 : HasDerivAt (fun s : ℝ => s - (1 - q)) 1 s := (hasDerivAt_id s).sub_const _
      refine ((((h1.mul h1).div_const (q * q)).const_sub 1).const_mul rho0).congr_deriv ?_
      split_ifs with h2
      · ring
      · have : s = 1 - q := le_antisymm (not_lt.mp h2) h
        simp [this]
  have rho_deriv : ∀ s, s < 9999 / 10000 → HasDerivAt (rhoMesa q rho0) (drhoMesa q rho0 s) s := by
    intro s hs
    refine ((glue s).congr_of_eventuallyEq ?_).congr_deriv ?_
    · filter_upwards [Iio_mem_nhds hs] with y hy
      simp only [rhoMesa, if_pos (Set.mem_Iio.mp hy)]
    · simp only [drhoMesa, and_iff_left hs]
  refine ⟨?_, ?_, rho_deriv r hr, ?_⟩
  · have hsub : ∀ s ∈ Set.uIcc 0 r, s < 9999 / 10000 := by
      intro s hs
      rw [Set.uIcc_of_le hr0] at hs
      exact lt_of_le_of_lt hs.2 hr
    refine mass_of_deriv i _ (massMesa i q rho0) r ?_ (fun s hs => ?_) (fun s hs => (rho_deriv s (hsub s hs)).continuousAt.continuousWithinAt)
    · rw [massMesa_eq i q rho0 0 (by norm_num)]
      have h0 : mesaIn i 0 = 0 := by rcases dim3 i with rfl | rfl | rfl <;> simp [mesaIn]
      split_ifs with h
      · rw [h0, mul_zero]
      · have : 1 - q = 0 := by linarith
        rw [← this, ← mesa_joint i hq.ne', this, h0, mul_zero]
    · have hs' := hsub s hs
      have hev : massMesa i q rho0 =ᶠ[nhds s] fun r => rho0 * if r < 1 - q then mesaIn i r else mesaOut i q r := by
        filter_upwards [Iio_mem_nhds hs'] with y hy
        refine massMesa_eq i q rho0 y ?_
        have : y < 9999 / 10000 := hy
        norm_num; linarith
      refine HasDerivAt.congr_of_eventuallyEq ?_ hev
      have hg := hasDerivAt_glue (f := mesaIn i) (g := mesaOut i q) (c := 1 - q) (x := s)
        (h := shell i s * (if s < 1 - q then 1 else 1 - (s - (1 - q)) * (s - (1 - q)) / (q * q))) (fun h => ?_) (fun h => ?_) (mesa_joint i hq.ne')
      · refine (hg.const_mul rho0).congr_deriv ?_
        simp only [rhoMesa, if_pos hs']
        split_ifs <;> ring
      · refine (mesaIn_deriv i s).congr_deriv ?_
        split_ifs with h1
        · ring
        · have : s = 1 - q := le_antisymm h (not_lt.mp h1)
          simp [this]
      · refine (mesaOut_deriv i hq.ne' s).congr_deriv ?_
        rw [if_neg (not_lt.mpr h)]
  · rw [massMesa_eq i q rho0 1 (by norm_num), if_neg (by linarith), hrho0]
    field_simp
  · simp only [rhoMesa, if_pos hr]
    split_ifs with h
    · exact hrp
    · have h1 : 0 ≤ r - (1 - q) := by linarith [not_lt.mp h]
      have h2 : r - (1 - q) < q := by linarith
      have : (r - (1 - q)) * (r - (1 - q)) / (q * q) < 1 := by
        rw [div_lt_one (by positivity)]
        nlinarith
      have : 0 < 1 - (r - (1 - q)) * (r - (1 - q)) / (q * q) := by linarith
      positivity

/-- Between 0.9999 and 1 the density is zero but the mass still grows; beyond the surface the mass function returns zero
instead of the total mass, while the constant and parabolic profiles have mass above one and negative densities there. -/
theorem C43_mesa_violated (i : Fin 3) (q : ℝ) (hq : 0 < q) (hq1 : q ≤ 1) :
    (∀ r, 9999 / 10000 ≤ r → rhoMesa q (mesaRho0 i q) r = (if r < 1 - q then mesaRho0 i q else 0)) ∧
    (1 / 10000 ≤ q → massMesa i q (mesaRho0 i q) (9999 / 10000) < massMesa i q (mesaRho0 i q) 1 ∧
      ∀ r, 9999 / 10000 ≤ r → rhoMesa q (mesaRho0 i q) r = 0) ∧
    massMesa i q (mesaRho0 i q) 2 = 0 := by
  obtain ⟨hpos, hrho0⟩ := mesa_one i hq hq1
  have hrp : 0 < mesaRho0 i q := by rw [hrho0]; positivity
  refine ⟨?_, fun hq2 => ⟨?_, ?_⟩, ?_⟩
  · intro r hr
    simp only [rhoMesa, if_neg (not_lt.mpr hr)]
  · rw [massMesa_eq i q _ 1 (by norm_num), massMesa_eq i q _ (9999 / 10000) (by norm_num), if_neg (by linarith), if_neg (by linarith)]
    refine mul_lt_mul_of_pos_left ?_ hrp
    have hm : StrictMonoOn (mesaOut i q) (Set.Icc (9999 / 10000) 1) := by
      refine strictMonoOn_of_deriv_pos (convex_Icc _ _) (fun s _ => (mesaOut_deriv i hq.ne' s).continuousAt.continuousWithinAt) ?_
      intro s hs
      rw [interior_Icc] at hs
      rw [(mesaOut_deriv i hq.ne' s).deriv]
      have hsh : 0 < shell i s := by
        have hpi := pi_pos
        have : 0 < s := by linarith [hs.1]
        rcases dim3 i with rfl | rfl | rfl <;> simp [shell] <;> positivity
      have h1 : (s - (1 - q)) * (s - (1 - q)) / (q * q) < 1 := by
        rw [div_lt_one (by positivity)]
        have h2 : 0 ≤ s - (1 - q) := by linarith [hs.1]
        have h3 : s - (1 - q) < q := by linarith [hs.2]
        nlinarith
      exact mul_pos hsh (by linarith)
    exact hm ⟨le_rfl, by norm_num⟩ ⟨by norm_num, le_rfl⟩ (by norm_num)
  · intro r hr
    simp only [rhoMesa, if_neg (not_lt.mpr hr)]
    rw [if_neg (by linarith)]
  · have h1 : ¬ (2 : ℝ) < 1 - q := by linarith
    have h2 : ¬ (2 : ℝ) - 1 < 1 / 10 ^ 12 := by norm_num
    rcases dim3 i with rfl | rfl | rfl <;> simp only [massMesa, if_neg h1, if_neg h2] <;> simp

/-- Non-vacuity. -/
example : (0 : ℝ) < 1 / 2 ∧ (1 / 2 : ℝ) ≤ 1 ∧ (0 : ℝ) ≤ 3 / 4 ∧ (3 / 4 : ℝ) < 9999 / 10000 := by norm_num

end FleCSPH

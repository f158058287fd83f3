import Verif.Model.Eos
import Mathlib.Analysis.SpecialFunctions.Pow.Deriv
import Mathlib.Analysis.SpecialFunctions.Sqrt
import Mathlib.Analysis.Calculus.Deriv.MeanValue
import Mathlib.Analysis.SpecialFunctions.Pow.Continuity
/-! Calculus of the equations of state. -/
namespace FleCSPH.Eos
open FleCSPH.Sph FleCSPH.Geometry Real

theorem hasDerivAt_sqrt1 (x : ℝ) : HasDerivAt (fun x => √(x * x + 1)) (x / √(x * x + 1)) x := by
  have h0 : x * x + 1 ≠ 0 := by nlinarith
  have h : HasDerivAt (fun x : ℝ => x * x + 1) (1 * x + x * 1) x := ((hasDerivAt_id x).mul (hasDerivAt_id x)).add_const 1
  refine (h.sqrt h0).congr_deriv ?_
  have : √(x * x + 1) ≠ 0 := (Real.sqrt_pos.mpr (by nlinarith)).ne'
  field_simp; ring

/-- The pressure function of the white dwarf EOS. -/
noncomputable def psi (x : ℝ) : ℝ := x * (2 * (x * x) - 3) * √(x * x + 1) + 3 * arsinh x
/-- The energy function. -/
noncomputable def eFun (x : ℝ) : ℝ := 8 * (x * x * x) * (√(x * x + 1) - 1) - psi x

theorem hasDerivAt_psi (x : ℝ) : HasDerivAt psi (8 * x ^ 4 / √(x * x + 1)) x := by
  have h1 : HasDerivAt (fun x : ℝ => x * (2 * (x * x) - 3)) (1 * (2 * (x * x) - 3) + x * (2 * (1 * x + x * 1))) x :=
    (hasDerivAt_id x).mul ((((hasDerivAt_id x).mul (hasDerivAt_id x)).const_mul 2).sub_const 3)
  have h2 := (h1.mul (hasDerivAt_sqrt1 x)).add ((hasDerivAt_arsinh x).const_mul 3)
  refine h2.congr_deriv ?_
  have e : (1 + x ^ 2) = x * x + 1 := by ring
  rw [e]
  have hp : 0 < √(x * x + 1) := by have : 0 < x * x + 1 := by nlinarith
                                   positivity
  have hs : √(x * x + 1) * √(x * x + 1) = x * x + 1 := mul_self_sqrt (by nlinarith)
  generalize √(x * x + 1) = y at *
  field_simp
  have : y ^ 2 = x * x + 1 := by rw [sq, hs]
  rw [this]
  ring

theorem hasDerivAt_eFun (x : ℝ) : HasDerivAt eFun (24 * x ^ 2 * (√(x * x + 1) - 1)) x := by
  have h1 : HasDerivAt (fun x : ℝ => 8 * (x * x * x)) (8 * ((1 * x + x * 1) * x + (x * x) * 1)) x :=
    ((((hasDerivAt_id x).mul (hasDerivAt_id x)).mul (hasDerivAt_id x)).const_mul 8)
  refine ((h1.mul ((hasDerivAt_sqrt1 x).sub_const 1)).sub (hasDerivAt_psi x)).congr_deriv ?_
  have hp : √(x * x + 1) ≠ 0 := by
    have : 0 < x * x + 1 := by nlinarith
    positivity
  field_simp
  ring

theorem one_le_sqrt1 (x : ℝ) : 1 ≤ √(x * x + 1) := by
  exact Real.one_le_sqrt.mpr (by nlinarith [mul_self_nonneg x])

theorem psi_zero : psi 0 = 0 := by simp [psi]
theorem eFun_zero : eFun 0 = 0 := by simp [eFun, psi_zero]

theorem psi_nonneg {x : ℝ} (hx : 0 ≤ x) : 0 ≤ psi x := by
  have hm : Monotone psi := monotone_of_deriv_nonneg (fun x => (hasDerivAt_psi x).differentiableAt) fun x => by
    rw [(hasDerivAt_psi x).deriv]; positivity
  have := hm hx
  rwa [psi_zero] at this

theorem eFun_nonneg {x : ℝ} (hx : 0 ≤ x) : 0 ≤ eFun x := by
  have hm : Monotone eFun := monotone_of_deriv_nonneg (fun x => (hasDerivAt_eFun x).differentiableAt) fun x => by
    rw [(hasDerivAt_eFun x).deriv]
    have := one_le_sqrt1 x
    exact mul_nonneg (by positivity) (by linarith)
  have := hm hx
  rwa [eFun_zero] at this

theorem bWd_pos : 0 < bWd := by norm_num [bWd]
theorem aWd_pos : 0 < aWd := by norm_num [aWd]
theorem cLight_pos : 0 < cLight := by norm_num [cLight]

theorem xWd_pos {rho ye : ℝ} (hr : 0 < rho) (hy : 0 < ye) : 0 < xWd rho ye := by
  have := bWd_pos
  exact rpow_pos_of_pos (by positivity) _

theorem xWd_nonneg {rho ye : ℝ} (hr : 0 ≤ rho) (hy : 0 ≤ ye) : 0 ≤ xWd rho ye := by
  have := bWd_pos
  exact rpow_nonneg (by positivity) _

/-- `x` is the cube root. -/
theorem xWd_cube {rho ye : ℝ} (hr : 0 ≤ rho) (hy : 0 ≤ ye) : xWd rho ye ^ 3 = rho * ye / bWd := by
  have hb := bWd_pos
  rw [xWd, ← rpow_natCast, ← rpow_mul (by positivity)]
  norm_num

theorem hasDerivAt_xWd {rho ye : ℝ} (hr : 0 < rho) (hy : 0 < ye) : HasDerivAt (fun r => xWd r ye) (xWd rho ye / (3 * rho)) rho := by
  have hb := bWd_pos
  have hpos : 0 < rho * ye / bWd := by positivity
  have h1 : HasDerivAt (fun r => r * ye / bWd) (1 * ye / bWd) rho := ((hasDerivAt_id rho).mul_const ye).div_const bWd
  have h2 := (h1.rpow_const (p := 1 / 3) (Or.inl hpos.ne'))
  refine h2.congr_deriv ?_
  rw [rpow_sub hpos, rpow_one, xWd]
  field_simp

theorem pressureGiven_eq (rho ye : ℝ) : pressureGiven rho ye = aWd * psi (xWd rho ye) := rfl

theorem energyWd_eq {d : Nat} (a : Particle d) : (energyWd a).u = aWd / a.rho * eFun (xWd a.rho a.ye) := rfl

theorem hasDerivAt_pressureGiven {rho ye : ℝ} (hr : 0 < rho) (hy : 0 < ye) :
    HasDerivAt (fun r => pressureGiven r ye) (aWd * (8 * xWd rho ye ^ 4 / √(xWd rho ye * xWd rho ye + 1) * (xWd rho ye / (3 * rho)))) rho :=
  ((hasDerivAt_psi _).comp rho (hasDerivAt_xWd hr hy)).const_mul aWd

/-- The square of the sound speed is that of a gas whose inertia is the energy of the electrons. -/
theorem soundspeedGiven_eq {rho ye : ℝ} (hr : 0 < rho) (hy : 0 < ye) :
    soundspeedGiven rho ye = √(xWd rho ye ^ 2 / (3 * (xWd rho ye ^ 2 + 1))) * cLight := by
  have hx := xWd_pos hr hy
  simp only [soundspeedGiven]
  congr 2
  generalize xWd rho ye = x at *
  have : (1 + x * x) * (6 * (x * x) + 1) - 1 + x * x * (2 * (x * x) + 1) = 8 * x ^ 2 * (x ^ 2 + 1) := by ring
  rw [this]
  have h2 : (1 + x * x) * (6 * (x * x) - 3) + 3 + x * x * (2 * (x * x) - 3) = 8 * x ^ 4 := by ring
  rw [h2]
  have : x ^ 2 + 1 ≠ 0 := by positivity
  field_simp

end FleCSPH.Eos

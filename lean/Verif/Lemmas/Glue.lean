import Mathlib.Analysis.Calculus.Deriv.Basic
import Mathlib.Analysis.Calculus.Deriv.Add
import Mathlib.Analysis.SpecialFunctions.Pow.Deriv
/-! Derivatives of functions glued at a point. -/
namespace FleCSPH

open Classical in
theorem hasDerivAt_glue {f g : ℝ → ℝ} {c x h : ℝ} (hf : x ≤ c → HasDerivAt f h x) (hg : c ≤ x → HasDerivAt g h x) (he : f c = g c) :
    HasDerivAt (fun r => if r < c then f r else g r) h x := by
  rcases lt_trichotomy x c with hx | hx | hx
  · refine (hf hx.le).congr_of_eventuallyEq ?_
    filter_upwards [Iio_mem_nhds hx] with y hy
    exact if_pos hy
  · subst hx
    rw [← hasDerivWithinAt_univ, ← Set.Iic_union_Ici (a := x)]
    refine HasDerivWithinAt.union ?_ ?_
    · refine (hf le_rfl).hasDerivWithinAt.congr (fun y hy => ?_) (by rw [if_neg (lt_irrefl _), he])
      rcases lt_or_eq_of_le (Set.mem_Iic.mp hy) with h1 | h1
      · exact if_pos h1
      · rw [h1, if_neg (lt_irrefl _), he]
    · refine (hg le_rfl).hasDerivWithinAt.congr (fun y hy => ?_) (if_neg (lt_irrefl _))
      exact if_neg (not_lt.mpr hy)
  · refine (hg hx.le).congr_of_eventuallyEq ?_
    filter_upwards [Ioi_mem_nhds hx] with y hy
    exact if_neg (not_lt.mpr (le_of_lt hy))

open Classical in
/-- The power of the positive part. -/
theorem hasDerivAt_ramp {n : ℝ} (hn : 1 < n) (x : ℝ) :
    HasDerivAt (fun t : ℝ => if 0 < t then t ^ n else 0) (if 0 < x then n * x ^ (n - 1) else 0) x := by
  have e : (fun t : ℝ => if 0 < t then t ^ n else 0) = fun t : ℝ => if t < 0 then 0 else t ^ n := by
    funext t
    rcases lt_trichotomy t 0 with h | h | h
    · rw [if_neg (not_lt.mpr h.le), if_pos h]
    · rw [h, if_neg (lt_irrefl _), if_neg (lt_irrefl _), Real.zero_rpow (by linarith)]
    · rw [if_pos h, if_neg (not_lt.mpr h.le)]
  rw [e]
  refine hasDerivAt_glue (f := fun _ => 0) (g := fun t => t ^ n) (fun hx => ?_) (fun hx => ?_) (by rw [Real.zero_rpow (by linarith)])
  · rw [if_neg (not_lt.mpr hx)]; exact hasDerivAt_const _ _
  · refine (Real.hasDerivAt_rpow_const (Or.inr hn.le)).congr_deriv ?_
    split_ifs with h
    · rfl
    · have : x = 0 := le_antisymm (not_lt.mp h) hx
      rw [this, Real.zero_rpow (by linarith), mul_zero]

end FleCSPH

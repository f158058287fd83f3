import Verif.Spec.Force
import Verif.Model.EForce
import Verif.Lemmas.Glue
import Mathlib.Analysis.Calculus.FDeriv.Pi
import Mathlib.Analysis.Calculus.FDeriv.Mul
import Mathlib.Analysis.Calculus.Deriv.Comp
import Mathlib.Analysis.SpecialFunctions.Sqrt
import Mathlib.Analysis.SpecialFunctions.Trigonometric.Deriv
/-! Gradients of the potentials of external forces. -/
namespace FleCSPH
open EForce Spec Geometry

variable {d : Nat}

theorem derivesFrom_congr {a : Point d} {f g : Point d → ℝ} {p : Point d} (h : DerivesFrom a f p) (he : g =ᶠ[nhds p] f) : DerivesFrom a g p := by
  obtain ⟨L, h1, h2⟩ := h
  exact ⟨L, h1.congr_of_eventuallyEq he, h2⟩

theorem derivesFrom_congr_acc {a b : Point d} {f : Point d → ℝ} {p : Point d} (h : DerivesFrom a f p) (he : b = a) : DerivesFrom b f p := he ▸ h

theorem derivesFrom_const (c : ℝ) (p : Point d) : DerivesFrom 0 (fun _ => c) p :=
  ⟨0, hasFDerivAt_const c p, fun v => by simp⟩

theorem derivesFrom_add {a b : Point d} {f g : Point d → ℝ} {p : Point d} (ha : DerivesFrom a f p) (hb : DerivesFrom b g p) :
    DerivesFrom (a + b) (fun x => f x + g x) p := by
  obtain ⟨L, h1, h2⟩ := ha
  obtain ⟨M, h3, h4⟩ := hb
  refine ⟨L + M, h1.add h3, fun v => ?_⟩
  rw [ContinuousLinearMap.add_apply, h2, h4, ← neg_add, ← Finset.sum_add_distrib]
  congr 1
  exact Finset.sum_congr rfl fun j _ => by rw [Pi.add_apply]; ring

/-- Chain rule. -/
theorem derivesFrom_comp {b : Point d} {u : Point d → ℝ} {g : ℝ → ℝ} {g' : ℝ} {p : Point d} (hu : DerivesFrom b u p) (hg : HasDerivAt g g' (u p)) :
    DerivesFrom (g' • b) (fun x => g (u x)) p := by
  obtain ⟨L, h1, h2⟩ := hu
  refine ⟨g' • L, hg.comp_hasFDerivAt p h1, fun v => ?_⟩
  rw [ContinuousLinearMap.smul_apply, h2, smul_eq_mul, mul_neg, Finset.mul_sum]
  congr 1
  exact Finset.sum_congr rfl fun j _ => by rw [Pi.smul_apply, smul_eq_mul]; ring

theorem derivesFrom_mul {a b : Point d} {f g : Point d → ℝ} {p : Point d} (ha : DerivesFrom a f p) (hb : DerivesFrom b g p) :
    DerivesFrom (f p • b + g p • a) (fun x => f x * g x) p := by
  obtain ⟨L, h1, h2⟩ := ha
  obtain ⟨M, h3, h4⟩ := hb
  refine ⟨f p • M + g p • L, h1.mul h3, fun v => ?_⟩
  rw [ContinuousLinearMap.add_apply, ContinuousLinearMap.smul_apply, ContinuousLinearMap.smul_apply, h2, h4, smul_eq_mul, smul_eq_mul,
    mul_neg, mul_neg, ← neg_add, Finset.mul_sum, Finset.mul_sum, ← Finset.sum_add_distrib]
  congr 1
  exact Finset.sum_congr rfl fun j _ => by simp only [Pi.add_apply, Pi.smul_apply, smul_eq_mul]; ring

/-- A coordinate. -/
theorem derivesFrom_coord (k : Fin d) (p : Point d) : DerivesFrom (single k (-1)) (fun x => x k) p := by
  refine ⟨ContinuousLinearMap.proj k, hasFDerivAt_apply k p, fun v => ?_⟩
  rw [ContinuousLinearMap.proj_apply, ← Finset.sum_neg_distrib, Finset.sum_eq_single k]
  · simp [single]
  · intro j _ hj
    have : (j : Nat) ≠ k := fun h => hj (Fin.ext h)
    simp [single, this]
  · simp

theorem single_smul (c v : ℝ) (k : Nat) : c • (single k v : Point d) = single k (c * v) := by
  funext j
  simp only [single, Pi.smul_apply, smul_eq_mul]
  split_ifs <;> simp

theorem single_add (k : Nat) (v w : ℝ) : (single k v : Point d) + single k w = single k (v + w) := by
  funext j
  simp only [single, Pi.add_apply]
  split_ifs <;> simp

/-- The square of the distance from the origin. -/
theorem derivesFrom_sq (p : Point d) : DerivesFrom (fun j => -(2 * p j)) (fun x => ∑ j, x j * x j) p := by
  have h : HasFDerivAt (fun x : Point d => ∑ j, x j * x j) (∑ j, (p j • (ContinuousLinearMap.proj j : Point d →L[ℝ] ℝ) + p j • ContinuousLinearMap.proj j)) p :=
    HasFDerivAt.fun_sum fun j _ => (hasFDerivAt_apply j p).mul (hasFDerivAt_apply j p)
  refine ⟨_, h, fun v => ?_⟩
  rw [ContinuousLinearMap.sum_apply, ← Finset.sum_neg_distrib]
  refine Finset.sum_congr rfl fun j _ => ?_
  simp only [ContinuousLinearMap.add_apply, ContinuousLinearMap.smul_apply, ContinuousLinearMap.proj_apply, smul_eq_mul]
  ring

theorem radius_pos_iff (p : Point d) : 0 < radius p ↔ p ≠ 0 := by
  have h0 : ∀ j ∈ Finset.univ, 0 ≤ p j * p j := fun j _ => mul_self_nonneg _
  rw [radius, Real.sqrt_pos, lt_iff_le_and_ne, and_iff_right (Finset.sum_nonneg h0)]
  refine not_congr ⟨fun h => ?_, fun h => by simp [h]⟩
  funext j
  have := (Finset.sum_eq_zero_iff_of_nonneg h0).mp h.symm j (Finset.mem_univ _)
  simpa using this

/-- The distance from the origin, away from it. -/
theorem derivesFrom_radius {p : Point d} (h : 0 < radius p) : DerivesFrom (fun j => -(p j / radius p)) radius p := by
  have hs : 0 < ∑ j, p j * p j := by rw [radius] at h; exact Real.sqrt_pos.mp h
  have := derivesFrom_comp (g := fun t => √t) (derivesFrom_sq p) (Real.hasDerivAt_sqrt hs.ne')
  refine derivesFrom_congr_acc this ?_
  funext j
  simp only [Pi.smul_apply, smul_eq_mul]
  rw [← radius]
  field_simp

theorem continuous_radius : Continuous (radius : Point d → ℝ) :=
  Real.continuous_sqrt.comp (continuous_finsetSum _ fun j _ => (continuous_apply j).mul (continuous_apply j))

end FleCSPH

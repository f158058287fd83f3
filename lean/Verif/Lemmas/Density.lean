import Verif.Lemmas.SphSum
import Verif.Lemmas.Kernels2
/-! Positivity of the density. -/
namespace FleCSPH.Sph
open FleCSPH.Geometry FleCSPH.Kernels FleCSPH.Spec

/-- The kernels without negative values. -/
def NonNegKernel (κ : Kernel) : Prop := Poly κ ∨ κ = .gaussian ∨ ∃ n, 1 ≤ n ∧ n ≤ 1000 ∧ κ = .sinc n

theorem kernel_nonneg {κ : Kernel} (hκ : NonNegKernel κ) (i : Fin 3) {r h : ℝ} (hr : 0 ≤ r) (hh : 0 < h) : 0 ≤ kernel κ i r h := by
  rcases hκ with hκ | rfl | ⟨n, h1, h2, rfl⟩
  · rw [kernel_eq hκ]
    have := sigma_pos hκ i
    have hs : 0 < scale κ := scale_pos
    rcases lt_or_ge (scale κ * r / h) (scale κ) with hx | hx
    · have := prof_pos hκ i (by positivity) hx
      positivity
    · rw [prof_zero hκ i hx, mul_zero]
  · have := gaussianSigma_pos i
    simp only [kernel, gaussian]; split_ifs <;> positivity
  · have hs := sincSigma_pos h1 h2 i
    show 0 ≤ sincKernel n i r h
    rcases lt_or_ge r h with h3 | h3
    · obtain ⟨_, _, h4, h5⟩ := sinc_arg hh hr h3
      rw [sincKernel_in i hh hr h3]
      have := Real.rpow_nonneg (sincValue_nonneg h4 h5) n
      positivity
    · exact (sincKernel_out i hh h3).ge

theorem kernel_zero_pos {κ : Kernel} (hκ : NonNegKernel κ) (i : Fin 3) {h : ℝ} (hh : 0 < h) : 0 < kernel κ i 0 h := by
  rcases hκ with hκ | rfl | ⟨n, h1, h2, rfl⟩
  · rw [kernel_eq hκ]
    have := sigma_pos hκ i
    have hs : 0 < scale κ := scale_pos
    have := prof_pos hκ i le_rfl hs
    simp only [mul_zero, zero_div]
    positivity
  · have := gaussianSigma_pos i
    simp only [kernel, gaussian]
    rw [if_pos (by simp)]
    positivity
  · have hs := sincSigma_pos h1 h2 i
    show 0 < sincKernel n i 0 h
    rw [sincKernel_in i hh le_rfl hh]
    have : sincValue (0 / h * Real.pi) = 1 := by
      simp only [zero_div, zero_mul, sincValue]
      rw [if_neg (by norm_num), if_neg (by norm_num)]
    rw [this, Real.one_rpow]
    positivity

theorem density_some {i : Fin 3} (p : Params i) (hκ : NonNegKernel p.kernel) (a : Particle (i + 1)) (nbs : List (Particle (i + 1)))
    (hself : ∃ b ∈ nbs, b.pos = a.pos) (hm : ∀ b ∈ nbs, 0 < b.mass) (hha : 0 < a.h) (hh : ∀ b ∈ nbs, 0 < b.h) :
    0 < (nbs.map fun b => b.mass * kernel p.kernel i (magnitude (a.pos - b.pos)) (1 / 2 * (a.h + b.h))).sum ∧
    computeDensity p a nbs = some { a with rho :=
      (nbs.map fun b => b.mass * kernel p.kernel i (magnitude (a.pos - b.pos)) (1 / 2 * (a.h + b.h))).sum } := by
  obtain ⟨c, hc, hca⟩ := hself
  have hnn : ∀ x ∈ nbs.map fun b => b.mass * kernel p.kernel i (magnitude (a.pos - b.pos)) (1 / 2 * (a.h + b.h)), 0 ≤ x := by
    intro x hx
    obtain ⟨b, hb, rfl⟩ := List.mem_map.mp hx
    exact mul_nonneg (hm b hb).le (kernel_nonneg hκ i (magnitude_nonneg _) (by have := hh b hb; linarith))
  have hpos : 0 < c.mass * kernel p.kernel i (magnitude (a.pos - c.pos)) (1 / 2 * (a.h + c.h)) := by
    have : magnitude (a.pos - c.pos) = 0 := by rw [hca]; simp [magnitude]
    rw [this]
    exact mul_pos (hm c hc) (kernel_zero_pos hκ i (by have := hh c hc; linarith))
  have hsum : 0 < (nbs.map fun b => b.mass * kernel p.kernel i (magnitude (a.pos - b.pos)) (1 / 2 * (a.h + b.h))).sum :=
    lt_of_lt_of_le hpos (List.single_le_sum hnn _ (List.mem_map_of_mem hc))
  refine ⟨hsum, ?_⟩
  simp only [computeDensity, accumulate_eq]
  rw [if_pos ⟨List.length_pos_of_mem hc, hsum⟩]

end FleCSPH.Sph

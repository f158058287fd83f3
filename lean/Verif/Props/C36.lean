import Verif.Lemmas.Density
/-! C36: the density is positive. -/
namespace FleCSPH
open Sph Spec Geometry Kernels

/-- With a polynomial, the Gaussian or the sinc kernel: `compute_density` over a list which holds a particle at the position
of the particle itself succeeds, and the density is the kernel-weighted mass, which is positive. -/
theorem C36_partial {i : Fin 3} (p : Params i) (hκ : NonNegKernel p.kernel) (a : Particle (i + 1)) (nbs : List (Particle (i + 1)))
    (hself : ∃ b ∈ nbs, b.pos = a.pos) (hm : ∀ b ∈ nbs, 0 < b.mass) (hha : 0 < a.h) (hh : ∀ b ∈ nbs, 0 < b.h) :
    ∃ a', computeDensity p a nbs = some a' ∧ 0 < a'.rho ∧
      a'.rho = (nbs.map fun b => b.mass * kernel p.kernel i √(∑ j, (a.pos j - b.pos j) ^ 2) ((a.h + b.h) / 2)).sum ∧
      a' = { a with rho := a'.rho } := by
  obtain ⟨h1, h2⟩ := density_some p hκ a nbs hself hm hha hh
  refine ⟨_, h2, h1, ?_, rfl⟩
  show (nbs.map _).sum = _
  congr 1
  refine List.map_congr_left fun b _ => ?_
  rw [magnitude_sub_eq]
  congr 2
  ring

/-- With the super-Gaussian kernel the density can fail to be positive, and the run stops on its assertion. -/
theorem C36_violated (i : Fin 3) (p : Params i) (hκ : p.kernel = .superGaussian) :
    ∃ (a : Particle (i + 1)) (nbs : List (Particle (i + 1))), a ∈ nbs ∧ (∀ b ∈ nbs, 0 < b.mass ∧ 0 < b.h) ∧
      computeDensity p a nbs = none := by
  have hs := superGaussianSigma_pos i
  have hneg : kernel .superGaussian i (2 / 3) 1 < 0 := by
    simp only [kernel, superGaussian]
    have hi : ((i : ℕ) : ℝ) ≤ 2 := by exact_mod_cast (by omega : (i : ℕ) ≤ 2)
    have e : (3 * (2 / 3) / 1 : ℝ) = 2 := by norm_num
    rw [e]
    have hf : fac (|(2 : ℝ)| < 3) = 1 := by rw [fac, if_pos]; norm_num
    rw [hf, mul_one]
    refine mul_neg_of_pos_of_neg (by positivity) (by linarith)
  set W0 := kernel .superGaussian i 0 1 with hW0
  set W1 := kernel .superGaussian i (2 / 3) 1 with hW1
  -- a second particle heavy enough to make the sum negative
  set M : ℝ := (|W0| + 1) / (-W1) with hM
  have hMpos : 0 < M := div_pos (by positivity) (by linarith)
  let a : Particle (i + 1) := ⟨0, 1, 1, 0, 0, 0, 0, 0, 0, 0, 0, 0, 0, 0, 0, 0, 0, 0, 0, 0, 0, 0, 0⟩
  let b : Particle (i + 1) := { a with mass := M, pos := fun j => if j = 0 then 2 / 3 else 0 }
  refine ⟨a, [a, b], by simp, ?_, ?_⟩
  · intro c hc
    simp only [List.mem_cons, List.not_mem_nil, or_false] at hc
    rcases hc with rfl | rfl
    · exact ⟨one_pos, one_pos⟩
    · exact ⟨hMpos, one_pos⟩
  · have d0 : magnitude (a.pos - a.pos) = 0 := by simp [magnitude]
    have d1 : magnitude (a.pos - b.pos) = 2 / 3 := by
      have : ∀ j, (a.pos - b.pos) j * (a.pos - b.pos) j = if j = 0 then (2 / 3 : ℝ) ^ 2 else 0 := by
        intro j
        show (0 - (if j = 0 then (2 / 3 : ℝ) else 0)) * (0 - (if j = 0 then (2 / 3 : ℝ) else 0)) = _
        split_ifs <;> ring
      rw [magnitude]
      simp only [this, Finset.sum_ite_eq', Finset.mem_univ, if_true]
      rw [Real.sqrt_sq (by norm_num)]
    have h1 : (1 / 2 * (a.h + a.h) : ℝ) = 1 := by show (1 / 2 * (1 + 1) : ℝ) = 1; norm_num
    have h2 : (1 / 2 * (a.h + b.h) : ℝ) = 1 := by show (1 / 2 * (1 + 1) : ℝ) = 1; norm_num
    simp only [computeDensity, accumulate_eq, List.map_cons, List.map_nil, List.sum_cons, List.sum_nil, hκ, d0, d1, h1, h2]
    rw [if_neg]
    rintro ⟨_, hpos⟩
    have : a.mass * W0 + (b.mass * W1 + 0) ≤ 0 := by
      show 1 * W0 + (M * W1 + 0) ≤ 0
      have : M * W1 = -(|W0| + 1) := by
        rw [hM]
        have h0 : -W1 ≠ 0 := by linarith
        have h3 := div_mul_cancel₀ (|W0| + 1) h0
        linarith
      rw [this]
      have := le_abs_self W0
      linarith
    exact absurd hpos (not_lt.mpr this)

/-- Non-vacuity of the hypotheses of `C36_partial`. -/
example : NonNegKernel .cubicSpline ∧ NonNegKernel .gaussian ∧ NonNegKernel (.sinc 4) :=
  ⟨Or.inl .cubicSpline, Or.inr (Or.inl rfl), Or.inr (Or.inr ⟨4, by norm_num, by norm_num, rfl⟩)⟩

example : ∃ (a : Particle 2) (nbs : List (Particle 2)), 1 < nbs.length ∧ (∃ b ∈ nbs, b.pos = a.pos) ∧ (∀ b ∈ nbs, 0 < b.mass) ∧ 0 < a.h ∧
    (∀ b ∈ nbs, 0 < b.h) := by
  let a : Particle 2 := ⟨0, 1, 1, 0, 0, 0, 0, 0, 0, 0, 0, 0, 0, 0, 0, 0, 0, 0, 0, 0, 0, 0, 0⟩
  refine ⟨a, [{ a with pos := fun _ => 1 }, a], by simp, ⟨a, by simp, rfl⟩, ?_, one_pos, ?_⟩
  · intro b hb; simp only [List.mem_cons, List.not_mem_nil, or_false] at hb; rcases hb with rfl | rfl <;> exact one_pos
  · intro b hb; simp only [List.mem_cons, List.not_mem_nil, or_false] at hb; rcases hb with rfl | rfl <;> exact one_pos

end FleCSPH

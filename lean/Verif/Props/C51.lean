import Verif.Lemmas.Viscosity
/-! C51: Galilean invariance of the velocity divergence. -/
namespace FleCSPH
open Sph Spec Geometry Kernels

variable {i : Fin 3}

/-- What holds: a change of frame by `c` changes the divergence by `c . (sum of m grad W) / rho`, so it is invariant where the
gradients of the neighbours cancel. -/
theorem C51_partial (p : Params i) (dt : ℝ) (c : Point (i + 1)) (a : Particle (i + 1)) (nbs : List (Particle (i + 1))) :
    (computeDivv p dt { a with vel := a.vel + c } (nbs.map fun b => { b with vel := b.vel + c })).divv =
      (computeDivv p dt a nbs).divv +
        (∑ j, c j * (nbs.map fun b => b.mass * kernelGradient p.kernel i (a.pos - b.pos) ((a.h + b.h) / 2) j).sum) / a.rho := by
  simp only [computeDivv, accumulate_eq, List.map_map]
  rw [← add_div]
  congr 1
  have e1 : (nbs.map ((fun b : Particle (i + 1) => b.mass * dot (a.vel + c) (kernelGradient p.kernel i (a.pos - b.pos) (1 / 2 * (a.h + b.h)))) ∘
      fun b => { b with vel := b.vel + c })).sum =
      (nbs.map fun b : Particle (i + 1) => b.mass * dot a.vel (kernelGradient p.kernel i (a.pos - b.pos) (1 / 2 * (a.h + b.h))) +
        dot c (fun j => b.mass * kernelGradient p.kernel i (a.pos - b.pos) (1 / 2 * (a.h + b.h)) j)).sum := by
    congr 1
    refine List.map_congr_left fun b _ => ?_
    simp only [Function.comp, dot, Pi.add_apply, add_mul, Finset.sum_add_distrib, mul_add, Finset.mul_sum]
    congr 1
    exact Finset.sum_congr rfl fun j _ => by ring
  rw [e1, List.sum_map_add]
  congr 1
  rw [← dot_list_sum, dot]
  refine Finset.sum_congr rfl fun j _ => ?_
  rw [list_sum_apply]
  congr 2
  refine List.map_congr_left fun b _ => ?_
  congr 2
  ring

/-- The code takes the velocity of the particle, not the velocity relative to the neighbour: one neighbour on one side is
enough to make the divergence depend on the frame. -/
theorem C51_violated : ∃ (p : Params 0) (a b : Particle 1) (c : Point 1), Poly p.kernel ∧ 0 < a.rho ∧ 0 < a.h ∧ 0 < b.h ∧ 0 < b.mass ∧
    a.vel = b.vel ∧
    (computeDivv p 1 { a with vel := a.vel + c } ([a, b].map fun b => { b with vel := b.vel + c })).divv ≠ (computeDivv p 1 a [a, b]).divv := by
  let p : Params 0 := ⟨.wendlandC2, .constant, 1, 2, 1 / 100, fun _ => 0, 0⟩
  let a : Particle 1 := ⟨0, 1, 1, fun _ => 0, 0, 0, 0, 0, 0, 1, 0, 0, 0, 0, 0, 0, 0, 0, 0, 0, 0, 0, 0⟩
  let b : Particle 1 := ⟨1, 1, 1, fun _ => 1 / 2, 0, 0, 0, 0, 0, 1, 0, 0, 0, 0, 0, 0, 0, 0, 0, 0, 0, 0, 0⟩
  have hmag : magnitude (a.pos - b.pos) = 1 / 2 := by
    show √(∑ j : Fin 1, ((0 : ℝ) - 1 / 2) * (0 - 1 / 2)) = _
    rw [Fin.sum_univ_one, show ((0 : ℝ) - 1 / 2) * (0 - 1 / 2) = (1 / 2) ^ 2 by norm_num, Real.sqrt_sq (by norm_num)]
  have hg : 0 < gradOf p a b 0 := by
    have ht := tiny_pos
    simp only [gradOf, kernelGradient, hmag]
    refine div_pos ?_ (by linarith)
    show 0 < ((0 : ℝ) - 1 / 2) * wendlandC2Slope 0 (1 / 2) (1 / 2 * (1 + 1))
    simp only [wendlandC2Slope, wendlandC2Sigma, Matrix.cons_val_zero, fac]
    norm_num
  have d1 : ∀ g : Point 1, dot (fun _ => (0 : ℝ)) g = 0 := by intro g; simp [dot]
  have d2 : ∀ g : Point 1, dot (fun _ => (1 : ℝ)) g = g 0 := by
    intro g; show ∑ j : Fin 1, _ = _; rw [Fin.sum_univ_one, one_mul]
  have va : a.vel = fun _ => 0 := rfl
  have vc : ((fun _ => (0 : ℝ)) + fun _ => (1 : ℝ) : Point 1) = fun _ => 1 := by funext j; show (0 : ℝ) + 1 = 1; ring
  have hga : kernelGradient p.kernel 0 (a.pos - a.pos) (1 / 2 * (a.h + a.h)) 0 = 0 := by
    simp [kernelGradient]
  refine ⟨p, a, b, fun _ => 1, .wendlandC2, one_pos, one_pos, one_pos, one_pos, rfl, ?_⟩
  · simp only [computeDivv, accumulate_eq, List.map_cons, List.map_nil, List.sum_cons, List.sum_nil, vc, va, d1, d2]
    show (1 * kernelGradient p.kernel 0 (a.pos - a.pos) (1 / 2 * (a.h + a.h)) 0 + (1 * gradOf p a b 0 + 0)) / 1 ≠ (1 * 0 + (1 * 0 + 0)) / 1
    rw [hga]
    intro h
    linarith

end FleCSPH

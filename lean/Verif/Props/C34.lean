import Verif.Lemmas.SphSum
/-! C34: the hydrodynamic forces conserve linear momentum. C55: the order of a pass. C56: angular momentum. -/
namespace FleCSPH
open Sph Spec Geometry Kernels

variable {i : Fin 3} {n : Nat}

/-- What `compute_acceleration` reads of a neighbour. -/
private def accView {d : Nat} (b : Particle d) : Particle d := { b with acc := 0, gacc := 0, gpot := 0 }

/-- After a pass of `compute_acceleration` the rate of change of momentum, along every axis, is that of the external force
alone: the hydrodynamic forces add up to zero. For all data with non-zero densities, whatever the visiting order. -/
theorem C34_momentum (p : Params i) (s : Fin n → Particle (i + 1)) (nbs : Fin n → List (Fin n)) (order : List (Fin n))
    (hall : VisitsAll order) (hs : SymmetricLists s nbs) (hh : ∀ a, 0 < (s a).h) (_hrho : ∀ a, 0 < (s a).rho) (j : Fin (i + 1)) :
    ∑ a, (s a).mass * (pass (computeAcceleration p) nbs order s a).acc j = ∑ a, (s a).mass * p.external (s a) j := by
  rw [pass_eq (computeAcceleration p) accView (computeAcceleration p)
    (fun a l => by simp only [computeAcceleration, accumulate_eq, List.map_map]; rfl) (fun a l => rfl) nbs order hall s]
  have key := sum_antisymm s nbs hs (fun a b => -((s a).mass * massOf (s a) (s b)) *
    ((s a).P / ((s a).rho * (s a).rho) + (s b).P / ((s b).rho * (s b).rho) + viscOf p (s a) (s b)) * gradOf p (s a) (s b) j)
    (fun a b => by
      rw [gradOf_antisymm p (s a) (s b), viscOf_symm p (s a) (s b), massOf_symm (s a) (s b), Pi.neg_apply]; ring)
    (fun a b h => by
      rw [gradOf_zero p (s a) (s b) (by linarith [hh a, hh b]) h]; simp)
  rw [← sub_eq_zero, ← Finset.sum_sub_distrib, ← key]
  refine Finset.sum_congr rfl fun a _ => ?_
  simp only [computeAcceleration, accumulate_eq, Pi.add_apply, list_sum_apply, List.map_map]
  rw [mul_add, add_sub_cancel_right, ← List.sum_map_mul_left]
  congr 1
  refine List.map_congr_left fun b _ => ?_
  simp only [Function.comp, Pi.smul_apply, smul_eq_mul]
  ring

/-- The same for angular momentum, in every plane: the forces are central. -/
theorem C56_angular_momentum (p : Params i) (s : Fin n → Particle (i + 1)) (nbs : Fin n → List (Fin n)) (order : List (Fin n))
    (hall : VisitsAll order) (hs : SymmetricLists s nbs) (hh : ∀ a, 0 < (s a).h) (_hrho : ∀ a, 0 < (s a).rho) (j k : Fin (i + 1)) :
    ∑ a, (s a).mass * ((s a).pos j * (pass (computeAcceleration p) nbs order s a).acc k -
        (s a).pos k * (pass (computeAcceleration p) nbs order s a).acc j) =
      ∑ a, (s a).mass * ((s a).pos j * p.external (s a) k - (s a).pos k * p.external (s a) j) := by
  rw [pass_eq (computeAcceleration p) accView (computeAcceleration p)
    (fun a l => by simp only [computeAcceleration, accumulate_eq, List.map_map]; rfl) (fun a l => rfl) nbs order hall s]
  have key := sum_antisymm s nbs hs (fun a b => -((s a).mass * massOf (s a) (s b)) *
    ((s a).P / ((s a).rho * (s a).rho) + (s b).P / ((s b).rho * (s b).rho) + viscOf p (s a) (s b)) *
      ((s a).pos j * gradOf p (s a) (s b) k - (s a).pos k * gradOf p (s a) (s b) j))
    (fun a b => by
      have hc : (s b).pos j * gradOf p (s a) (s b) k - (s b).pos k * gradOf p (s a) (s b) j =
          (s a).pos j * gradOf p (s a) (s b) k - (s a).pos k * gradOf p (s a) (s b) j := by
        simp only [gradOf, kernelGradient, Pi.sub_apply]; ring
      rw [gradOf_antisymm p (s a) (s b), viscOf_symm p (s a) (s b), massOf_symm (s a) (s b), Pi.neg_apply, Pi.neg_apply,
        mul_neg, mul_neg, neg_sub_neg, ← neg_sub, hc]; ring)
    (fun a b h => by
      rw [gradOf_zero p (s a) (s b) (by linarith [hh a, hh b]) h]; simp)
  rw [← sub_eq_zero, ← Finset.sum_sub_distrib, ← key]
  refine Finset.sum_congr rfl fun a _ => ?_
  simp only [computeAcceleration, accumulate_eq, Pi.add_apply, list_sum_apply, List.map_map]
  have : ∀ (x y ex ey px py m : ℝ), m * (px * (x + ex) - py * (y + ey)) - m * (px * ex - py * ey) = m * px * x + (-(m * py)) * y := by
    intros; ring
  rw [this, ← List.sum_map_mul_left, ← List.sum_map_mul_left, ← List.sum_map_add]
  congr 1
  refine List.map_congr_left fun b _ => ?_
  simp only [Function.comp, Pi.smul_apply, smul_eq_mul]
  ring

/-- Non-vacuity: three particles on a line, the middle one a neighbour of both others, the outer two of each other neither;
lists of the traversal include the particle itself. -/
example : ∃ (s : Fin 3 → Particle 1) (nbs : Fin 3 → List (Fin 3)), SymmetricLists s nbs ∧ (∀ a, 0 < (s a).h) ∧ (∀ a, 0 < (s a).rho) := by
  refine ⟨fun a => ⟨0, 1, 2, fun _ => (a : ℕ), 0, 0, 0, 0, 0, 1, 1, 1, 1, 1, 1, 0, 0, 0, 0, 0, 0, 0, 0⟩,
    ![[0, 1], [0, 1, 2], [1, 2]], ⟨?_, ?_⟩, fun a => by norm_num, fun a => by norm_num⟩
  · intro a; fin_cases a <;> simp
  · intro a b _; fin_cases a <;> fin_cases b <;> simp

end FleCSPH

import Verif.Lemmas.SphSum
/-! C35: energy exchange is conservative. -/
namespace FleCSPH
open Sph Spec Geometry Kernels

variable {i : Fin 3} {n : Nat}

private def dedtView {d : Nat} (b : Particle d) : Particle d := { b with dedt := 0 }
private def dudtView {d : Nat} (b : Particle d) : Particle d := { b with dudt := 0 }
private def accView {d : Nat} (b : Particle d) : Particle d := { b with acc := 0, gacc := 0, gpot := 0 }

/-- Thermokinetic formulation: after a pass of `compute_dedt` the total of the energy derivatives is the work of self-gravity
alone, so it is zero without self-gravity. -/
theorem C35_total_energy (p : Params i) (s : Fin n → Particle (i + 1)) (nbs : Fin n → List (Fin n)) (order : List (Fin n))
    (hall : VisitsAll order) (hs : SymmetricLists s nbs) (hh : ∀ a, 0 < (s a).h) (_hrho : ∀ a, 0 < (s a).rho) :
    ∑ a, (s a).mass * (pass (computeDedt p) nbs order s a).dedt = ∑ a, (s a).mass * ∑ j, (s a).gacc j * (s a).vel j := by
  rw [pass_eq (computeDedt p) dedtView (computeDedt p)
    (fun a l => by simp only [computeDedt, foldl_sub_eq, List.map_map]; rfl) (fun a l => rfl) nbs order hall s]
  have key := sum_antisymm s nbs hs (fun a b => -((s a).mass * massOf (s a) (s b)) *
    ((s a).P / ((s a).rho * (s a).rho) * dot (s b).vel (gradOf p (s a) (s b)) +
      dot (s a).vel (gradOf p (s a) (s b)) * ((s b).P / ((s b).rho * (s b).rho)) +
      1 / 2 * viscOf p (s a) (s b) * (dot (s b).vel (gradOf p (s a) (s b)) + dot (s a).vel (gradOf p (s a) (s b)))))
    (fun a b => by
      rw [gradOf_antisymm p (s a) (s b), viscOf_symm p (s a) (s b), massOf_symm (s a) (s b), dot_neg, dot_neg]; ring)
    (fun a b h => by
      rw [gradOf_zero p (s a) (s b) (by linarith [hh a, hh b]) h]; simp [dot])
  rw [← sub_eq_zero, ← Finset.sum_sub_distrib, ← key]
  refine Finset.sum_congr rfl fun a _ => ?_
  simp only [computeDedt, foldl_sub_eq, List.map_map]
  show _ * (_ + dot (s a).gacc (s a).vel) - _ * dot (s a).gacc (s a).vel = _
  rw [mul_add, add_sub_cancel_right, mul_neg, ← neg_mul, ← List.sum_map_mul_left]
  congr 1
  refine List.map_congr_left fun b _ => ?_
  simp only [Function.comp]
  ring

/-- Internal energy formulation, past the relaxation phase: the rate of change of internal energy plus that of kinetic
energy, `v . dv/dt`, over all particles is the power of the external force. -/
theorem C35_internal_plus_kinetic (p : Params i) (s : Fin n → Particle (i + 1)) (nbs : Fin n → List (Fin n))
    (order order' : List (Fin n)) (hall : VisitsAll order) (hall' : VisitsAll order')
    (hs : SymmetricLists s nbs) (hh : ∀ a, 0 < (s a).h) (_hrho : ∀ a, 0 < (s a).rho)
    (iteration : Int) (hit : p.relaxationSteps ≤ iteration) :
    ∑ a, (s a).mass * ((pass (computeDudt p iteration) nbs order s a).dudt +
        ∑ j, (s a).vel j * (pass (computeAcceleration p) nbs order' s a).acc j) =
      ∑ a, (s a).mass * ∑ j, (s a).vel j * p.external (s a) j := by
  rw [pass_eq (computeAcceleration p) accView (computeAcceleration p)
    (fun a l => by simp only [computeAcceleration, accumulate_eq, List.map_map]; rfl) (fun a l => rfl) nbs order' hall' s,
    pass_eq (computeDudt p iteration) dudtView (computeDudt p iteration)
    (fun a l => by simp only [computeDudt, accumulate_eq, List.map_map]; split <;> rfl)
    (fun a l => by simp only [computeDudt]; split <;> rfl) nbs order hall s]
  have key := sum_antisymm s nbs hs (fun a b => -((s a).mass * massOf (s a) (s b)) *
    ((s a).P / ((s a).rho * (s a).rho) * dot (s b).vel (gradOf p (s a) (s b)) +
      dot (s a).vel (gradOf p (s a) (s b)) * ((s b).P / ((s b).rho * (s b).rho)) +
      1 / 2 * viscOf p (s a) (s b) * (dot (s b).vel (gradOf p (s a) (s b)) + dot (s a).vel (gradOf p (s a) (s b)))))
    (fun a b => by
      rw [gradOf_antisymm p (s a) (s b), viscOf_symm p (s a) (s b), massOf_symm (s a) (s b), dot_neg, dot_neg]; ring)
    (fun a b h => by
      rw [gradOf_zero p (s a) (s b) (by linarith [hh a, hh b]) h]; simp [dot])
  rw [← sub_eq_zero, ← Finset.sum_sub_distrib, ← key]
  refine Finset.sum_congr rfl fun a _ => ?_
  simp only [computeDudt, if_neg (not_lt.mpr hit)]
  show _ * (_ + dot (s a).vel (computeAcceleration p (s a) ((nbs a).map s)).acc) - _ * dot (s a).vel (p.external (s a)) = _
  simp only [computeAcceleration, accumulate_eq, List.map_map, dot_add]
  rw [dot_list_sum, ← List.sum_map_mul_left, ← List.sum_map_mul_left, ← add_assoc, mul_add (s a).mass, add_sub_cancel_right,
    ← List.sum_map_add, ← List.sum_map_add, ← List.sum_map_mul_left]
  congr 1
  refine List.map_congr_left fun b _ => ?_
  simp only [Function.comp, dot_smul, dot_sub]
  ring

/-- Non-vacuity: two particles moving towards each other, neighbours of each other. -/
example : ∃ (s : Fin 2 → Particle 1) (nbs : Fin 2 → List (Fin 2)), SymmetricLists s nbs ∧ (∀ a, 0 < (s a).h) ∧ (∀ a, 0 < (s a).rho) ∧
    (s 0).pos ≠ (s 1).pos := by
  refine ⟨fun a => ⟨0, 1, 2, fun _ => (a : ℕ), fun _ => -(a : ℕ), 0, 0, 0, 0, 1, 1, 1, 1, 1, 1, 0, 0, 0, 0, 0, 0, 0, 0⟩,
    fun _ => [0, 1], ⟨?_, ?_⟩, fun a => by norm_num, fun a => by norm_num, fun h => by simpa using congrFun h 0⟩
  · intro a; fin_cases a <;> simp
  · intro a b _; fin_cases a <;> fin_cases b <;> simp

end FleCSPH

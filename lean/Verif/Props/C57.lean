import Verif.Lemmas.SphSum
/-! C57: relaxation forces. -/
namespace FleCSPH
open Sph Spec Geometry Kernels

variable {n d : Nat}

/-- The drag opposes the motion; what it adds to the derivative of the total energy is its power. -/
theorem C57_drag (beta gamma : ℝ) (hb : 0 ≤ beta) (hg : 0 ≤ gamma) (a : Particle d) :
    (∑ j, a.vel j * ((addDragAcceleration beta gamma a).acc j - a.acc j)) ≤ 0 ∧
    (addDragDedt beta gamma a).dedt - a.dedt = ∑ j, a.vel j * ((addDragAcceleration beta gamma a).acc j - a.acc j) ∧
    ∃ k, 0 ≤ k ∧ ∀ j, (addDragAcceleration beta gamma a).acc j - a.acc j = -k * a.vel j := by
  have hk : 0 ≤ beta + gamma * dot a.vel a.vel := add_nonneg hb (mul_nonneg hg (dot_self_nonneg _))
  have e : ∀ j, (addDragAcceleration beta gamma a).acc j - a.acc j = -(beta + gamma * dot a.vel a.vel) * a.vel j := by
    intro j
    simp only [addDragAcceleration, accelerationDrag, Pi.add_apply, Pi.sub_apply, Pi.zero_apply, Pi.smul_apply, smul_eq_mul]
    ring
  refine ⟨?_, ?_, _, hk, e⟩
  · refine Finset.sum_nonpos fun j _ => ?_
    rw [e j]
    nlinarith [mul_nonneg hk (mul_self_nonneg (a.vel j))]
  · simp only [addDragDedt, add_sub_cancel_left, dot, accelerationDrag]
    refine Finset.sum_congr rfl fun j _ => ?_
    rw [e j]
    simp only [Pi.sub_apply, Pi.zero_apply, Pi.smul_apply, smul_eq_mul, dot]
    ring

/-- In the internal energy formulation the drag takes its power out of the internal energy too, on top of what it takes
out of the kinetic energy: a moving particle cools, where in the total energy formulation its internal energy is untouched. -/
theorem C57_dudt_violated (beta gamma : ℝ) (hb : 0 < beta) (hg : 0 ≤ gamma) (a : Particle d) (hv : a.vel ≠ 0) :
    -- the change of the internal energy rate in the two formulations
    (addDragDudt beta gamma a).dudt - a.dudt < 0 ∧
    ((addDragDedt beta gamma a).dedt - a.dedt) - ∑ j, a.vel j * ((addDragAcceleration beta gamma a).acc j - a.acc j) = 0 := by
  obtain ⟨_, h2, _⟩ := C57_drag beta gamma hb.le hg a
  refine ⟨?_, by rw [h2, sub_self]⟩
  have hpos : 0 < dot a.vel a.vel := by
    obtain ⟨j, hj⟩ := Function.ne_iff.mp hv
    refine Finset.sum_pos' (fun _ _ => mul_self_nonneg _) ⟨j, Finset.mem_univ _, ?_⟩
    exact mul_self_pos.mpr hj
  have e : (addDragDudt beta gamma a).dudt - a.dudt = -(beta + gamma * dot a.vel a.vel) * dot a.vel a.vel := by
    simp only [addDragDudt, add_sub_cancel_left]
    have : accelerationDrag beta gamma a.vel = (-(beta + gamma * dot a.vel a.vel)) • a.vel := by
      simp only [accelerationDrag, zero_sub, neg_smul]
    rw [this, dot_smul]
  rw [e]
  nlinarith [mul_pos hb hpos, mul_nonneg hg (mul_self_nonneg (dot a.vel a.vel))]

private theorem foldl_ite2 {α : Type} {β : Type} [AddCommMonoid β] (c1 c2 : α → Prop) [DecidablePred c1] [DecidablePred c2] (f : α → β) (l : List α) :
    l.foldl (fun s b => if c1 b then s else if c2 b then s else s + f b) 0 =
      (l.map fun b => if c1 b then 0 else if c2 b then 0 else f b).sum := by
  have key : ∀ (l : List α) (z : β), l.foldl (fun s b => if c1 b then s else if c2 b then s else s + f b) z =
      z + (l.map fun b => if c1 b then 0 else if c2 b then 0 else f b).sum := by
    intro l
    induction l with
    | nil => intro z; simp
    | cons a l ih =>
      intro z
      rw [List.foldl_cons, ih, List.map_cons, List.sum_cons, ← add_assoc]
      congr 1
      split_ifs <;> simp
  rw [key, zero_add]

open Classical in
/-- The repulsion exchanges equal and opposite momenta: a pass changes no component of the total of mass times
acceleration, for a radius below 1 (the default is 0.25) and particles at different positions. -/
theorem C57_repulsion_momentum (radius gamma : ℝ) (hr : radius < 1) (s : Fin n → Particle d) (nbs : Fin n → List (Fin n)) (order : List (Fin n))
    (hall : VisitsAll order) (hs : SymmetricLists s nbs) (hh : ∀ a, 0 < (s a).h)
    (_hpos : ∀ a b, (s a).id ≠ (s b).id → (s a).pos ≠ (s b).pos) (j : Fin d) :
    ∑ a, (s a).mass * (pass (addShortRangeRepulsion radius gamma) nbs order s a).acc j = ∑ a, (s a).mass * (s a).acc j := by
  rw [pass_eq (addShortRangeRepulsion radius gamma) (fun b => { b with acc := 0 }) (addShortRangeRepulsion radius gamma)
    (fun a l => by simp only [addShortRangeRepulsion, List.foldl_map]) (fun a l => rfl) nbs order hall s]
  have hm : ∀ a b, magnitude ((s b).pos - (s a).pos) = magnitude ((s a).pos - (s b).pos) := fun a b => by rw [← magnitude_neg, neg_sub]
  have key := sum_antisymm s nbs hs (fun a b => (s a).mass * gamma * (if (s b).id = (s a).id then 0
      else if magnitude ((s a).pos - (s b).pos) > 1 / 2 * ((s a).h + (s b).h) * radius then 0
      else (s b).mass / (magnitude ((s a).pos - (s b).pos) * magnitude ((s a).pos - (s b).pos) * magnitude ((s a).pos - (s b).pos)) *
        ((s a).pos j - (s b).pos j)))
    (fun a b => by
      simp only [hm a b, eq_comm (a := (s a).id) (b := (s b).id), add_comm (s b).h (s a).h]
      split_ifs <;> ring)
    (fun a b h => by
      rw [← magnitude_sub_eq] at h
      have : magnitude ((s a).pos - (s b).pos) > 1 / 2 * ((s a).h + (s b).h) * radius := by
        have h2 : 0 < (s a).h + (s b).h := add_pos (hh a) (hh b)
        have h3 : 1 / 2 * ((s a).h + (s b).h) * radius < ((s a).h + (s b).h) / 2 := by nlinarith
        exact h3.trans_le (not_lt.mp h)
      rw [if_pos this, ite_self, mul_zero])
  rw [← sub_eq_zero, ← Finset.sum_sub_distrib, ← key]
  refine Finset.sum_congr rfl fun a _ => ?_
  simp only [addShortRangeRepulsion, List.foldl_map]
  rw [foldl_ite2]
  simp only [Pi.add_apply, Pi.smul_apply, smul_eq_mul]
  rw [list_sum_apply, mul_add, add_sub_cancel_left, ← mul_assoc, ← List.sum_map_mul_left]
  congr 1
  refine List.map_congr_left fun b _ => ?_
  split_ifs <;> simp

/-- Non-vacuity of `C57_repulsion_momentum`. -/
example : ∃ (s : Fin 2 → Particle 1) (nbs : Fin 2 → List (Fin 2)), SymmetricLists s nbs ∧ (∀ a, 0 < (s a).h) ∧
    (∀ a b, (s a).id ≠ (s b).id → (s a).pos ≠ (s b).pos) ∧ (s 0).id ≠ (s 1).id := by
  refine ⟨fun a => ⟨a, 1, 2, fun _ => (a : ℕ), 0, 0, 0, 0, 0, 1, 1, 1, 1, 1, 1, 0, 0, 0, 0, 0, 0, 0, 0⟩,
    fun _ => [0, 1], ⟨?_, ?_⟩, fun a => by norm_num, ?_, by simp⟩
  · intro a; fin_cases a <;> simp
  · intro a b _; fin_cases a <;> fin_cases b <;> simp
  · intro a b h h2; have := congrFun h2 0; simp at this; exact h (by exact_mod_cast this)

end FleCSPH

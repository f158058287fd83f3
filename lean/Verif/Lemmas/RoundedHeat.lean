import Verif.Lemmas.RoundedForces
/-! Lemmas for C84: the derivative of the internal energy with every operation rounded. -/
namespace FleCSPH.Rounded
open FleCSPH.Spec FleCSPH.Geometry FleCSPH.Kernels FleCSPH.Sph

variable {R : Rounding}

/-- The size of what two particles can exchange. -/
noncomputable def effort {i : Fin 3} (R : Rounding) (p : Params i) (a b : Particle (i + 1)) : ℝ :=
  massOf a b * ((|prho2 R a| + |prho2 R b| + |viscR R p a b|) * ∑ j, (|a.vel j| + |b.vel j|) * |gradR R p a b j|)

/-- What two particles exchange, with the computed pressure terms, viscosity and gradient. -/
noncomputable def heat {i : Fin 3} (R : Rounding) (p : Params i) (a b : Particle (i + 1)) : ℝ :=
  -(massOf a b * ∑ j, (prho2 R a * b.vel j + prho2 R b * a.vel j + 1 / 2 * viscR R p a b * (a.vel j + b.vel j)) * gradR R p a b j)

theorem massOf_nonneg {d : Nat} (a b : Particle d) (hb : 0 ≤ b.mass) : 0 ≤ massOf a b := by
  unfold massOf fac
  split_ifs <;> simp [hb]

theorem massOf_symm {d : Nat} (a b : Particle d) : a.mass * massOf a b = b.mass * massOf b a := by
  by_cases hp : b.pos = a.pos
  · have z1 : massOf a b = 0 := by simp [massOf, fac, hp]
    have z2 : massOf b a = 0 := by simp [massOf, fac, hp]
    rw [z1, z2, mul_zero, mul_zero]
  · have z1 : massOf a b = b.mass := by simp [massOf, fac, hp]
    have z2 : massOf b a = a.mass := by simp [massOf, fac, Ne.symm hp]
    rw [z1, z2, mul_comm]

theorem heat_opposite (hR : Mirrored R) {i : Fin 3} (p : Params i) (a b : Particle (i + 1)) : a.mass * heat R p a b + b.mass * heat R p b a = 0 := by
  unfold heat
  rw [viscR_symm hR, gradR_neg hR, mul_neg, mul_neg, ← mul_assoc, ← mul_assoc, massOf_symm b a, ← neg_add, ← mul_add, ← Finset.sum_add_distrib, Finset.sum_eq_zero, mul_zero, neg_zero]
  intro j _
  simp only [Pi.neg_apply]
  ring

theorem effort_nonneg {i : Fin 3} (p : Params i) (a b : Particle (i + 1)) (hb : 0 ≤ b.mass) : 0 ≤ effort R p a b :=
  mul_nonneg (massOf_nonneg a b hb) (mul_nonneg (by positivity) (Finset.sum_nonneg fun j _ => by positivity))

theorem heat_le {i : Fin 3} (p : Params i) (a b : Particle (i + 1)) (hb : 0 ≤ b.mass) : |heat R p a b| ≤ effort R p a b := by
  unfold heat effort
  rw [abs_neg, abs_mul, abs_of_nonneg (massOf_nonneg a b hb)]
  refine mul_le_mul_of_nonneg_left ?_ (massOf_nonneg a b hb)
  rw [Finset.mul_sum]
  refine (Finset.abs_sum_le_sum_abs _ _).trans (Finset.sum_le_sum fun j _ => ?_)
  rw [abs_mul, ← mul_assoc]
  refine mul_le_mul_of_nonneg_right ?_ (abs_nonneg _)
  have h1 := abs_add_three (prho2 R a * b.vel j) (prho2 R b * a.vel j) (1 / 2 * viscR R p a b * (a.vel j + b.vel j))
  rw [abs_mul, abs_mul, abs_mul, abs_mul, abs_of_pos (by norm_num : (0 : ℝ) < 1 / 2)] at h1
  have h2 := mul_le_mul_of_nonneg_left (abs_add_le (a.vel j) (b.vel j)) (abs_nonneg (viscR R p a b))
  have h3 := mul_nonneg (abs_nonneg (prho2 R a)) (abs_nonneg (a.vel j))
  have h4 := mul_nonneg (abs_nonneg (prho2 R b)) (abs_nonneg (b.vel j))
  have h5 := mul_nonneg (abs_nonneg (viscR R p a b)) (add_nonneg (abs_nonneg (a.vel j)) (abs_nonneg (b.vel j)))
  nlinarith

/-- The product of a computed vector with another. -/
theorem err_rdot_of {d k : Nat} {x v m : Point d} (h : ∀ j, Err R k (x j) (v j) (m j)) (w : Point d) : Err R (k + 1 + d) (∑ j, x j * w j) (rdot R v w) (∑ j, m j * |w j|) := by
  have h := err_foldl (R := R) (fun j => R.fl (v j * w j)) (fun j => x j * w j) (fun j => m j * |w j|) (k + 1) (fun j => ((h j).mul (Err.refl _)).fl) (List.finRange d)
    ((Err.refl 0).mono (show 0 ≤ k + 1 by omega)) le_rfl
  rw [List.length_finRange, abs_zero, zero_add, zero_add, ← List.ofFn_eq_map, ← List.ofFn_eq_map, List.sum_ofFn, List.sum_ofFn] at h
  exact h

theorem err_flow {i : Fin 3} (p : Params i) (a b : Particle (i + 1)) : Err R 6 (massOf a b * ∑ j, (a.vel j - b.vel j) * gradR R p a b j) (flow R p a b) (|massOf a b| * ∑ j, (|a.vel j| + |b.vel j|) * |gradR R p a b j|) := by
  have h := err_rdot_of (R := R) (k := 1) (x := fun j => a.vel j - b.vel j) (v := diff R a.vel b.vel) (m := fun j => |a.vel j| + |b.vel j|) (fun j => ((Err.refl _).sub le_rfl le_rfl (Err.refl _)).fl) (gradR R p a b)
  exact (((Err.refl (massOf a b)).mul h).fl).mono (by omega)

theorem err_push {i : Fin 3} (p : Params i) (a b : Particle (i + 1)) (j : Fin (i + 1)) :
    Err R 4 (-massOf a b * (prho2 R a + prho2 R b + viscR R p a b) * gradR R p a b j) (push R p a b j) (|massOf a b| * (|prho2 R a| + |prho2 R b| + |viscR R p a b|) * |gradR R p a b j|) := by
  have h := (((Err.refl (R := R) (-massOf a b)).mul ((((Err.refl (R := R) (prho2 R a)).add le_rfl le_rfl (Err.refl (prho2 R b))).fl.add (c := 1) le_rfl (by omega) (Err.refl (viscR R p a b))).fl)).fl.mul (Err.refl (gradR R p a b j))).fl
  rw [abs_neg] at h
  exact h

/-- The derivative of the internal energy and the work of the acceleration. -/
theorem err_heat {i : Fin 3} (p : Params i) {iteration : Int} (hit : ¬iteration < p.relaxationSteps) (a : Particle (i + 1)) (nbs : List (Particle (i + 1))) {N : Nat} (hN : nbs.length ≤ N)
    (hm : ∀ b ∈ nbs, 0 ≤ b.mass) :
    Err R (N + 9) ((nbs.map (heat R p a)).sum + ∑ j, a.vel j * p.external a j) ((computeDudtR R p iteration a nbs).dudt + ∑ j, a.vel j * (computeAccelerationR R p a nbs).acc j)
      (2 * (nbs.map (effort R p a)).sum + ∑ j, |a.vel j| * |p.external a j|) := by
  obtain ⟨w, hw⟩ : ∃ w : Particle (i + 1) → ℝ, w = fun b => |massOf a b| * ∑ j, (|a.vel j| + |b.vel j|) * |gradR R p a b j| := ⟨_, rfl⟩
  obtain ⟨x, hx⟩ : ∃ x : Particle (i + 1) → ℝ, x = fun b => massOf a b * ∑ j, (a.vel j - b.vel j) * gradR R p a b j := ⟨_, rfl⟩
  have f1 : ∀ b, Err R 6 (x b) (flow R p a b) (w b) := fun b => by rw [hx, hw]; exact err_flow p a b
  have s1 := err_foldl (fun b => flow R p a b) x w 6 f1 nbs ((Err.refl 0).mono (Nat.zero_le 6)) le_rfl
  have s2 := err_foldl (fun b => R.fl (flow R p a b * viscR R p a b)) (fun b => x b * viscR R p a b) (fun b => w b * |viscR R p a b|) 7 (fun b => ((f1 b).mul (Err.refl (viscR R p a b))).fl) nbs
    ((Err.refl 0).mono (Nat.zero_le 7)) le_rfl
  rw [abs_zero, zero_add, zero_add] at s1 s2
  have d1 := ((((Err.refl (R := R) (prho2 R a)).mul s1).fl.add (c := N + 8) (by omega) (by omega) ((Err.refl (R := R) (1 / 2)).mul s2).fl).fl)
  have a1 : ∀ j, Err R (N + 9) (a.vel j * ((nbs.map fun b => -massOf a b * (prho2 R a + prho2 R b + viscR R p a b) * gradR R p a b j).sum + p.external a j))
      (a.vel j * (computeAccelerationR R p a nbs).acc j) (|a.vel j| * ((nbs.map fun b => |massOf a b| * (|prho2 R a| + |prho2 R b| + |viscR R p a b|) * |gradR R p a b j|).sum + |p.external a j|)) := by
    intro j
    have h1 := err_foldl (fun b => push R p a b j) _ _ 4 (fun b => err_push p a b j) nbs ((Err.refl 0).mono (Nat.zero_le 4)) le_rfl
    rw [abs_zero, zero_add, zero_add] at h1
    exact ((Err.refl (R := R) (a.vel j)).mul ((h1.add (c := N + 4) (by omega) (by omega) (Err.refl (p.external a j))).fl)).mono (by omega)
  have a2 : ∀ (l : List (Fin (i + 1))), Err R (N + 9) ((l.map fun j => a.vel j * ((nbs.map fun b => -massOf a b * (prho2 R a + prho2 R b + viscR R p a b) * gradR R p a b j).sum + p.external a j)).sum)
      ((l.map fun j => a.vel j * (computeAccelerationR R p a nbs).acc j).sum)
      ((l.map fun j => |a.vel j| * ((nbs.map fun b => |massOf a b| * (|prho2 R a| + |prho2 R b| + |viscR R p a b|) * |gradR R p a b j|).sum + |p.external a j|)).sum) := by
    intro l
    induction l with
    | nil => simpa using (Err.refl (R := R) 0).mono (Nat.zero_le (N + 9))
    | cons j l ih => simpa only [List.map_cons, List.sum_cons] using (a1 j).add le_rfl le_rfl ih
  have a3 := a2 (List.finRange (i + 1))
  rw [← List.ofFn_eq_map, ← List.ofFn_eq_map, ← List.ofFn_eq_map, List.sum_ofFn, List.sum_ofFn, List.sum_ofFn] at a3
  have e1 : (computeDudtR R p iteration a nbs).dudt =
      R.fl (R.fl (prho2 R a * nbs.foldl (fun s b => R.fl (s + flow R p a b)) 0) + R.fl (1 / 2 * nbs.foldl (fun s b => R.fl (s + R.fl (flow R p a b * viscR R p a b))) 0)) := by
    rw [computeDudtR, if_neg hit]
  rw [e1]
  have e2 := (d1.mono (show N + 8 + 1 ≤ N + 9 by omega)).add (c := N + 9) le_rfl le_rfl a3
  refine (e2.congr ?_ rfl).size ?_
  · clear * - hx
    have : ∑ j, a.vel j * ((nbs.map fun b => -massOf a b * (prho2 R a + prho2 R b + viscR R p a b) * gradR R p a b j).sum + p.external a j) =
        ∑ j, a.vel j * (nbs.map fun b => -massOf a b * (prho2 R a + prho2 R b + viscR R p a b) * gradR R p a b j).sum + ∑ j, a.vel j * p.external a j := by
      rw [← Finset.sum_add_distrib]; exact Finset.sum_congr rfl fun j _ => mul_add _ _ _
    rw [this, ← add_assoc]
    clear this
    congr 1
    induction nbs with
    | nil => simp
    | cons b l ih =>
      have hs : ∀ t S : Point (i + 1), ∑ j, a.vel j * (t j + S j) = ∑ j, a.vel j * t j + ∑ j, a.vel j * S j := fun t S => by
        rw [← Finset.sum_add_distrib]; exact Finset.sum_congr rfl fun j _ => mul_add _ _ _
      simp only [List.map_cons, List.sum_cons]
      rw [hs, ← ih]
      have : heat R p a b = prho2 R a * x b + 1 / 2 * (x b * viscR R p a b) + ∑ j, a.vel j * (-massOf a b * (prho2 R a + prho2 R b + viscR R p a b) * gradR R p a b j) := by
        rw [heat, hx]
        dsimp only
        rw [← mul_neg, ← Finset.sum_neg_distrib, Finset.mul_sum, Finset.mul_sum, Finset.mul_sum, Finset.sum_mul, Finset.mul_sum, ← Finset.sum_add_distrib, ← Finset.sum_add_distrib]
        exact Finset.sum_congr rfl fun j _ => by ring
      linarith
  · clear * - hw hm
    have : ∑ j, |a.vel j| * ((nbs.map fun b => |massOf a b| * (|prho2 R a| + |prho2 R b| + |viscR R p a b|) * |gradR R p a b j|).sum + |p.external a j|) =
        ∑ j, |a.vel j| * (nbs.map fun b => |massOf a b| * (|prho2 R a| + |prho2 R b| + |viscR R p a b|) * |gradR R p a b j|).sum + ∑ j, |a.vel j| * |p.external a j| := by
      rw [← Finset.sum_add_distrib]; exact Finset.sum_congr rfl fun j _ => mul_add _ _ _
    rw [this, ← add_assoc]
    clear this
    refine add_le_add_left ?_ _
    induction nbs with
    | nil => simp
    | cons b l ih =>
      have ih := ih fun c hc => hm c (List.mem_cons_of_mem _ hc)
      have hs : ∀ t S : Point (i + 1), ∑ j, |a.vel j| * (t j + S j) = ∑ j, |a.vel j| * t j + ∑ j, |a.vel j| * S j := fun t S => by
        rw [← Finset.sum_add_distrib]; exact Finset.sum_congr rfl fun j _ => mul_add _ _ _
      simp only [List.map_cons, List.sum_cons]
      rw [hs]
      have hb := massOf_nonneg a b (hm b List.mem_cons_self)
      have : |prho2 R a| * w b + |(1 : ℝ) / 2| * (w b * |viscR R p a b|) + ∑ j, |a.vel j| * (|massOf a b| * (|prho2 R a| + |prho2 R b| + |viscR R p a b|) * |gradR R p a b j|) ≤ 2 * effort R p a b := by
        rw [effort, hw]
        dsimp only
        rw [abs_of_nonneg hb, abs_of_pos (by norm_num : (0 : ℝ) < 1 / 2), Finset.mul_sum, Finset.mul_sum, Finset.sum_mul, Finset.mul_sum, Finset.mul_sum, Finset.mul_sum, Finset.mul_sum, ← Finset.sum_add_distrib,
          ← Finset.sum_add_distrib]
        refine Finset.sum_le_sum fun j _ => ?_
        have v0 := abs_nonneg (viscR R p a b)
        have q0 := abs_nonneg (prho2 R b)
        have p0 := abs_nonneg (prho2 R a)
        have x0 := mul_nonneg hb (mul_nonneg (abs_nonneg (a.vel j)) (abs_nonneg (gradR R p a b j)))
        have y0 := mul_nonneg hb (mul_nonneg (abs_nonneg (b.vel j)) (abs_nonneg (gradR R p a b j)))
        have z1 := mul_nonneg v0 x0
        have z2 := mul_nonneg v0 y0
        have z3 := mul_nonneg q0 x0
        have z4 := mul_nonneg q0 y0
        have z5 := mul_nonneg p0 y0
        nlinarith
      linarith
end FleCSPH.Rounded

import Verif.Lemmas.RoundedSlope
import Verif.Lemmas.RoundedHeat
/-! Lemmas for C85: rounding errors of viscosity, accelerations and energy derivatives. -/
namespace FleCSPH.Rounded
open FleCSPH.Spec FleCSPH.Geometry FleCSPH.Kernels FleCSPH.Sph

variable {R : Rounding}

/-- The product of two computed vectors. -/
theorem err_rdot_both {d a b : Nat} {x v m y w n : Point d} (hv : ∀ j, Err R a (x j) (v j) (m j)) (hw : ∀ j, Err R b (y j) (w j) (n j)) :
    Err R (a + b + 1 + d) (dot x y) (rdot R v w) (∑ j, m j * n j) := by
  have h := err_foldl (R := R) (fun j => R.fl (v j * w j)) (fun j => x j * y j) (fun j => m j * n j) (a + b + 1) (fun j => ((hv j).mul (hw j)).fl) (List.finRange d)
    ((Err.refl 0).mono (show 0 ≤ a + b + 1 by omega)) le_rfl
  rw [List.length_finRange, abs_zero, zero_add, zero_add, ← List.ofFn_eq_map, ← List.ofFn_eq_map, List.sum_ofFn, List.sum_ofFn] at h
  exact h

theorem err_mean (x y : ℝ) : Err R 2 (1 / 2 * (x + y)) (mean R x y) (1 / 2 * (|x| + |y|)) := by
  have h := ((Err.refl (R := R) (1 / 2)).mul (((Err.refl x).add le_rfl le_rfl (Err.refl y)).fl)).fl
  rw [abs_of_pos (by norm_num : (0 : ℝ) < 1 / 2)] at h
  exact h

theorem err_prho2 (hu : 100 * R.u ≤ 1) {d : Nat} (a : Particle d) (ha : 0 < a.rho) : Err R 3 (a.P / (a.rho * a.rho)) (prho2 R a) |a.P / (a.rho * a.rho)| := by
  have h0 := R.nonneg
  have hu1 : R.u < 1 := by linarith
  have h1 := ((nn_fl (R := R) hu1.le (mul_pos ha ha).le).inv hu1 (mul_pos ha ha)).2.to_err (by push_cast; linarith) hu1.le
  rw [prho2, div_eq_mul_inv, div_eq_mul_inv, abs_mul, abs_of_pos (inv_pos.mpr (mul_pos ha ha))]
  exact ((Err.refl a.P).mul h1).fl

theorem tiny_pos' : 0 < tiny := by unfold tiny; positivity

theorem dot_self_nonneg {d : Nat} (x : Point d) : 0 ≤ dot x x := Finset.sum_nonneg fun _ _ => mul_self_nonneg _

theorem err_mu (hu : 100 * R.u ≤ 1) {i : Fin 3} {eps h h' : ℝ} (heps : 0 ≤ eps) (hh : 0 < h) (hn : NN R 2 h h') {x p v w : Point (i + 1)} (hp : ∀ j, Err R 1 (x j) (p j) |x j|) (hv : ∀ j, Err R 1 (v j) (w j) |v j|) :
    Err R 64 (mu eps h v x) (muR R eps h' w p) (muSize eps h v x) := by
  have h0 := R.nonneg
  have hu1 : R.u < 1 := by linarith
  have hd : (i : ℕ) + 1 ≤ 3 := by omega
  have hvp := (err_rdot_both hv hp).mono (show 1 + 1 + 1 + ((i : ℕ) + 1) ≤ 6 by omega)
  have hpp := (err_rdot_both hp hp).mono (show 1 + 1 + 1 + ((i : ℕ) + 1) ≤ 6 by omega)
  have hnum := ((hn.to_err (by push_cast; linarith) hu1.le).mul hvp).fl
  have hsq : NN R 24 (dot x x) (rdot R p p) := by
    refine NN.of_err (k := 12) (by push_cast; linarith) hu1.le (dot_self_nonneg x) ?_
    have g := growth_le (R := R) 6 (by push_cast; linarith)
    push_cast at g ⊢
    have e : ∑ j, |x j| * |x j| = dot x x := Finset.sum_congr rfl fun j _ => abs_mul_abs_self _
    have := hpp.2
    rw [e] at this
    exact this.trans (mul_le_mul_of_nonneg_right (by linarith) (dot_self_nonneg x))
  have hden : NN R 26 (dot x x + eps * h * h + tiny) (R.fl (R.fl (rdot R p p + R.fl (R.fl (eps * h') * h')) + tinyR R)) :=
    ((((hsq.add hu1.le le_rfl (by omega) (((((NN.refl heps).mul hu1.le hn).fl hu1.le).mul hu1.le hn).fl hu1.le)).fl hu1.le).add hu1.le le_rfl (by omega) (nn_fl hu1.le tiny_pos'.le)).fl hu1.le)
  have hD : 0 < dot x x + eps * h * h + tiny := by
    have := dot_self_nonneg x
    have := tiny_pos'
    positivity
  obtain ⟨hD', hinv⟩ := hden.inv hu1 hD
  have hfrac := (hnum.mul (hinv.to_err (by push_cast; linarith) hu1.le)).fl
  have hfrac := (hfrac.mono (show 2 * 2 + 6 + 1 + 2 * 26 + 1 ≤ 64 by omega))
  obtain ⟨D, hDd⟩ : ∃ D, D = dot x x + eps * h * h + tiny := ⟨_, rfl⟩
  obtain ⟨D', hDd'⟩ : ∃ D', D' = R.fl (R.fl (rdot R p p + R.fl (R.fl (eps * h') * h')) + tinyR R) := ⟨_, rfl⟩
  rw [← hDd, ← hDd'] at hfrac
  rw [← hDd] at hD
  rw [← hDd'] at hD'
  have e1 : mu eps h v x = min (h * dot v x * D⁻¹) 0 := by
    rw [mu, ← hDd, div_eq_mul_inv]
    by_cases hs : dot v x < 0
    · rw [fac, if_pos hs, mul_one, min_eq_left]
      exact mul_nonpos_of_nonpos_of_nonneg (mul_nonpos_of_nonneg_of_nonpos hh.le hs.le) (inv_pos.mpr hD).le
    · rw [fac, if_neg hs, mul_zero, min_eq_right]
      exact mul_nonneg (mul_nonneg hh.le (not_lt.mp hs)) (inv_pos.mpr hD).le
  have e2 : muR R eps h' w p = min (R.fl (R.fl (h' * rdot R w p) * D'⁻¹)) 0 := by
    rw [muR, ← hDd', div_eq_mul_inv]
    by_cases hs : rdot R w p < 0
    · rw [fac, if_pos hs, mul_one, min_eq_left]
      exact fl_nonpos hu1.le (mul_nonpos_of_nonpos_of_nonneg (fl_nonpos hu1.le (mul_nonpos_of_nonneg_of_nonpos hn.2.1 hs.le)) (inv_pos.mpr hD').le)
    · rw [fac, if_neg hs, mul_zero, min_eq_right]
      exact fl_nonneg hu1.le (mul_nonneg (fl_nonneg hu1.le (mul_nonneg hn.2.1 (not_lt.mp hs))) (inv_pos.mpr hD').le)
  have e3 : muSize eps h v x = h * (∑ j, |v j| * |x j|) * D⁻¹ := by rw [muSize, hDd]
  rw [e1, e2, e3]
  refine ⟨le_trans ?_ hfrac.1, le_trans ?_ hfrac.2⟩
  · have := abs_min_sub_min_le_max (h * dot v x * D⁻¹) 0 0 0
    simpa only [min_self, sub_zero, abs_zero, max_eq_left (abs_nonneg (h * dot v x * D⁻¹))] using this
  · have := abs_min_sub_min_le_max (R.fl (R.fl (h' * rdot R w p) * D'⁻¹)) 0 (h * dot v x * D⁻¹) 0
    simpa only [sub_zero, abs_zero, max_eq_left (abs_nonneg (R.fl (R.fl (h' * rdot R w p) * D'⁻¹) - h * dot v x * D⁻¹))] using this

/-- No division by zero, for two particles. -/
structure Proper {d : Nat} (a b : Particle d) : Prop where
  ha : 0 < a.h
  hb : 0 < b.h
  ra : 0 < a.rho
  rb : 0 < b.rho

section
variable (hu : 100 * R.u ≤ 1) {i : Fin 3} (p : Params i) (heps : 0 ≤ p.eps) (a b : Particle (i + 1)) (hab : Proper a b)
include hu heps hab

theorem err_visc : Err R 139 (viscOf p a b) (viscR R p a b) (viscSize p a b) := by
  have h0 := R.nonneg
  have hu1 : R.u < 1 := by linarith
  have hm := err_mu hu (i := i) (x := a.pos - b.pos) (p := diff R a.pos b.pos) (v := a.vhalf - b.vhalf) (w := diff R a.vhalf b.vhalf) heps (show 0 < 1 / 2 * (a.h + b.h) by linarith [hab.ha, hab.hb])
    (nn_mean_h hu1.le hab.ha.le hab.hb.le) (fun j => (Err.refl _).fl) (fun j => (Err.refl _).fl)
  have hr : 0 < 1 / 2 * (a.rho + b.rho) := by linarith [hab.ra, hab.rb]
  have hrho := ((nn_mean_h (R := R) hu1.le hab.ra.le hab.rb.le).inv hu1 hr).2.to_err (by push_cast; linarith) hu1.le
  unfold viscOf viscR viscSize artificialViscosity artificialViscosityR
  cases p.visc <;> dsimp only
  · have h := ((((((((Err.refl (R := R) p.alpha).neg.mul (err_mean (R := R) a.cs b.cs)).fl).add (c := 65) (by omega) (by omega) (((Err.refl (R := R) p.beta).mul hm).fl)).fl).mul hm).fl).mul hrho).fl
    simp only [div_eq_mul_inv] at h ⊢
    exact h.mono (show 65 + 1 + 64 + 1 + 2 * 2 + 1 ≤ 139 by omega)
  · have h := ((((((err_mean (R := R) a.alpha b.alpha).neg.mul (((err_mean (R := R) a.cs b.cs).sub (c := 65) (by omega) le_rfl (((Err.refl (R := R) 2).mul hm).fl)).fl)).fl).mul hm).fl).mul hrho).fl
    rw [abs_of_pos (by norm_num : (0 : ℝ) < 2)] at h
    simp only [div_eq_mul_inv] at h ⊢
    exact h.mono (show 2 + (65 + 1) + 1 + 64 + 1 + 2 * 2 + 1 ≤ 139 by omega)

variable (hκ : Poly p.kernel)
include hκ

/-- The error of a contribution to the acceleration. -/
theorem err_push_exact (j : Fin (i + 1)) :
    Err R 514 (-massOf a b * (a.P / (a.rho * a.rho) + b.P / (b.rho * b.rho) + viscOf p a b) * gradOf p a b j) (push R p a b j)
      (|massOf a b| * stress p a b * steepest p.kernel i (1 / 2 * (a.h + b.h))) := by
  have hv := err_visc hu p heps a b hab
  have h := ((((Err.refl (R := R) (massOf a b)).neg.mul (((((err_prho2 hu a hab.ra).add (c := 3) le_rfl le_rfl (err_prho2 hu b hab.rb)).fl).add (c := 139) (by omega) le_rfl hv).fl)).fl).mul (err_gradR hu p hκ a b hab.ha hab.hb j)).fl
  exact h.mono (by omega)

omit heps in
/-- The error of the product of a velocity with the gradient. -/
theorem err_rate (v : Point (i + 1)) : Err R 376 (dot v (gradOf p a b)) (rdot R v (gradR R p a b)) ((∑ j, |v j|) * steepest p.kernel i (1 / 2 * (a.h + b.h))) := by
  have h := err_rdot_both (R := R) (fun j => Err.refl (v j)) (fun j => err_gradR hu p hκ a b hab.ha hab.hb j)
  rw [← Finset.sum_mul] at h
  exact h.mono (by omega)

/-- What the neighbour takes from the energy. -/
noncomputable def workOf {i : Fin 3} (p : Params i) (a b : Particle (i + 1)) : ℝ :=
  massOf a b * (a.P / (a.rho * a.rho) * dot b.vel (gradOf p a b) + dot a.vel (gradOf p a b) * (b.P / (b.rho * b.rho)) + 1 / 2 * viscOf p a b * (dot b.vel (gradOf p a b) + dot a.vel (gradOf p a b)))

omit hu heps hab hκ in
theorem viscSize_nonneg (heps : 0 ≤ p.eps) (hab : Proper a b) : 0 ≤ viscSize p a b := by
  have hM : 0 ≤ muSize p.eps (1 / 2 * (a.h + b.h)) (a.vhalf - b.vhalf) (a.pos - b.pos) := by
    have h1 := dot_self_nonneg (a.pos - b.pos)
    have h2 := tiny_pos'
    have h3 := hab.ha
    have h4 := hab.hb
    unfold muSize
    exact mul_nonneg (mul_nonneg (by positivity) (Finset.sum_nonneg fun _ _ => by positivity)) (by positivity)
  have h5 := hab.ra
  have h6 := hab.rb
  unfold viscSize
  dsimp only
  split <;> positivity

theorem err_work : Err R 520 (workOf p a b) (work R p a b) (|massOf a b| * (stress p a b * ((∑ j, (|a.vel j| + |b.vel j|)) * steepest p.kernel i (1 / 2 * (a.h + b.h))))) := by
  have hv := err_visc hu p heps a b hab
  have ra := err_rate hu p a b hab hκ a.vel
  have rb := err_rate hu p a b hab hκ b.vel
  have pa := err_prho2 (R := R) hu a hab.ra
  have pb := err_prho2 (R := R) hu b hab.rb
  have h := ((Err.refl (R := R) (massOf a b)).mul ((((((pa.mul rb).fl).add (c := 380) (by omega) (by omega) ((ra.mul pb).fl)).fl).add (c := 518) (by omega) (by omega)
    (((((Err.refl (R := R) (1 / 2)).mul hv).fl).mul ((rb.add le_rfl le_rfl ra).fl)).fl)).fl)).fl
  refine (h.mono (by omega)).size ?_
  refine mul_le_mul_of_nonneg_left ?_ (abs_nonneg _)
  have hs := (steepest_pos hκ i (show 0 < 1 / 2 * (a.h + b.h) by linarith [hab.ha, hab.hb])).le
  have hV := viscSize_nonneg p a b heps hab
  have va : 0 ≤ (∑ j, |a.vel j|) * steepest p.kernel i (1 / 2 * (a.h + b.h)) := mul_nonneg (Finset.sum_nonneg fun j _ => abs_nonneg _) hs
  have vb : 0 ≤ (∑ j, |b.vel j|) * steepest p.kernel i (1 / 2 * (a.h + b.h)) := mul_nonneg (Finset.sum_nonneg fun j _ => abs_nonneg _) hs
  rw [Finset.sum_add_distrib, add_mul, abs_of_pos (by norm_num : (0 : ℝ) < 1 / 2), stress]
  have x1 := mul_nonneg (abs_nonneg (a.P / (a.rho * a.rho))) va
  have x2 := mul_nonneg (abs_nonneg (b.P / (b.rho * b.rho))) vb
  have x3 := mul_nonneg hV va
  have x4 := mul_nonneg hV vb
  nlinarith

omit heps in
/-- What the neighbour adds to the compression. -/
theorem err_flow_exact : Err R 378 (massOf a b * dot (a.vel - b.vel) (gradOf p a b)) (flow R p a b) (|massOf a b| * ((∑ j, (|a.vel j| + |b.vel j|)) * steepest p.kernel i (1 / 2 * (a.h + b.h)))) := by
  have h := err_rdot_both (R := R) (x := a.vel - b.vel) (v := diff R a.vel b.vel) (m := fun j => |a.vel j| + |b.vel j|) (fun j => ((Err.refl (a.vel j)).sub le_rfl le_rfl (Err.refl (b.vel j))).fl)
    (fun j => err_gradR hu p hκ a b hab.ha hab.hb j)
  rw [← Finset.sum_mul] at h
  exact (((Err.refl (R := R) (massOf a b)).mul h).fl).mono (by omega)
end

theorem err_foldl_mem {ι : Type} (f x m : ι → ℝ) (k : Nat) (l : List ι) (hf : ∀ i ∈ l, Err R k (x i) (f i) (m i)) {a : Nat} {X Y M : ℝ} (h : Err R a X Y M) (hk : k ≤ a) :
    Err R (a + l.length) (X + (l.map x).sum) (l.foldl (fun s i => R.fl (s + f i)) Y) (M + (l.map m).sum) := by
  induction l generalizing a X Y M with
  | nil => simpa using h
  | cons i l ih =>
    have h1 := (h.add le_rfl hk (hf i (by simp))).fl
    have := ih (fun i hi => hf i (by simp [hi])) h1 (by omega)
    rw [List.foldl_cons, List.map_cons, List.map_cons, List.sum_cons, List.sum_cons, List.length_cons, ← add_assoc X, ← add_assoc M, show a + (l.length + 1) = a + 1 + l.length by omega]
    exact this

theorem massOf_abs {d : Nat} (a b : Particle d) : |massOf a b| ≤ |b.mass| := by
  unfold massOf fac
  split_ifs <;> simp

section
variable {i : Fin 3} (p : Params i) (a : Particle (i + 1))

/-- What the neighbour adds to the acceleration, in exact arithmetic. -/
noncomputable def pushOf (b : Particle (i + 1)) : Point (i + 1) := (-massOf a b * (a.P / (a.rho * a.rho) + b.P / (b.rho * b.rho) + viscOf p a b)) • gradOf p a b

theorem acceleration_exact (nbs : List (Particle (i + 1))) (j : Fin (i + 1)) : (computeAcceleration p a nbs).acc j = (nbs.map fun b => pushOf p a b j).sum + p.external a j := by
  simp only [computeAcceleration, accumulate_eq, Pi.add_apply]
  congr 1
  induction nbs with
  | nil => rfl
  | cons b l ih => simp only [List.map_cons, List.sum_cons, Pi.add_apply, ih]; rfl

theorem dudt_exact {iteration : Int} (hit : ¬iteration < p.relaxationSteps) (nbs : List (Particle (i + 1))) : (computeDudt p iteration a nbs).dudt =
    a.P / (a.rho * a.rho) * (nbs.map fun b => massOf a b * dot (a.vel - b.vel) (gradOf p a b)).sum + 1 / 2 * (nbs.map fun b => massOf a b * dot (a.vel - b.vel) (gradOf p a b) * viscOf p a b).sum := by
  simp only [computeDudt, if_neg hit, accumulate_eq]

theorem dedt_exact (nbs : List (Particle (i + 1))) : (computeDedt p a nbs).dedt = (nbs.map fun b => -workOf p a b).sum + dot a.gacc a.vel := by
  have : ∀ (l : List (Particle (i + 1))) (z : ℝ), l.foldl (fun s b => s - workOf p a b) z = z + (l.map fun b => -workOf p a b).sum := by
    intro l
    induction l with
    | nil => simp
    | cons b l ih => intro z; rw [List.foldl_cons, ih, List.map_cons, List.sum_cons]; ring
  have h := this nbs 0
  rw [zero_add] at h
  rw [← h]
  rfl
end

theorem strength_nonneg {i : Fin 3} (p : Params i) (heps : 0 ≤ p.eps) (hκ : Poly p.kernel) (a b : Particle (i + 1)) (hab : Proper a b) : 0 ≤ strength p a b := by
  have hs := (steepest_pos hκ i (show 0 < 1 / 2 * (a.h + b.h) by linarith [hab.ha, hab.hb])).le
  have hV := viscSize_nonneg p a b heps hab
  unfold strength stress
  positivity

section
variable (hu : 100 * R.u ≤ 1) {i : Fin 3} (p : Params i) (heps : 0 ≤ p.eps) (hκ : Poly p.kernel) (a : Particle (i + 1))
include hu heps hκ

theorem err_push_strength (b : Particle (i + 1)) (hab : Proper a b) (j : Fin (i + 1)) : Err R 514 (pushOf p a b j) (push R p a b j) (strength p a b) := by
  have hs := (steepest_pos hκ i (show 0 < 1 / 2 * (a.h + b.h) by linarith [hab.ha, hab.hb])).le
  have hV := viscSize_nonneg p a b heps hab
  refine (err_push_exact hu p heps a b hab hκ j).size ?_
  unfold strength
  refine mul_le_mul_of_nonneg_right (mul_le_mul_of_nonneg_right (massOf_abs a b) ?_) hs
  unfold stress
  positivity

theorem err_acceleration {N : Nat} (nbs : List (Particle (i + 1))) (hlen : nbs.length ≤ N) (hab : ∀ b ∈ nbs, Proper a b) (j : Fin (i + 1)) :
    Err R (N + 515) ((computeAcceleration p a nbs).acc j) ((computeAccelerationR R p a nbs).acc j) ((nbs.map fun b => strength p a b).sum + |p.external a j|) := by
  have h := err_foldl_mem (R := R) (fun b => push R p a b j) (fun b => pushOf p a b j) (fun b => strength p a b) 514 nbs (fun b hb => err_push_strength hu p heps hκ a b (hab b hb) j)
    ((Err.refl 0).mono (Nat.zero_le 514)) le_rfl
  rw [abs_zero, zero_add, zero_add] at h
  rw [acceleration_exact]
  exact ((h.add (c := 514 + nbs.length) le_rfl (by omega) (Err.refl (p.external a j))).fl).mono (by omega)

theorem err_dedt {N : Nat} (nbs : List (Particle (i + 1))) (hlen : nbs.length ≤ N) (hab : ∀ b ∈ nbs, Proper a b) :
    Err R (N + 521) (computeDedt p a nbs).dedt (computeDedtR R p a nbs).dedt ((nbs.map fun b => power p a b).sum + ∑ j, |a.gacc j| * |a.vel j|) := by
  have hf : ∀ b ∈ nbs, Err R 520 (-workOf p a b) (-work R p a b) (power p a b) := by
    intro b hb
    have hs := (steepest_pos hκ i (show 0 < 1 / 2 * (a.h + b.h) by linarith [(hab b hb).ha, (hab b hb).hb])).le
    have hV := viscSize_nonneg p a b heps (hab b hb)
    refine ((err_work hu p heps a b (hab b hb) hκ).neg).size ?_
    rw [power, strength, mul_assoc (|b.mass|), mul_assoc (|b.mass|), mul_assoc (stress p a b), mul_comm (steepest p.kernel i _)]
    refine mul_le_mul_of_nonneg_right (massOf_abs a b) ?_
    have : 0 ≤ stress p a b := by unfold stress; positivity
    exact mul_nonneg this (mul_nonneg (Finset.sum_nonneg fun j _ => by positivity) hs)
  have h := err_foldl_mem (R := R) (fun b => -work R p a b) (fun b => -workOf p a b) (fun b => power p a b) 520 nbs hf ((Err.refl 0).mono (Nat.zero_le 520)) le_rfl
  rw [abs_zero, zero_add, zero_add] at h
  have e : (computeDedtR R p a nbs).dedt = R.fl (nbs.foldl (fun s b => R.fl (s + -work R p a b)) 0 + rdot R a.gacc a.vel) := by
    simp only [computeDedtR, sub_eq_add_neg]
  rw [dedt_exact, e]
  exact ((h.add (c := 520 + nbs.length) le_rfl (by omega) ((err_rdot (R := R) a.gacc a.vel).mono (show (i : ℕ) + 1 + 1 ≤ 4 by omega))).fl).mono (by omega)

theorem err_dudt {iteration : Int} {N : Nat} (nbs : List (Particle (i + 1))) (ha : 0 < a.rho) (hlen : nbs.length ≤ N) (hab : ∀ b ∈ nbs, Proper a b) :
    Err R (N + 520) (computeDudt p iteration a nbs).dudt (computeDudtR R p iteration a nbs).dudt (nbs.map fun b => power p a b).sum := by
  have hpow0 : ∀ b ∈ nbs, 0 ≤ power p a b := fun b hb => mul_nonneg (strength_nonneg p heps hκ a b (hab b hb)) (Finset.sum_nonneg fun j _ => by positivity)
  by_cases hit : iteration < p.relaxationSteps
  · have e1 : (computeDudt p iteration a nbs).dudt = 0 := by simp only [computeDudt, if_pos hit]
    have e2 : (computeDudtR R p iteration a nbs).dudt = 0 := by simp only [computeDudtR, if_pos hit]
    rw [e1, e2]
    exact ((Err.refl 0).mono (Nat.zero_le _)).size (by rw [abs_zero]; exact List.sum_nonneg (by simpa using hpow0))
  obtain ⟨W, hW⟩ : ∃ W : Particle (i + 1) → ℝ, W = fun b => |massOf a b| * ((∑ j, (|a.vel j| + |b.vel j|)) * steepest p.kernel i (1 / 2 * (a.h + b.h))) := ⟨_, rfl⟩
  have hfl : ∀ b ∈ nbs, Err R 378 (massOf a b * dot (a.vel - b.vel) (gradOf p a b)) (flow R p a b) (W b) := by
    intro b hb
    rw [hW]
    exact err_flow_exact hu p a b (hab b hb) hκ
  have h1 := err_foldl_mem (R := R) (fun b => flow R p a b) (fun b => massOf a b * dot (a.vel - b.vel) (gradOf p a b)) W 378 nbs hfl ((Err.refl 0).mono (Nat.zero_le 378)) le_rfl
  have h2 := err_foldl_mem (R := R) (fun b => R.fl (flow R p a b * viscR R p a b)) (fun b => massOf a b * dot (a.vel - b.vel) (gradOf p a b) * viscOf p a b) (fun b => W b * viscSize p a b) 518 nbs
    (fun b hb => ((hfl b hb).mul (err_visc hu p heps a b (hab b hb))).fl) ((Err.refl 0).mono (Nat.zero_le 518)) le_rfl
  rw [abs_zero, zero_add, zero_add] at h1 h2
  have h3 := (((err_prho2 hu a ha).mul h1).fl.add (c := 519 + nbs.length) (by omega) (by omega) ((((Err.refl (R := R) (1 / 2)).mul h2).fl))).fl
  have e2 : (computeDudtR R p iteration a nbs).dudt = R.fl (R.fl (prho2 R a * nbs.foldl (fun s b => R.fl (s + flow R p a b)) 0) + R.fl (1 / 2 * nbs.foldl (fun s b => R.fl (s + R.fl (flow R p a b * viscR R p a b))) 0)) := by
    simp only [computeDudtR, if_neg hit]
  rw [dudt_exact p a hit, e2]
  refine (h3.mono (by omega)).size ?_
  rw [abs_of_pos (by norm_num : (0 : ℝ) < 1 / 2), ← List.sum_map_mul_left, ← List.sum_map_mul_left, ← List.sum_map_add]
  refine List.sum_le_sum fun b hb => ?_
  have hs := (steepest_pos hκ i (show 0 < 1 / 2 * (a.h + b.h) by linarith [(hab b hb).ha, (hab b hb).hb])).le
  have hV := viscSize_nonneg p a b heps (hab b hb)
  have hS : 0 ≤ ∑ j, (|a.vel j| + |b.vel j|) := Finset.sum_nonneg fun j _ => by positivity
  have w0 : 0 ≤ W b := by rw [hW]; positivity
  have w1 : W b ≤ |b.mass| * ((∑ j, (|a.vel j| + |b.vel j|)) * steepest p.kernel i (1 / 2 * (a.h + b.h))) := by
    rw [hW]; exact mul_le_mul_of_nonneg_right (massOf_abs a b) (by positivity)
  have s0 : 0 ≤ stress p a b := by unfold stress; positivity
  calc |a.P / (a.rho * a.rho)| * W b + 1 / 2 * (W b * viscSize p a b) ≤ stress p a b * W b := by
        unfold stress
        have := mul_nonneg (abs_nonneg (b.P / (b.rho * b.rho))) w0
        nlinarith [mul_nonneg hV w0]
    _ ≤ stress p a b * (|b.mass| * ((∑ j, (|a.vel j| + |b.vel j|)) * steepest p.kernel i (1 / 2 * (a.h + b.h)))) := mul_le_mul_of_nonneg_left w1 s0
    _ = power p a b := by rw [power, strength]; ring

end

/-! ### The edge -/

theorem edge_le {κ : Kernel} (hκ : Poly κ) : bend κ * scale κ ≤ 10 * (steep κ : ℝ) := by
  cases hκ <;> norm_num [bend, steep, scale]

/-- Near the edge the gradient is small. -/
theorem gradOf_edge {i : Fin 3} (p : Params i) (hκ : Poly p.kernel) (a b : Particle (i + 1)) (ha : 0 < a.h) (hb : 0 < b.h) {τ : ℝ} (h0 : 0 ≤ τ)
    (hd : (1 - τ) * (1 / 2 * (a.h + b.h)) ≤ Kernels.magnitude (a.pos - b.pos)) (j : Fin (i + 1)) : |gradOf p a b j| ≤ 10 * τ * steepest p.kernel i (1 / 2 * (a.h + b.h)) := by
  obtain ⟨r, hrd⟩ : ∃ r, r = Kernels.magnitude (a.pos - b.pos) := ⟨_, rfl⟩
  obtain ⟨h, hhd⟩ : ∃ h, h = 1 / 2 * (a.h + b.h) := ⟨_, rfl⟩
  obtain ⟨F, hF⟩ : ∃ F, F = scale p.kernel * Kernels.sigma p.kernel i / h ^ (i + 2 : ℕ) := ⟨_, rfl⟩
  have hh : 0 < h := by linarith
  have hw : 0 < scale p.kernel := scale_pos
  have hsig := sigma_pos hκ i
  have hF0 : 0 < F := by rw [hF]; positivity
  have eg : gradOf p a b j = (a.pos - b.pos) j * (F * dprof p.kernel i (scale p.kernel * r / h)) * (r + tiny)⁻¹ := by
    rw [gradOf, kernelGradient, ← hhd, slope_eq hκ i _ hh, ← hrd, hF, div_eq_mul_inv]
    congr 2
    rw [pow_succ h (i + 1)]
    field_simp
  have r0 : 0 ≤ r := by rw [hrd]; exact Real.sqrt_nonneg _
  have hT : (0 : ℝ) < r + tiny := add_pos_of_nonneg_of_pos r0 tiny_pos'
  have hq : |(a.pos - b.pos) j| * (r + tiny)⁻¹ ≤ 1 := by
    rw [← div_eq_mul_inv, div_le_one hT, hrd]
    have : |(a.pos - b.pos) j| ≤ Kernels.magnitude (a.pos - b.pos) := by
      unfold Kernels.magnitude
      apply Real.abs_le_sqrt
      rw [sq]
      exact Finset.single_le_sum (f := fun l => (a.pos - b.pos) l * (a.pos - b.pos) l) (fun l _ => mul_self_nonneg _) (Finset.mem_univ j)
    linarith [tiny_pos']
  rw [← hrd, ← hhd] at hd
  have hst : steepest p.kernel i (1 / 2 * (a.h + b.h)) = F * steep p.kernel := by rw [← hhd, hF]; rfl
  have bnd : |dprof p.kernel i (scale p.kernel * r / h)| ≤ 10 * steep p.kernel * τ := by
    rcases le_total (scale p.kernel * r / h) (scale p.kernel) with hx | hx
    · have h1 := (lip_dprof hκ i).lip (scale p.kernel * r / h) (scale p.kernel) (by positivity) hx hw.le le_rfl
      rw [dprof_zero hκ i le_rfl, sub_zero, abs_sub_comm, abs_of_nonneg (by linarith : 0 ≤ scale p.kernel - scale p.kernel * r / h)] at h1
      have h2 : scale p.kernel - scale p.kernel * r / h ≤ scale p.kernel * τ := by
        have : (1 - τ) ≤ r / h := by rw [le_div_iff₀ hh]; exact hd
        have := mul_le_mul_of_nonneg_left this hw.le
        rw [mul_div_assoc]
        linarith
      have h3 := mul_le_mul_of_nonneg_left h2 (Nat.cast_nonneg (α := ℝ) (bend p.kernel))
      have h4 := mul_le_mul_of_nonneg_right (edge_le hκ) h0
      linarith
    · rw [dprof_zero hκ i hx, abs_zero]; positivity
  rw [hst, eg, abs_mul, abs_mul, abs_mul, abs_of_pos hF0, abs_of_pos (inv_pos.mpr hT)]
  have h3 : F * |dprof p.kernel i (scale p.kernel * r / h)| ≤ F * (10 * steep p.kernel * τ) := mul_le_mul_of_nonneg_left bnd hF0.le
  calc |(a.pos - b.pos) j| * (F * |dprof p.kernel i (scale p.kernel * r / h)|) * (r + tiny)⁻¹ = |(a.pos - b.pos) j| * (r + tiny)⁻¹ * (F * |dprof p.kernel i (scale p.kernel * r / h)|) := by ring
    _ ≤ 1 * (F * |dprof p.kernel i (scale p.kernel * r / h)|) := mul_le_mul_of_nonneg_right hq (by positivity)
    _ ≤ _ := by linarith

theorem viscOf_le {i : Fin 3} (p : Params i) (heps : 0 ≤ p.eps) (a b : Particle (i + 1)) (hab : Proper a b) : |viscOf p a b| ≤ viscSize p a b :=
  (err_visc (R := ⟨id, 0, le_rfl, fun x => by simp⟩) (by norm_num) p heps a b hab).1

/-- Near the edge the exact contributions are small. -/
theorem pushOf_edge {i : Fin 3} (p : Params i) (heps : 0 ≤ p.eps) (hκ : Poly p.kernel) (a b : Particle (i + 1)) (hab : Proper a b) {τ : ℝ} (h0 : 0 ≤ τ)
    (hd : (1 - τ) * (1 / 2 * (a.h + b.h)) ≤ Kernels.magnitude (a.pos - b.pos)) (j : Fin (i + 1)) : |pushOf p a b j| ≤ 10 * τ * strength p a b := by
  have h1 := gradOf_edge p hκ a b hab.ha hab.hb h0 hd j
  have hV := viscOf_le p heps a b hab
  have s0 : 0 ≤ stress p a b := by have := viscSize_nonneg p a b heps hab; unfold stress; positivity
  have h2 : |a.P / (a.rho * a.rho) + b.P / (b.rho * b.rho) + viscOf p a b| ≤ stress p a b := by
    unfold stress
    exact (abs_add_three _ _ _).trans (by linarith)
  rw [pushOf, Pi.smul_apply, smul_eq_mul, abs_mul, abs_mul, abs_neg]
  calc |massOf a b| * |a.P / (a.rho * a.rho) + b.P / (b.rho * b.rho) + viscOf p a b| * |gradOf p a b j| ≤ |b.mass| * stress p a b * (10 * τ * steepest p.kernel i (1 / 2 * (a.h + b.h))) :=
        mul_le_mul (mul_le_mul (massOf_abs a b) h2 (abs_nonneg _) (abs_nonneg _)) h1 (abs_nonneg _) (by positivity)
    _ = _ := by rw [strength]; ring

end FleCSPH.Rounded

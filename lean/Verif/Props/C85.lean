import Verif.Lemmas.RoundedAccuracy
import Verif.Spec.NearLists
import Verif.Props.C84
/-!
C85: accuracy of the hydrodynamic forces in floating-point arithmetic.

The gradients, the viscosities, the accelerations and the derivatives of the energies as computed with every operation rounded (Model/RoundedForces.lean), against the same quantities in exact arithmetic
(Model/Sph.lean). The sizes the errors are relative to are in Spec/ForceSizes.lean. Missing for the full property: overflow, underflow and fused operations; the Gaussian and sinc kernels; the errors of densities,
pressures and sound speeds, which are inputs here (C82 has the densities).
-/
namespace FleCSPH.Rounded
open FleCSPH.Spec FleCSPH.Tree FleCSPH.Ghosts FleCSPH.Startup FleCSPH.Geometry FleCSPH.Traversal FleCSPH.Kernels FleCSPH.Sph

variable {R : Rounding} {i : Fin 3} {n : Nat}

private theorem proper {p : Params i} {a b : Particle (i + 1)} (ha : Regular p a) (hb : Regular p b) : Proper a b := ⟨ha.2.1, hb.2.1, ha.2.2, hb.2.2⟩

private theorem magnitude_eq {d : Nat} (p q : Point d) : Kernels.magnitude (p - q) = √(∑ j, (p j - q j) ^ 2) := by
  unfold Kernels.magnitude
  simp only [sq, Pi.sub_apply]

/-- The computed gradient of a polynomial kernel is right up to `744 u` of the largest slope. -/
theorem C85_gradient_partial (hu : 1000 * R.u ≤ 1) (p : Params i) (hκ : Poly p.kernel) (a b : Particle (i + 1)) (ha : 0 < a.h) (hb : 0 < b.h) (j : Fin (i + 1)) :
    |gradR R p a b j - kernelGradient p.kernel i (a.pos - b.pos) (1 / 2 * (a.h + b.h)) j| ≤ 744 * R.u * steepest p.kernel i (1 / 2 * (a.h + b.h)) := by
  have h0 := R.nonneg
  have h := err_gradR (by linarith : 100 * R.u ≤ 1) p hκ a b ha hb j
  have g := growth_le (R := R) 372 (by push_cast; linarith)
  push_cast at g
  exact h.2.trans (mul_le_mul_of_nonneg_right (by linarith) h.size_nonneg)

/-- The computed artificial viscosity is right up to `278 u` of its size, also where the computed and the exact product of velocity and position have different signs. -/
theorem C85_viscosity (hu : 1000 * R.u ≤ 1) (p : Params i) (a b : Particle (i + 1)) (ha : Regular p a) (hb : Regular p b) : |viscR R p a b - viscOf p a b| ≤ 278 * R.u * viscSize p a b := by
  have h0 := R.nonneg
  have h := err_visc (by linarith : 100 * R.u ≤ 1) p ha.1 a b (proper ha hb)
  have g := growth_le (R := R) 139 (by push_cast; linarith)
  push_cast at g
  exact h.2.trans (mul_le_mul_of_nonneg_right (by linarith) h.size_nonneg)

private def accView {d : Nat} (b : Particle d) : Particle d := { b with acc := 0, gacc := 0, gpot := 0 }
private def dedtView {d : Nat} (b : Particle d) : Particle d := { b with dedt := 0 }
private def dudtView {d : Nat} (b : Particle d) : Particle d := { b with dudt := 0 }

private theorem acc_pass (p : Params i) (s : Fin n → Particle (i + 1)) (nbs : Fin n → List (Fin n)) (order : List (Fin n)) (hall : VisitsAll order) :
    pass (computeAccelerationR R p) nbs order s = fun a => computeAccelerationR R p (s a) ((nbs a).map s) :=
  pass_eq (computeAccelerationR R p) accView (computeAccelerationR R p) (fun a l => by simp only [computeAccelerationR, List.foldl_map]; rfl) (fun a l => rfl) nbs order hall s

private theorem acc_pass' (p : Params i) (s : Fin n → Particle (i + 1)) (nbs : Fin n → List (Fin n)) (order : List (Fin n)) (hall : VisitsAll order) :
    pass (computeAcceleration p) nbs order s = fun a => computeAcceleration p (s a) ((nbs a).map s) :=
  pass_eq (computeAcceleration p) accView (computeAcceleration p) (fun a l => by simp only [computeAcceleration, accumulate_eq, List.map_map]; rfl) (fun a l => rfl) nbs order hall s

private theorem pushOf_zero (p : Params i) (a b : Particle (i + 1)) (ha : 0 < a.h) (hb : 0 < b.h) (hκ : Poly p.kernel) (hd : (a.h + b.h) / 2 ≤ √(∑ j, (a.pos j - b.pos j) ^ 2)) (j : Fin (i + 1)) : pushOf p a b j = 0 := by
  have := gradOf_edge p hκ a b ha hb (τ := 0) le_rfl (by rw [magnitude_eq]; linarith) j
  rw [mul_zero, zero_mul] at this
  rw [pushOf, Pi.smul_apply, abs_nonpos_iff.mp this, smul_zero]

private theorem sum_list (f : Fin n → ℝ) (l : List (Fin n)) (hl : l.Nodup) : (l.map f).sum = ∑ b, if b ∈ l then f b else 0 := by
  rw [← List.sum_toFinset f hl, ← Finset.sum_filter]
  congr 1
  ext b
  simp

section
variable {N : Nat} (hN : (N + 521 : ℕ) * R.u ≤ 1) (p : Params i) (hκ : Poly p.kernel) (s : Fin n → Particle (i + 1)) (hreg : ∀ a, Regular p (s a)) (nbs nbs' : Fin n → List (Fin n)) (hlen : ∀ a, (nbs a).length ≤ N)
  (order order' : List (Fin n)) (hall : VisitsAll order) (hall' : VisitsAll order')
include hN hκ hreg hlen hall hall'

omit hκ hreg hlen hall hall' in
private theorem small_u : 100 * R.u ≤ 1 := by
  have h0 := R.nonneg
  have h1 : (0 : ℝ) ≤ N := Nat.cast_nonneg _
  push_cast at hN
  nlinarith

omit hκ hreg hlen hall hall' in
private theorem within {k : Nat} (hk : k ≤ N + 521) {x y m : ℝ} (h : Err R k x y m) : |y - x| ≤ 2 * k * R.u * m := by
  have h0 := R.nonneg
  have g := growth_le (R := R) k (le_trans (mul_le_mul_of_nonneg_right (by exact_mod_cast hk) h0) hN)
  exact h.2.trans (mul_le_mul_of_nonneg_right g h.size_nonneg)

/-- After a pass of `compute_acceleration` with at most `N` neighbours for each particle, the accelerations are those of exact arithmetic up to `2 (N + 515) u` of the sizes of the contributions, whatever the orders
of the particles and of their neighbours. -/
theorem C85_acceleration_partial (hp : ∀ a, (nbs a).Perm (nbs' a)) (a : Fin n) (j : Fin (i + 1)) :
    |(pass (computeAccelerationR R p) nbs order s a).acc j - (pass (computeAcceleration p) nbs' order' s a).acc j| ≤
      2 * (N + 515) * R.u * (((nbs a).map fun b => strength p (s a) (s b)).sum + |p.external (s a) j|) := by
  rw [acc_pass p s nbs order hall, acc_pass' p s nbs' order' hall']
  have h := err_acceleration (small_u hN) p (hreg a).1 hκ (s a) ((nbs a).map s) (N := N) (by rw [List.length_map]; exact hlen a) (by simpa using fun b _ => proper (hreg a) (hreg b)) j
  have e : (computeAcceleration p (s a) ((nbs' a).map s)).acc j = (computeAcceleration p (s a) ((nbs a).map s)).acc j := by
    rw [acceleration_exact, acceleration_exact, (((hp a).map s).map fun b => pushOf p (s a) b j).sum_eq]
  rw [List.map_map] at h
  have := within hN (by omega) h
  push_cast at this
  dsimp only
  rw [e]
  exact this

/-- The same for the derivative of the total energy. -/
theorem C85_dedt_partial (hp : ∀ a, (nbs a).Perm (nbs' a)) (a : Fin n) :
    |(pass (computeDedtR R p) nbs order s a).dedt - (pass (computeDedt p) nbs' order' s a).dedt| ≤
      2 * (N + 521) * R.u * (((nbs a).map fun b => power p (s a) (s b)).sum + ∑ j, |(s a).gacc j| * |(s a).vel j|) := by
  rw [pass_eq (computeDedtR R p) dedtView (computeDedtR R p) (fun a l => by simp only [computeDedtR, List.foldl_map]; rfl) (fun a l => rfl) nbs order hall s,
    pass_eq (computeDedt p) dedtView (computeDedt p) (fun a l => by simp only [computeDedt, List.foldl_map]; rfl) (fun a l => rfl) nbs' order' hall' s]
  have h := err_dedt (small_u hN) p (hreg a).1 hκ (s a) ((nbs a).map s) (N := N) (by rw [List.length_map]; exact hlen a) (by simpa using fun b _ => proper (hreg a) (hreg b))
  have e : (computeDedt p (s a) ((nbs' a).map s)).dedt = (computeDedt p (s a) ((nbs a).map s)).dedt := by
    rw [dedt_exact, dedt_exact, (((hp a).map s).map fun b => -workOf p (s a) b).sum_eq]
  rw [List.map_map] at h
  have := within hN (by omega) h
  push_cast at this
  dsimp only
  rw [e]
  exact this

/-- The same for the derivative of the internal energy, which is zero during the relaxation. -/
theorem C85_dudt_partial (hp : ∀ a, (nbs a).Perm (nbs' a)) (iteration : Int) (a : Fin n) :
    |(pass (computeDudtR R p iteration) nbs order s a).dudt - (pass (computeDudt p iteration) nbs' order' s a).dudt| ≤
      2 * (N + 520) * R.u * ((nbs a).map fun b => power p (s a) (s b)).sum := by
  rw [pass_eq (computeDudtR R p iteration) dudtView (computeDudtR R p iteration) (fun a l => by simp only [computeDudtR, List.foldl_map]; rfl) (fun a l => by unfold computeDudtR; split_ifs; all_goals rfl) nbs order hall s,
    pass_eq (computeDudt p iteration) dudtView (computeDudt p iteration) (fun a l => by simp only [computeDudt, accumulate_eq, List.map_map]; rfl) (fun a l => by unfold computeDudt; split_ifs; all_goals rfl) nbs' order' hall' s]
  have h := err_dudt (small_u hN) p (hreg a).1 hκ (s a) (iteration := iteration) ((nbs a).map s) (N := N) (hreg a).2.2 (by rw [List.length_map]; exact hlen a) (by simpa using fun b _ => proper (hreg a) (hreg b))
  have e : (computeDudt p iteration (s a) ((nbs' a).map s)).dudt = (computeDudt p iteration (s a) ((nbs a).map s)).dudt := by
    by_cases hit : iteration < p.relaxationSteps
    · simp only [computeDudt, if_pos hit]
    · rw [dudt_exact p _ hit, dudt_exact p _ hit]
      congr 2
      · exact (((hp a).symm.map s).map _).sum_eq
      · exact (((hp a).symm.map s).map _).sum_eq
  rw [List.map_map] at h
  have := within hN (by omega) h
  push_cast at this
  dsimp only
  rw [e]
  exact this

omit hlen hall hall' in
/-- Two particles whose distance is at most the fraction `τ` below the mean of their smoothing lengths exchange little. -/
theorem C85_edge_partial (a b : Fin n) {τ : ℝ} (hτ : 0 ≤ τ) (hd : (1 - τ) * (((s a).h + (s b).h) / 2) ≤ √(∑ j, ((s a).pos j - (s b).pos j) ^ 2)) (j : Fin (i + 1)) :
    |push R p (s a) (s b) j| ≤ (10 * τ + 1028 * R.u) * strength p (s a) (s b) := by
  have h := err_push_strength (small_u hN) p (hreg a).1 hκ (s a) (s b) (proper (hreg a) (hreg b)) j
  have h1 := within hN (by omega) h
  have h2 := pushOf_edge p (hreg a).1 hκ (s a) (s b) (proper (hreg a) (hreg b)) hτ (by rw [magnitude_eq]; linarith) j
  have h3 := abs_add_le (push R p (s a) (s b) j - pushOf p (s a) (s b) j) (pushOf p (s a) (s b) j)
  rw [sub_add_cancel] at h3
  push_cast at h1
  linarith

/-- With the lists of a search which may miss particles closer than `δ` to the edge, the accelerations are those of exact arithmetic with lists which miss none, up to rounding and to `10 δ` over the mean smoothing length for
the missed ones. -/
theorem C85_missed_partial {δ : ℝ} (hδ : 0 ≤ δ) (hnb : AlmostComplete δ s nbs) (hnb' : NearLists s nbs') (a : Fin n) (j : Fin (i + 1)) :
    |(pass (computeAccelerationR R p) nbs order s a).acc j - (pass (computeAcceleration p) nbs' order' s a).acc j| ≤
      2 * (N + 515) * R.u * (((nbs a).map fun b => strength p (s a) (s b)).sum + |p.external (s a) j|) +
        ∑ b, if b ∉ nbs a ∧ √(∑ j, ((s a).pos j - (s b).pos j) ^ 2) < ((s a).h + (s b).h) / 2 then 10 * δ / (((s a).h + (s b).h) / 2) * strength p (s a) (s b) else 0 := by
  have h1 := C85_acceleration_partial hN p hκ s hreg nbs nbs hlen order order' hall hall' (fun a => List.Perm.refl _) a j
  have h2 : |(pass (computeAcceleration p) nbs order' s a).acc j - (pass (computeAcceleration p) nbs' order' s a).acc j| ≤
      ∑ b, if b ∉ nbs a ∧ √(∑ j, ((s a).pos j - (s b).pos j) ^ 2) < ((s a).h + (s b).h) / 2 then 10 * δ / (((s a).h + (s b).h) / 2) * strength p (s a) (s b) else 0 := by
    rw [acc_pass' p s nbs order' hall', acc_pass' p s nbs' order' hall']
    dsimp only
    rw [acceleration_exact, acceleration_exact, add_sub_add_right_eq_sub, List.map_map, List.map_map, sum_list _ _ (hnb.nodup a), sum_list _ _ (hnb'.nodup a), ← Finset.sum_sub_distrib]
    refine (Finset.abs_sum_le_sum_abs _ _).trans (Finset.sum_le_sum fun b _ => ?_)
    have hh : 0 < ((s a).h + (s b).h) / 2 := by linarith [(hreg a).2.1, (hreg b).2.1]
    have hs := strength_nonneg p (hreg a).1 hκ (s a) (s b) (proper (hreg a) (hreg b))
    simp only [Function.comp]
    by_cases hd : √(∑ j, ((s a).pos j - (s b).pos j) ^ 2) < ((s a).h + (s b).h) / 2
    · rw [if_pos (hnb'.complete a b hd.le)]
      by_cases hm : b ∈ nbs a
      · rw [if_pos hm, sub_self, abs_zero]
        split_ifs <;> positivity
      · rw [if_neg hm, if_pos ⟨hm, hd⟩, zero_sub, abs_neg]
        have h3 : ((s a).h + (s b).h) / 2 - δ ≤ √(∑ j, ((s a).pos j - (s b).pos j) ^ 2) := by
          by_contra hlt
          exact hm (hnb.complete a b (not_le.mp hlt).le)
        refine (pushOf_edge p (hreg a).1 hκ (s a) (s b) (proper (hreg a) (hreg b)) (τ := δ / (((s a).h + (s b).h) / 2)) (by positivity) ?_ j).trans (le_of_eq (by ring))
        rw [magnitude_eq, show 1 / 2 * ((s a).h + (s b).h) = ((s a).h + (s b).h) / 2 by ring, sub_mul, div_mul_cancel₀ _ hh.ne', one_mul]
        exact h3
    · rw [pushOf_zero p (s a) (s b) (hreg a).2.1 (hreg b).2.1 hκ (not_lt.mp hd) j, ite_self, ite_self, sub_zero, abs_zero]
      split_ifs <;> positivity
  have h3 := abs_add_le ((pass (computeAccelerationR R p) nbs order s a).acc j - (pass (computeAcceleration p) nbs order' s a).acc j)
    ((pass (computeAcceleration p) nbs order' s a).acc j - (pass (computeAcceleration p) nbs' order' s a).acc j)
  rw [sub_add_sub_cancel] at h3
  linarith

end

/-- With such lists the rate of change of momentum is that of the external force up to rounding and to `10 δ` over the mean smoothing length for pairs of which only one particle has the other in its list. -/
theorem C85_momentum_partial (hR : Mirrored R) {N : Nat} (hN : (N + 521 : ℕ) * R.u ≤ 1) (p : Params i) (hκ : Poly p.kernel) (s : Fin n → Particle (i + 1)) (hreg : ∀ a, Regular p (s a)) (hm : ∀ a, 0 ≤ (s a).mass)
    (nbs : Fin n → List (Fin n)) (hlen : ∀ a, (nbs a).length ≤ N) (order : List (Fin n)) (hall : VisitsAll order) {δ : ℝ} (hδ : 0 ≤ δ) (hnb : AlmostComplete δ s nbs) (j : Fin (i + 1)) :
    |∑ a, (s a).mass * (pass (computeAccelerationR R p) nbs order s a).acc j - ∑ a, (s a).mass * p.external (s a) j| ≤
      (2 * N + 5) * R.u * forces R p s nbs j +
        ∑ a, ∑ b, if b ∈ nbs a ∧ a ∉ nbs b then (s a).mass * ((10 * δ / (((s a).h + (s b).h) / 2) + 1028 * R.u) * strength p (s a) (s b)) else 0 := by
  have h0 := R.nonneg
  have hu := small_u hN
  have hN1 : (N + 1 : ℕ) * R.u ≤ 1 := by push_cast at hN ⊢; linarith
  refine (C84_momentum_partial hR (by linarith) hN1 p s nbs hnb.nodup hlen order hall hm hreg j).trans (add_le_add le_rfl ?_)
  unfold lopsided
  refine Finset.sum_le_sum fun a _ => Finset.sum_le_sum fun b _ => ?_
  split_ifs with h
  · rw [abs_mul, abs_of_nonneg (hm a)]
    have hh : 0 < ((s a).h + (s b).h) / 2 := by linarith [(hreg a).2.1, (hreg b).2.1]
    have h3 : ((s a).h + (s b).h) / 2 - δ ≤ √(∑ j, ((s a).pos j - (s b).pos j) ^ 2) := by
      by_contra hlt
      refine h.2 (hnb.complete b a ?_)
      rw [show ∑ j, ((s b).pos j - (s a).pos j) ^ 2 = ∑ j, ((s a).pos j - (s b).pos j) ^ 2 from Finset.sum_congr rfl fun l _ => by ring, add_comm (s b).h]
      exact (not_le.mp hlt).le
    have h4 := C85_edge_partial hN p hκ s hreg a b (τ := δ / (((s a).h + (s b).h) / 2)) (by positivity) (by rw [sub_mul, div_mul_cancel₀ _ hh.ne', one_mul]; exact h3) j
    rw [mul_div_assoc]
    exact mul_le_mul_of_nonneg_left h4 (hm a)
  · rfl

/-- What two particles exchange if only one of them has the other in its list, in the lists of the search on several processes (`C80_search_partial`): a multiple of the roundoff. -/
theorem C85_one_sided_partial {D dim : Nat} {ranks : List (List Nat)} {body : Nat → Cofm.Body (i + 1)} {X : ℝ} {q q' : Nat} {cs cs' : List (List Nat × List (List Nat))}
    (hs : ServedBetween D dim ranks body (lower R D X) (upper R) q cs) (hs' : ServedBetween D dim ranks body (lower R D X) (upper R) q' cs') (hdim : 0 < dim) (hfull : ∀ z ∈ ranks.flatten, FullKey D dim z)
    {e f : List Nat} {nb nb' : List (List Nat)} {x y : Nat} (hx : x ∈ ranks.flatten) (hy : y ∈ ranks.flatten) (hc : (e, nb) ∈ cs) (hc' : (f, nb') ∈ cs')
    (hex : LeafCell D dim (· ∈ ranks.flatten) x (number dim e)) (hfy : LeafCell D dim (· ∈ ranks.flatten) y (number dim f)) (h1 : f ∈ nb) (h2 : e ∉ nb')
    (hu : 1000 * R.u ≤ 1) (p : Params i) (hκ : Poly p.kernel) (s : Nat → Particle (i + 1)) (hX : 0 ≤ X) (hb : ∀ z ∈ ranks.flatten, Regular p (s z) ∧ (s z).pos = (body z).pos ∧ (s z).h = (body z).h) (j : Fin (i + 1)) :
    |push R p (s x) (s y) j| ≤ (1000 * D * X / (((s x).h + (s y).h) / 2) + 1028) * R.u * strength p (s x) (s y) := by
  have h0 := R.nonneg
  obtain ⟨rx, px, sx⟩ := hb x hx
  obtain ⟨ry, py, sy⟩ := hb y hy
  have h3 := (C84_one_sided hs hs' hdim hfull hx hy hc hc' hex hfy h1 h2).1
  rw [← px, ← py, lower, ← sx, ← sy] at h3
  have hh : 0 < ((s x).h + (s y).h) / 2 := by linarith [rx.2.1, ry.2.1]
  have hτ : 0 ≤ 100 * D * R.u * X / (((s x).h + (s y).h) / 2) := by positivity
  have h4 := C85_edge_partial (n := 2) (N := 0) (by push_cast; linarith : ((0 + 521 : ℕ) : ℝ) * R.u ≤ 1) p hκ ![s x, s y] (by simpa [Fin.forall_fin_two] using ⟨rx, ry⟩) 0 1 hτ
    (by simp only [Matrix.cons_val_zero, Matrix.cons_val_one]; rw [sub_mul, div_mul_cancel₀ _ hh.ne', one_mul]; linarith) j
  simp only [Matrix.cons_val_zero, Matrix.cons_val_one] at h4
  refine h4.trans (le_of_eq ?_)
  ring

/-! ### A case -/

/-- Three particles in `double`, with lists which miss the outer pair, at the edge. -/
example (p : Params 0) (hp : 0 ≤ p.eps) : ((3 + 521 : ℕ) : ℝ) * (tiesToEven 53).u ≤ 1 ∧ (∀ a, Regular p (exS a)) ∧ (∀ a, ((![[0, 1], [0, 1, 2], [1, 2]] : Fin 3 → List (Fin 3)) a).length ≤ 3) ∧
    VisitsAll ([2, 0, 1] : List (Fin 3)) ∧ AlmostComplete (1 / 5) exS ![[0, 1], [0, 1, 2], [1, 2]] ∧ NearLists exS ![[2, 0, 1], [0, 1, 2], [0, 1, 2]] := by
  have hu : (tiesToEven 53).u = 2 ^ (-53 : ℤ) := rfl
  have dist : ∀ a b : Fin 3, √(∑ j, ((exS a).pos j - (exS b).pos j) ^ 2) = |((a : ℕ) : ℝ) - (b : ℕ)| := by
    intro a b
    simp only [exS, Finset.univ_unique, Finset.sum_singleton]
    exact Real.sqrt_sq_eq_abs _
  refine ⟨by rw [hu]; norm_num, fun a => ⟨hp, by norm_num [exS], by norm_num [exS]⟩, by decide, ⟨by decide, by decide⟩, ⟨by decide, fun a b h => ?_⟩, ⟨by decide, fun a b h => ?_⟩⟩
  · rw [dist] at h
    fin_cases a <;> fin_cases b <;> simp [exS] at h ⊢ <;> norm_num at h
  · fin_cases a <;> fin_cases b <;> simp

example : Poly .cubicSpline ∧ Poly .wendlandC6 := ⟨.cubicSpline, .wendlandC6⟩

end FleCSPH.Rounded

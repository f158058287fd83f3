import Verif.Model.RoundedEos
import Verif.Lemmas.RoundedAccuracy
import Verif.Lemmas.RoundedDensity2
import Verif.Lemmas.Pass
/-! Lemmas for C90: rounding errors of the equations of state, and of the forces for particles whose densities, pressures and sound speeds have errors. -/
namespace FleCSPH.Rounded
open FleCSPH.Spec FleCSPH.Geometry FleCSPH.Kernels FleCSPH.Sph FleCSPH.Cofm

variable {R : Rounding}

/-- A power of a number with a relative error. -/
theorem NN.rpow (hu : R.u < 1) {k g : Nat} {x y γ : ℝ} (h : NN R k x y) (h0 : 0 ≤ γ) (hg : γ ≤ g) : NN R (g * k) (x ^ γ) (y ^ γ) := by
  obtain ⟨hx, hy, h1, h2⟩ := h
  have hc : 0 < (1 - R.u) ^ k := pow_pos (by linarith) k
  have hc1 : (1 - R.u) ^ k ≤ 1 := pow_le_one₀ (by linarith) (by linarith [R.nonneg])
  have key : (1 - R.u) ^ (g * k) ≤ ((1 - R.u) ^ k) ^ γ := by
    rw [mul_comm, pow_mul, ← Real.rpow_natCast ((1 - R.u) ^ k)]
    exact Real.rpow_le_rpow_of_exponent_ge hc hc1 hg
  have step : ∀ {x y : ℝ}, 0 ≤ x → 0 ≤ y → (1 - R.u) ^ k * x ≤ y → (1 - R.u) ^ (g * k) * x ^ γ ≤ y ^ γ := by
    intro x y hx hy h
    refine (mul_le_mul_of_nonneg_right key (Real.rpow_nonneg hx γ)).trans ?_
    rw [← Real.mul_rpow hc.le hx]
    exact Real.rpow_le_rpow (mul_nonneg hc.le hx) h h0
  exact ⟨Real.rpow_nonneg hx γ, Real.rpow_nonneg hy γ, step hx hy h1, step hy hx h2⟩

theorem NN.sqrt (hu : R.u ≤ 1) {k : Nat} {x y : ℝ} (h : NN R k x y) : NN R k √x √y := ⟨Real.sqrt_nonneg _, Real.sqrt_nonneg _, h.2.2.sqrt hu⟩

theorem nn_pow (hu : R.u < 1) {k g : Nat} {x y γ : ℝ} (h : NN R k x y) (h0 : 0 ≤ γ) (hg : γ ≤ g) : NN R (g * k + 1) (x ^ γ) (pow R y γ) := (h.rpow hu h0 hg).fl hu.le

theorem root_some {x : ℝ} (hx : 0 ≤ x) : root R x = some (R.fl √x) := if_pos hx

/-! ### Particles with errors -/

/-- The two particles differ only in density, pressure and sound speed, which are right up to `k` roundings, and in what the forces do not read. -/
structure Alike (R : Rounding) (k : Nat) {d : Nat} (a a' : Particle d) : Prop where
  mass : a'.mass = a.mass
  h : a'.h = a.h
  pos : a'.pos = a.pos
  vel : a'.vel = a.vel
  vhalf : a'.vhalf = a.vhalf
  alpha : a'.alpha = a.alpha
  gacc : a'.gacc = a.gacc
  rho : NN R k a.rho a'.rho
  P : NN R k a.P a'.P
  cs : NN R k a.cs a'.cs

section
variable (hu : 100 * R.u ≤ 1) {k : Nat} (hk : 2 * (3 * k + 4) * R.u ≤ 1) {i : Fin 3} (p : Params i) (heps : 0 ≤ p.eps) {a a' b b' : Particle (i + 1)} (ha : Alike R k a a') (hb : Alike R k b b')

include hu in
theorem u_lt : R.u < 1 := by linarith [R.nonneg]

theorem alike_massOf (ha : Alike R k a a') (hb : Alike R k b b') : massOf a' b' = massOf a b := by
  unfold massOf
  rw [ha.pos, hb.pos, hb.mass]

theorem alike_gradR (ha : Alike R k a a') (hb : Alike R k b b') : gradR R p a' b' = gradR R p a b := by
  unfold gradR
  rw [ha.pos, hb.pos, ha.h, hb.h]

include hu hk in
theorem err_prho2' (ha : Alike R k a a') (hr : 0 < a.rho) : Err R (6 * k + 4) (a.P / (a.rho * a.rho)) (prho2 R a') |a.P / (a.rho * a.rho)| := by
  have h0 := R.nonneg
  have hu1 := u_lt hu
  have h1 : NN R (k + (k + k + 1) + 1) (a.P / (a.rho * a.rho)) (prho2 R a') := (ha.P.div hu1 (mul_pos hr hr) ((ha.rho.mul hu1.le ha.rho).fl hu1.le)).fl hu1.le
  rw [abs_of_nonneg h1.1]
  refine (h1.to_err ?_ hu1.le).mono (by omega)
  push_cast
  nlinarith [mul_nonneg (Nat.cast_nonneg (α := ℝ) k) h0]

include hu hk in
theorem err_mean' {x y x' y' : ℝ} (h : NN R k x x') (h' : NN R k y y') : Err R (2 * k + 4) (1 / 2 * (x + y)) (mean R x' y') (1 / 2 * (|x| + |y|)) := by
  have h0 := R.nonneg
  have hu1 := u_lt hu
  have h1 : NN R (0 + (k + 1) + 1) (1 / 2 * (x + y)) (mean R x' y') := ((NN.refl (by norm_num : (0 : ℝ) ≤ 1 / 2)).mul hu1.le ((h.add hu1.le le_rfl le_rfl h').fl hu1.le)).fl hu1.le
  rw [abs_of_nonneg h.1, abs_of_nonneg h'.1]
  refine (h1.to_err ?_ hu1.le).mono (by omega)
  push_cast
  nlinarith [mul_nonneg (Nat.cast_nonneg (α := ℝ) k) h0]

include hu hk heps in
theorem err_visc' (ha : Alike R k a a') (hb : Alike R k b b') (hab : Proper a b) : Err R (4 * k + 143) (viscOf p a b) (viscR R p a' b') (viscSize p a b) := by
  have h0 := R.nonneg
  have hu1 := u_lt hu
  have hm := err_mu hu (i := i) (x := a.pos - b.pos) (p := diff R a.pos b.pos) (v := a.vhalf - b.vhalf) (w := diff R a.vhalf b.vhalf) heps (show 0 < 1 / 2 * (a.h + b.h) by linarith [hab.ha, hab.hb])
    (nn_mean_h hu1.le hab.ha.le hab.hb.le) (fun j => (Err.refl _).fl) (fun j => (Err.refl _).fl)
  have hr : 0 < 1 / 2 * (a.rho + b.rho) := by linarith [hab.ra, hab.rb]
  have hmr : NN R (0 + (k + 1) + 1) (1 / 2 * (a.rho + b.rho)) (mean R a'.rho b'.rho) := ((NN.refl (by norm_num : (0 : ℝ) ≤ 1 / 2)).mul hu1.le ((ha.rho.add hu1.le le_rfl le_rfl hb.rho).fl hu1.le)).fl hu1.le
  have hrho := ((hmr.inv hu1 hr).2.to_err (by push_cast; nlinarith [mul_nonneg (Nat.cast_nonneg (α := ℝ) k) h0]) hu1.le).mono (show 2 * (0 + (k + 1) + 1) ≤ 2 * k + 4 by omega)
  have hcs := err_mean' hu hk ha.cs hb.cs
  unfold viscOf viscR viscSize artificialViscosity artificialViscosityR
  rw [ha.pos, hb.pos, ha.h, hb.h, ha.vhalf, hb.vhalf, ha.alpha, hb.alpha]
  cases p.visc <;> dsimp only
  · have h := ((((((((Err.refl (R := R) p.alpha).neg.mul hcs).fl).add (c := 2 * k + 65) (by omega) (by omega) (((Err.refl (R := R) p.beta).mul hm).fl)).fl).mul hm).fl).mul hrho).fl
    simp only [div_eq_mul_inv] at h ⊢
    exact h.mono (by omega)
  · have h := ((((((err_mean (R := R) a.alpha b.alpha).neg.mul ((hcs.sub (c := 2 * k + 65) (by omega) (by omega) (((Err.refl (R := R) 2).mul hm).fl)).fl)).fl).mul hm).fl).mul hrho).fl
    rw [abs_of_pos (by norm_num : (0 : ℝ) < 2)] at h
    simp only [div_eq_mul_inv] at h ⊢
    exact h.mono (by omega)

variable (hκ : Poly p.kernel)

include hu hk heps hκ in
theorem err_push' (ha : Alike R k a a') (hb : Alike R k b b') (hab : Proper a b) (j : Fin (i + 1)) : Err R (6 * k + 518) (pushOf p a b j) (push R p a' b' j) (strength p a b) := by
  have hv := err_visc' hu hk p heps ha hb hab
  have h := ((((Err.refl (R := R) (massOf a b)).neg.mul (((((err_prho2' hu hk ha hab.ra).add (c := 6 * k + 4) le_rfl le_rfl (err_prho2' hu hk hb hab.rb)).fl).add (c := 6 * k + 143) (by omega) (by omega) hv).fl)).fl).mul
    (err_gradR hu p hκ a b hab.ha hab.hb j)).fl
  have hs := (steepest_pos hκ i (show 0 < 1 / 2 * (a.h + b.h) by linarith [hab.ha, hab.hb])).le
  have hV := viscSize_nonneg p a b heps hab
  unfold push
  rw [alike_massOf ha hb, alike_gradR p ha hb]
  refine (h.mono (by omega)).size ?_
  unfold strength
  refine mul_le_mul_of_nonneg_right (mul_le_mul_of_nonneg_right (massOf_abs a b) ?_) hs
  positivity

include hu hk heps hκ in
theorem err_work' (ha : Alike R k a a') (hb : Alike R k b b') (hab : Proper a b) : Err R (6 * k + 524) (workOf p a b) (work R p a' b') (power p a b) := by
  have hv := err_visc' hu hk p heps ha hb hab
  have ra := err_rate hu p a b hab hκ a.vel
  have rb := err_rate hu p a b hab hκ b.vel
  have pa := err_prho2' hu hk ha hab.ra
  have pb := err_prho2' hu hk hb hab.rb
  have h := ((Err.refl (R := R) (massOf a b)).mul ((((((pa.mul rb).fl).add (c := 6 * k + 381) (by omega) (by omega) ((ra.mul pb).fl)).fl).add (c := 6 * k + 522) (by omega) (by omega)
    (((((Err.refl (R := R) (1 / 2)).mul hv).fl).mul ((rb.add le_rfl le_rfl ra).fl)).fl)).fl)).fl
  unfold work
  rw [alike_massOf ha hb, alike_gradR p ha hb, ha.vel, hb.vel]
  refine (h.mono (by omega)).size ?_
  have hs := (steepest_pos hκ i (show 0 < 1 / 2 * (a.h + b.h) by linarith [hab.ha, hab.hb])).le
  have hV := viscSize_nonneg p a b heps hab
  have va : 0 ≤ (∑ j, |a.vel j|) * steepest p.kernel i (1 / 2 * (a.h + b.h)) := mul_nonneg (Finset.sum_nonneg fun j _ => abs_nonneg _) hs
  have vb : 0 ≤ (∑ j, |b.vel j|) * steepest p.kernel i (1 / 2 * (a.h + b.h)) := mul_nonneg (Finset.sum_nonneg fun j _ => abs_nonneg _) hs
  rw [power, strength, mul_assoc (|b.mass|), mul_assoc (|b.mass|), mul_assoc (stress p a b), mul_comm (steepest p.kernel i _)]
  refine mul_le_mul (massOf_abs a b) ?_ (by positivity) (abs_nonneg _)
  rw [Finset.sum_add_distrib, add_mul, abs_of_pos (by norm_num : (0 : ℝ) < 1 / 2), stress]
  have x1 := mul_nonneg (abs_nonneg (a.P / (a.rho * a.rho))) va
  have x2 := mul_nonneg (abs_nonneg (b.P / (b.rho * b.rho))) vb
  have x3 := mul_nonneg hV va
  have x4 := mul_nonneg hV vb
  nlinarith

include hu hκ in
theorem err_flow' (ha : Alike R k a a') (hb : Alike R k b b') (hab : Proper a b) : Err R 378 (massOf a b * dot (a.vel - b.vel) (gradOf p a b)) (flow R p a' b')
    (|massOf a b| * ((∑ j, (|a.vel j| + |b.vel j|)) * steepest p.kernel i (1 / 2 * (a.h + b.h)))) := by
  have h := err_flow_exact hu p a b hab hκ
  unfold flow at h ⊢
  rw [alike_massOf ha hb, alike_gradR p ha hb, ha.vel, hb.vel]
  exact h
end

/-! ### The three rates -/

theorem err_foldl_two {ι : Type} (f x m : ι → ℝ) (g : ι → ℝ) (k : Nat) (l : List ι) (hf : ∀ i ∈ l, Err R k (x i) (f i) (m i)) (hg : ∀ i ∈ l, g i = f i) :
    Err R (k + l.length) (l.map x).sum (l.foldl (fun s i => R.fl (s + g i)) 0) (l.map m).sum := by
  have h := err_foldl_mem (R := R) g x m k l (fun i hi => by rw [hg i hi]; exact hf i hi) ((Err.refl 0).mono (Nat.zero_le k)) le_rfl
  rwa [abs_zero, zero_add, zero_add] at h

section
variable (hu : 100 * R.u ≤ 1) {k : Nat} (hk : 2 * (3 * k + 4) * R.u ≤ 1) {i : Fin 3} (p : Params i) (heps : 0 ≤ p.eps) (hκ : Poly p.kernel) {n : Nat} {t0 t : Fin n → Particle (i + 1)} (ht : ∀ a, Alike R k (t0 a) (t a))
  {N : Nat} {l : List (Fin n)} (hlen : l.length ≤ N) {a : Fin n} (hab : ∀ b, Proper (t0 a) (t0 b))
include hu hk heps hκ ht hlen hab

theorem err_acceleration' (hext : p.external (t a) = p.external (t0 a)) (j : Fin (i + 1)) :
    Err R (6 * k + N + 519) ((computeAcceleration p (t0 a) (l.map t0)).acc j) ((computeAccelerationR R p (t a) (l.map t)).acc j) ((l.map fun b => strength p (t0 a) (t0 b)).sum + |p.external (t0 a) j|) := by
  have h := err_foldl_two (R := R) (fun b => push R p (t a) (t b) j) (fun b => pushOf p (t0 a) (t0 b) j) (fun b => strength p (t0 a) (t0 b)) _ (6 * k + 518) l (fun b _ => err_push' hu hk p heps hκ (ht a) (ht b) (hab b) j)
    (fun _ _ => rfl)
  rw [acceleration_exact, List.map_map]
  simp only [computeAccelerationR, List.foldl_map]
  rw [hext]
  exact ((h.add (c := 6 * k + 518 + l.length) le_rfl (by omega) (Err.refl (p.external (t0 a) j))).fl).mono (by omega)

theorem err_dedt' : Err R (6 * k + N + 525) (computeDedt p (t0 a) (l.map t0)).dedt (computeDedtR R p (t a) (l.map t)).dedt
    ((l.map fun b => power p (t0 a) (t0 b)).sum + ∑ j, |(t0 a).gacc j| * |(t0 a).vel j|) := by
  have h := err_foldl_two (R := R) (fun b => -work R p (t a) (t b)) (fun b => -workOf p (t0 a) (t0 b)) (fun b => power p (t0 a) (t0 b)) _ (6 * k + 524) l (fun b _ => (err_work' hu hk p heps hκ (ht a) (ht b) (hab b)).neg)
    (fun _ _ => rfl)
  rw [dedt_exact, List.map_map]
  simp only [computeDedtR, List.foldl_map, sub_eq_add_neg]
  rw [(ht a).gacc, (ht a).vel]
  exact ((h.add (c := 6 * k + 524 + l.length) le_rfl (by omega) ((err_rdot (R := R) (t0 a).gacc (t0 a).vel).mono (show (i : ℕ) + 1 + 1 ≤ 4 by omega))).fl).mono (by omega)

theorem err_dudt' {iteration : Int} : Err R (6 * k + N + 524) (computeDudt p iteration (t0 a) (l.map t0)).dudt (computeDudtR R p iteration (t a) (l.map t)).dudt (l.map fun b => power p (t0 a) (t0 b)).sum := by
  have hpow0 : ∀ b, 0 ≤ power p (t0 a) (t0 b) := fun b => mul_nonneg (strength_nonneg p heps hκ (t0 a) (t0 b) (hab b)) (Finset.sum_nonneg fun j _ => by positivity)
  by_cases hit : iteration < p.relaxationSteps
  · have e1 : (computeDudt p iteration (t0 a) (l.map t0)).dudt = 0 := by simp only [computeDudt, if_pos hit]
    have e2 : (computeDudtR R p iteration (t a) (l.map t)).dudt = 0 := by simp only [computeDudtR, if_pos hit]
    rw [e1, e2]
    refine ((Err.refl 0).mono (Nat.zero_le _)).size ?_
    rw [abs_zero]
    refine List.sum_nonneg fun x hx => ?_
    obtain ⟨b, _, rfl⟩ := List.mem_map.mp hx
    exact hpow0 b
  obtain ⟨W, hW⟩ : ∃ W : Fin n → ℝ, W = fun b => |massOf (t0 a) (t0 b)| * ((∑ j, (|(t0 a).vel j| + |(t0 b).vel j|)) * steepest p.kernel i (1 / 2 * ((t0 a).h + (t0 b).h))) := ⟨_, rfl⟩
  have hfl : ∀ b ∈ l, Err R 378 (massOf (t0 a) (t0 b) * dot ((t0 a).vel - (t0 b).vel) (gradOf p (t0 a) (t0 b))) (flow R p (t a) (t b)) (W b) := by
    intro b _
    rw [hW]
    exact err_flow' hu p hκ (ht a) (ht b) (hab b)
  have h1 := err_foldl_two (R := R) (fun b => flow R p (t a) (t b)) (fun b => massOf (t0 a) (t0 b) * dot ((t0 a).vel - (t0 b).vel) (gradOf p (t0 a) (t0 b))) W _ 378 l hfl (fun _ _ => rfl)
  have h2 := err_foldl_two (R := R) (fun b => R.fl (flow R p (t a) (t b) * viscR R p (t a) (t b))) (fun b => massOf (t0 a) (t0 b) * dot ((t0 a).vel - (t0 b).vel) (gradOf p (t0 a) (t0 b)) * viscOf p (t0 a) (t0 b))
    (fun b => W b * viscSize p (t0 a) (t0 b)) _ (4 * k + 522) l (fun b hb => (((hfl b hb).mul (err_visc' hu hk p heps (ht a) (ht b) (hab b))).fl).mono (by omega)) (fun _ _ => rfl)
  have ra : 0 < (t0 a).rho := (hab a).ra
  have h3 := (((err_prho2' hu hk (ht a) ra).mul h1).fl.add (c := 6 * k + 523 + l.length) (by omega) (by omega) ((((Err.refl (R := R) (1 / 2)).mul h2).fl))).fl
  have e2 : (computeDudtR R p iteration (t a) (l.map t)).dudt = R.fl (R.fl (prho2 R (t a) * l.foldl (fun s b => R.fl (s + flow R p (t a) (t b))) 0) +
      R.fl (1 / 2 * l.foldl (fun s b => R.fl (s + R.fl (flow R p (t a) (t b) * viscR R p (t a) (t b)))) 0)) := by
    simp only [computeDudtR, if_neg hit, List.foldl_map]
  rw [dudt_exact p _ hit, e2, List.map_map, List.map_map]
  refine (h3.mono (by omega)).size ?_
  rw [abs_of_pos (by norm_num : (0 : ℝ) < 1 / 2), ← List.sum_map_mul_left, ← List.sum_map_mul_left, ← List.sum_map_add]
  refine List.sum_le_sum fun b hb => ?_
  have hs := (steepest_pos hκ i (show 0 < 1 / 2 * ((t0 a).h + (t0 b).h) by linarith [(hab b).ha, (hab b).hb])).le
  have hV := viscSize_nonneg p (t0 a) (t0 b) heps (hab b)
  have hS : 0 ≤ ∑ j, (|(t0 a).vel j| + |(t0 b).vel j|) := Finset.sum_nonneg fun j _ => by positivity
  have w0 : 0 ≤ W b := by rw [hW]; positivity
  have w1 : W b ≤ |(t0 b).mass| * ((∑ j, (|(t0 a).vel j| + |(t0 b).vel j|)) * steepest p.kernel i (1 / 2 * ((t0 a).h + (t0 b).h))) := by
    rw [hW]; exact mul_le_mul_of_nonneg_right (massOf_abs _ _) (by positivity)
  have s0 : 0 ≤ stress p (t0 a) (t0 b) := by unfold stress; positivity
  calc |(t0 a).P / ((t0 a).rho * (t0 a).rho)| * W b + 1 / 2 * (W b * viscSize p (t0 a) (t0 b)) ≤ stress p (t0 a) (t0 b) * W b := by
        unfold stress
        have := mul_nonneg (abs_nonneg ((t0 b).P / ((t0 b).rho * (t0 b).rho))) w0
        nlinarith [mul_nonneg hV w0]
    _ ≤ stress p (t0 a) (t0 b) * (|(t0 b).mass| * ((∑ j, (|(t0 a).vel j| + |(t0 b).vel j|)) * steepest p.kernel i (1 / 2 * ((t0 a).h + (t0 b).h)))) := mul_le_mul_of_nonneg_left w1 s0
    _ = power p (t0 a) (t0 b) := by rw [power, strength]; ring

end

/-! ### Passes whose function also reads what the pass writes -/

/-- Every particle gets the result of the function for neighbours which agree with the initial ones in what the function never changes. -/
theorem passM_reads {P V : Type} {n : Nat} (f : P → List P → Option P) (view : P → V) (hv : ∀ a l x, f a l = some x → view x = view a) (nbs : Fin n → List (Fin n)) (order : List (Fin n)) (hall : VisitsAll order)
    (s t : Fin n → P) (h : passM f nbs order s = some t) : ∀ a, ∃ s' : Fin n → P, (∀ b, view (s' b) = view (s b)) ∧ f (s a) ((nbs a).map s') = some (t a) := by
  have key : ∀ (l : List (Fin n)) (t0 : Fin n → P), l.Nodup → (∀ a, view (t0 a) = view (s a)) → (∀ a ∈ l, t0 a = s a) → passM f nbs l t0 = some t →
      (∀ a ∈ l, ∃ s' : Fin n → P, (∀ b, view (s' b) = view (s b)) ∧ f (s a) ((nbs a).map s') = some (t a)) ∧ ∀ a, a ∉ l → t a = t0 a := by
    intro l
    induction l with
    | nil =>
      intro t0 _ _ _ h
      have h : some t0 = some t := h
      rw [Option.some_inj] at h
      exact ⟨fun a ha => by simp at ha, fun a _ => by rw [h]⟩
    | cons c l ih =>
      intro t0 hn hv1 he h
      have hn' := List.nodup_cons.mp hn
      rw [passM_cons] at h
      obtain ⟨x, hx, h⟩ := Option.bind_eq_some_iff.mp h
      rw [he c List.mem_cons_self] at hx
      obtain ⟨h1, h2⟩ := ih (Function.update t0 c x) hn'.2 (fun b => by
        by_cases hb : b = c
        · subst hb; rw [Function.update_self, hv _ _ _ hx]
        · rw [Function.update_of_ne hb, hv1]) (fun b hb => by
        have : b ≠ c := fun h => hn'.1 (h ▸ hb)
        rw [Function.update_of_ne this]
        exact he b (List.mem_cons_of_mem _ hb)) h
      refine ⟨fun a ha => ?_, fun a ha => ?_⟩
      · rcases List.mem_cons.mp ha with rfl | ha
        · refine ⟨t0, hv1, ?_⟩
          rw [hx, h2 _ hn'.1, Function.update_self]
        · exact h1 a ha
      · have h3 : a ≠ c := fun h => ha (h ▸ List.mem_cons_self)
        rw [h2 a fun h => ha (List.mem_cons_of_mem _ h), Function.update_of_ne h3]
  exact fun a => (key order s hall.nodup (fun _ => rfl) (fun _ _ => rfl) h).1 a (hall.all a)

/-- If the function succeeds for all such neighbours, so does the pass. -/
theorem passM_some {P V : Type} {n : Nat} (f : P → List P → Option P) (view : P → V) (hv : ∀ a l x, f a l = some x → view x = view a) (nbs : Fin n → List (Fin n)) (order : List (Fin n)) (hall : VisitsAll order)
    (s : Fin n → P) (h : ∀ a (s' : Fin n → P), (∀ b, view (s' b) = view (s b)) → ∃ x, f (s a) ((nbs a).map s') = some x) : ∃ t, passM f nbs order s = some t := by
  have key : ∀ (l : List (Fin n)) (t0 : Fin n → P), l.Nodup → (∀ a, view (t0 a) = view (s a)) → (∀ a ∈ l, t0 a = s a) → ∃ t, passM f nbs l t0 = some t := by
    intro l
    induction l with
    | nil => exact fun t0 _ _ _ => ⟨t0, rfl⟩
    | cons c l ih =>
      intro t0 hn hv1 he
      have hn' := List.nodup_cons.mp hn
      obtain ⟨x, hx⟩ := h c t0 hv1
      rw [passM_cons, he c List.mem_cons_self, hx]
      exact ih (Function.update t0 c x) hn'.2 (fun b => by
        by_cases hb : b = c
        · subst hb; rw [Function.update_self, hv _ _ _ hx]
        · rw [Function.update_of_ne hb, hv1]) (fun b hb => by
        have : b ≠ c := fun h => hn'.1 (h ▸ hb)
        rw [Function.update_of_ne this]
        exact he b (List.mem_cons_of_mem _ hb))
  exact key order s hall.nodup (fun _ => rfl) (fun _ _ => rfl)

end FleCSPH.Rounded

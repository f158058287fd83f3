import Verif.Lemmas.RoundedEos
import Verif.Lemmas.TiesToEven
import Mathlib.Analysis.Convex.Deriv
/-! Lemmas for C90: rounding errors of the equation of state of white dwarfs. -/
namespace FleCSPH.Rounded
open FleCSPH.Eos (aWd bWd cLight xWd)

variable {R : Rounding}

theorem arsinh_concave : ConcaveOn ℝ (Set.Ici 0) Real.arsinh := by
  refine AntitoneOn.concaveOn_of_deriv (convex_Ici 0) Real.continuous_arsinh.continuousOn (Real.differentiable_arsinh.differentiableOn) ?_
  intro x hx y hy hxy
  rw [interior_Ici] at hx hy
  rw [(Real.hasDerivAt_arsinh x).deriv, (Real.hasDerivAt_arsinh y).deriv]
  have h0 : (0 : ℝ) < x := hx
  refine inv_anti₀ (Real.sqrt_pos.mpr (by positivity)) (Real.sqrt_le_sqrt ?_)
  nlinarith

theorem arsinh_scale {c x : ℝ} (hc : 0 ≤ c) (hc1 : c ≤ 1) (hx : 0 ≤ x) : c * Real.arsinh x ≤ Real.arsinh (c * x) := by
  have h := arsinh_concave.2 (show x ∈ Set.Ici (0 : ℝ) from hx) (Set.self_mem_Ici (a := (0 : ℝ))) hc (by linarith : 0 ≤ 1 - c) (by ring)
  simpa using h

theorem NN.arsinh (hu : R.u ≤ 1) {k : Nat} {x y : ℝ} (h : NN R k x y) : NN R k (Real.arsinh x) (Real.arsinh y) := by
  have hc : 0 ≤ (1 - R.u) ^ k := pow_nonneg (by linarith) k
  have hc1 : (1 - R.u) ^ k ≤ 1 := pow_le_one₀ (by linarith) (by linarith [R.nonneg])
  exact ⟨Real.arsinh_nonneg_iff.mpr h.1, Real.arsinh_nonneg_iff.mpr h.2.1, (arsinh_scale hc hc1 h.1).trans (Real.arsinh_le_arsinh.mpr h.2.2.1), (arsinh_scale hc hc1 h.2.1).trans (Real.arsinh_le_arsinh.mpr h.2.2.2)⟩

theorem bWd_pos : 0 < bWd := by unfold bWd; norm_num
theorem aWd_pos : 0 < aWd := by unfold aWd; norm_num
theorem cLight_pos : 0 < cLight := by unfold cLight; norm_num

section
variable (hu : R.u < 1) {k : Nat} {rho rho' ye : ℝ} (h : NN R k rho rho') (hye : 0 ≤ ye)
include hu h hye

theorem nn_xWd : NN R (k + 4) (xWd rho ye) (xWdR R rho' ye) := by
  have h1 : NN R (k + 0 + 1 + 1 + 1) (rho * ye / bWd) (R.fl (R.fl (rho' * ye) / R.fl bWd)) := ((((h.mul hu.le (NN.refl hye)).fl hu.le).div hu bWd_pos (nn_fl hu.le bWd_pos.le)).fl hu.le)
  exact ((h1.rpow hu (γ := 1 / 3) (g := 1) (by norm_num) (by norm_num)).fl hu.le).mono hu.le (by omega)

theorem nn_xWd2 : NN R (2 * k + 9) (xWd rho ye * xWd rho ye) (R.fl (xWdR R rho' ye * xWdR R rho' ye)) :=
  (((nn_xWd hu h hye).mul hu.le (nn_xWd hu h hye)).fl hu.le).mono hu.le (by omega)
end

section
variable {K : Nat} (hu : 100 * R.u ≤ 1) (hK : 2 * (K + 2) * R.u ≤ 1) {s s' : ℝ} (h : NN R K s s')
include hu hK h

theorem err_diff {c m : ℝ} (hc : 0 ≤ c) (hm : 0 ≤ m) : Err R (2 * K + 3) (c * s - m) (R.fl (R.fl (c * s') - m)) (c * s + m) := by
  have hu1 := u_lt hu
  have h0 := R.nonneg
  have h1 : NN R (0 + K + 1) (c * s) (R.fl (c * s')) := ((NN.refl hc).mul hu1.le h).fl hu1.le
  have h2 := (h1.to_err (by push_cast; nlinarith) hu1.le).sub (c := 2 * K + 2) (by omega) (by omega) (Err.refl m)
  rw [abs_of_nonneg hm] at h2
  exact h2.fl

theorem err_numer : Err R (4 * K + 9) (8 * s ^ 2) (numerR R s') ((1 + s) * (6 * s + 3) + 3 + s * (2 * s + 3)) := by
  have hu1 := u_lt hu
  have h0 := R.nonneg
  have h1 : NN R (K + 1) (1 + s) (R.fl (1 + s')) := ((NN.refl zero_le_one).add hu1.le (Nat.zero_le _) le_rfl h).fl hu1.le
  have e1 := h1.to_err (by push_cast; nlinarith) hu1.le
  have e2 := err_diff hu hK h (c := 6) (m := 3) (by norm_num) (by norm_num)
  have e3 := err_diff hu hK h (c := 2) (m := 3) (by norm_num) (by norm_num)
  have e4 := h.to_err (by push_cast; nlinarith) hu1.le
  have e5 := (Err.refl (R := R) 3)
  rw [abs_of_pos (by norm_num : (0 : ℝ) < 3)] at e5
  have e6 := (((((e1.mul e2).fl).add (c := 4 * K + 6) (by omega) (by omega) e5).fl).add (c := 4 * K + 7) (by omega) (by omega) ((e4.mul e3).fl)).fl
  exact (e6.congr (by ring) rfl).mono (by omega)

theorem err_denom : Err R (4 * K + 9) (8 * s ^ 2 + 8 * s) (denomR R s') ((1 + s) * (6 * s + 1) + 1 + s * (2 * s + 1)) := by
  have hu1 := u_lt hu
  have h0 := R.nonneg
  have h1 : NN R (K + 1) (1 + s) (R.fl (1 + s')) := ((NN.refl zero_le_one).add hu1.le (Nat.zero_le _) le_rfl h).fl hu1.le
  have e1 := h1.to_err (by push_cast; nlinarith) hu1.le
  have n2 : ∀ {c : ℝ}, 0 ≤ c → NN R (K + 2) (c * s + 1) (R.fl (R.fl (c * s') + 1)) := fun hc =>
    ((((((NN.refl hc).mul hu1.le h).fl hu1.le).add (c := K + 1) hu1.le (by omega) (by omega) (NN.refl zero_le_one))).fl hu1.le)
  have e2 := (n2 (c := 6) (by norm_num)).to_err (by push_cast; nlinarith) hu1.le
  have e3 := (n2 (c := 2) (by norm_num)).to_err (by push_cast; nlinarith) hu1.le
  have e4 := h.to_err (by push_cast; nlinarith) hu1.le
  have e5 := (Err.refl (R := R) 1)
  rw [abs_one] at e5
  have e6 := (((((e1.mul e2).fl).sub (c := 4 * K + 7) (by omega) (by omega) e5).fl).add (c := 4 * K + 8) (by omega) (by omega) ((e4.mul e3).fl)).fl
  exact (e6.congr (by ring) rfl).mono (by omega)
end

section
variable (hu : 100 * R.u ≤ 1) {k : Nat} {rho rho' ye : ℝ} (h : NN R k rho rho') (hye : 0 ≤ ye)
include hu h hye

/-- The pressure, relative to the size of the terms which cancel. -/
theorem err_pressureGiven (hk : 2 * (2 * k + 11) * R.u ≤ 1) : Err R (10 * k + 58) (Eos.pressureGiven rho ye) (pressureGivenR R rho' ye)
    (aWd * (xWd rho ye * (2 * (xWd rho ye * xWd rho ye) + 3) * √(xWd rho ye * xWd rho ye + 1) + 3 * Real.arsinh (xWd rho ye))) := by
  have hu1 := u_lt hu
  have h0 := R.nonneg
  have hku : 0 ≤ k * R.u := mul_nonneg (Nat.cast_nonneg _) h0
  have nx := nn_xWd hu1 h hye
  have nx2 := nn_xWd2 hu1 h hye
  unfold Eos.pressureGiven pressureGivenR
  dsimp only
  obtain ⟨x, hx⟩ : ∃ x, x = xWd rho ye := ⟨_, rfl⟩
  obtain ⟨x', hx'⟩ : ∃ x', x' = xWdR R rho' ye := ⟨_, rfl⟩
  rw [← hx] at nx nx2 ⊢
  rw [← hx'] at nx nx2 ⊢
  have e1 := err_diff hu (by push_cast; nlinarith) nx2 (c := 2) (m := 3) (by norm_num) (by norm_num)
  have e2 := ((nx.to_err (by push_cast; nlinarith) hu1.le).mul e1).fl
  have n3 : NN R (2 * k + 9 + 1 + 1) √(x * x + 1) (R.fl √(R.fl (R.fl (x' * x') + 1))) := ((((nx2.add hu1.le le_rfl (Nat.zero_le _) (NN.refl zero_le_one)).fl hu1.le).sqrt hu1.le).fl hu1.le)
  have e3 := (e2.mul (n3.to_err (by push_cast; nlinarith) hu1.le)).fl
  have n4 : NN R (0 + (k + 4 + 1) + 1) (3 * Real.arsinh x) (R.fl (3 * R.fl (Real.arsinh x'))) := ((NN.refl (by norm_num)).mul hu1.le ((nx.arsinh hu1.le).fl hu1.le)).fl hu1.le
  have e4 := n4.to_err (by push_cast; nlinarith) hu1.le
  have eA := (nn_fl (R := R) hu1.le aWd_pos.le).to_err (by push_cast; linarith) hu1.le
  have e5 := (eA.mul ((e3.add (c := 10 * k + 54) (by omega) (by omega) e4).fl)).fl
  exact e5.mono (by omega)

/-- The sound speed, if the fourth power of `x` is not small. -/
theorem nn_soundspeedGiven {M : Nat} (hM1 : 1 ≤ M) (hM : 1 ≤ M * xWd rho ye ^ 4) (hk : 2 * (24 * M * (8 * k + 45) + 5) * R.u ≤ 1) :
    ∃ c, soundspeedGivenR R rho' ye = some c ∧ NN R (24 * M * (8 * k + 45) + 5) (Eos.soundspeedGiven rho ye) c := by
  have hu1 := u_lt hu
  have h0 := R.nonneg
  have hku : 0 ≤ k * R.u := mul_nonneg (Nat.cast_nonneg _) h0
  have nx2 := nn_xWd2 hu1 h hye
  have hM1' : (1 : ℝ) ≤ M := by exact_mod_cast hM1
  have hMu : 0 ≤ (M - 1) * (8 * k + 45) * R.u := by
    have : (0 : ℝ) ≤ M - 1 := by linarith
    positivity
  have hA : (8 * k + 45) * R.u ≤ M * (8 * k + 45) * R.u := by nlinarith
  unfold Eos.soundspeedGiven soundspeedGivenR
  dsimp only
  have hM4 : xWd rho ye ^ 4 = (xWd rho ye * xWd rho ye) ^ 2 := by ring
  rw [hM4] at hM
  obtain ⟨s, hs⟩ : ∃ s, s = xWd rho ye * xWd rho ye := ⟨_, rfl⟩
  obtain ⟨s', hs'⟩ : ∃ s', s' = R.fl (xWdR R rho' ye * xWdR R rho' ye) := ⟨_, rfl⟩
  rw [← hs, ← hs'] at nx2
  rw [← hs, ← hs']
  rw [← hs] at hM
  have s0 : 0 ≤ s := nx2.1
  have spos : 0 < s := by
    rcases s0.lt_or_eq with h | h
    · exact h
    · rw [← h] at hM; norm_num at hM
  have hs1 : s ≤ M * s ^ 2 ∨ s ≤ 1 := by
    rcases le_total s 1 with h | h
    · exact Or.inr h
    · left
      nlinarith [mul_le_mul_of_nonneg_right hM1' (sq_nonneg s)]
  have hsM : s ≤ M * s ^ 2 := by
    rcases hs1 with h | h
    · exact h
    · linarith
  have hs2 : s ^ 2 ≤ M * s ^ 2 := by nlinarith [mul_le_mul_of_nonneg_right hM1' (sq_nonneg s)]
  have hK : 2 * ((2 * k + 9 : ℕ) + 2 : ℝ) * R.u ≤ 1 := by push_cast; nlinarith
  have en := err_numer hu hK nx2
  have ed := err_denom hu hK nx2
  have hgr : ((4 * (2 * k + 9) + 9 : ℕ) : ℝ) * R.u ≤ 1 := by push_cast; nlinarith
  have gn := growth_le (R := R) _ hgr
  have nn : NN R (2 * (8 * M * (8 * k + 45))) (8 * s ^ 2) (numerR R s') := by
    refine NN.of_err (by push_cast; nlinarith) hu1.le (by positivity) (en.2.trans ?_)
    refine (mul_le_mul gn (show _ ≤ 4 * M * (8 * s ^ 2) by nlinarith) en.size_nonneg (by positivity)).trans (le_of_eq ?_)
    push_cast; ring
  have nd : NN R (2 * (4 * M * (8 * k + 45))) (8 * s ^ 2 + 8 * s) (denomR R s') := by
    refine NN.of_err (by push_cast; nlinarith) hu1.le (by positivity) (ed.2.trans ?_)
    refine (mul_le_mul gn (show _ ≤ 2 * M * (8 * s ^ 2 + 8 * s) by nlinarith [mul_nonneg (by linarith : (0 : ℝ) ≤ M - 1) s0]) ed.size_nonneg (by positivity)).trans (le_of_eq ?_)
    push_cast; ring
  have n3 : NN R (0 + 2 * (4 * M * (8 * k + 45)) + 1) (3 * (8 * s ^ 2 + 8 * s)) (R.fl (3 * denomR R s')) := ((NN.refl (by norm_num)).mul hu1.le nd).fl hu1.le
  have nq := (nn.div hu1 (by positivity) n3).fl hu1.le
  refine ⟨_, by rw [root_some nq.2.1]; rfl, ?_⟩
  have nf := (((nq.sqrt hu1.le).fl hu1.le).mul hu1.le (nn_fl hu1.le cLight_pos.le)).fl hu1.le
  have e1 : (1 + s) * (6 * s - 3) + 3 + s * (2 * s - 3) = 8 * s ^ 2 := by ring
  have e2 : (1 + s) * (6 * s + 1) - 1 + s * (2 * s + 1) = 8 * s ^ 2 + 8 * s := by ring
  rw [e1, e2]
  exact nf.mono hu1.le (by
    obtain ⟨W, hW⟩ : ∃ W, W = M * (8 * k + 45) := ⟨_, rfl⟩
    have a1 : 8 * M * (8 * k + 45) = 8 * W := by rw [hW]; ring
    have a2 : 4 * M * (8 * k + 45) = 4 * W := by rw [hW]; ring
    have a3 : 24 * M * (8 * k + 45) = 24 * W := by rw [hW]; ring
    rw [a1, a2, a3]
    omega)
end

/-- In `double` the root in the sound speed is taken of a negative number if `x` is tiny. -/
theorem soundspeed_none {s : ℝ} (h0 : 0 < s) (h1 : s ≤ 2 ^ (-57 : ℤ)) : root (tiesToEven 53) ((tiesToEven 53).fl (numerR (tiesToEven 53) s / (tiesToEven 53).fl (3 * denomR (tiesToEven 53) s))) = none := by
  have hu : (tiesToEven 53).u = 2 ^ (-53 : ℤ) := rfl
  have hu1 : (tiesToEven 53).u < 1 := by rw [hu]; norm_num
  have hu2 : (tiesToEven 53).u ≤ 1 / 8 := by rw [hu]; norm_num
  obtain ⟨R, hR⟩ : ∃ R, R = tiesToEven 53 := ⟨_, rfl⟩
  have d1 : ∀ {y : ℝ}, 0 ≤ y → y ≤ 2 ^ (-54 : ℤ) → R.fl (1 + y) = 1 := by rw [hR]; exact double_one
  have d3 : ∀ {y : ℝ}, 0 ≤ y → y ≤ 2 ^ (-54 : ℤ) → R.fl (y - 3) = -3 := by rw [hR]; exact double_three
  rw [← hR] at hu1 hu2 ⊢
  have f : ∀ {c : ℝ}, 0 ≤ c → c ≤ 6 → 0 ≤ R.fl (c * s) ∧ R.fl (c * s) ≤ 2 ^ (-54 : ℤ) := by
    intro c hc hc6
    refine ⟨fl_nonneg hu1.le (mul_nonneg hc h0.le), (fl_le (mul_nonneg hc h0.le)).trans ?_⟩
    have h2 : c * s ≤ 6 * s := mul_le_mul_of_nonneg_right hc6 h0.le
    have h3 : (1 + R.u) * (c * s) ≤ 9 / 8 * (6 * s) := mul_le_mul (by linarith) h2 (mul_nonneg hc h0.le) (by norm_num)
    refine h3.trans ?_
    calc 9 / 8 * (6 * s) ≤ 8 * s := by linarith
      _ ≤ 8 * 2 ^ (-57 : ℤ) := mul_le_mul_of_nonneg_left h1 (by norm_num)
      _ = 2 ^ (-54 : ℤ) := by norm_num
  have f6 := f (c := 6) (by norm_num) le_rfl
  have f2 := f (c := 2) (by norm_num) (by norm_num)
  have hs54 : s ≤ 2 ^ (-54 : ℤ) := h1.trans (by norm_num)
  have g3 : R.fl (-3) = -3 := by have := d3 (y := 0) le_rfl (by positivity); rwa [zero_sub] at this
  have g1 : R.fl 1 = 1 := by have := d1 (y := 0) le_rfl (by positivity); rwa [add_zero] at this
  have g0 : R.fl 0 = 0 := fl_zero
  have n1 : numerR R s = R.fl (R.fl (s * -3)) := by
    unfold numerR
    rw [d1 h0.le hs54, d3 f6.1 f6.2, d3 f2.1 f2.2, one_mul, g3, neg_add_cancel, g0, zero_add]
  have n2 : denomR R s = R.fl (R.fl s) := by
    unfold denomR
    rw [d1 h0.le hs54, add_comm (R.fl (6 * s)), d1 f6.1 f6.2, add_comm (R.fl (2 * s)), d1 f2.1 f2.2, one_mul, g1, sub_self, g0, zero_add, mul_one]
  have pos : ∀ {x : ℝ}, 0 < x → 0 < R.fl x := fun hx => lt_of_lt_of_le (mul_pos (by linarith) hx) (fl_ge hx.le)
  have neg : ∀ {x : ℝ}, x < 0 → R.fl x < 0 := by
    intro x hx
    have h := (abs_le.mp (R.err x)).2
    rw [abs_of_neg hx] at h
    nlinarith
  have h5 : R.fl (numerR R s / R.fl (3 * denomR R s)) < 0 := by
    rw [n1, n2]
    refine neg (div_neg_of_neg_of_pos (neg (neg (by linarith))) (pos (mul_pos (by norm_num) (pos (pos h0)))))
  exact if_neg (not_le.mpr h5)

end FleCSPH.Rounded

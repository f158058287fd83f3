import Verif.Model.RoundedDensity
import Verif.Lemmas.Rounding
import Verif.Lemmas.Kernels
import Mathlib.Tactic.FinCases
/-! Rounding errors of the kernels. -/
namespace FleCSPH.Rounded
open FleCSPH.Geometry FleCSPH.Cofm FleCSPH.Kernels

variable {R : Rounding}

/-- `Near` for two numbers which are not negative. -/
def NN (R : Rounding) (k : Nat) (x y : ℝ) : Prop := 0 ≤ x ∧ 0 ≤ y ∧ Near R k x y

theorem NN.refl {x : ℝ} (hx : 0 ≤ x) : NN R 0 x x := ⟨hx, hx, Near.rfl'⟩

theorem NN.mono (hu : R.u ≤ 1) {a b : Nat} (hab : a ≤ b) {x y : ℝ} (h : NN R a x y) : NN R b x y := ⟨h.1, h.2.1, h.2.2.mono hu hab h.1 h.2.1⟩

theorem NN.fl (hu : R.u ≤ 1) {a : Nat} {x y : ℝ} (h : NN R a x y) : NN R (a + 1) x (R.fl y) := ⟨h.1, fl_nonneg hu h.2.1, h.2.2.trans hu (near_fl h.2.1 hu)⟩

theorem NN.mul (hu : R.u ≤ 1) {a b : Nat} {x y x' y' : ℝ} (h : NN R a x y) (h' : NN R b x' y') : NN R (a + b) (x * x') (y * y') :=
  ⟨mul_nonneg h.1 h'.1, mul_nonneg h.2.1 h'.2.1, h.2.2.mul hu h.1 h.2.1 h'.1 h'.2.1 h'.2.2⟩

theorem NN.add (hu : R.u ≤ 1) {a b c : Nat} {x y x' y' : ℝ} (hac : a ≤ c) (hbc : b ≤ c) (h : NN R a x y) (h' : NN R b x' y') : NN R c (x + x') (y + y') :=
  ⟨add_nonneg h.1 h'.1, add_nonneg h.2.1 h'.2.1, (h.mono hu hac).2.2.add (h'.mono hu hbc).2.2⟩

theorem NN.pow (hu : R.u ≤ 1) {a : Nat} {x y : ℝ} (h : NN R a x y) (n : Nat) : NN R (n * a) (x ^ n) (y ^ n) := by
  induction n with
  | zero => rw [pow_zero, pow_zero, Nat.zero_mul]; exact NN.refl zero_le_one
  | succ n ih => rw [pow_succ, pow_succ, Nat.succ_mul]; exact ih.mul hu h

theorem NN.inv (hu : R.u < 1) {a : Nat} {x y : ℝ} (hx : 0 < x) (h : NN R a x y) : 0 < y ∧ NN R a x⁻¹ y⁻¹ := by
  have hv : 0 < (1 - R.u) ^ a := pow_pos (by linarith) a
  have hy : 0 < y := lt_of_lt_of_le (mul_pos hv hx) h.2.2.1
  refine ⟨hy, inv_nonneg.mpr h.1, inv_nonneg.mpr h.2.1, ?_, ?_⟩
  · rw [← div_eq_mul_inv, div_le_iff₀ hx, inv_mul_eq_div, le_div_iff₀ hy]
    exact h.2.2.2
  · rw [← div_eq_mul_inv, div_le_iff₀ hy, inv_mul_eq_div, le_div_iff₀ hx]
    exact h.2.2.1

theorem NN.div (hu : R.u < 1) {a b : Nat} {x y x' y' : ℝ} (h : NN R a x y) (hx' : 0 < x') (h' : NN R b x' y') : NN R (a + b) (x / x') (y / y') := by
  rw [div_eq_mul_inv, div_eq_mul_inv]
  exact h.mul hu.le (h'.inv hu hx').2

/-- The error of a number which is near. -/
theorem NN.err {k : Nat} (hk : 2 * k * R.u ≤ 1) (hu : R.u ≤ 1) {x y : ℝ} (h : NN R k x y) : |y - x| ≤ 2 * k * R.u * x := by
  have hb := bernoulli (R := R) hu k
  have h1 := h.2.2.1
  have h2 := h.2.2.2
  have hx := h.1
  have hy := h.2.1
  have hku : 0 ≤ k * R.u := mul_nonneg (Nat.cast_nonneg k) R.nonneg
  have h3 : (1 - k * R.u) * y ≤ x := (mul_le_mul_of_nonneg_right hb hy).trans h2
  have h4 : (1 - k * R.u) * x ≤ y := (mul_le_mul_of_nonneg_right hb hx).trans h1
  rw [abs_le]
  constructor
  · nlinarith
  · have h5 : y ≤ 2 * x := by nlinarith
    nlinarith

/-- `(1 - u)^(2k)` is at most `1 - k u`. -/
theorem pow_upper (hu : R.u ≤ 1) (k : Nat) (hk : 2 * k * R.u ≤ 1) : (1 - R.u) ^ (2 * k) ≤ 1 - k * R.u := by
  have h0 := R.nonneg
  have h1 : 1 + ((2 * k : Nat) : ℝ) * R.u ≤ (1 + R.u) ^ (2 * k) := one_add_mul_le_pow (by linarith) _
  have h2 : (1 - R.u) ^ (2 * k) * (1 + R.u) ^ (2 * k) ≤ 1 := by
    rw [← mul_pow]
    exact pow_le_one₀ (mul_nonneg (by linarith) (by linarith)) (by nlinarith)
  have h3 := pow_nonneg' hu (2 * k)
  push_cast at h1
  have hku : 0 ≤ k * R.u := mul_nonneg (Nat.cast_nonneg k) R.nonneg
  have h4 : (1 - R.u) ^ (2 * k) * (1 + 2 * (k * R.u)) ≤ 1 := le_trans (mul_le_mul_of_nonneg_left (by linarith) h3) h2
  by_contra hc
  rw [not_le] at hc
  nlinarith

/-- A number with a small relative error is near. -/
theorem NN.of_err {k : Nat} (hk : 2 * k * R.u ≤ 1) (hu : R.u ≤ 1) {x y : ℝ} (hx : 0 ≤ x) (h : |y - x| ≤ k * R.u * x) : NN R (2 * k) x y := by
  have h1 := pow_upper hu k hk
  have hku : 0 ≤ k * R.u := mul_nonneg (Nat.cast_nonneg k) R.nonneg
  obtain ⟨h2, h3⟩ := abs_le.mp h
  have hy : 0 ≤ y := by nlinarith
  refine ⟨hx, hy, ?_, ?_⟩
  · have := mul_le_mul_of_nonneg_right h1 hx
    linarith
  · have h4 := mul_le_mul_of_nonneg_right h1 hy
    have h5 : (1 - k * R.u) * y ≤ (1 - k * R.u) * ((1 + k * R.u) * x) := mul_le_mul_of_nonneg_left (by linarith) (by linarith)
    have h6 : 0 ≤ (k * R.u) ^ 2 * x := mul_nonneg (sq_nonneg _) hx
    nlinarith

theorem nn_fl (hu : R.u ≤ 1) {x : ℝ} (hx : 0 ≤ x) : NN R 1 x (R.fl x) := (NN.refl hx).fl hu

/-- Factors `1 - u` lost in a kernel. -/
def loss : Kernel → Nat
  | .cubicSpline => 140
  | .quinticSpline => 1100
  | _ => 40

theorem nn_sigma (hu : R.u < 1) {κ : Kernel} (hκ : Poly κ) (i : Fin 3) : NN R 4 (Kernels.sigma κ i) (sigma R κ i) := by
  have hpi : NN R 1 Real.pi (R.fl Real.pi) := nn_fl hu.le Real.pi_pos.le
  have c : ∀ {x : ℝ}, 0 ≤ x → NN R 4 x (R.fl x) := fun hx => (nn_fl hu.le hx).mono hu.le (by omega)
  have c' : ∀ {x : ℝ}, 0 ≤ x → NN R 4 x x := fun hx => (NN.refl hx).mono hu.le (by omega)
  have q : ∀ {x : ℝ}, 0 ≤ x → NN R 4 (x / Real.pi) (R.fl (x / R.fl Real.pi)) := fun hx => (((NN.refl hx).div hu Real.pi_pos hpi).fl hu.le).mono hu.le (by omega)
  have p : ∀ {x y : ℝ}, 0 ≤ x → 0 < y → NN R 4 (x / (y * Real.pi)) (R.fl (x / R.fl (y * R.fl Real.pi))) := fun hx hy =>
    (((NN.refl hx).div hu (mul_pos hy Real.pi_pos) (((NN.refl hy.le).mul hu.le hpi).fl hu.le)).fl hu.le).mono hu.le (by omega)
  cases hκ <;> fin_cases i <;>
    simp [Kernels.sigma, sigma, cubicSplineSigma, quinticSplineSigma, wendlandC2Sigma, wendlandC4Sigma, wendlandC6Sigma] <;>
    first
      | exact c (by norm_num)
      | exact c' (by norm_num)
      | exact q (by norm_num)
      | exact p (by norm_num) (by norm_num)

private theorem nn_volume (hu : R.u ≤ 1) {h h' : ℝ} (hn : NN R 2 h h') (i : Fin 3) : NN R 8 (h ^ (i + 1 : ℕ)) (volume R i h') := by
  fin_cases i <;> simp [volume]
  · exact hn.mono hu (by omega)
  · rw [pow_two]; exact ((hn.mul hu hn).fl hu).mono hu (by omega)
  · rw [pow_succ, pow_two]; exact (((((hn.mul hu hn).fl hu)).mul hu hn).fl hu).mono hu (by omega)

private theorem nn_front (hu : R.u < 1) {κ : Kernel} (hκ : Poly κ) {h h' : ℝ} (hh : 0 < h) (hn : NN R 2 h h') (i : Fin 3) :
    NN R 13 (Kernels.sigma κ i / h ^ (i + 1 : ℕ)) (R.fl (sigma R κ i / volume R i h')) :=
  ((nn_sigma hu hκ i).div hu (pow_pos hh _) (nn_volume hu.le hn i)).fl hu.le

private theorem nn_front_pow (hu : R.u < 1) {κ : Kernel} (hκ : Poly κ) {h h' : ℝ} (hh : 0 < h) (hn : NN R 2 h h') (i : Fin 3) :
    NN R 12 (Kernels.sigma κ i / h ^ (i + 1 : ℕ)) (R.fl (sigma R κ i / R.fl (h' ^ (i + 1 : ℕ)))) := by
  have h1 := ((hn.pow hu.le (i + 1)).fl hu.le)
  exact (((nn_sigma hu hκ i).div hu (pow_pos hh _) h1).fl hu.le).mono hu.le (by omega)

/-- The argument of the profile. -/
noncomputable def argument (R : Rounding) (κ : Kernel) (r h : ℝ) : ℝ :=
  match κ with
  | .cubicSpline => R.fl (R.fl (2 * r) / h)
  | .quinticSpline => R.fl (R.fl (3 * r) / h)
  | _ => R.fl (r / h)

theorem nn_argument (hu : R.u < 1) {κ : Kernel} (hκ : Poly κ) {r r' h h' : ℝ} (hh : 0 < h) (hr : NN R 7 r r') (hn : NN R 2 h h') : NN R 11 (scale κ * r / h) (argument R κ r' h') := by
  cases hκ <;> simp only [scale, argument]
  · exact (((((NN.refl (by norm_num : (0 : ℝ) ≤ 2)).mul hu.le hr).fl hu.le).div hu hh hn).fl hu.le).mono hu.le (by omega)
  · exact (((((NN.refl (by norm_num : (0 : ℝ) ≤ 3)).mul hu.le hr).fl hu.le).div hu hh hn).fl hu.le).mono hu.le (by omega)
  all_goals rw [one_mul]; exact ((hr.div hu hh hn).fl hu.le).mono hu.le (by omega)

private theorem wendland_zero {x : ℝ} (h : ¬ x < 1) : fac (x < 1) = 0 := if_neg h

private theorem cubic_prof (hu : 120 * R.u ≤ 1) {x : ℝ} (hx : 0 ≤ x) (h2 : x < 2) (i : Fin 3) :
    NN R 120 (prof .cubicSpline i x) (if x < 1 then R.fl (R.fl (1 - R.fl (R.fl (3 / 2 * x) * x)) + R.fl (R.fl (R.fl (3 / 4 * x) * x) * x))
      else R.fl (R.fl (R.fl (1 / 4 * R.fl (2 - x)) * R.fl (2 - x)) * R.fl (2 - x))) := by
  have hu0 := R.nonneg
  have hu1 : R.u ≤ 1 := by linarith
  split_ifs with h1
  · have hX := NN.refl (R := R) hx
    have hA := (((NN.refl (R := R) (show (0 : ℝ) ≤ 3 / 2 by norm_num)).mul hu1 hX).fl hu1 |>.mul hu1 hX).fl hu1
    have hB := ((((NN.refl (R := R) (show (0 : ℝ) ≤ 3 / 4 by norm_num)).mul hu1 hX).fl hu1 |>.mul hu1 hX).fl hu1 |>.mul hu1 hX).fl hu1
    have eA := hA.err (by push_cast; linarith) hu1
    have eB := hB.err (by push_cast; linarith) hu1
    obtain ⟨A, hAd⟩ : ∃ A, A = R.fl (R.fl (3 / 2 * x) * x) := ⟨_, rfl⟩
    obtain ⟨B, hBd⟩ : ∃ B, B = R.fl (R.fl (R.fl (3 / 4 * x) * x) * x) := ⟨_, rfl⟩
    rw [← hAd] at eA ⊢
    have hA0 : 0 ≤ A := hAd ▸ hA.2.1
    rw [← hBd] at eB ⊢
    push_cast at eA eB
    have hxx : x * x ≤ 1 := by nlinarith
    have hxxx : x * x * x ≤ 1 := by nlinarith
    have hxx0 : 0 ≤ x * x := mul_nonneg hx hx
    have hxxx0 : 0 ≤ x * x * x := mul_nonneg hxx0 hx
    have hu' : R.u ≤ 1 / 120 := by linarith
    have hA1 : |A - 3 / 2 * x * x| ≤ 6 * R.u := by refine eA.trans ?_; nlinarith
    have hB1 : |B - 3 / 4 * x * x * x| ≤ 9 / 2 * R.u := by refine eB.trans ?_; nlinarith
    obtain ⟨a1, a2⟩ := abs_le.mp hA1
    obtain ⟨b1, b2⟩ := abs_le.mp hB1
    have c := R.err (1 - A)
    have c0 : |1 - A| ≤ 1 := by rw [abs_le]; constructor <;> nlinarith
    have c1 : |R.fl (1 - A) - (1 - A)| ≤ R.u := c.trans (by nlinarith)
    obtain ⟨c2, c3⟩ := abs_le.mp c1
    obtain ⟨c4, c5⟩ := abs_le.mp c0
    have g := R.err (R.fl (1 - A) + B)
    have g0 : |R.fl (1 - A) + B| ≤ 3 := by rw [abs_le]; constructor <;> nlinarith
    have g1 : |R.fl (R.fl (1 - A) + B) - (R.fl (1 - A) + B)| ≤ 3 * R.u := g.trans (by nlinarith)
    obtain ⟨g2, g3⟩ := abs_le.mp g1
    have hv : (1 : ℝ) / 4 ≤ prof .cubicSpline i x := by
      have := antitoneOn_prof (Poly.cubicSpline) i (Set.mem_Ici.mpr hx) (Set.mem_Ici.mpr zero_le_one) h1.le
      refine le_trans (le_of_eq ?_) this
      simp only [prof, tp_of_lt (show (1 : ℝ) < 2 by norm_num), tp_of_ge (le_refl (1 : ℝ))]
      norm_num
    have hp : prof .cubicSpline i x = 1 - 3 / 2 * x * x + 3 / 4 * x * x * x := by
      simp only [prof, tp_of_lt h1, tp_of_lt h2]; ring
    refine NN.of_err (k := 60) (by push_cast; linarith) hu1 (by linarith) ?_
    push_cast
    have : 15 * R.u ≤ 60 * R.u * prof .cubicSpline i x := by nlinarith
    refine le_trans ?_ this
    rw [hp, abs_le]
    constructor <;> linarith
  · have ht := nn_fl (R := R) hu1 (show 0 ≤ 2 - x by linarith)
    have hp : prof .cubicSpline i x = 1 / 4 * (2 - x) * (2 - x) * (2 - x) := by
      simp only [prof, tp_of_lt h2, tp_of_ge (not_lt.mp h1)]; ring
    rw [hp]
    exact ((((((NN.refl (R := R) (show (0 : ℝ) ≤ 1 / 4 by norm_num)).mul hu1 ht).fl hu1).mul hu1 ht).fl hu1 |>.mul hu1 ht).fl hu1).mono hu1 (by omega)

private theorem err_le {e x a b c u : ℝ} (hu : 0 ≤ u) (h : e ≤ a * u * x) (hx : x ≤ b) (ha : 0 ≤ a) (hc : a * b ≤ c) : e ≤ c * u := by
  refine h.trans ?_
  have h1 := mul_le_mul_of_nonneg_left hx (mul_nonneg ha hu)
  have h2 := mul_le_mul_of_nonneg_right hc hu
  linarith

private theorem err_le' {e x b u : ℝ} (hu : 0 ≤ u) (h : e ≤ u * x) (hx : x ≤ b) : e ≤ b * u := by
  refine h.trans ?_
  rw [mul_comm b]
  exact mul_le_mul_of_nonneg_left hx hu

private theorem quintic_prof (hu : 1100 * R.u ≤ 1) {x : ℝ} (hx : 0 ≤ x) (h3 : x < 3) (i : Fin 3) :
    NN R 1080 (prof .quinticSpline i x) (
      let w3 := R.fl (R.fl (3 - x) ^ 5)
      let w2 := if x < 2 then R.fl (w3 + R.fl (-6 * R.fl (R.fl (2 - x) ^ 5))) else w3
      if x < 1 then R.fl (w2 + R.fl (15 * R.fl (R.fl (1 - x) ^ 5))) else w2) := by
  have hu0 := R.nonneg
  have hu1 : R.u ≤ 1 := by linarith
  have hu' : R.u ≤ 1 / 1100 := by linarith
  have hanti := antitoneOn_prof (Poly.quinticSpline) i
  have hP := ((nn_fl (R := R) hu1 (show 0 ≤ 3 - x by linarith)).pow hu1 5).fl hu1
  dsimp only
  by_cases h2 : x < 2
  · have hQ := ((nn_fl (R := R) hu1 (show 0 ≤ 2 - x by linarith)).pow hu1 5).fl hu1
    have eP := hP.err (by push_cast; linarith) hu1
    have eQ := hQ.err (by push_cast; linarith) hu1
    push_cast at eP eQ
    rw [if_pos h2]
    obtain ⟨P, hPd⟩ : ∃ P, P = R.fl (R.fl (3 - x) ^ 5) := ⟨_, rfl⟩
    obtain ⟨Q, hQd⟩ : ∃ Q, Q = R.fl (R.fl (2 - x) ^ 5) := ⟨_, rfl⟩
    rw [← hPd] at eP ⊢
    rw [← hQd] at eQ ⊢
    have e6 := R.err (-6 * Q)
    obtain ⟨Q6, hQ6⟩ : ∃ Q6, Q6 = R.fl (-6 * Q) := ⟨_, rfl⟩
    rw [← hQ6] at e6 ⊢
    have e7 := R.err (P + Q6)
    obtain ⟨w2, hw2⟩ : ∃ w2, w2 = R.fl (P + Q6) := ⟨_, rfl⟩
    rw [← hw2] at e7 ⊢
    have q0 : 0 ≤ (2 - x) ^ 5 := pow_nonneg (by linarith) 5
    have p0 : 0 ≤ (3 - x) ^ 5 := pow_nonneg (by linarith) 5
    by_cases h1 : x < 1
    · rw [if_pos h1]
      have hS := ((nn_fl (R := R) hu1 (show 0 ≤ 1 - x by linarith)).pow hu1 5).fl hu1
      have eS := hS.err (by push_cast; linarith) hu1
      push_cast at eS
      obtain ⟨S, hSd⟩ : ∃ S, S = R.fl (R.fl (1 - x) ^ 5) := ⟨_, rfl⟩
      rw [← hSd] at eS ⊢
      have e8 := R.err (15 * S)
      obtain ⟨S15, hS15⟩ : ∃ S15, S15 = R.fl (15 * S) := ⟨_, rfl⟩
      rw [← hS15] at e8 ⊢
      have e9 := R.err (w2 + S15)
      obtain ⟨w1, hw1⟩ : ∃ w1, w1 = R.fl (w2 + S15) := ⟨_, rfl⟩
      rw [← hw1] at e9 ⊢
      have s0 : 0 ≤ (1 - x) ^ 5 := pow_nonneg (by linarith) 5
      have p1 : (3 - x) ^ 5 ≤ 243 := by
        calc (3 - x) ^ 5 ≤ 3 ^ 5 := pow_le_pow_left₀ (by linarith) (by linarith) 5
          _ = 243 := by norm_num
      have q1 : (2 - x) ^ 5 ≤ 32 := by
        calc (2 - x) ^ 5 ≤ 2 ^ 5 := pow_le_pow_left₀ (by linarith) (by linarith) 5
          _ = 32 := by norm_num
      have s1 : (1 - x) ^ 5 ≤ 1 := pow_le_one₀ (by linarith) (by linarith)
      have eP' : |P - (3 - x) ^ 5| ≤ 2916 * R.u := err_le hu0 eP p1 (by norm_num) (by norm_num)
      have eQ' : |Q - (2 - x) ^ 5| ≤ 384 * R.u := err_le hu0 eQ q1 (by norm_num) (by norm_num)
      have eS' : |S - (1 - x) ^ 5| ≤ 12 * R.u := err_le hu0 eS s1 (by norm_num) (by norm_num)
      obtain ⟨a1, a2⟩ := abs_le.mp eP'
      obtain ⟨b1, b2⟩ := abs_le.mp eQ'
      obtain ⟨c1, c2⟩ := abs_le.mp eS'
      have z6 : |-6 * Q| ≤ 200 := by rw [abs_le]; constructor <;> linarith
      have z8 : |15 * S| ≤ 20 := by rw [abs_le]; constructor <;> linarith
      have e6' : |Q6 - -6 * Q| ≤ 200 * R.u := err_le' hu0 e6 z6
      have e8' : |S15 - 15 * S| ≤ 20 * R.u := err_le' hu0 e8 z8
      obtain ⟨g1, g2⟩ := abs_le.mp e6'
      obtain ⟨g3, g4⟩ := abs_le.mp e8'
      have z7 : |P + Q6| ≤ 300 := by rw [abs_le]; constructor <;> linarith
      have e7' : |w2 - (P + Q6)| ≤ 300 * R.u := err_le' hu0 e7 z7
      obtain ⟨g5, g6⟩ := abs_le.mp e7'
      have z9 : |w2 + S15| ≤ 400 := by rw [abs_le]; constructor <;> linarith
      have e9' : |w1 - (w2 + S15)| ≤ 400 * R.u := err_le' hu0 e9 z9
      obtain ⟨g7, g8⟩ := abs_le.mp e9'
      have hv : (26 : ℝ) ≤ prof .quinticSpline i x := by
        have := hanti (Set.mem_Ici.mpr hx) (Set.mem_Ici.mpr zero_le_one) h1.le
        refine le_trans (le_of_eq ?_) this
        simp only [prof, tp_of_lt (show (1 : ℝ) < 3 by norm_num), tp_of_lt (show (1 : ℝ) < 2 by norm_num), tp_of_ge (le_refl (1 : ℝ))]
        norm_num
      have hp : prof .quinticSpline i x = (3 - x) ^ 5 - 6 * (2 - x) ^ 5 + 15 * (1 - x) ^ 5 := by
        simp only [prof, tp_of_lt h1, tp_of_lt h2, tp_of_lt h3]
      refine (NN.of_err (k := 540) (by push_cast; linarith) hu1 (by linarith) ?_).mono hu1 (by omega)
      push_cast
      have : 14040 * R.u ≤ 540 * R.u * prof .quinticSpline i x := by linarith [mul_le_mul_of_nonneg_left hv hu0]
      refine le_trans ?_ this
      rw [hp, abs_le]
      constructor <;> linarith
    · rw [if_neg h1]
      rw [not_lt] at h1
      have p1 : (3 - x) ^ 5 ≤ 32 := by
        calc (3 - x) ^ 5 ≤ 2 ^ 5 := pow_le_pow_left₀ (by linarith) (by linarith) 5
          _ = 32 := by norm_num
      have q1 : (2 - x) ^ 5 ≤ 1 := pow_le_one₀ (by linarith) (by linarith)
      have eP' : |P - (3 - x) ^ 5| ≤ 384 * R.u := err_le hu0 eP p1 (by norm_num) (by norm_num)
      have eQ' : |Q - (2 - x) ^ 5| ≤ 12 * R.u := err_le hu0 eQ q1 (by norm_num) (by norm_num)
      obtain ⟨a1, a2⟩ := abs_le.mp eP'
      obtain ⟨b1, b2⟩ := abs_le.mp eQ'
      have z6 : |-6 * Q| ≤ 8 := by rw [abs_le]; constructor <;> linarith
      have e6' : |Q6 - -6 * Q| ≤ 8 * R.u := err_le' hu0 e6 z6
      obtain ⟨g1, g2⟩ := abs_le.mp e6'
      have z7 : |P + Q6| ≤ 40 := by rw [abs_le]; constructor <;> linarith
      have e7' : |w2 - (P + Q6)| ≤ 40 * R.u := err_le' hu0 e7 z7
      obtain ⟨g5, g6⟩ := abs_le.mp e7'
      have hv : (1 : ℝ) ≤ prof .quinticSpline i x := by
        have := hanti (Set.mem_Ici.mpr hx) (Set.mem_Ici.mpr zero_le_two) h2.le
        refine le_trans (le_of_eq ?_) this
        simp only [prof, tp_of_lt (show (2 : ℝ) < 3 by norm_num), tp_of_ge (le_refl (2 : ℝ)), tp_of_ge (show (1 : ℝ) ≤ 2 by norm_num)]
        norm_num
      have hp : prof .quinticSpline i x = (3 - x) ^ 5 - 6 * (2 - x) ^ 5 := by
        simp only [prof, tp_of_ge h1, tp_of_lt h2, tp_of_lt h3]; ring
      refine (NN.of_err (k := 540) (by push_cast; linarith) hu1 (by linarith) ?_).mono hu1 (by omega)
      push_cast
      have : 540 * R.u ≤ 540 * R.u * prof .quinticSpline i x := by linarith [mul_le_mul_of_nonneg_left hv hu0]
      refine le_trans ?_ this
      rw [hp, abs_le]
      constructor <;> linarith
  · rw [if_neg h2, if_neg (by linarith)]
    rw [not_lt] at h2
    have hp : prof .quinticSpline i x = (3 - x) ^ 5 := by
      simp only [prof, tp_of_ge h2, tp_of_ge (show (1 : ℝ) ≤ x by linarith), tp_of_lt h3]; ring
    rw [hp]
    exact hP.mono hu1 (by omega)

/-- The rounded kernel is near the exact one at the rounded argument. -/
theorem nn_kernel (hu : R.u < 1) {κ : Kernel} (hκ : Poly κ) (hl : loss κ * R.u ≤ 1) {r r' h h' : ℝ} (hh : 0 < h) (hr : NN R 7 r r') (hn : NN R 2 h h') (i : Fin 3) :
    NN R (loss κ) (Kernels.sigma κ i / h ^ (i + 1 : ℕ) * prof κ i (argument R κ r' h')) (kernel R κ i r' h') := by
  have hx := (nn_argument hu hκ hh hr hn).2.1
  have hf := nn_front hu hκ hh hn i
  have hfp := nn_front_pow hu hκ hh hn i
  have hu' := hu.le
  cases hκ with
  | cubicSpline =>
    simp only [kernel, cubicSpline, loss] at hl ⊢
    have ha : argument R .cubicSpline r' h' = R.fl (R.fl (2 * r') / h') := rfl
    rw [ha] at hx ⊢
    obtain ⟨x, hxd⟩ : ∃ x, x = R.fl (R.fl (2 * r') / h') := ⟨_, rfl⟩
    rw [← hxd] at hx ⊢
    by_cases h2 : x < 2
    · rw [if_pos h2, mul_comm]
      push_cast at hl
      exact ((cubic_prof (by linarith [R.nonneg]) hx h2 i).mul hu' hfp |>.fl hu').mono hu' (by omega)
    · rw [if_neg h2, prof_zero .cubicSpline i (not_lt.mp h2), mul_zero]
      exact (NN.refl le_rfl).mono hu' (by omega)
  | quinticSpline =>
    simp only [kernel, quinticSpline, loss] at hl ⊢
    have ha : argument R .quinticSpline r' h' = R.fl (R.fl (3 * r') / h') := rfl
    rw [ha] at hx ⊢
    obtain ⟨x, hxd⟩ : ∃ x, x = R.fl (R.fl (3 * r') / h') := ⟨_, rfl⟩
    rw [← hxd] at hx ⊢
    by_cases h2 : x < 3
    · rw [if_pos h2, mul_comm]
      push_cast at hl
      exact ((quintic_prof (by linarith [R.nonneg]) hx h2 i).mul hu' hfp |>.fl hu').mono hu' (by omega)
    · rw [if_neg h2, prof_zero .quinticSpline i (not_lt.mp h2), mul_zero]
      exact (NN.refl le_rfl).mono hu' (by omega)
  | wendlandC2 =>
    have ha : argument R .wendlandC2 r' h' = R.fl (r' / h') := rfl
    rw [ha] at hx ⊢
    obtain ⟨x, hxd⟩ : ∃ x, x = R.fl (r' / h') := ⟨_, rfl⟩
    by_cases h1 : x < 1
    · have hX := NN.refl (R := R) (hxd ▸ hx : 0 ≤ x)
      have ht := nn_fl (R := R) hu' (show 0 ≤ 1 - x by linarith)
      have ht2 := (ht.mul hu' ht).fl hu'
      have h3 := (((NN.refl (R := R) (show (0 : ℝ) ≤ 3 by norm_num)).mul hu' hX).fl hu' |>.add hu' (c := 1) (by omega) (by omega) (NN.refl zero_le_one)).fl hu'
      have h4 := (((NN.refl (R := R) (show (0 : ℝ) ≤ 4 by norm_num)).mul hu' hX).fl hu' |>.add hu' (c := 1) (by omega) (by omega) (NN.refl zero_le_one)).fl hu'
      have m0 := ((((hf.mul hu' ht2).fl hu').mul hu' ht).fl hu' |>.mul hu' h3).fl hu' |>.mono hu' (show _ ≤ 40 by omega)
      have m1 := ((((hf.mul hu' ht2).fl hu').mul hu' ht2).fl hu' |>.mul hu' h4).fl hu' |>.mono hu' (show _ ≤ 40 by omega)
      rcases fin3 i with rfl | rfl | rfl <;> simp only [kernel, wendlandC2, loss, prof] <;> rw [← hxd, fac, if_pos h1, mul_one, tp_of_lt h1]
      · convert m0 using 1; ring
      · convert m1 using 1; ring
      · convert m1 using 1; ring
    · have e : kernel R .wendlandC2 i r' h' = 0 := by
        rcases fin3 i with rfl | rfl | rfl <;> simp only [kernel, wendlandC2] <;> rw [← hxd, wendland_zero h1, mul_zero]
      rw [e, ← hxd, prof_zero .wendlandC2 i (not_lt.mp h1), mul_zero]
      exact (NN.refl le_rfl).mono hu' (Nat.zero_le _)
  | wendlandC4 =>
    have ha : argument R .wendlandC4 r' h' = R.fl (r' / h') := rfl
    rw [ha] at hx ⊢
    obtain ⟨x, hxd⟩ : ∃ x, x = R.fl (r' / h') := ⟨_, rfl⟩
    by_cases h1 : x < 1
    · have hX := NN.refl (R := R) (hxd ▸ hx : 0 ≤ x)
      have ht := nn_fl (R := R) hu' (show 0 ≤ 1 - x by linarith)
      have ht2 := (ht.mul hu' ht).fl hu'
      have h5 := ((NN.refl (R := R) (show (0 : ℝ) ≤ 5 by norm_num)).add hu' (c := 1) (by omega) (by omega) ((hX.mul hu' (NN.refl (show (0 : ℝ) ≤ 8 by norm_num))).fl hu')).fl hu'
      have h5' := ((NN.refl (R := R) zero_le_one).add hu' (c := 3) (by omega) (by omega) ((hX.mul hu' h5).fl hu')).fl hu'
      have h6 := ((NN.refl (R := R) (show (0 : ℝ) ≤ 6 by norm_num)).add hu' (c := 2) (by omega) (by omega)
        (((hX.mul hu' (NN.refl (show (0 : ℝ) ≤ 35 by norm_num))).fl hu').div hu (by norm_num) (NN.refl (show (0 : ℝ) ≤ 3 by norm_num)) |>.fl hu')).fl hu'
      have h6' := ((NN.refl (R := R) zero_le_one).add hu' (c := 4) (by omega) (by omega) ((hX.mul hu' h6).fl hu')).fl hu'
      have m0 := (((hf.mul hu' ((ht2.mul hu' ht).fl hu')).fl hu').mul hu' ht2).fl hu' |>.mul hu' h5' |>.fl hu' |>.mono hu' (show _ ≤ 40 by omega)
      have m1 := ((hf.mul hu' ((((ht2.mul hu' ht2).fl hu').mul hu' ht2).fl hu')).fl hu').mul hu' h6' |>.fl hu' |>.mono hu' (show _ ≤ 40 by omega)
      rcases fin3 i with rfl | rfl | rfl <;> simp only [kernel, wendlandC4, loss, prof] <;> rw [← hxd, fac, if_pos h1, mul_one, tp_of_lt h1]
      · convert m0 using 1; ring
      · convert m1 using 1; ring
      · convert m1 using 1; ring
    · have e : kernel R .wendlandC4 i r' h' = 0 := by
        rcases fin3 i with rfl | rfl | rfl <;> simp only [kernel, wendlandC4] <;> rw [← hxd, wendland_zero h1, mul_zero]
      rw [e, ← hxd, prof_zero .wendlandC4 i (not_lt.mp h1), mul_zero]
      exact (NN.refl le_rfl).mono hu' (Nat.zero_le _)
  | wendlandC6 =>
    have ha : argument R .wendlandC6 r' h' = R.fl (r' / h') := rfl
    rw [ha] at hx ⊢
    obtain ⟨x, hxd⟩ : ∃ x, x = R.fl (r' / h') := ⟨_, rfl⟩
    by_cases h1 : x < 1
    · have hX := NN.refl (R := R) (hxd ▸ hx : 0 ≤ x)
      have ht := nn_fl (R := R) hu' (show 0 ≤ 1 - x by linarith)
      have ht2 := (ht.mul hu' ht).fl hu'
      have ht4 := (ht2.mul hu' ht2).fl hu'
      have hq : ∀ a b c : ℝ, 0 ≤ a → 0 ≤ b → 0 ≤ c → NN R 6 (1 + x * (a + x * (b + x * c))) (R.fl (1 + R.fl (x * R.fl (a + R.fl (x * R.fl (b + R.fl (x * c))))))) := by
        intro a b c ha hb hc
        have g1 := ((NN.refl (R := R) hb).add hu' (c := 1) (by omega) (by omega) ((hX.mul hu' (NN.refl hc)).fl hu')).fl hu'
        have g2 := ((NN.refl (R := R) ha).add hu' (c := 3) (by omega) (by omega) ((hX.mul hu' g1).fl hu')).fl hu'
        exact ((NN.refl (R := R) zero_le_one).add hu' (c := 5) (by omega) (by omega) ((hX.mul hu' g2).fl hu')).fl hu'
      have m0 := (((hf.mul hu' ((ht2.mul hu' ht).fl hu')).fl hu').mul hu' ht4).fl hu' |>.mul hu' (hq 7 19 21 (by norm_num) (by norm_num) (by norm_num)) |>.fl hu' |>.mono hu' (show _ ≤ 40 by omega)
      have m1 := (((hf.mul hu' ht4).fl hu').mul hu' ht4).fl hu' |>.mul hu' (hq 8 25 32 (by norm_num) (by norm_num) (by norm_num)) |>.fl hu' |>.mono hu' (show _ ≤ 40 by omega)
      rcases fin3 i with rfl | rfl | rfl <;> simp only [kernel, wendlandC6, loss, prof] <;> rw [← hxd, fac, if_pos h1, mul_one, tp_of_lt h1]
      · convert m0 using 1; ring
      · convert m1 using 1; ring
      · convert m1 using 1; ring
    · have e : kernel R .wendlandC6 i r' h' = 0 := by
        rcases fin3 i with rfl | rfl | rfl <;> simp only [kernel, wendlandC6] <;> rw [← hxd, wendland_zero h1, mul_zero]
      rw [e, ← hxd, prof_zero .wendlandC6 i (not_lt.mp h1), mul_zero]
      exact (NN.refl le_rfl).mono hu' (Nat.zero_le _)

end FleCSPH.Rounded

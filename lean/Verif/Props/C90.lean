import Verif.Lemmas.RoundedState
import Verif.Lemmas.RoundedWd
import Verif.Lemmas.RoundedSignal
import Verif.Props.C85
/-!
C90: densities, equations of state and forces from positions in floating-point arithmetic.

The pass of `compute_density_pressure_soundspeed` with every operation rounded (Model/RoundedEos.lean), against the same pass in exact arithmetic (Model/Eos.lean), and the forces which follow from it. C85 takes densities, pressures and
sound speeds as given; here they come from the positions. Missing for the full property: overflow, underflow and fused operations; the Gaussian and sinc kernels; for the forces, the piecewise polytrope and the white dwarf, whose sound
speeds need not be close (`C90_ppt_violated`, `C90_wd_violated`), and the thermokinetic formulation (`C90_recover` has the internal energies).
-/
namespace FleCSPH.Rounded
open FleCSPH.Spec FleCSPH.Geometry FleCSPH.Kernels FleCSPH.Sph FleCSPH.Cofm
open FleCSPH.Eos (aWd xWd)

variable {R : Rounding} {i : Fin 3} {n : Nat}

/-! ### Single equations of state -/

/-- Pressure and sound speed of a gas for a density with a relative error of `m u` are right up to `4 (g m + 2) u`, where `g` bounds the exponent. -/
theorem C90_eos {d g m : Nat} {e : Eos.Kind} {q : Eos.Params} {a : Particle d} (ha : Gas R q g e a) {rho rho' : ℝ} (hr : 0 ≤ rho) (h : |rho' - rho| ≤ m * R.u * rho) (hm : (4 * g * m + 8 + 2 * m) * R.u ≤ 1) :
    ∃ c, computeSoundspeedR R e q (computePressureR R e q { a with rho := rho' }) = some c ∧ c.rho = rho' ∧
      |c.P - (Eos.computePressure e q { a with rho := rho }).P| ≤ 4 * (g * m + 2) * R.u * (Eos.computePressure e q { a with rho := rho }).P ∧
      |c.cs - (Eos.computeSoundspeed e q (Eos.computePressure e q { a with rho := rho })).cs| ≤ 4 * (g * m + 2) * R.u * (Eos.computeSoundspeed e q (Eos.computePressure e q { a with rho := rho })).cs := by
  have h0 := R.nonneg
  have hm0 : 0 ≤ m * R.u := mul_nonneg (Nat.cast_nonneg _) h0
  have hg0 : 0 ≤ g * m * R.u := mul_nonneg (mul_nonneg (Nat.cast_nonneg _) (Nat.cast_nonneg _)) h0
  have hu : R.u < 1 := by nlinarith
  have hn := NN.of_err (R := R) (by nlinarith) hu.le hr h
  obtain ⟨c, hc, h1, h2, h3⟩ := eos_near hu ha hn
  have hk : 2 * ((g * (2 * m) + 4 : ℕ) : ℝ) * R.u ≤ 1 := by push_cast; nlinarith
  have e : 2 * ((g * (2 * m) + 4 : ℕ) : ℝ) = 4 * (g * m + 2) := by push_cast; ring
  refine ⟨c, hc, h1, ?_, ?_⟩
  · have := h2.err hk hu.le
    rwa [e] at this
  · have := h3.err hk hu.le
    rwa [e] at this

/-- The internal energy of a polytropic gas for a density with a relative error of `m u` is right up to `4 (g m + 2) u`. -/
theorem C90_energy {d g m : Nat} {q : Eos.Params} {a : Particle d} (hK : 0 ≤ a.K) (h1 : 1 < q.gamma) (hg : q.gamma ≤ g) (hx : R.fl (q.gamma - 1) = q.gamma - 1) {rho rho' : ℝ} (hr : 0 ≤ rho) (h : |rho' - rho| ≤ m * R.u * rho)
    (hm : (4 * g * m + 8 + 2 * m) * R.u ≤ 1) :
    |(energyPolyR R q { a with rho := rho' }).u - a.K * rho ^ (q.gamma - 1) / (q.gamma - 1)| ≤ 4 * (g * m + 2) * R.u * (a.K * rho ^ (q.gamma - 1) / (q.gamma - 1)) := by
  have h0 := R.nonneg
  have hm0 : 0 ≤ m * R.u := mul_nonneg (Nat.cast_nonneg _) h0
  have hg0 : 0 ≤ g * m * R.u := mul_nonneg (mul_nonneg (Nat.cast_nonneg _) (Nat.cast_nonneg _)) h0
  have hu : R.u < 1 := by nlinarith
  have hn := NN.of_err (R := R) (by nlinarith) hu.le hr h
  have n1 := ((((NN.refl (R := R) hK).mul hu.le (nn_pow (g := g) hu hn (show 0 ≤ q.gamma - 1 by linarith) (by linarith))).fl hu.le).div hu (show 0 < q.gamma - 1 by linarith) (NN.refl (by linarith))).fl hu.le
  have n2 := (n1.mono hu.le (show _ ≤ g * (2 * m) + 4 by omega)).err (by push_cast; nlinarith) hu.le
  simp only [energyPolyR, hx]
  refine n2.trans (le_of_eq ?_)
  push_cast
  ring

/-- The pressure from the adiabatic invariant which was set from a pressure at the same density is that pressure up to `8 u`. -/
theorem C90_round_trip (hu : 8 * R.u ≤ 1) {d : Nat} (q : Eos.Params) (a : Particle d) (hP : 0 ≤ a.P) (hr : 0 < a.rho) : |(pressurePolyR R q (adiabaticPolyR R q a)).P - a.P| ≤ 8 * R.u * a.P := by
  have h0 := R.nonneg
  have hu1 : R.u < 1 := by linarith
  have hp : 0 < a.rho ^ q.gamma := Real.rpow_pos_of_pos hr _
  have n1 : NN R 1 (a.rho ^ q.gamma) (pow R a.rho q.gamma) := nn_fl hu1.le hp.le
  have n2 : NN R (0 + 1 + 1 + 1 + 1) (a.P / a.rho ^ q.gamma * a.rho ^ q.gamma) (R.fl (R.fl (a.P / pow R a.rho q.gamma) * pow R a.rho q.gamma)) :=
    ((((NN.refl hP).div hu1 hp n1).fl hu1.le).mul hu1.le n1).fl hu1.le
  rw [div_mul_cancel₀ _ hp.ne'] at n2
  have := n2.err (by push_cast; linarith) hu1.le
  push_cast at this
  norm_num at this
  exact this

/-- The same for the piecewise polytrope, on either side of the threshold; the differences of the exponents are exact. -/
theorem C90_round_trip_ppt (hu : 16 * R.u ≤ 1) {d : Nat} (q : Eos.Params) (a : Particle d) (hP : 0 ≤ a.P) (hr : 0 < a.rho) (ht : 0 < q.thr) (h1 : R.fl (q.gamma - q.gamma2) = q.gamma - q.gamma2)
    (h2 : R.fl (q.gamma2 - q.gamma) = q.gamma2 - q.gamma) : |(pressurePptR R q (adiabaticPptR R q a)).P - a.P| ≤ 16 * R.u * a.P := by
  have h0 := R.nonneg
  have hu1 : R.u < 1 := by linarith
  by_cases hlt : a.rho < q.thr
  · have h := C90_round_trip (by linarith) q a hP hr
    have e : (pressurePptR R q (adiabaticPptR R q a)).P = (pressurePolyR R q (adiabaticPolyR R q a)).P := by simp only [pressurePptR, adiabaticPptR, pressurePolyR, adiabaticPolyR, if_pos hlt]
    rw [e]
    refine h.trans (mul_le_mul_of_nonneg_right (by linarith) hP)
  · have hp : 0 < a.rho ^ q.gamma2 := Real.rpow_pos_of_pos hr _
    have hq : 0 < q.thr ^ (q.gamma2 - q.gamma) := Real.rpow_pos_of_pos ht _
    have hq' : 0 < q.thr ^ (q.gamma - q.gamma2) := Real.rpow_pos_of_pos ht _
    have n1 : NN R 1 (a.rho ^ q.gamma2) (pow R a.rho q.gamma2) := nn_fl hu1.le hp.le
    have n2 : NN R 1 (q.thr ^ (q.gamma2 - q.gamma)) (pow R q.thr (q.gamma2 - q.gamma)) := nn_fl hu1.le hq.le
    have n3 : NN R 1 (q.thr ^ (q.gamma - q.gamma2)) (pow R q.thr (q.gamma - q.gamma2)) := nn_fl hu1.le hq'.le
    have n4 : NN R (0 + 1 + 1 + 1 + 1 + 1 + 1 + 1 + 1) (a.P / a.rho ^ q.gamma2 * q.thr ^ (q.gamma2 - q.gamma) * q.thr ^ (q.gamma - q.gamma2) * a.rho ^ q.gamma2)
        (R.fl (R.fl (R.fl (R.fl (a.P / pow R a.rho q.gamma2) * pow R q.thr (q.gamma2 - q.gamma)) * pow R q.thr (q.gamma - q.gamma2)) * pow R a.rho q.gamma2)) :=
      ((((((((NN.refl hP).div hu1 hp n1).fl hu1.le).mul hu1.le n2).fl hu1.le).mul hu1.le n3).fl hu1.le).mul hu1.le n1).fl hu1.le
    have e : a.P / a.rho ^ q.gamma2 * q.thr ^ (q.gamma2 - q.gamma) * q.thr ^ (q.gamma - q.gamma2) * a.rho ^ q.gamma2 = a.P := by
      rw [mul_assoc (a.P / _), ← Real.rpow_add ht, show q.gamma2 - q.gamma + (q.gamma - q.gamma2) = 0 by ring, Real.rpow_zero, mul_one, div_mul_cancel₀ _ hp.ne']
    have e' : (pressurePptR R q (adiabaticPptR R q a)).P = R.fl (R.fl (R.fl (R.fl (a.P / pow R a.rho q.gamma2) * pow R q.thr (q.gamma2 - q.gamma)) * pow R q.thr (q.gamma - q.gamma2)) * pow R a.rho q.gamma2) := by
      simp only [pressurePptR, adiabaticPptR, secondR, if_neg hlt, h1, h2]
    rw [e] at n4
    rw [e']
    have := n4.err (by push_cast; linarith) hu1.le
    push_cast at this
    norm_num at this
    exact this

/-- For a `double` between 1 and 2 the exponent `γ - 1` of the sound speed is exact. -/
theorem C90_exponent {m : ℤ} (h1 : 2 ^ 52 ≤ m) (h2 : m ≤ 2 ^ 53) : (tiesToEven 53).fl (m / 2 ^ 52 - 1) = m / 2 ^ 52 - 1 := double_sub_one h1 h2

/-! ### The piecewise polytrope -/

/-- The pressure of the piecewise polytrope for unit `K`. -/
private noncomputable def pp (q : Eos.Params) (x : ℝ) : ℝ := if x < q.thr then x ^ q.gamma else q.thr ^ (q.gamma - q.gamma2) * x ^ q.gamma2

private theorem pp_thr {q : Eos.Params} (ht : 0 < q.thr) : q.thr ^ (q.gamma - q.gamma2) * q.thr ^ q.gamma2 = q.thr ^ q.gamma := by
  rw [← Real.rpow_add ht]; congr 1; ring

section
variable {q : Eos.Params} {g : Nat} (ht : 0 < q.thr) (h1 : 0 ≤ q.gamma ∧ q.gamma ≤ g) (h2 : 0 ≤ q.gamma2 ∧ q.gamma2 ≤ g)
include ht h1 h2

private theorem pp_nonneg {x : ℝ} (hx : 0 ≤ x) : 0 ≤ pp q x := by
  have := (Real.rpow_pos_of_pos ht (q.gamma - q.gamma2)).le
  unfold pp
  split_ifs <;> positivity

private theorem pp_mono {x y : ℝ} (hx : 0 ≤ x) (hxy : x ≤ y) : pp q x ≤ pp q y := by
  have hq := (Real.rpow_pos_of_pos ht (q.gamma - q.gamma2)).le
  unfold pp
  split_ifs with hx1 hy1 hy1
  · exact Real.rpow_le_rpow hx hxy h1.1
  · calc x ^ q.gamma ≤ q.thr ^ q.gamma := Real.rpow_le_rpow hx hx1.le h1.1
      _ = q.thr ^ (q.gamma - q.gamma2) * q.thr ^ q.gamma2 := (pp_thr ht).symm
      _ ≤ _ := mul_le_mul_of_nonneg_left (Real.rpow_le_rpow ht.le (not_lt.mp hy1) h2.1) hq
  · exact absurd (lt_of_le_of_lt hxy hy1) hx1
  · exact mul_le_mul_of_nonneg_left (Real.rpow_le_rpow hx hxy h2.1) hq

private theorem scale_pow {c x γ : ℝ} (hc : 0 < c) (hc1 : c ≤ 1) (hx : 0 ≤ x) (hγ : γ ≤ g) : c ^ g * x ^ γ ≤ (c * x) ^ γ := by
  rw [Real.mul_rpow hc.le hx, ← Real.rpow_natCast c g]
  exact mul_le_mul_of_nonneg_right (Real.rpow_le_rpow_of_exponent_ge hc hc1 hγ) (Real.rpow_nonneg hx γ)

private theorem pp_scale {c x : ℝ} (hc : 0 < c) (hc1 : c ≤ 1) (hx : 0 < x) : c ^ g * pp q x ≤ pp q (c * x) := by
  have hq := (Real.rpow_pos_of_pos ht (q.gamma - q.gamma2)).le
  have hcx : c * x ≤ x := by nlinarith
  unfold pp
  split_ifs with hx1 hy1 hy1
  · exact scale_pow ht h1 h2 hc hc1 hx.le h1.2
  · exact absurd (lt_of_le_of_lt hcx hx1) hy1
  · have hx2 := not_lt.mp hx1
    have m0 : 0 < q.thr / x := div_pos ht hx
    have m1 : q.thr / x ≤ 1 := (div_le_one hx).mpr hx2
    have a1 := scale_pow ht h1 h2 m0 m1 hx.le h2.2
    rw [div_mul_cancel₀ _ hx.ne'] at a1
    have b0 : 0 < c * x / q.thr := div_pos (mul_pos hc hx) ht
    have a2 := scale_pow ht h1 h2 b0 ((div_le_one ht).mpr hy1.le) ht.le h1.2
    rw [div_mul_cancel₀ _ ht.ne'] at a2
    have e : c ^ g = (c * x / q.thr) ^ g * (q.thr / x) ^ g := by
      rw [← mul_pow]; congr 1; field_simp
    calc c ^ g * (q.thr ^ (q.gamma - q.gamma2) * x ^ q.gamma2) = (c * x / q.thr) ^ g * (q.thr ^ (q.gamma - q.gamma2) * ((q.thr / x) ^ g * x ^ q.gamma2)) := by rw [e]; ring
      _ ≤ (c * x / q.thr) ^ g * (q.thr ^ (q.gamma - q.gamma2) * q.thr ^ q.gamma2) := mul_le_mul_of_nonneg_left (mul_le_mul_of_nonneg_left a1 hq) (by positivity)
      _ = (c * x / q.thr) ^ g * q.thr ^ q.gamma := by rw [pp_thr ht]
      _ ≤ _ := a2
  · have := scale_pow ht h1 h2 hc hc1 hx.le h2.2
    calc c ^ g * (q.thr ^ (q.gamma - q.gamma2) * x ^ q.gamma2) = q.thr ^ (q.gamma - q.gamma2) * (c ^ g * x ^ q.gamma2) := by ring
      _ ≤ _ := mul_le_mul_of_nonneg_left this hq

private theorem nn_pp (hu : R.u < 1) {k : Nat} {x y : ℝ} (hx : 0 < x) (h : NN R k x y) : NN R (g * k) (pp q x) (pp q y) := by
  have hy := (h.inv hu hx).1
  have hc : 0 < (1 - R.u) ^ k := pow_pos (by linarith) k
  have hc1 : (1 - R.u) ^ k ≤ 1 := pow_le_one₀ (by linarith) (by linarith [R.nonneg])
  have e : (1 - R.u) ^ (g * k) = ((1 - R.u) ^ k) ^ g := by rw [mul_comm, pow_mul]
  refine ⟨pp_nonneg ht h1 h2 hx.le, pp_nonneg ht h1 h2 hy.le, ?_, ?_⟩
  · rw [e]
    exact (pp_scale ht h1 h2 hc hc1 hx).trans (pp_mono ht h1 h2 (by positivity) h.2.2.1)
  · rw [e]
    exact (pp_scale ht h1 h2 hc hc1 hy).trans (pp_mono ht h1 h2 (by positivity) h.2.2.2)
end

/-- The pressure of the piecewise polytrope for a density with a relative error of `m u` is right up to `4 (g m + 2) u`, also if the error moves the density across the threshold. -/
theorem C90_ppt_pressure {d g m : Nat} {q : Eos.Params} {a : Particle d} (hK : 0 ≤ a.K) (ht : 0 < q.thr) (h1 : 0 ≤ q.gamma ∧ q.gamma ≤ g) (h2 : 0 ≤ q.gamma2 ∧ q.gamma2 ≤ g)
    (hx : R.fl (q.gamma - q.gamma2) = q.gamma - q.gamma2) {rho rho' : ℝ} (hr : 0 < rho) (h : |rho' - rho| ≤ m * R.u * rho) (hm : (4 * g * m + 8 + 2 * m) * R.u ≤ 1) :
    |(pressurePptR R q { a with rho := rho' }).P - (Eos.pressurePpt q { a with rho := rho }).P| ≤ 4 * (g * m + 2) * R.u * (Eos.pressurePpt q { a with rho := rho }).P := by
  have h0 := R.nonneg
  have hm0 : 0 ≤ m * R.u := mul_nonneg (Nat.cast_nonneg _) h0
  have hg0 : 0 ≤ g * m * R.u := mul_nonneg (mul_nonneg (Nat.cast_nonneg _) (Nat.cast_nonneg _)) h0
  have hu : R.u < 1 := by nlinarith
  have hn := NN.of_err (R := R) (by nlinarith) hu.le hr.le h
  have hr' := (hn.inv hu hr).1
  have n1 := (NN.refl (R := R) hK).mul hu.le (nn_pp ht h1 h2 hu hr hn)
  have e1 : (Eos.pressurePpt q { a with rho := rho }).P = a.K * pp q rho := by
    simp only [Eos.pressurePpt, pp]
    split_ifs <;> ring
  have n2 : NN R 4 (a.K * pp q rho') (pressurePptR R q { a with rho := rho' }).P := by
    simp only [pressurePptR, pp, secondR, hx]
    split_ifs with hlt
    · exact (((NN.refl hK).mul hu.le (nn_fl (R := R) hu.le (Real.rpow_pos_of_pos hr' q.gamma).le)).fl hu.le).mono hu.le (by omega)
    · rw [← mul_assoc]
      exact (((((NN.refl hK).mul hu.le (nn_fl (R := R) hu.le (Real.rpow_pos_of_pos ht (q.gamma - q.gamma2)).le)).fl hu.le).mul hu.le (nn_fl (R := R) hu.le (Real.rpow_pos_of_pos hr' q.gamma2).le)).fl hu.le).mono hu.le (by omega)
  have n3 : NN R (0 + g * (2 * m) + 4) (a.K * pp q rho) (pressurePptR R q { a with rho := rho' }).P := ⟨n1.1, n2.2.1, n1.2.2.trans hu.le n2.2.2⟩
  rw [e1]
  have := n3.err (by push_cast; nlinarith) hu.le
  refine this.trans (le_of_eq ?_)
  push_cast
  ring

/-- The sound speed of the piecewise polytrope is right if the error does not move the density across the threshold. -/
theorem C90_ppt_soundspeed_partial {d g m : Nat} {q : Eos.Params} {a : Particle d} (hK : 0 ≤ a.K) (ht : 0 < q.thr) (h1 : 1 ≤ q.gamma ∧ q.gamma ≤ g) (h2 : 1 ≤ q.gamma2 ∧ q.gamma2 ≤ g)
    (hx : R.fl (q.gamma - q.gamma2) = q.gamma - q.gamma2) (hx1 : R.fl (q.gamma - 1) = q.gamma - 1) (hx2 : R.fl (q.gamma2 - 1) = q.gamma2 - 1) {rho rho' : ℝ} (hr : 0 ≤ rho) (h : |rho' - rho| ≤ m * R.u * rho)
    (hm : (4 * g * m + 12 + 2 * m) * R.u ≤ 1) (hside : rho < q.thr ↔ rho' < q.thr) :
    ∃ c, soundspeedPptR R q { a with rho := rho' } = some c ∧ |c.cs - (Eos.soundspeedPpt q { a with rho := rho }).cs| ≤ 4 * (g * m + 3) * R.u * (Eos.soundspeedPpt q { a with rho := rho }).cs := by
  have h0 := R.nonneg
  have hm0 : 0 ≤ m * R.u := mul_nonneg (Nat.cast_nonneg _) h0
  have hg0 : 0 ≤ g * m * R.u := mul_nonneg (mul_nonneg (Nat.cast_nonneg _) (Nat.cast_nonneg _)) h0
  have hu : R.u < 1 := by nlinarith
  have hu1 := hu.le
  have hn := NN.of_err (R := R) (by nlinarith) hu.le hr h
  have fin : ∀ {X Y : ℝ}, NN R (g * (2 * m) + 5) X Y → ∃ c, (root R Y).map (fun c => ({ a with rho := rho', cs := c } : Particle d)) = some c ∧ |c.cs - √X| ≤ 4 * (g * m + 3) * R.u * √X := by
    intro X Y hXY
    refine ⟨_, by rw [root_some hXY.2.1]; rfl, ?_⟩
    have := ((hXY.sqrt hu1).fl hu1).err (by push_cast; nlinarith) hu1
    refine this.trans (le_of_eq ?_)
    push_cast
    ring
  by_cases hlt : rho < q.thr
  · have hlt' := hside.mp hlt
    simp only [soundspeedPptR, Eos.soundspeedPpt, if_pos hlt, if_pos hlt', hx1]
    exact fin ((((((NN.refl hK).mul hu1 (NN.refl (by linarith [h1.1]))).fl hu1).mul hu1 (nn_pow (g := g) hu hn (by linarith [h1.1]) (by linarith [h1.2]))).fl hu1).mono hu1 (by omega))
  · have hlt' : ¬rho' < q.thr := fun h => hlt (hside.mpr h)
    simp only [soundspeedPptR, Eos.soundspeedPpt, if_neg hlt, if_neg hlt', hx2, secondR, hx]
    exact fin (((((((((NN.refl hK).mul hu1 (nn_fl (R := R) hu1 (Real.rpow_pos_of_pos ht (q.gamma - q.gamma2)).le)).fl hu1).mul hu1 (NN.refl (by linarith [h2.1]))).fl hu1).mul hu1
      (nn_pow (g := g) hu hn (by linarith [h2.1]) (by linarith [h2.2]))).fl hu1)).mono hu1 (by omega))

/-- At the threshold the sound speed jumps: however small the error of the density, it can double the sound speed. -/
theorem C90_ppt_violated : ∃ (q : Eos.Params) (a : Particle 1), 0 < q.thr ∧ 1 ≤ q.gamma ∧ 1 ≤ q.gamma2 ∧ 0 < a.K ∧ ∀ ε > 0, ∃ rho rho' : ℝ, 0 < rho ∧ |rho' - rho| ≤ ε * rho ∧
    0 < (Eos.soundspeedPpt q { a with rho := rho }).cs ∧ 2 * (Eos.soundspeedPpt q { a with rho := rho }).cs ≤ (Eos.soundspeedPpt q { a with rho := rho' }).cs := by
  refine ⟨⟨1, 4, 1⟩, { exS 0 with K := 1 }, by norm_num, by norm_num, by norm_num, by norm_num, fun ε hε => ?_⟩
  obtain ⟨δ, hδ⟩ : ∃ δ, δ = min ε 1 / 2 := ⟨_, rfl⟩
  have hδ0 : 0 < δ := by rw [hδ]; positivity
  have hδ1 : δ ≤ 1 / 2 := by rw [hδ]; linarith [min_le_right ε 1]
  have hδ2 : δ ≤ ε / 2 := by rw [hδ]; linarith [min_le_left ε 1]
  have c1 : (Eos.soundspeedPpt (⟨1, 4, 1⟩ : Eos.Params) { ({ exS 0 with K := 1 } : Particle 1) with rho := 1 - δ }).cs = 1 := by
    simp only [Eos.soundspeedPpt]
    rw [if_pos (by linarith), sub_self, Real.rpow_zero]
    norm_num
  have c2 : (Eos.soundspeedPpt (⟨1, 4, 1⟩ : Eos.Params) { ({ exS 0 with K := 1 } : Particle 1) with rho := 1 }).cs = 2 := by
    simp only [Eos.soundspeedPpt]
    rw [if_neg (lt_irrefl _), Real.one_rpow, Real.one_rpow, show (1 : ℝ) * 1 * 4 * 1 = 2 ^ 2 by norm_num, Real.sqrt_sq (by norm_num)]
  refine ⟨1 - δ, 1, by linarith, ?_, by rw [c1]; norm_num, by rw [c1, c2]; norm_num⟩
  rw [show 1 - (1 - δ) = δ by ring, abs_of_pos hδ0]
  nlinarith

/-! ### White dwarfs -/

/-- The pressure of a white dwarf for a density with a relative error of `m u` is right up to `4 (10 m + 29) u` of the size of the terms it is the difference of. -/
theorem C90_wd_pressure {m : Nat} {rho rho' ye : ℝ} (hye : 0 ≤ ye) (hr : 0 ≤ rho) (h : |rho' - rho| ≤ m * R.u * rho) (hm : (20 * m + 100) * R.u ≤ 1) :
    |pressureGivenR R rho' ye - Eos.pressureGiven rho ye| ≤
      4 * (10 * m + 29) * R.u * (aWd * (xWd rho ye * (2 * (xWd rho ye * xWd rho ye) + 3) * √(xWd rho ye * xWd rho ye + 1) + 3 * Real.arsinh (xWd rho ye))) := by
  have h0 := R.nonneg
  have hm0 : 0 ≤ m * R.u := mul_nonneg (Nat.cast_nonneg _) h0
  have hu : 100 * R.u ≤ 1 := by nlinarith
  have hn := NN.of_err (R := R) (by nlinarith) (by linarith) hr h
  have e := err_pressureGiven hu hn hye (by push_cast; nlinarith)
  have g := growth_le (R := R) (10 * (2 * m) + 58) (by push_cast; nlinarith)
  refine e.2.trans (mul_le_mul_of_nonneg_right (g.trans (le_of_eq ?_)) e.size_nonneg)
  push_cast
  ring

/-- The sound speed of a white dwarf is right up to `48 M (16 m + 45) u`, where the fourth power of the relativity parameter `x` is at least `1 / M`. -/
theorem C90_wd_soundspeed_partial {m M : Nat} {rho rho' ye : ℝ} (hye : 0 ≤ ye) (hr : 0 ≤ rho) (h : |rho' - rho| ≤ m * R.u * rho) (hM1 : 1 ≤ M) (hM : 1 ≤ M * xWd rho ye ^ 4)
    (hm : (48 * M * (16 * m + 45) + 100) * R.u ≤ 1) :
    ∃ c, soundspeedGivenR R rho' ye = some c ∧ |c - Eos.soundspeedGiven rho ye| ≤ (48 * M * (16 * m + 45) + 10) * R.u * Eos.soundspeedGiven rho ye := by
  have h0 := R.nonneg
  have hm0 : 0 ≤ m * R.u := mul_nonneg (Nat.cast_nonneg _) h0
  have hM0 : 0 ≤ (M - 1) * (16 * m + 45) * R.u := by
    have : (1 : ℝ) ≤ M := by exact_mod_cast hM1
    exact mul_nonneg (mul_nonneg (by linarith) (by positivity)) h0
  have hMM : 0 ≤ (M : ℝ) * (16 * m + 45) * R.u := by positivity
  have hu : 100 * R.u ≤ 1 := by nlinarith
  have hn := NN.of_err (R := R) (by nlinarith) (by linarith) hr h
  have hk : 2 * (24 * M * (8 * (2 * m : ℕ) + 45) + 5) * R.u ≤ 1 := by push_cast; nlinarith
  obtain ⟨c, hc, hcn⟩ := nn_soundspeedGiven hu hn hye hM1 hM hk
  refine ⟨c, hc, ?_⟩
  have := hcn.err (by push_cast at hk ⊢; nlinarith) (by linarith)
  refine this.trans (le_of_eq ?_)
  push_cast
  ring

/-- In `double` the sound speed of a white dwarf is not a number wherever density times electron fraction is below `1e-20`, although it is positive. -/
theorem C90_wd_violated {rho ye : ℝ} (hr : 0 < rho) (hye : 0 < ye) (h : rho * ye ≤ 1 / 10 ^ 20) : soundspeedGivenR (tiesToEven 53) rho ye = none ∧ 0 < Eos.soundspeedGiven rho ye := by
  have hu : (tiesToEven 53).u = 2 ^ (-53 : ℤ) := rfl
  have hu1 : (tiesToEven 53).u < 1 := by rw [hu]; norm_num
  have hx : 0 < xWd rho ye := Real.rpow_pos_of_pos (div_pos (mul_pos hr hye) bWd_pos) _
  refine ⟨?_, ?_⟩
  · have n2 := nn_xWd2 hu1 (NN.refl (R := tiesToEven 53) hr.le) hye.le
    obtain ⟨s', hs'⟩ : ∃ s', s' = (tiesToEven 53).fl (xWdR (tiesToEven 53) rho ye * xWdR (tiesToEven 53) rho ye) := ⟨_, rfl⟩
    rw [← hs'] at n2
    have hpos := (n2.inv hu1 (mul_pos hx hx)).1
    have hx3 : xWd rho ye ^ 3 ≤ (22 / 10 ^ 10) ^ 3 := by
      have e : xWd rho ye ^ 3 = rho * ye / Eos.bWd := by
        unfold Eos.xWd
        rw [← Real.rpow_natCast, ← Real.rpow_mul (div_pos (mul_pos hr hye) bWd_pos).le]
        norm_num
      rw [e, div_le_iff₀ bWd_pos]
      refine h.trans ?_
      unfold Eos.bWd
      norm_num
    have hxle : xWd rho ye ≤ 22 / 10 ^ 10 := le_of_pow_le_pow_left₀ (by norm_num) (by norm_num) hx3
    have hs2 : xWd rho ye * xWd rho ye ≤ 22 / 10 ^ 10 * (22 / 10 ^ 10) := mul_le_mul hxle hxle hx.le (by norm_num)
    have h9 : (3 / 4 : ℝ) ≤ (1 - (tiesToEven 53).u) ^ (2 * 0 + 9) := by rw [hu]; norm_num
    have hs3 : 3 / 4 * s' ≤ 22 / 10 ^ 10 * (22 / 10 ^ 10) := ((mul_le_mul_of_nonneg_right h9 hpos.le).trans n2.2.2.2).trans hs2
    have hs4 : s' ≤ 2 ^ (-57 : ℤ) := by
      refine (show s' ≤ 22 / 10 ^ 10 * (22 / 10 ^ 10) * (4 / 3) by linarith).trans ?_
      norm_num
    unfold soundspeedGivenR
    dsimp only
    rw [← hs', soundspeed_none hpos hs4]
    rfl
  · have e1 : ∀ s : ℝ, (1 + s) * (6 * s - 3) + 3 + s * (2 * s - 3) = 8 * s ^ 2 := fun s => by ring
    have e2 : ∀ s : ℝ, (1 + s) * (6 * s + 1) - 1 + s * (2 * s + 1) = 8 * s ^ 2 + 8 * s := fun s => by ring
    unfold Eos.soundspeedGiven
    dsimp only
    rw [e1, e2]
    have := mul_pos hx hx
    exact mul_pos (Real.sqrt_pos.mpr (by positivity)) cLight_pos

/-! ### Internal energies and signal speeds -/

/-- The internal energy recovered from the total energy is right up to `2 (d + 4) u` of the terms it is the difference of; the check passes if the exact internal energy is above this error, and fails if it is below minus this error. -/
theorem C90_recover {d : Nat} (hu : (d + 4) * R.u ≤ 1) (phi : Point d → ℝ) (a : Particle d) {δ : ℝ} (hδ : δ = 2 * (d + 4) * R.u * (|a.e| + 1 / 2 * ∑ j, a.vel j ^ 2 + |phi a.pos|)) :
    (∀ b, recoverInternalEnergyR R phi a = some b → |b.u - (a.e - 1 / 2 * ∑ j, a.vel j * a.vel j - phi a.pos)| ≤ δ ∧ b = { a with u := b.u }) ∧
      (δ < a.e - 1 / 2 * ∑ j, a.vel j * a.vel j - phi a.pos → recoverInternalEnergyR R phi a ≠ none) ∧ (a.e - 1 / 2 * ∑ j, a.vel j * a.vel j - phi a.pos < -δ → recoverInternalEnergyR R phi a = none) := by
  have h := err_eint (R := R) phi a
  have g := growth_le (R := R) (d + 4) (by push_cast; exact hu)
  have h1 := h.2.trans (mul_le_mul_of_nonneg_right g h.size_nonneg)
  push_cast at h1
  rw [← hδ] at h1
  have e : dot a.vel a.vel = ∑ j, a.vel j * a.vel j := rfl
  rw [e] at h1
  obtain ⟨h2, h3⟩ := abs_le.mp h1
  refine ⟨fun b hb => ?_, fun hlt hn => ?_, fun hlt => ?_⟩
  · simp only [recoverInternalEnergyR] at hb
    split_ifs at hb with hc
    cases hb
    exact ⟨h1, rfl⟩
  · simp only [recoverInternalEnergyR] at hn
    rw [if_pos (by linarith)] at hn
    cases hn
  · simp only [recoverInternalEnergyR]
    exact if_neg (by linarith)

/-- The signal speed is right up to `44 u` of the largest sum of sound speed and components of the velocity difference over the neighbours. -/
theorem C90_signalspeed {d : Nat} (hu : 100 * R.u ≤ 1) (hd : d ≤ 3) (a : Particle d) (ha : 0 ≤ a.cs) (nbs : List (Particle d)) {M : ℝ} (hM : 0 ≤ M) (hn : ∀ b ∈ nbs, 0 ≤ b.cs ∧ max a.cs b.cs + ∑ j, |a.vel j - b.vel j| ≤ M) :
    |(computeSignalspeedR R a nbs).vsig - (computeSignalspeed a nbs).vsig| ≤ 44 * R.u * M := by
  have h := err_vsig hu hd ha hM nbs hn
  have g := growth_le (R := R) 22 (by push_cast; linarith [R.nonneg])
  push_cast at g
  exact h.2.trans (mul_le_mul_of_nonneg_right (by linarith) hM)

/-- The divergence of the velocity for a density with a relative error of `m u` is right up to `2 (4 m + N + 378) u` of the sizes of the contributions, and so is its derivative, relative to the two values it is the difference of. -/
theorem C90_divv {N m : Nat} (hm : (4 * m + N + 380) * R.u ≤ 1) (p : Params i) (hκ : Poly p.kernel) (a : Particle (i + 1)) (ha : 0 < a.h) (l : List (Particle (i + 1))) (hl : ∀ b ∈ l, 0 < b.h) (hlen : l.length ≤ N) {rho rho' dt : ℝ}
    (hr : 0 < rho) (h : |rho' - rho| ≤ m * R.u * rho) (hdt : 0 < dt) {S : ℝ} (hS : S = (l.map fun b => |b.mass| * ((∑ j, |a.vel j|) * steepest p.kernel i (1 / 2 * (a.h + b.h)))).sum / rho) :
    |(computeDivvR R p dt { a with rho := rho' } l).divv - (computeDivv p dt { a with rho := rho } l).divv| ≤ 2 * (4 * m + N + 378) * R.u * S ∧
      |(computeDivvR R p dt { a with rho := rho' } l).ddivvdt - (computeDivv p dt { a with rho := rho } l).ddivvdt| ≤ 2 * (4 * m + N + 380) * R.u * ((S + |a.divv|) / dt) := by
  have h0 := R.nonneg
  have hm0 : 0 ≤ m * R.u := mul_nonneg (Nat.cast_nonneg _) h0
  have hn0 : 0 ≤ N * R.u := mul_nonneg (Nat.cast_nonneg _) h0
  have hu : 100 * R.u ≤ 1 := by nlinarith
  have hu1 : R.u < 1 := by linarith
  have hn := ((NN.of_err (R := R) (by nlinarith) hu1.le hr.le h).inv hu1 hr).2.to_err (by push_cast; nlinarith) hu1.le
  have h1 : ∀ b ∈ l, Err R 377 (b.mass * dot a.vel (gradOf p a b)) (R.fl (b.mass * rdot R a.vel (gradR R p a b))) (|b.mass| * ((∑ j, |a.vel j|) * steepest p.kernel i (1 / 2 * (a.h + b.h)))) := by
    intro b hb
    have h2 := err_rdot_both (R := R) (fun j => Err.refl (a.vel j)) (fun j => err_gradR hu p hκ a b ha (hl b hb) j)
    rw [← Finset.sum_mul] at h2
    exact (((Err.refl (R := R) b.mass).mul h2).fl).mono (by omega)
  have h3 := err_foldl_two (R := R) _ _ _ (fun b => R.fl (b.mass * rdot R a.vel (gradR R p a b))) 377 l h1 (fun _ _ => rfl)
  have h4 := ((h3.mul hn).fl).mono (show _ ≤ 4 * m + N + 378 by omega)
  rw [← div_eq_mul_inv, ← div_eq_mul_inv, ← div_eq_mul_inv, ← hS] at h4
  have e1 : (computeDivv p dt { a with rho := rho } l).divv = (l.map fun b => b.mass * dot a.vel (gradOf p a b)).sum / rho := by
    simp only [computeDivv, accumulate_eq]
    rfl
  have e2 : (computeDivvR R p dt { a with rho := rho' } l).divv = R.fl (l.foldl (fun s b => R.fl (s + R.fl (b.mass * rdot R a.vel (gradR R p a b)))) 0 / rho') := rfl
  rw [← e1, ← e2] at h4
  have h5 := ((h4.sub (c := 4 * m + N + 378) le_rfl (by omega) (Err.refl (R := R) a.divv)).fl)
  have h6 := ((h5.mul (Err.refl (R := R) dt⁻¹)).fl)
  rw [← div_eq_mul_inv, ← div_eq_mul_inv, abs_of_pos (inv_pos.mpr hdt), ← div_eq_mul_inv] at h6
  have g4 := growth_le (R := R) (4 * m + N + 378) (by push_cast; nlinarith)
  have g6 := growth_le (R := R) (4 * m + N + 378 + 1 + 0 + 1) (by push_cast; nlinarith)
  push_cast at g4 g6
  refine ⟨h4.2.trans (mul_le_mul_of_nonneg_right g4 h4.size_nonneg), ?_⟩
  refine h6.2.trans ((mul_le_mul_of_nonneg_right g6 h6.size_nonneg).trans (le_of_eq ?_))
  ring

/-! ### From positions to forces -/

private def accView {d : Nat} (b : Particle d) : Particle d := { b with acc := 0, gacc := 0, gpot := 0 }
private def dedtView {d : Nat} (b : Particle d) : Particle d := { b with dedt := 0 }
private def dudtView {d : Nat} (b : Particle d) : Particle d := { b with dudt := 0 }

section
variable {N C g : Nat} {p : Params i} (hκ : Poly p.kernel) {e : Eos.Kind} {q : Eos.Params} {z : Eos.Setup (i + 1)} (hz : z.thermokinetic = false)
  (hN : (12 * stateLoss p.kernel N C g + N + 1060 : ℕ) * R.u ≤ 1) (hC : 1 ≤ C) (hg1 : 1 ≤ g) {s : Fin n → Particle (i + 1)} (hreg : ∀ a, 0 < (s a).h ∧ 0 < (s a).mass) (hgas : ∀ a, Gas R q g e (s a))
  {nbs nbs' : Fin n → List (Fin n)} (hself : ∀ a, a ∈ nbs a) (hlen : ∀ a, (nbs a).length ≤ N) (hperm : ∀ a, (nbs a).Perm (nbs' a)) {order order' : List (Fin n)} (hall : VisitsAll order) (hall' : VisitsAll order')
  (hpeak : ∀ a, peak (Kernels.kernel p.kernel i) (placed (s a)) ((nbs a).map fun b => placed (s b)) ≤ C * density (Kernels.kernel p.kernel i) (placed (s a)) ((nbs a).map fun b => placed (s b)))
include hκ hz hN hC hg1 hreg hgas hself hlen hperm hall hall' hpeak

/-- The pass ends in floating-point arithmetic and in exact arithmetic, with densities, pressures and sound speeds which agree up to the roundings counted by `denseLoss` and `stateLoss`, and positive densities, whatever the
orders of the particles and of their neighbours. -/
theorem C90_state_partial : ∃ t t0, passM (computeStateR R p e q z) nbs order s = some t ∧ passM (Eos.computeDensityPressureSoundspeed p e q z) nbs' order' s = some t0 ∧ ∀ a, 0 < (t0 a).rho ∧ 0 < (t a).rho ∧
    |(t a).rho - (t0 a).rho| ≤ 2 * denseLoss p.kernel N C * R.u * (t0 a).rho ∧ |(t a).P - (t0 a).P| ≤ 2 * stateLoss p.kernel N C g * R.u * (t0 a).P ∧ |(t a).cs - (t0 a).cs| ≤ 2 * stateLoss p.kernel N C g * R.u * (t0 a).cs := by
  have h0 := R.nonneg
  obtain ⟨t, ht⟩ := state_near hκ hz hN hC hg1 hreg hgas hself hlen hall hpeak
  obtain ⟨t0, ht0⟩ := state_exact hκ hz hN hC hg1 hreg hgas hself hlen hperm hall hall' hpeak
  refine ⟨t, t0, ht, ht0, fun a => ?_⟩
  obtain ⟨h1, h2, h3, h4, -⟩ := state_alike hκ hz hN hC hg1 hreg hgas hself hlen hperm hall hall' hpeak ht ht0 a
  have hle : denseLoss p.kernel N C ≤ stateLoss p.kernel N C g := by
    unfold stateLoss
    have := Nat.le_mul_of_pos_left (denseLoss p.kernel N C) hg1
    omega
  have hle' : (denseLoss p.kernel N C : ℝ) ≤ stateLoss p.kernel N C g := by exact_mod_cast hle
  have hk0 : (0 : ℝ) ≤ denseLoss p.kernel N C := Nat.cast_nonneg _
  have hn0 : (0 : ℝ) ≤ N := Nat.cast_nonneg _
  push_cast at hN
  have hu : R.u ≤ 1 := by nlinarith
  have hk : 2 * (stateLoss p.kernel N C g : ℝ) * R.u ≤ 1 := le_trans (mul_le_mul_of_nonneg_right (by linarith) h0) hN
  exact ⟨h2, h3, h4.err (le_trans (mul_le_mul_of_nonneg_right (by linarith) h0) hk) hu, h1.P.err hk hu, h1.cs.err hk hu⟩

variable (heps : 0 ≤ p.eps) {t t0 : Fin n → Particle (i + 1)} (ht : passM (computeStateR R p e q z) nbs order s = some t) (ht0 : passM (Eos.computeDensityPressureSoundspeed p e q z) nbs' order' s = some t0)
  {o o' : List (Fin n)} (ho : VisitsAll o) (ho' : VisitsAll o')
include heps ht ht0 ho ho'

omit heps ho ho' in
private theorem ready : 100 * R.u ≤ 1 ∧ 2 * (3 * stateLoss p.kernel N C g + 4) * R.u ≤ 1 ∧ (∀ a, Alike R (stateLoss p.kernel N C g) (t0 a) (t a)) ∧ ∀ a b, Proper (t0 a) (t0 b) := by
  have h0 := R.nonneg
  have hk0 : (0 : ℝ) ≤ stateLoss p.kernel N C g := Nat.cast_nonneg _
  have hn0 : (0 : ℝ) ≤ N := Nat.cast_nonneg _
  have key := state_alike hκ hz hN hC hg1 hreg hgas hself hlen hperm hall hall' hpeak ht ht0
  push_cast at hN
  refine ⟨le_trans (mul_le_mul_of_nonneg_right (by linarith) h0) hN, le_trans (mul_le_mul_of_nonneg_right (by linarith) h0) hN, fun a => (key a).1, fun a b => ?_⟩
  have hh : ∀ a, 0 < (t0 a).h := fun a => by rw [(of_view (key a).2.2.2.2).2.1]; exact (hreg a).1
  exact ⟨hh a, hh b, (key a).2.1, (key b).2.1⟩

omit hκ hz hC hg1 hreg hgas hself hlen hperm hall hall' hpeak heps ht ht0 ho ho' in
private theorem within' {k : Nat} (hk : k ≤ 6 * stateLoss p.kernel N C g + N + 525) {x y m : ℝ} (h : Err R k x y m) : |y - x| ≤ 2 * k * R.u * m := by
  have h0 := R.nonneg
  have hk' : (k : ℝ) ≤ 12 * stateLoss p.kernel N C g + N + 1060 := by exact_mod_cast (by omega : k ≤ 12 * stateLoss p.kernel N C g + N + 1060)
  push_cast at hN
  have g := growth_le (R := R) k (le_trans (mul_le_mul_of_nonneg_right hk' h0) hN)
  exact h.2.trans (mul_le_mul_of_nonneg_right g h.size_nonneg)

/-- Accelerations computed from the computed densities, pressures and sound speeds are those which follow from the exact ones up to `2 (6 k + N + 519) u` of the sizes of the contributions, with `k` roundings for the state.
The external force depends on the position only. -/
theorem C90_acceleration_partial (hext : ∀ a b, a.pos = b.pos → p.external a = p.external b) (a : Fin n) (j : Fin (i + 1)) :
    |(pass (computeAccelerationR R p) nbs o t a).acc j - (pass (computeAcceleration p) nbs' o' t0 a).acc j| ≤
      2 * (6 * stateLoss p.kernel N C g + N + 519) * R.u * (((nbs a).map fun b => strength p (t0 a) (t0 b)).sum + |p.external (t0 a) j|) := by
  obtain ⟨r1, r2, r3, r4⟩ := ready hκ hz hN hC hg1 hreg hgas hself hlen hperm hall hall' hpeak ht ht0
  rw [pass_eq (computeAccelerationR R p) accView (computeAccelerationR R p) (fun a l => by simp only [computeAccelerationR, List.foldl_map]; rfl) (fun a l => rfl) nbs o ho t,
    pass_eq (computeAcceleration p) accView (computeAcceleration p) (fun a l => by simp only [computeAcceleration, accumulate_eq, List.map_map]; rfl) (fun a l => rfl) nbs' o' ho' t0]
  have h := err_acceleration' r1 r2 p heps hκ r3 (hlen a) (r4 a) (hext _ _ (r3 a).pos) j
  have e : (computeAcceleration p (t0 a) ((nbs' a).map t0)).acc j = (computeAcceleration p (t0 a) ((nbs a).map t0)).acc j := by
    rw [acceleration_exact, acceleration_exact, (((hperm a).map t0).map fun b => pushOf p (t0 a) b j).sum_eq]
  have := within' hN (by omega) h
  push_cast at this
  dsimp only
  rw [e]
  exact this

/-- The same for the derivative of the total energy. -/
theorem C90_dedt_partial (a : Fin n) : |(pass (computeDedtR R p) nbs o t a).dedt - (pass (computeDedt p) nbs' o' t0 a).dedt| ≤
    2 * (6 * stateLoss p.kernel N C g + N + 525) * R.u * (((nbs a).map fun b => power p (t0 a) (t0 b)).sum + ∑ j, |(t0 a).gacc j| * |(t0 a).vel j|) := by
  obtain ⟨r1, r2, r3, r4⟩ := ready hκ hz hN hC hg1 hreg hgas hself hlen hperm hall hall' hpeak ht ht0
  rw [pass_eq (computeDedtR R p) dedtView (computeDedtR R p) (fun a l => by simp only [computeDedtR, List.foldl_map]; rfl) (fun a l => rfl) nbs o ho t,
    pass_eq (computeDedt p) dedtView (computeDedt p) (fun a l => by simp only [computeDedt, List.foldl_map]; rfl) (fun a l => rfl) nbs' o' ho' t0]
  have h := err_dedt' r1 r2 p heps hκ r3 (hlen a) (r4 a)
  have e : (computeDedt p (t0 a) ((nbs' a).map t0)).dedt = (computeDedt p (t0 a) ((nbs a).map t0)).dedt := by
    rw [dedt_exact, dedt_exact, (((hperm a).map t0).map fun b => -workOf p (t0 a) b).sum_eq]
  have := within' hN le_rfl h
  push_cast at this
  dsimp only
  rw [e]
  exact this

/-- The same for the derivative of the internal energy. -/
theorem C90_dudt_partial (iteration : Int) (a : Fin n) : |(pass (computeDudtR R p iteration) nbs o t a).dudt - (pass (computeDudt p iteration) nbs' o' t0 a).dudt| ≤
    2 * (6 * stateLoss p.kernel N C g + N + 524) * R.u * ((nbs a).map fun b => power p (t0 a) (t0 b)).sum := by
  obtain ⟨r1, r2, r3, r4⟩ := ready hκ hz hN hC hg1 hreg hgas hself hlen hperm hall hall' hpeak ht ht0
  rw [pass_eq (computeDudtR R p iteration) dudtView (computeDudtR R p iteration) (fun a l => by simp only [computeDudtR, List.foldl_map]; rfl) (fun a l => by unfold computeDudtR; split_ifs; all_goals rfl) nbs o ho t,
    pass_eq (computeDudt p iteration) dudtView (computeDudt p iteration) (fun a l => by simp only [computeDudt, accumulate_eq, List.map_map]; rfl) (fun a l => by unfold computeDudt; split_ifs; all_goals rfl) nbs' o' ho' t0]
  have h := err_dudt' r1 r2 p heps hκ r3 (hlen a) (r4 a) (iteration := iteration)
  have e : (computeDudt p iteration (t0 a) ((nbs' a).map t0)).dudt = (computeDudt p iteration (t0 a) ((nbs a).map t0)).dudt := by
    by_cases hit : iteration < p.relaxationSteps
    · simp only [computeDudt, if_pos hit]
    · rw [dudt_exact p _ hit, dudt_exact p _ hit]
      congr 2
      · exact (((hperm a).symm.map t0).map _).sum_eq
      · exact (((hperm a).symm.map t0).map _).sum_eq
  have := within' hN (by omega) h
  push_cast at this
  dsimp only
  rw [e]
  exact this
end

/-! ### Cases -/

/-- The density is at least the particle's own contribution, so the number `C` can be had from the masses. -/
private theorem peak_le {p : Params i} (hκ : Poly p.kernel) {s : Fin n → Particle (i + 1)} {h : ℝ} (hh : 0 < h) (hs : ∀ a, (s a).h = h) (hm : ∀ a, 0 < (s a).mass) {l : List (Fin n)} {a : Fin n} (ha : a ∈ l) {C : ℝ}
    (hC : (l.map fun b => (s b).mass).sum ≤ C * (s a).mass) :
    peak (Kernels.kernel p.kernel i) (placed (s a)) (l.map fun b => placed (s b)) ≤ C * density (Kernels.kernel p.kernel i) (placed (s a)) (l.map fun b => placed (s b)) := by
  have hC0 : 0 ≤ C := by
    have : 0 ≤ (l.map fun b => (s b).mass).sum := List.sum_nonneg (by simpa using fun b _ => (hm b).le)
    by_contra hlt
    nlinarith [hm a]
  have hmean : ∀ b, ((placed (s a)).h + (placed (s b)).h) / 2 = h := fun b => by simp only [placed, hs]; ring
  have w0 := kernel_nonneg hκ i le_rfl hh
  have e1 : peak (Kernels.kernel p.kernel i) (placed (s a)) (l.map fun b => placed (s b)) = (l.map fun b => (s b).mass).sum * Kernels.kernel p.kernel i 0 h := by
    rw [peak, List.map_map, ← List.sum_map_mul_right]
    congr 1
    exact List.map_congr_left fun b _ => by simp only [Function.comp, hmean]; rfl
  have e2 : (s a).mass * Kernels.kernel p.kernel i 0 h ≤ density (Kernels.kernel p.kernel i) (placed (s a)) (l.map fun b => placed (s b)) := by
    rw [density]
    refine le_trans (le_of_eq ?_) (List.single_le_sum (fun x hx => ?_) _ (List.mem_map.mpr ⟨placed (s a), List.mem_map.mpr ⟨a, ha, rfl⟩, rfl⟩))
    · rw [hmean]
      simp [placed]
    · obtain ⟨b, hb, rfl⟩ := List.mem_map.mp hx
      obtain ⟨c, _, rfl⟩ := List.mem_map.mp hb
      rw [hmean]
      exact mul_nonneg (hm c).le (kernel_nonneg hκ i (Real.sqrt_nonneg _) hh)
  rw [e1]
  calc (l.map fun b => (s b).mass).sum * Kernels.kernel p.kernel i 0 h ≤ C * (s a).mass * Kernels.kernel p.kernel i 0 h := mul_le_mul_of_nonneg_right hC w0
    _ = C * ((s a).mass * Kernels.kernel p.kernel i 0 h) := by ring
    _ ≤ _ := mul_le_mul_of_nonneg_left e2 hC0

/-- Three particles with masses 1, 2 and 3 in `double`, as an ideal and as a polytropic gas with `γ = 7/5` and `γ = 3/2`, with lists in two orders. -/
example (p : Params 0) (hp : p.kernel = .wendlandC4) (z : Eos.Setup 1) (hz : z.thermokinetic = false) (e : Eos.Kind) (he : e = .ideal ∨ e = .polytropic) :
    ∃ t t0, passM (computeStateR (tiesToEven 53) p e ⟨3 / 2, 1, 1⟩ z) ![[0, 1], [0, 1, 2], [1, 2]] [2, 0, 1] exS = some t ∧
      passM (Eos.computeDensityPressureSoundspeed p e ⟨3 / 2, 1, 1⟩ z) ![[1, 0], [2, 1, 0], [1, 2]] [0, 1, 2] exS = some t0 ∧ ∀ a, 0 < (t0 a).rho := by
  have hu : (tiesToEven 53).u = 2 ^ (-53 : ℤ) := rfl
  have hκ : Poly p.kernel := by rw [hp]; exact .wendlandC4
  have hg : (tiesToEven 53).fl (3 / 2 - 1) = 3 / 2 - 1 := by
    have := C90_exponent (m := 3 * 2 ^ 51) (by norm_num) (by norm_num)
    have e : (((3 * 2 ^ 51 : ℤ) : ℝ) / 2 ^ 52) = 3 / 2 := by norm_num
    rwa [e] at this
  obtain ⟨t, t0, h1, h2, h3⟩ := C90_state_partial (R := tiesToEven 53) (N := 3) (C := 6) (g := 2) (q := ⟨3 / 2, 1, 1⟩) (e := e) (s := exS) (nbs := ![[0, 1], [0, 1, 2], [1, 2]]) (nbs' := ![[1, 0], [2, 1, 0], [1, 2]])
    (order := [2, 0, 1]) (order' := [0, 1, 2]) hκ hz (by rw [hu, hp]; norm_num [stateLoss, denseLoss, loss]) (by norm_num) (by norm_num) (fun a => ⟨by norm_num [exS], by simp only [exS]; positivity⟩)
    (fun a => by rcases he with rfl | rfl <;> norm_num [Gas, exS]; rw [show (1 / 2 : ℝ) = 3 / 2 - 1 by norm_num]; exact hg) (by decide) (by decide) (by decide) ⟨by decide, by decide⟩ ⟨by decide, by decide⟩
    (fun a => peak_le hκ (h := 2) (by norm_num) (fun _ => rfl) (fun _ => by simp only [exS]; positivity) (by revert a; decide) (by fin_cases a <;> simp [exS] <;> norm_num))
  exact ⟨t, t0, h1, h2, fun a => (h3 a).1⟩

/-- A white dwarf with `x = 1`, and the numbers needed for its sound speed in `double`. -/
example : xWd Eos.bWd 1 = 1 ∧ (1 : ℝ) ≤ (1 : ℕ) * xWd Eos.bWd 1 ^ 4 ∧ (48 * (1 : ℕ) * (16 * (10 : ℕ) + 45) + 100) * (tiesToEven 53).u ≤ 1 := by
  have hu : (tiesToEven 53).u = 2 ^ (-53 : ℤ) := rfl
  have e : xWd Eos.bWd 1 = 1 := by rw [Eos.xWd, mul_one, div_self bWd_pos.ne', Real.one_rpow]
  refine ⟨e, by rw [e]; norm_num, by rw [hu]; norm_num⟩

/-- A particle whose total energy is above its kinetic energy. -/
example : recoverInternalEnergyR (tiesToEven 53) (fun _ => 0) ({ exS 0 with e := 2, vel := fun _ => 1 } : Particle 1) ≠ none := by
  have hu : (tiesToEven 53).u = 2 ^ (-53 : ℤ) := rfl
  refine (C90_recover (by rw [hu]; norm_num) _ _ rfl).2.1 ?_
  simp
  rw [hu]
  norm_num

end FleCSPH.Rounded

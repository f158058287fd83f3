import Mathlib.Tactic.Linarith
import Mathlib.Tactic.FieldSimp
import Mathlib.Tactic.Ring
import Mathlib.Tactic.Positivity
import Mathlib.Tactic.NormNum
import Mathlib.Analysis.Calculus.Deriv.MeanValue
import Mathlib.Analysis.SpecialFunctions.Sqrt
import Mathlib.Analysis.SpecialFunctions.Pow.Deriv
import Verif.Model.WdStar
/-!
C111: profiles of white dwarfs.
-/
namespace FleCSPH.WdStar

/-- Constants that make sense: positive. -/
def Consts.Ok (k : Consts) : Prop := 0 < k.A ∧ 0 < k.B ∧ 0 < k.G ∧ 0 < k.c

/-- The function of the relativity parameter in the pressure. -/
noncomputable def phi (x : ℝ) : ℝ := x * (2 * x * x - 3) * Real.sqrt (x * x + 1) + 3 * Real.arsinh x

theorem phi_deriv (x : ℝ) : HasDerivAt phi (8 * x ^ 4 / Real.sqrt (x * x + 1)) x := by
  have hpos : 0 < x * x + 1 := by nlinarith [mul_self_nonneg x]
  have hs : Real.sqrt (x * x + 1) ≠ 0 := (Real.sqrt_pos.2 hpos).ne'
  have h1 : HasDerivAt (fun x : ℝ => x * (2 * x * x - 3)) (6 * x ^ 2 - 3) x := by
    have d : HasDerivAt (fun x : ℝ => x * (2 * x * x - 3)) (1 * (2 * x * x - 3) + x * (2 * 1 * x + 2 * x * 1)) x :=
      (hasDerivAt_id x).mul ((((hasDerivAt_id x).const_mul 2).mul (hasDerivAt_id x)).sub_const 3)
    exact d.congr_deriv (by ring)
  have h2 : HasDerivAt (fun x : ℝ => x * x + 1) (2 * x) x := by
    have : HasDerivAt (fun x : ℝ => x * x + 1) (1 * x + x * 1) x := ((hasDerivAt_id x).mul (hasDerivAt_id x)).add_const 1
    exact this.congr_deriv (by ring)
  have h3 := h2.sqrt hpos.ne'
  have h4 := (Real.hasDerivAt_arsinh x).const_mul 3
  have h5 : HasDerivAt phi _ x := (h1.mul h3).add h4
  have e1 : Real.sqrt (1 + x ^ 2) = Real.sqrt (x * x + 1) := by congr 1; ring
  have hq : Real.sqrt (x * x + 1) ^ 2 = x * x + 1 := Real.sq_sqrt hpos.le
  refine h5.congr_deriv ?_
  rw [e1]
  field_simp
  rw [← pow_two] at hq
  rw [hq]; ring

/-- The function of the relativity parameter in the energy. -/
noncomputable def chi (x : ℝ) : ℝ := x * (2 * x * x + 1) * Real.sqrt (x * x + 1) - Real.arsinh x

theorem chi_deriv (x : ℝ) : HasDerivAt chi (8 * x ^ 2 * Real.sqrt (x * x + 1)) x := by
  have hpos : 0 < x * x + 1 := by nlinarith [mul_self_nonneg x]
  have hs : Real.sqrt (x * x + 1) ≠ 0 := (Real.sqrt_pos.2 hpos).ne'
  have h1 : HasDerivAt (fun x : ℝ => x * (2 * x * x + 1)) (6 * x ^ 2 + 1) x := by
    have d : HasDerivAt (fun x : ℝ => x * (2 * x * x + 1)) (1 * (2 * x * x + 1) + x * (2 * 1 * x + 2 * x * 1)) x :=
      (hasDerivAt_id x).mul ((((hasDerivAt_id x).const_mul 2).mul (hasDerivAt_id x)).add_const 1)
    exact d.congr_deriv (by ring)
  have h2 : HasDerivAt (fun x : ℝ => x * x + 1) (2 * x) x := by
    have : HasDerivAt (fun x : ℝ => x * x + 1) (1 * x + x * 1) x := ((hasDerivAt_id x).mul (hasDerivAt_id x)).add_const 1
    exact this.congr_deriv (by ring)
  have h3 := h2.sqrt hpos.ne'
  have h5 : HasDerivAt chi _ x := (h1.mul h3).sub (Real.hasDerivAt_arsinh x)
  have e1 : Real.sqrt (1 + x ^ 2) = Real.sqrt (x * x + 1) := by congr 1; ring
  have hq : Real.sqrt (x * x + 1) ^ 2 = x * x + 1 := Real.sq_sqrt hpos.le
  refine h5.congr_deriv ?_
  rw [e1]
  field_simp
  rw [← pow_two] at hq
  rw [hq]; ring

theorem phi_mono : StrictMonoOn phi (Set.Ici 0) := by
  refine strictMonoOn_of_deriv_pos (convex_Ici 0) (fun x _ => (phi_deriv x).continuousAt.continuousWithinAt) ?_
  intro x hx
  rw [interior_Ici] at hx
  have hx0 : 0 < x := hx
  rw [(phi_deriv x).deriv]
  have : 0 < x * x + 1 := by positivity
  have := Real.sqrt_pos.2 this
  positivity

/-- The rounds keep the density sought between the ends, and each halves the distance; `mid` is one of the ends. -/
theorem loop_spec {e : ℝ → ℝ} {tol root : ℝ} {lo : ℝ} (he : ∀ a b, lo ≤ a → a < b → e a < e b) (h0 : e root = 0) (htol : 0 < tol) : ∀ (n : ℕ) (xl xr : ℝ) (mid : Option ℝ), lo ≤ xr → xr ≤ root → root ≤ xl →
    (xl - xr) / 2 ≤ tol * 2 ^ n → (∀ z, mid = some z → z = xl ∨ z = xr) → (mid = none → tol < (xl - xr) / 2 ∧ n ≠ 0) → ∃ z, bisectLoop e tol n xl xr mid = some z ∧ |z - root| ≤ 2 * tol
  | 0, xl, xr, mid, h1, h2, h3, h4, h5, h6 => by
    match mid, h5, h6 with
    | none, _, h6 => exact absurd rfl (h6 rfl).2
    | some z, h5, _ =>
      refine ⟨z, rfl, ?_⟩
      rw [pow_zero, mul_one] at h4
      rw [abs_le]
      rcases h5 z rfl with rfl | rfl <;> constructor <;> linarith
  | n + 1, xl, xr, mid, h1, h2, h3, h4, h5, h6 => by
    have habs : |(xl - xr) / 2| = (xl - xr) / 2 := abs_of_nonneg (by linarith)
    unfold bisectLoop
    rw [habs]
    by_cases ht : tol < (xl - xr) / 2
    · rw [if_pos ht]
      have hlt : xr < (xl + xr) / 2 ∧ (xl + xr) / 2 < xl := ⟨by linarith, by linarith⟩
      have hstop : ∀ d, d = (xl - xr) / 2 / 2 → d ≤ tol * 2 ^ n := by
        intro d hd; rw [pow_succ] at h4; rw [hd]; linarith
      have hroot : lo ≤ root := h1.trans h2
      dsimp only
      split_ifs with hsg
      · have hle : root ≤ (xl + xr) / 2 := by
          by_contra hc
          have ha : e ((xl + xr) / 2) < 0 := h0 ▸ he _ _ (h1.trans hlt.1.le) (not_le.1 hc)
          have hb : 0 ≤ e xl := by
            rcases h3.eq_or_lt with q | q
            · rw [← q, h0]
            · exact (h0 ▸ he _ _ hroot q).le
          rw [sign_neg ha] at hsg
          rcases hb.eq_or_lt with q | q
          · rw [← q, sign_zero] at hsg; exact absurd hsg (by decide)
          · rw [sign_pos q] at hsg; exact absurd hsg (by decide)
        exact loop_spec he h0 htol n _ _ _ h1 h2 hle (hstop _ (by ring)) (fun z hz => Or.inl (Option.some.inj hz).symm) (fun hz => by simp at hz)
      · have hge : (xl + xr) / 2 ≤ root := by
          by_contra hc
          have ha : 0 < e ((xl + xr) / 2) := h0 ▸ he _ _ hroot (not_le.1 hc)
          have hb : 0 < e xl := h0 ▸ he _ _ hroot ((not_le.1 hc).trans hlt.2)
          rw [sign_pos ha, sign_pos hb] at hsg
          exact hsg rfl
        exact loop_spec he h0 htol n _ _ _ (h1.trans hlt.1.le) hge h3 (hstop _ (by ring)) (fun z hz => Or.inr (Option.some.inj hz).symm) (fun hz => by simp at hz)
    · rw [if_neg ht]
      match mid, h5, h6 with
      | none, _, h6 => exact absurd (h6 rfl).1 ht
      | some z, h5, _ =>
        refine ⟨z, rfl, ?_⟩
        rw [abs_le]
        rcases h5 z rfl with rfl | rfl <;> constructor <;> linarith

theorem loop_range {e : ℝ → ℝ} {tol : ℝ} : ∀ (n : ℕ) (xl xr : ℝ) (mid : Option ℝ) (a : ℝ), xr ≤ xl → a ≤ xr → (∀ z, mid = some z → a ≤ z) → ∀ z, bisectLoop e tol n xl xr mid = some z → a ≤ z
  | 0, xl, xr, mid, a, _, _, h3, z, hz => h3 z hz
  | n + 1, xl, xr, mid, a, h1, h2, h3, z, hz => by
    unfold bisectLoop at hz
    dsimp only at hz
    split_ifs at hz with ht hs
    · exact loop_range n _ _ _ a (by linarith) h2 (fun w hw => by obtain rfl := Option.some.inj hw; linarith) z hz
    · exact loop_range n _ _ _ a (by linarith) (by linarith) (fun w hw => by obtain rfl := Option.some.inj hw; linarith) z hz
    · exact h3 z hz

/-! ### Properties -/

/-- **C111**: the pressure grows with the density, from zero. -/
theorem C111_pressure (k : Consts) (h : k.Ok) : pressure k 0 = 0 ∧ ∀ a b, 0 ≤ a → a < b → pressure k a < pressure k b := by
  constructor
  · simp [pressure, Real.zero_rpow]
  · intro a b ha hab
    have h1 : (a / k.B) ^ (1 / 3 : ℝ) < (b / k.B) ^ (1 / 3 : ℝ) := Real.rpow_lt_rpow (div_nonneg ha h.2.1.le) (div_lt_div_of_pos_right hab h.2.1) (by norm_num)
    have h2 : 0 ≤ (a / k.B) ^ (1 / 3 : ℝ) := Real.rpow_nonneg (div_nonneg ha h.2.1.le) _
    exact mul_lt_mul_of_pos_left (phi_mono h2 (h2.trans h1.le) h1) h.1

/-- **C111**: energy and pressure obey the first law of thermodynamics of cold matter: `dε/dρ = (ε + P) / ρ`. -/
theorem C111_first_law (k : Consts) (h : k.Ok) (rho : ℝ) (hr : 0 < rho) : HasDerivAt (energy k) ((energy k rho + pressure k rho) / rho) rho := by
  have hB := h.2.1
  have hq : 0 < rho / k.B := div_pos hr hB
  have hx : HasDerivAt (fun r : ℝ => (r / k.B) ^ (1 / 3 : ℝ)) ((rho / k.B) ^ (1 / 3 : ℝ) / (3 * rho)) rho := by
    have h1 : HasDerivAt (fun r : ℝ => r / k.B) (1 / k.B) rho := (hasDerivAt_id rho).div_const k.B
    have h2 := h1.rpow_const (p := (1 / 3 : ℝ)) (Or.inl hq.ne')
    refine h2.congr_deriv ?_
    rw [Real.rpow_sub_one hq.ne']
    have := hr.ne'
    have := hB.ne'
    field_simp
  have h3 := ((chi_deriv ((rho / k.B) ^ (1 / 3 : ℝ))).comp rho hx).const_mul (3 * k.A)
  have h1 : HasDerivAt (fun r : ℝ => r * k.c * k.c) (1 * k.c * k.c) rho := ((hasDerivAt_id rho).mul_const k.c).mul_const k.c
  have h4 : HasDerivAt (energy k) _ rho := h1.add h3
  refine h4.congr_deriv ?_
  unfold energy pressure
  dsimp only
  generalize (rho / k.B) ^ (1 / 3 : ℝ) = x
  have := hr.ne'
  field_simp
  ring

/-- **C111**: the energy is that of the nucleons at rest and a positive energy of the electrons, less than if all had the highest momentum, `x`: `8 A (ρ/B) √(x² + 1)`, with `8 A / B` the rest energy of the electrons of a unit of mass. -/
theorem C111_energy (k : Consts) (h : k.Ok) (rho : ℝ) (hr : 0 < rho) : rho * k.c ^ 2 < energy k rho ∧ energy k rho < rho * k.c ^ 2 + 8 * k.A * (rho / k.B) * Real.sqrt (((rho / k.B) ^ (1 / 3 : ℝ)) ^ 2 + 1) := by
  have hq : 0 < rho / k.B := div_pos hr h.2.1
  have hx : 0 < (rho / k.B) ^ (1 / 3 : ℝ) := Real.rpow_pos_of_pos hq _
  have h3 : ((rho / k.B) ^ (1 / 3 : ℝ)) ^ 3 = rho / k.B := by
    rw [← Real.rpow_natCast, ← Real.rpow_mul hq.le]; norm_num
  have hA := h.1
  have hchi : StrictMonoOn chi (Set.Ici 0) := by
    refine strictMonoOn_of_deriv_pos (convex_Ici 0) (fun x _ => (chi_deriv x).continuousAt.continuousWithinAt) ?_
    intro x hx
    rw [interior_Ici] at hx
    have hx0 : 0 < x := hx
    rw [(chi_deriv x).deriv]
    have : 0 < x * x + 1 := by positivity
    have := Real.sqrt_pos.2 this
    positivity
  have e : energy k rho = rho * k.c ^ 2 + 3 * k.A * chi ((rho / k.B) ^ (1 / 3 : ℝ)) := by unfold energy chi; dsimp only; ring
  have hp := phi_mono (le_refl (0 : ℝ)) hx.le hx
  have hc := hchi (le_refl (0 : ℝ)) hx.le hx
  rw [show phi 0 = 0 by simp [phi]] at hp
  rw [show chi 0 = 0 by simp [chi]] at hc
  rw [e]
  constructor
  · have : 0 < 3 * k.A * chi ((rho / k.B) ^ (1 / 3 : ℝ)) := by positivity
    linarith
  · have hs : phi ((rho / k.B) ^ (1 / 3 : ℝ)) + 3 * chi ((rho / k.B) ^ (1 / 3 : ℝ)) = 8 * (rho / k.B) * Real.sqrt (((rho / k.B) ^ (1 / 3 : ℝ)) ^ 2 + 1) := by
      conv_rhs => rw [show 8 * (rho / k.B) = 8 * ((rho / k.B) ^ (1 / 3 : ℝ)) ^ 3 by rw [h3]]
      generalize (rho / k.B) ^ (1 / 3 : ℝ) = x
      unfold phi chi
      rw [pow_two]; ring
    have h5 : 0 < k.A * phi ((rho / k.B) ^ (1 / 3 : ℝ)) := mul_pos hA hp
    have h6 : k.A * phi ((rho / k.B) ^ (1 / 3 : ℝ)) + 3 * k.A * chi ((rho / k.B) ^ (1 / 3 : ℝ)) = k.A * (8 * (rho / k.B) * Real.sqrt (((rho / k.B) ^ (1 / 3 : ℝ)) ^ 2 + 1)) := by
      rw [← hs]; ring
    have h8 : 8 * k.A * (rho / k.B) * Real.sqrt (((rho / k.B) ^ (1 / 3 : ℝ)) ^ 2 + 1) = k.A * (8 * (rho / k.B) * Real.sqrt (((rho / k.B) ^ (1 / 3 : ℝ)) ^ 2 + 1)) := by ring
    rw [h8]
    linarith

/-- **C111** (partial: the density sought must be from a tenth to twice that of the shell before, see `C111_drop_violated`): the search finds the density of the given pressure within twice the tolerance, for all densities up to `10 ^ 100`. -/
theorem C111_density_partial (k : Consts) (h : k.Ok) (rho root P : ℝ) (hP : pressure k root = P) (h1 : 0.1 * rho ≤ root) (h2 : root ≤ 2 * rho) (hlow : 1 / 10 ^ 7 ≤ rho) (hhigh : rho ≤ 10 ^ 100) :
    ∃ z, density k rho P = some z ∧ |z - root| ≤ 2 * (1 / 10 ^ 8) := by
  have hr : 0 < rho := lt_of_lt_of_le (by norm_num) hlow
  obtain ⟨-, hmono⟩ := C111_pressure k h
  unfold density bisection
  refine loop_spec (e := fun r => pressure k r - P) (tol := 1 / 10 ^ 8) (root := root) (lo := 0) (fun a b ha hab => by have := hmono a b ha hab; linarith) (by rw [hP, sub_self]) (by norm_num) 9999 _ _ none (by linarith) h1 h2 ?_ (by simp) ?_
  · have h400 : (10 : ℝ) ^ 108 ≤ 2 ^ 9999 := by
      calc (10 : ℝ) ^ 108 = (10 ^ 12) ^ 9 := by rw [← pow_mul]
        _ ≤ (2 ^ 40) ^ 9 := pow_le_pow_left₀ (by norm_num) (by norm_num) 9
        _ = 2 ^ 360 := by rw [← pow_mul]
        _ ≤ 2 ^ 9999 := pow_le_pow_right₀ (by norm_num) (by norm_num)
    have : (2 * rho - 0.1 * rho) / 2 ≤ 10 ^ 100 := by linarith
    have h3 : (1 / 10 ^ 8 : ℝ) * 10 ^ 108 ≤ 1 / 10 ^ 8 * 2 ^ 9999 := mul_le_mul_of_nonneg_left h400 (by norm_num)
    have h4 : (1 / 10 ^ 8 : ℝ) * 10 ^ 108 = 10 ^ 100 := by norm_num
    rw [h4] at h3
    exact this.trans h3
  · intro _
    refine ⟨?_, by norm_num⟩
    norm_num at hlow ⊢
    linarith

/-- **C111**: in newtonian gravity the pressure falls by the weight of the matter and the mass grows by that of the shell, for the density `en / c²`. -/
theorem C111_newton (k : Consts) (h : k.Ok) (P m r rho : ℝ) (hr : 0 < r) : dPdr k false P m r (rho * k.c ^ 2) = -(k.G * m / r ^ 2) * rho ∧ dmdr k r (rho * k.c ^ 2) = 4 * Real.pi * r ^ 2 * rho := by
  have hc := h.2.2.2.ne'
  have hr' := hr.ne'
  constructor
  · simp only [dPdr, Bool.false_eq_true, if_false]; field_simp
  · unfold dmdr; field_simp

/-- **C111** (partial: the sign in the factor on the left, see `C111_tov_violated`): with general relativity the weight of the equation of Tolman, Oppenheimer and Volkoff is that of energy and pressure in the field of the mass and of the pressure. -/
theorem C111_tov_partial (k : Consts) (h : k.Ok) (P m r en : ℝ) (hm : 0 < m) (hr : 0 < r) (he : 0 < en) :
    dPdr k true P m r en * (1 + 2 * k.G * m / (k.c ^ 2 * r)) = -(k.G * ((en + P) / k.c ^ 2) * (m + 4 * Real.pi * r ^ 3 * (P / k.c ^ 2)) / r ^ 2) := by
  obtain ⟨-, -, hG, hc⟩ := h
  have hq : 0 < 2 * k.G * m / (k.c * k.c * r) := by positivity
  have hc' := hc.ne'
  have e : dPdr k true P m r en = -k.G * en * m / (k.c ^ 2 * r ^ 2) * (1 + P / en) * (1 + 4 * Real.pi * r ^ 3 * P / (m * k.c * k.c)) * (1 / (1 + 2 * k.G * m / (k.c * k.c * r))) := by
    simp only [dPdr, if_true]
  rw [e, pow_two k.c, mul_assoc, one_div, inv_mul_cancel₀ (by linarith), mul_one]
  have := hm.ne'
  have := hr.ne'
  have := he.ne'
  field_simp

/-- **C111** (partial: not in the first shell, see `C111_slope_violated`): the slope of a profile is exact for profiles that are linear in the radius, and inside the star for quadratic ones. -/
theorem C111_slope_partial (a s q dr : ℝ) (hd : 0 < dr) (n i : ℕ) (h0 : i ≠ 0) :
    (i = n - 1 → slope (fun j => a + s * (j * dr)) dr n i = s) ∧ (i ≠ n - 1 → slope (fun j => a + s * (j * dr) + q * (j * dr) ^ 2) dr n i = s + 2 * q * (i * dr)) := by
  have hd' := hd.ne'
  obtain ⟨m, rfl⟩ := Nat.exists_eq_succ_of_ne_zero h0
  constructor
  · intro h1
    unfold slope
    rw [if_neg h0, if_pos h1, ← h1]
    dsimp only
    have : (((m.succ - 1 : ℕ)) : ℝ) = m := by simp
    rw [this, Nat.cast_succ]
    field_simp; ring
  · intro h1
    unfold slope
    rw [if_neg h0, if_neg h1]
    dsimp only
    have : (((m.succ - 1 : ℕ)) : ℝ) = m := by simp
    rw [this]
    push_cast
    field_simp; ring

/-! ### Where the tool departs from the property -/

/-- **C111 is violated**: if the pressure falls so fast that the density is below a tenth of that of the shell before, the search gives a density with a pressure that is too high. -/
theorem C111_drop_violated (k : Consts) (h : k.Ok) (rho root P z : ℝ) (hr : 0 < rho) (h0 : 0 ≤ root) (hP : pressure k root = P) (h1 : root < 0.1 * rho) (hz : density k rho P = some z) : P < pressure k z ∧ root < z := by
  unfold density bisection at hz
  have h2 : 0.1 * rho ≤ z := loop_range 9999 (2 * rho) (0.1 * rho) none (0.1 * rho) (by linarith) le_rfl (by simp) z hz
  have h3 : root < z := by linarith
  exact ⟨hP ▸ (C111_pressure k h).2 root z h0 h3, h3⟩

/-- **C111 is violated**: for densities below `10 ^ (-8)` the search ends in an exception. -/
theorem C111_small_violated (k : Consts) (rho P : ℝ) (h0 : 0 ≤ rho) (h : rho ≤ 1 / 10 ^ 8) : density k rho P = none := by
  unfold density bisection bisectLoop
  rw [if_neg]
  rw [not_lt, abs_of_nonneg (by linarith)]
  linarith

/-- **C111 is violated**: the mass of the first shell is that of matter of the density 1, not of the central density. -/
theorem C111_centre_violated (dr rhoC : ℝ) (hd : 0 < dr) (hc : rhoC ≠ 1) : firstMass dr rhoC ≠ 4 / 3 * Real.pi * dr ^ 3 * rhoC := by
  have hp := Real.pi_pos
  unfold firstMass
  intro he
  have h0 : 0 < 4 / 3 * Real.pi * dr ^ 3 := by positivity
  exact hc (mul_left_cancel₀ h0.ne' (by linarith))

/-- **C111 is violated**: with general relativity the last factor has the wrong sign, and the pressure falls less than by the equation of Tolman, Oppenheimer and Volkoff, everywhere outside of the horizon. -/
theorem C111_tov_violated (k : Consts) (h : k.Ok) (P m r en : ℝ) (hP : 0 ≤ P) (hm : 0 < m) (hr : 0 < r) (he : 0 < en) (hh : 2 * k.G * m < k.c ^ 2 * r) :
    -(k.G * en * m / (k.c ^ 2 * r ^ 2)) * (1 + P / en) * (1 + 4 * Real.pi * r ^ 3 * P / (m * k.c ^ 2)) / (1 - 2 * k.G * m / (k.c ^ 2 * r)) < dPdr k true P m r en := by
  obtain ⟨-, -, hG, hc⟩ := h
  have hp := Real.pi_pos
  have hq : 0 < 2 * k.G * m / (k.c ^ 2 * r) := by positivity
  have hq1 : 2 * k.G * m / (k.c ^ 2 * r) < 1 := by rw [div_lt_one (by positivity)]; exact hh
  have hX : 0 < k.G * en * m / (k.c ^ 2 * r ^ 2) * (1 + P / en) * (1 + 4 * Real.pi * r ^ 3 * P / (m * k.c ^ 2)) := by positivity
  have e : dPdr k true P m r en = -(k.G * en * m / (k.c ^ 2 * r ^ 2) * (1 + P / en) * (1 + 4 * Real.pi * r ^ 3 * P / (m * k.c ^ 2)) * (1 / (1 + 2 * k.G * m / (k.c ^ 2 * r)))) := by
    simp only [dPdr, if_true, ← pow_two, mul_assoc m]
    ring
  have e2 : -(k.G * en * m / (k.c ^ 2 * r ^ 2)) * (1 + P / en) * (1 + 4 * Real.pi * r ^ 3 * P / (m * k.c ^ 2)) / (1 - 2 * k.G * m / (k.c ^ 2 * r)) =
      -(k.G * en * m / (k.c ^ 2 * r ^ 2) * (1 + P / en) * (1 + 4 * Real.pi * r ^ 3 * P / (m * k.c ^ 2)) * (1 / (1 - 2 * k.G * m / (k.c ^ 2 * r)))) := by ring
  rw [e, e2, neg_lt_neg_iff]
  apply mul_lt_mul_of_pos_left _ hX
  exact one_div_lt_one_div_of_lt (by linarith) (by linarith)

/-- **C111 is violated**: in the first shell the slope of a linear profile is twice its slope. -/
theorem C111_slope_violated (a s dr : ℝ) (hd : 0 < dr) (n : ℕ) : slope (fun j => a + s * (j * dr)) dr n 0 = 2 * s := by
  have hd' := hd.ne'
  unfold slope
  rw [if_pos rfl]
  push_cast
  field_simp; ring

/-! ### Examples -/

theorem ones_ok : (⟨1, 1, 1, 10⟩ : Consts).Ok := ⟨one_pos, one_pos, one_pos, by norm_num⟩

/-- The density 5 is found from the density 6 of the shell before. -/
example : ∃ z, density ⟨1, 1, 1, 10⟩ 6 (pressure ⟨1, 1, 1, 10⟩ 5) = some z ∧ |z - 5| ≤ 2 * (1 / 10 ^ 8) :=
  C111_density_partial _ ones_ok 6 5 _ rfl (by norm_num) (by norm_num) (by norm_num) (by norm_num)

/-- The hypotheses of `C111_tov_violated` and `C111_centre_violated` are met. -/
example : firstMass 1 5 ≠ 4 / 3 * Real.pi * 1 ^ 3 * 5 := C111_centre_violated 1 5 one_pos (by norm_num)
example : (2 : ℝ) * (⟨1, 1, 1, 10⟩ : Consts).G * 3 < (⟨1, 1, 1, 10⟩ : Consts).c ^ 2 * 1 := by norm_num

end FleCSPH.WdStar

import Mathlib.Tactic.Linarith
import Mathlib.Tactic.FieldSimp
import Mathlib.Tactic.Ring
import Mathlib.Tactic.Positivity
import Mathlib.Tactic.NormNum
import Verif.Model.TovStar
/-!
C110: initial data of neutron stars from the equations of stellar structure.
-/
namespace FleCSPH.TovStar

/-- Constants that make sense: positive. -/
def Consts.Ok (k : Consts) : Prop := 0 < k.K0 ∧ 0 < k.rho1 ∧ 0 < k.G

theorem P1_pos {k : Consts} (h : k.Ok) : 0 < k.P1 := mul_pos h.1 (Real.rpow_pos_of_pos h.2.1 _)
theorem K1_pos {k : Consts} (h : k.Ok) : 0 < k.K1 := div_pos (P1_pos h) (Real.rpow_pos_of_pos h.2.1 _)

theorem K1_at {k : Consts} (h : k.Ok) : k.K1 * k.rho1 ^ (5 / 2 : ℝ) = k.P1 := by
  unfold Consts.K1
  exact div_mul_cancel₀ _ (Real.rpow_pos_of_pos h.2.1 _).ne'

theorem root {t : ℝ} (ht : 0 ≤ t) {g : ℝ} (hg : g ≠ 0) : (t ^ g) ^ (1 / g) = t := by
  rw [← Real.rpow_mul ht, mul_one_div_cancel hg, Real.rpow_one]

theorem root' {t : ℝ} (ht : 0 ≤ t) {g : ℝ} (hg : g ≠ 0) : (t ^ (1 / g)) ^ g = t := by
  rw [← Real.rpow_mul ht, one_div_mul_cancel hg, Real.rpow_one]

theorem eos_low {k : Consts} (h : k.Ok) {rho : ℝ} (h0 : 0 ≤ rho) (hr : rho < k.rho1) : eos k rho < k.P1 ∧ 0 ≤ eos k rho := by
  unfold eos; rw [if_pos hr]
  exact ⟨mul_lt_mul_of_pos_left (Real.rpow_lt_rpow h0 hr (by norm_num)) h.1, mul_nonneg h.1.le (Real.rpow_nonneg h0 _)⟩

theorem eos_high {k : Consts} (h : k.Ok) {rho : ℝ} (hr : k.rho1 ≤ rho) : k.P1 ≤ eos k rho := by
  unfold eos; rw [if_neg (not_lt.2 hr), ← K1_at h]
  exact mul_le_mul_of_nonneg_left (Real.rpow_le_rpow h.2.1.le hr (by norm_num)) (K1_pos h).le

theorem inv_nonneg {k : Consts} (h : k.Ok) {P rho : ℝ} (hi : invEos k P = some rho) : 0 ≤ rho ∧ (0 < P → 0 < rho) := by
  unfold invEos at hi
  split_ifs at hi with h1 h2
  · obtain rfl := Option.some.inj hi
    exact ⟨Real.rpow_nonneg (div_nonneg (not_lt.1 h1) h.1.le) _, fun hp => Real.rpow_pos_of_pos (div_pos hp h.1) _⟩
  · obtain rfl := Option.some.inj hi
    exact ⟨Real.rpow_nonneg (div_nonneg (not_lt.1 h1) (K1_pos h).le) _, fun hp => Real.rpow_pos_of_pos (div_pos hp (K1_pos h)) _⟩

theorem tov_sign {k : Consts} (h : k.Ok) {y d : ℝ × ℝ} {r : ℝ} (hr : 0 < r) (hm : 0 ≤ y.2) (ht : tov k y r = some d) :
    d.1 ≤ 0 ∧ 0 ≤ d.2 ∧ (0 < y.1 → 0 < y.2 → d.1 < 0 ∧ 0 < d.2) := by
  unfold tov at ht
  obtain ⟨rho, hi, rfl⟩ := Option.map_eq_some_iff.1 ht
  obtain ⟨h0, h1⟩ := inv_nonneg h hi
  have hG := h.2.2
  have hp := Real.pi_pos
  have e : -k.G * rho * y.2 / r ^ 2 = -(k.G * rho * y.2 / r ^ 2) := by ring
  refine ⟨?_, ?_, fun hP hM => ⟨?_, ?_⟩⟩
  · show -k.G * rho * y.2 / r ^ 2 ≤ 0
    rw [e]; have : 0 ≤ k.G * rho * y.2 / r ^ 2 := by positivity
    linarith
  · show 0 ≤ 4 * Real.pi * rho * r ^ 2
    positivity
  · have := h1 hP
    show -k.G * rho * y.2 / r ^ 2 < 0
    rw [e]; have : 0 < k.G * rho * y.2 / r ^ 2 := by positivity
    linarith
  · have := h1 hP
    show 0 < 4 * Real.pi * rho * r ^ 2
    positivity

/-- A step that gives numbers lowers the pressure and raises the mass. -/
theorem rk4_sign {k : Consts} (h : k.Ok) {y y' : ℝ × ℝ} {r dr : ℝ} (hr : 0 < r) (hd : 0 < dr) (hP : 0 < y.1) (hm : 0 < y.2) (hk : rk4 (tov k) y r dr = some y') : y'.1 < y.1 ∧ y.2 < y'.2 := by
  unfold rk4 at hk
  simp only [Option.bind_eq_bind, Option.pure_def] at hk
  obtain ⟨a, ha, hk⟩ := Option.bind_eq_some_iff.1 hk
  obtain ⟨b, hb, hk⟩ := Option.bind_eq_some_iff.1 hk
  obtain ⟨c, hc, hk⟩ := Option.bind_eq_some_iff.1 hk
  obtain ⟨d, hd', hk⟩ := Option.bind_eq_some_iff.1 hk
  obtain rfl := Option.some.inj hk
  obtain ⟨-, -, ha2⟩ := tov_sign h hr hm.le ha
  obtain ⟨ha0, ha1⟩ := ha2 hP hm
  have a1 : a.1 * dr < 0 := mul_neg_of_neg_of_pos ha0 hd
  have a2 : 0 < a.2 * dr := mul_pos ha1 hd
  obtain ⟨hb0, hb1, -⟩ := tov_sign h (by linarith) (by dsimp only; linarith) hb
  have b1 : b.1 * dr ≤ 0 := mul_nonpos_of_nonpos_of_nonneg hb0 hd.le
  have b2 : 0 ≤ b.2 * dr := mul_nonneg hb1 hd.le
  obtain ⟨hc0, hc1, -⟩ := tov_sign h (by linarith) (by dsimp only; linarith) hc
  have c1 : c.1 * dr ≤ 0 := mul_nonpos_of_nonpos_of_nonneg hc0 hd.le
  have c2 : 0 ≤ c.2 * dr := mul_nonneg hc1 hd.le
  obtain ⟨hd0, hd1, -⟩ := tov_sign h (by linarith) (by dsimp only; linarith) hd'
  have d1 : d.1 * dr ≤ 0 := mul_nonpos_of_nonpos_of_nonneg hd0 hd.le
  have d2 : 0 ≤ d.2 * dr := mul_nonneg hd1 hd.le
  constructor
  · dsimp only; linarith
  · dsimp only; linarith

/-- `b` is further out than `a`: larger radius, lower pressure, more mass within. -/
def Out (a b : Shell) : Prop := a.r < b.r ∧ b.P < a.P ∧ a.m < b.m

theorem shells_spec {k : Consts} (h : k.Ok) {dr : ℝ} (hd : 0 < dr) : ∀ (n : ℕ) (r : ℝ) (y : ℝ × ℝ), 0 < r → 0 < y.2 →
    (shells k dr n r y).Pairwise Out ∧ (∀ s ∈ shells k dr n r y, 0 < s.P ∧ r ≤ s.r ∧ s.P ≤ y.1 ∧ y.2 ≤ s.m) ∧ (shells k dr n r y).length ≤ n
  | 0, r, y, _, _ => ⟨List.Pairwise.nil, by simp [shells], le_rfl⟩
  | n + 1, r, y, hr, hm => by
    unfold shells
    split_ifs with hP
    · match hk : rk4 (tov k) y r dr with
      | none =>
        refine ⟨List.pairwise_singleton _ _, ?_, by simp⟩
        intro s hs
        obtain rfl := List.mem_singleton.1 hs
        exact ⟨hP, le_rfl, le_rfl, le_rfl⟩
      | some y' =>
        obtain ⟨h1, h2⟩ := rk4_sign h hr hd hP hm hk
        obtain ⟨i1, i2, i3⟩ := shells_spec h hd n (r + dr) y' (by linarith) (by linarith)
        refine ⟨List.pairwise_cons.2 ⟨?_, i1⟩, ?_, by simpa using i3⟩
        · intro s hs
          obtain ⟨-, j2, j3, j4⟩ := i2 s hs
          exact ⟨by dsimp only; linarith, by dsimp only; linarith, by dsimp only; linarith⟩
        · intro s hs
          rcases List.mem_cons.1 hs with rfl | hs
          · exact ⟨hP, le_rfl, le_rfl, le_rfl⟩
          · obtain ⟨j1, j2, j3, j4⟩ := i2 s hs
            exact ⟨j1, by linarith, by linarith, by linarith⟩
    · exact ⟨List.Pairwise.nil, by simp, by simp⟩

/-! ### Properties -/

/-- **C110**: the equation of state and its inverse are inverse to each other, on both sides of the density at which the polytropes meet. -/
theorem C110_inverse (k : Consts) (h : k.Ok) (rho : ℝ) (h0 : 0 ≤ rho) : invEos k (eos k rho) = some rho := by
  by_cases hr : rho < k.rho1
  · obtain ⟨h1, h2⟩ := eos_low h h0 hr
    unfold invEos
    rw [if_neg (not_lt.2 h2), if_pos h1, eos, if_pos hr, mul_div_cancel_left₀ _ h.1.ne', root h0 (by norm_num)]
  · have h1 := eos_high h (not_lt.1 hr)
    unfold invEos
    rw [if_neg (not_lt.2 ((P1_pos h).le.trans h1)), if_neg (not_lt.2 h1), eos, if_neg hr, mul_div_cancel_left₀ _ (K1_pos h).ne', root h0 (by norm_num)]

/-- **C110**: every pressure that is not negative is that of the density which the inverse gives. -/
theorem C110_pressure (k : Consts) (h : k.Ok) (P : ℝ) (hP : 0 ≤ P) : ∃ rho, invEos k P = some rho ∧ 0 ≤ rho ∧ eos k rho = P := by
  unfold invEos
  rw [if_neg (not_lt.2 hP)]
  split_ifs with h1
  · have h2 : 0 ≤ P / k.K0 := div_nonneg hP h.1.le
    refine ⟨_, rfl, Real.rpow_nonneg h2 _, ?_⟩
    have h3 : (P / k.K0) ^ (1 / (5 / 3) : ℝ) < k.rho1 := by
      have : (P / k.K0) < k.rho1 ^ (5 / 3 : ℝ) := by rw [div_lt_iff₀ h.1, mul_comm]; exact h1
      calc (P / k.K0) ^ (1 / (5 / 3) : ℝ) < (k.rho1 ^ (5 / 3 : ℝ)) ^ (1 / (5 / 3) : ℝ) := Real.rpow_lt_rpow h2 this (by norm_num)
        _ = k.rho1 := root h.2.1.le (by norm_num)
    rw [eos, if_pos h3, root' h2 (by norm_num), mul_div_cancel₀ _ h.1.ne']
  · have h2 : 0 ≤ P / k.K1 := div_nonneg hP (K1_pos h).le
    refine ⟨_, rfl, Real.rpow_nonneg h2 _, ?_⟩
    have h3 : ¬ (P / k.K1) ^ (1 / (5 / 2) : ℝ) < k.rho1 := by
      have : k.rho1 ^ (5 / 2 : ℝ) ≤ P / k.K1 := by rw [le_div_iff₀ (K1_pos h), mul_comm, K1_at h]; exact not_lt.1 h1
      refine not_lt.2 ?_
      calc k.rho1 = (k.rho1 ^ (5 / 2 : ℝ)) ^ (1 / (5 / 2) : ℝ) := (root h.2.1.le (by norm_num)).symm
        _ ≤ _ := Real.rpow_le_rpow (Real.rpow_nonneg h.2.1.le _) this (by norm_num)
    rw [eos, if_neg h3, root' h2 (by norm_num), mul_div_cancel₀ _ (K1_pos h).ne']

/-- **C110**: the pressure grows with the density, through the density at which the polytropes meet. -/
theorem C110_monotone (k : Consts) (h : k.Ok) (a b : ℝ) (ha : 0 ≤ a) (hab : a < b) : eos k a < eos k b := by
  by_cases hb : b < k.rho1
  · unfold eos
    rw [if_pos hb, if_pos (hab.trans hb)]
    exact mul_lt_mul_of_pos_left (Real.rpow_lt_rpow ha hab (by norm_num)) h.1
  · by_cases hr : a < k.rho1
    · exact (eos_low h ha hr).1.trans_le (eos_high h (not_lt.1 hb))
    · unfold eos
      rw [if_neg hb, if_neg hr]
      exact mul_lt_mul_of_pos_left (Real.rpow_lt_rpow ha hab (by norm_num)) (K1_pos h)

/-- **C110**: for every central density, step and length of the grid, the shells of the star have positive pressures and masses, and outwards the pressure falls and the mass within grows. -/
theorem C110_profile (k : Consts) (h : k.Ok) (dr : ℝ) (hd : 0 < dr) (len : ℕ) (rhoC : ℝ) (hc : 0 < rhoC) :
    (solve k dr len rhoC).Pairwise (fun a b => a.r < b.r ∧ b.P < a.P ∧ a.m < b.m) ∧
    (∀ s ∈ solve k dr len rhoC, 0 < s.P ∧ s.P ≤ eos k rhoC ∧ dr ≤ s.r ∧ 4 / 3 * Real.pi * rhoC * dr ^ 3 ≤ s.m) ∧ (solve k dr len rhoC).length ≤ len - 1 := by
  have hp := Real.pi_pos
  obtain ⟨h1, h2, h3⟩ := shells_spec h hd (len - 1) dr (eos k rhoC, 4 / 3 * Real.pi * rhoC * dr ^ 3) hd (by dsimp only; positivity)
  refine ⟨h1, fun s hs => ?_, h3⟩
  obtain ⟨a, b, c, d⟩ := h2 s hs
  exact ⟨a, c, b, d⟩

/-- **C110**: the densities of the shells, which the tool takes from the inverse of the equation of state, exist, are positive, and fall outwards from the central density. -/
theorem C110_densities (k : Consts) (h : k.Ok) (dr : ℝ) (hd : 0 < dr) (len : ℕ) (rhoC : ℝ) (hc : 0 < rhoC) :
    ∃ rho : Shell → ℝ, (∀ s ∈ solve k dr len rhoC, invEos k s.P = some (rho s) ∧ 0 < rho s ∧ rho s ≤ rhoC) ∧ (solve k dr len rhoC).Pairwise (fun a b => rho b < rho a) := by
  obtain ⟨hp, hs, -⟩ := C110_profile k h dr hd len rhoC hc
  have mono : ∀ {a b : ℝ}, 0 ≤ a → 0 ≤ b → eos k a ≤ eos k b → a ≤ b := by
    intro a b _ hb hab
    by_contra hlt
    exact absurd (C110_monotone k h b a hb (not_le.1 hlt)) (not_lt.2 hab)
  have strict : ∀ {a b : ℝ}, 0 ≤ a → 0 ≤ b → eos k a < eos k b → a < b := by
    intro a b ha hb hab
    rcases (mono ha hb hab.le).eq_or_lt with e | e
    · rw [e] at hab; exact absurd hab (lt_irrefl _)
    · exact e
  refine ⟨fun s => (invEos k s.P).getD 0, ?_, ?_⟩
  · intro s hm
    obtain ⟨h1, h2, -⟩ := hs s hm
    obtain ⟨rho, hr, hr0, he⟩ := C110_pressure k h s.P h1.le
    have hg : (invEos k s.P).getD 0 = rho := by rw [hr]; rfl
    dsimp only
    rw [hg]
    exact ⟨hr, (inv_nonneg h hr).2 h1, mono hr0 hc.le (by rw [he]; exact h2)⟩
  · refine hp.imp_of_mem ?_
    intro a b ha hb hab
    obtain ⟨ra, hra, ra0, ea⟩ := C110_pressure k h a.P (hs a ha).1.le
    obtain ⟨rb, hrb, rb0, eb⟩ := C110_pressure k h b.P (hs b hb).1.le
    show (invEos k b.P).getD 0 < (invEos k a.P).getD 0
    rw [hra, hrb, Option.getD_some, Option.getD_some]
    exact strict rb0 ra0 (by rw [ea, eb]; exact hab.2.1)

/-- **C110**: the radius that is computed for a particle holds at least 50 particles (itself one of them), and fewer than 50 are nearer; it is computed whenever there are 50 particles. -/
theorem C110_neighbours (dist : List ℝ) :
    (50 ≤ dist.length ↔ (hOf dist).isSome) ∧ ∀ h, hOf dist = some h → h ∈ dist ∧ 50 ≤ dist.countP (fun d => decide (d ≤ h)) ∧ dist.countP (fun d => decide (d < h)) < 50 := by
  have hperm := List.mergeSort_perm dist fun a b => decide (a ≤ b)
  have hsort : (dist.mergeSort fun a b => decide (a ≤ b)).Pairwise (fun a b => decide (a ≤ b) = true) :=
    List.pairwise_mergeSort (fun a b c h1 h2 => by simp only [decide_eq_true_eq] at *; linarith) (fun a b => by simp only [Bool.or_eq_true, decide_eq_true_eq]; exact le_total a b) dist
  unfold hOf
  generalize (dist.mergeSort fun a b => decide (a ≤ b)) = l at hperm hsort
  constructor
  · rw [← hperm.length_eq, Option.isSome_iff_exists]
    constructor
    · intro hl
      exact ⟨_, List.getElem?_eq_getElem (by omega)⟩
    · rintro ⟨a, ha⟩
      have := (List.getElem?_eq_some_iff.1 ha).1
      omega
  · intro h hh
    obtain ⟨hlt, he⟩ := List.getElem?_eq_some_iff.1 hh
    refine ⟨hperm.mem_iff.1 (he ▸ List.getElem_mem hlt), ?_, ?_⟩
    · rw [← hperm.countP_eq, ← List.take_append_drop 50 l, List.countP_append]
      have : (l.take 50).countP (fun d => decide (d ≤ h)) = (l.take 50).length := by
        rw [List.countP_eq_length]
        intro d hd
        obtain ⟨i, hi, rfl⟩ := List.mem_take_iff_getElem.1 hd
        rcases Nat.lt_or_ge i 49 with h1 | h1
        · have := List.pairwise_iff_getElem.1 hsort i 49 (by omega) (by omega) h1
          rw [← he]; exact this
        · have : i = 49 := by omega
          subst this
          rw [← he]; simp
      rw [this, List.length_take]
      omega
    · rw [← hperm.countP_eq, ← List.take_append_drop 49 l, List.countP_append]
      have : (l.drop 49).countP (fun d => decide (d < h)) = 0 := by
        rw [List.countP_eq_zero]
        intro d hd
        obtain ⟨i, hi, rfl⟩ := List.mem_drop_iff_getElem.1 hd
        rw [← he]
        simp only [decide_eq_true_eq, not_lt]
        rcases Nat.eq_zero_or_pos i with h1 | h1
        · subst h1; exact le_of_eq (by simp)
        · have := List.pairwise_iff_getElem.1 hsort 49 (49 + i) (by omega) (by omega) (by omega)
          simpa using this
      rw [this]
      have := List.countP_le_length (p := fun d => decide (d < h)) (l := l.take 49)
      rw [List.length_take] at this
      omega

/-- **C110**: the steps are of fourth order: for derivatives that are cubic polynomials of the radius (one for each component) a step gives exactly the difference of their primitives. -/
theorem C110_cubic (a b c d a' b' c' d' : ℝ) (y : ℝ × ℝ) (x h : ℝ) :
    rk4 (fun _ r => some (a + b * r + c * r ^ 2 + d * r ^ 3, a' + b' * r + c' * r ^ 2 + d' * r ^ 3)) y x h =
      some (y.1 + ((a * (x + h) + b * (x + h) ^ 2 / 2 + c * (x + h) ^ 3 / 3 + d * (x + h) ^ 4 / 4) - (a * x + b * x ^ 2 / 2 + c * x ^ 3 / 3 + d * x ^ 4 / 4)),
            y.2 + ((a' * (x + h) + b' * (x + h) ^ 2 / 2 + c' * (x + h) ^ 3 / 3 + d' * (x + h) ^ 4 / 4) - (a' * x + b' * x ^ 2 / 2 + c' * x ^ 3 / 3 + d' * x ^ 4 / 4))) := by
  simp only [rk4, Option.bind_eq_bind, Option.bind_some, Option.pure_def, Option.some.injEq, Prod.mk.injEq]
  constructor <;> norm_num <;> ring

/-- **C110**: for a linear system with constant coefficients a step gives the exponential series up to the fourth power of the step, in each component and with both of them coupled. -/
theorem C110_linear (p q s t : ℝ) (y : ℝ × ℝ) (x h : ℝ) :
    let A : ℝ × ℝ → ℝ × ℝ := fun v => (p * v.1 + q * v.2, s * v.1 + t * v.2)
    rk4 (fun v _ => some (A v)) y x h =
      some (y.1 + h * (A y).1 + h ^ 2 / 2 * (A (A y)).1 + h ^ 3 / 6 * (A (A (A y))).1 + h ^ 4 / 24 * (A (A (A (A y)))).1,
            y.2 + h * (A y).2 + h ^ 2 / 2 * (A (A y)).2 + h ^ 3 / 6 * (A (A (A y))).2 + h ^ 4 / 24 * (A (A (A (A y)))).2) := by
  intro A
  simp only [A, rk4, Option.bind_eq_bind, Option.bind_some, Option.pure_def, Option.some.injEq, Prod.mk.injEq]
  constructor <;> norm_num <;> ring

/-- **C110**: the derivatives are those of the equations of stellar structure: with the density of the pressure, the pressure falls by the weight of the matter, and the mass grows by that of the shell. -/
theorem C110_structure (k : Consts) (h : k.Ok) (rho m r : ℝ) (h0 : 0 ≤ rho) : tov k (eos k rho, m) r = some (-(k.G * m / r ^ 2) * rho, (4 * Real.pi * r ^ 2) * rho) := by
  unfold tov
  rw [C110_inverse k h rho h0]
  simp only [Option.map_some, Option.some.injEq, Prod.mk.injEq]
  constructor <;> ring

/-! ### Where the tool departs from the property -/

/-- **C110 is violated**: the smoothing lengths in the file are divided by the radii of the particles: the value is that of the radius of its neighbours only at the radius 1 (in centimetres). -/
theorem C110_smoothing_violated (p : Place) (h e : ℝ) (hh : hOf p.dist = some h) (h0 : 0 < h) (hr : 0 < p.r) (hw : hWritten p = some e) (hne : p.r ≠ 1) : e ≠ h := by
  unfold hWritten at hw
  rw [hh] at hw
  obtain rfl := Option.some.inj hw
  intro hc
  rw [div_eq_iff hr.ne'] at hc
  exact hne (mul_left_cancel₀ h0.ne' (by linarith))

/-- **C110 is violated**: the energies in the file are all zero, so that no ideal gas has the pressure of the shells: the star is not in equilibrium. -/
theorem C110_energy_violated (k : Consts) (h : k.Ok) (dr : ℝ) (hd : 0 < dr) (len : ℕ) (rhoC : ℝ) (hc : 0 < rhoC) (s : Shell) (hs : s ∈ solve k dr len rhoC) (gamma rho : ℝ) (p : Place) :
    (gamma - 1) * rho * uWritten p < s.P := by
  have := ((C110_profile k h dr hd len rhoC hc).2.1 s hs).1
  rw [uWritten, mul_zero]; exact this

/-! ### Examples -/

theorem ones_ok : (⟨1, 1, 1⟩ : Consts).Ok := ⟨one_pos, one_pos, one_pos⟩

/-- The star has a centre whenever the grid has two radii: the theorems on shells are not empty. -/
theorem C110_centre (k : Consts) (h : k.Ok) (dr : ℝ) (len : ℕ) (hl : 2 ≤ len) (rhoC : ℝ) (hc : 0 < rhoC) :
    ∃ l, solve k dr len rhoC = ⟨dr, eos k rhoC, 4 / 3 * Real.pi * rhoC * dr ^ 3⟩ :: l := by
  have hP : 0 < eos k rhoC := by
    have := C110_monotone k h 0 rhoC le_rfl hc
    have h0 : 0 ≤ eos k 0 := (eos_low h le_rfl h.2.1).2
    linarith
  unfold solve
  obtain ⟨n, hn⟩ : ∃ n, len - 1 = n + 1 := ⟨len - 2, by omega⟩
  rw [hn, shells, if_pos hP]
  exact ⟨_, rfl⟩

example : ∃ s ∈ solve ⟨1, 1, 1⟩ 0.1 10 2, 0 < s.P ∧ s.r = 0.1 := by
  obtain ⟨l, hl⟩ := C110_centre ⟨1, 1, 1⟩ ones_ok 0.1 10 (by norm_num) 2 two_pos
  have hm : (⟨0.1, eos ⟨1, 1, 1⟩ 2, 4 / 3 * Real.pi * 2 * 0.1 ^ 3⟩ : Shell) ∈ solve ⟨1, 1, 1⟩ 0.1 10 2 := by rw [hl]; exact List.mem_cons_self
  exact ⟨_, hm, ((C110_profile ⟨1, 1, 1⟩ ones_ok 0.1 (by norm_num) 10 2 two_pos).2.1 _ hm).1, rfl⟩

/-- Sixty particles at the distance 3: the radius is 3, and what is written for a particle at the radius 2 is another value. -/
example : ∃ h e, hOf (List.replicate 60 3) = some h ∧ hWritten ⟨2, List.replicate 60 3⟩ = some e ∧ e ≠ h := by
  obtain ⟨h, hh⟩ := Option.isSome_iff_exists.1 ((C110_neighbours (List.replicate 60 3)).1.1 (by simp))
  have h3 : h = 3 := List.eq_of_mem_replicate ((C110_neighbours _).2 h hh).1
  refine ⟨h, h / 2, hh, by rw [hWritten, hh]; rfl, ?_⟩
  exact C110_smoothing_violated ⟨2, List.replicate 60 3⟩ h (h / 2) hh (by rw [h3]; norm_num) two_pos (by rw [hWritten, hh]; rfl) (by norm_num)

end FleCSPH.TovStar

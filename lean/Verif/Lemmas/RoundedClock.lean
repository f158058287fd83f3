import Verif.Lemmas.TiesToEven
import Verif.Lemmas.Timestep
import Verif.Model.RoundedClock
import Verif.Spec.RoundedClock
/-! Lemmas about the rounded clock, and `double` is a format. -/
namespace FleCSPH.RoundedClock
open FleCSPH.Rounded
open FleCSPH.Timestep (Clock Outputs Kind truncate smallest smallest_mem smallest_le smallest_pos)

/-! ### `double` -/

theorem roundEven_mono {x y : ℝ} (h : x ≤ y) : roundEven x ≤ roundEven y := by
  by_contra hc
  have h1 : roundEven y + 1 ≤ roundEven x := by omega
  have h1' : (roundEven y : ℝ) + 1 ≤ roundEven x := by exact_mod_cast h1
  have h2 := abs_le.mp (roundEven_near x)
  have h3 := abs_le.mp (roundEven_near y)
  have : x = y := le_antisymm h (by linarith [h2.1, h3.2])
  rw [this] at hc
  exact hc le_rfl

private theorem log_spec {x : ℝ} (hx : x ≠ 0) : (2 : ℝ) ^ Int.log 2 |x| ≤ |x| ∧ |x| < 2 ^ (Int.log 2 |x| + 1) := by
  constructor
  · have := Int.zpow_log_le_self (b := 2) (by norm_num) (abs_pos.mpr hx)
    exact_mod_cast this
  · have := Int.lt_zpow_succ_log_self (b := 2) (by norm_num) |x|
    exact_mod_cast this

/-- The rounded number lies in the same closed binade. -/
private theorem fl_binade {p : Nat} (hp : 1 ≤ p) {x : ℝ} (hx : 0 < x) :
    (2 : ℝ) ^ Int.log 2 |x| ≤ (tiesToEven p).fl x ∧ (tiesToEven p).fl x ≤ 2 ^ (Int.log 2 |x| + 1) := by
  obtain ⟨h1, h2⟩ := log_spec hx.ne'
  rw [fl_eq]
  obtain ⟨L, hL⟩ : ∃ L, L = Int.log 2 |x| := ⟨_, rfl⟩
  rw [← hL] at h1 h2 ⊢
  rw [abs_of_pos hx] at h1 h2
  have hq : (0 : ℝ) < 2 ^ ((p : ℤ) - 1 - L) := by positivity
  have hr : (0 : ℝ) < 2 ^ (L + 1 - (p : ℤ)) := by positivity
  have hqr : (2 : ℝ) ^ ((p : ℤ) - 1 - L) * 2 ^ (L + 1 - (p : ℤ)) = 1 := by
    rw [← zpow_add₀ (by norm_num), show (p : ℤ) - 1 - L + (L + 1 - p) = 0 by ring, zpow_zero]
  obtain ⟨n, rfl⟩ : ∃ n, p = n + 1 := ⟨p - 1, by omega⟩
  have e1 : ((2 ^ n : ℤ) : ℝ) = 2 ^ L * 2 ^ (((n + 1 : ℕ) : ℤ) - 1 - L) := by
    rw [← zpow_add₀ (by norm_num), show L + (((n + 1 : ℕ) : ℤ) - 1 - L) = n by push_cast; ring, zpow_natCast]; push_cast; rfl
  have e2 : ((2 ^ (n + 1) : ℤ) : ℝ) = 2 ^ (L + 1) * 2 ^ (((n + 1 : ℕ) : ℤ) - 1 - L) := by
    rw [← zpow_add₀ (by norm_num), show L + 1 + (((n + 1 : ℕ) : ℤ) - 1 - L) = ((n + 1 : ℕ) : ℤ) by push_cast; ring, zpow_natCast]; push_cast; rfl
  have k1 : ((2 ^ n : ℤ) : ℝ) ≤ x * 2 ^ (((n + 1 : ℕ) : ℤ) - 1 - L) := by rw [e1]; exact mul_le_mul_of_nonneg_right h1 hq.le
  have k2 : x * 2 ^ (((n + 1 : ℕ) : ℤ) - 1 - L) ≤ ((2 ^ (n + 1) : ℤ) : ℝ) := by rw [e2]; exact mul_le_mul_of_nonneg_right h2.le hq.le
  have m1 := roundEven_mono k1
  have m2 := roundEven_mono k2
  rw [roundEven_int] at m1 m2
  have m1' : ((2 ^ n : ℤ) : ℝ) ≤ roundEven (x * 2 ^ (((n + 1 : ℕ) : ℤ) - 1 - L)) := by exact_mod_cast m1
  have m2' : (roundEven (x * 2 ^ (((n + 1 : ℕ) : ℤ) - 1 - L)) : ℝ) ≤ ((2 ^ (n + 1) : ℤ) : ℝ) := by exact_mod_cast m2
  constructor
  · calc (2 : ℝ) ^ L = ((2 ^ n : ℤ) : ℝ) * 2 ^ (L + 1 - ((n + 1 : ℕ) : ℤ)) := by rw [e1, mul_assoc, hqr, mul_one]
      _ ≤ _ := mul_le_mul_of_nonneg_right m1' hr.le
  · calc _ ≤ ((2 ^ (n + 1) : ℤ) : ℝ) * 2 ^ (L + 1 - ((n + 1 : ℕ) : ℤ)) := mul_le_mul_of_nonneg_right m2' hr.le
      _ = 2 ^ (L + 1) := by rw [e2, mul_assoc, hqr, mul_one]

private theorem fl_mono_pos {p : Nat} (hp : 1 ≤ p) {x y : ℝ} (hx : 0 < x) (h : x ≤ y) : (tiesToEven p).fl x ≤ (tiesToEven p).fl y := by
  have hy : 0 < y := lt_of_lt_of_le hx h
  have hle : Int.log 2 |x| ≤ Int.log 2 |y| := by
    rw [abs_of_pos hx, abs_of_pos hy]
    exact Int.log_mono_right hx h
  rcases hle.lt_or_eq with hlt | heq
  · calc (tiesToEven p).fl x ≤ 2 ^ (Int.log 2 |x| + 1) := (fl_binade hp hx).2
      _ ≤ 2 ^ Int.log 2 |y| := zpow_le_zpow_right₀ (by norm_num) (by omega)
      _ ≤ _ := (fl_binade hp hy).1
  · rw [fl_eq, fl_eq, heq]
    refine mul_le_mul_of_nonneg_right ?_ (by positivity)
    exact_mod_cast roundEven_mono (mul_le_mul_of_nonneg_right h (by positivity))

/-- Rounding to `p` binary digits keeps the order and the numbers that have `p` digits. -/
theorem tiesToEven_format {p : Nat} (hp : 1 ≤ p) : Format (tiesToEven p) := by
  have hz : (tiesToEven p).fl 0 = 0 := fl_zero
  have hpos : ∀ x : ℝ, 0 < x → 0 ≤ (tiesToEven p).fl x := fun x hx => le_trans (by positivity) (fl_binade hp hx).1
  have hneg : ∀ x : ℝ, (tiesToEven p).fl (-x) = -(tiesToEven p).fl x := C84_double p
  constructor
  · intro x y h
    rcases lt_trichotomy x 0 with hx | rfl | hx
    · rcases lt_trichotomy y 0 with hy | rfl | hy
      · have := fl_mono_pos hp (x := -y) (y := -x) (by linarith) (by linarith)
        rw [hneg, hneg] at this
        linarith
      · have := hpos (-x) (by linarith)
        rw [hneg] at this
        rw [hz]; linarith
      · have := hpos (-x) (by linarith)
        rw [hneg] at this
        have := hpos y hy
        linarith
    · rcases h.lt_or_eq with hy | rfl
      · rw [hz]; exact hpos y hy
      · exact le_rfl
    · exact fl_mono_pos hp hx h
  · intro x
    rcases eq_or_ne x 0 with rfl | hx
    · rw [hz, hz]
    obtain ⟨h1, h2⟩ := log_spec hx
    rw [fl_eq p x]
    obtain ⟨L, hL⟩ : ∃ L, L = Int.log 2 |x| := ⟨_, rfl⟩
    rw [← hL] at h1 h2 ⊢
    refine fl_exact hp ?_ _
    have hq : (0 : ℝ) < 2 ^ ((p : ℤ) - 1 - L) := by positivity
    have e2 : ((2 ^ p : ℤ) : ℝ) = 2 ^ (L + 1) * 2 ^ ((p : ℤ) - 1 - L) := by
      rw [← zpow_add₀ (by norm_num), show L + 1 + ((p : ℤ) - 1 - L) = (p : ℤ) by ring, zpow_natCast]; push_cast; rfl
    have k : |x * 2 ^ ((p : ℤ) - 1 - L)| ≤ ((2 ^ p : ℤ) : ℝ) := by
      rw [abs_mul, abs_of_pos hq, e2]
      exact mul_le_mul_of_nonneg_right h2.le hq.le
    obtain ⟨k1, k2⟩ := abs_le.mp k
    rw [← Int.cast_neg] at k1
    have m1 := roundEven_mono k1
    have m2 := roundEven_mono k2
    rw [roundEven_int] at m1 m2
    exact abs_le.mpr ⟨m1, m2⟩

/-! ### One call of `set_adaptive_timestep` -/

variable {R : Rounding}

theorem fl_lower {x : ℝ} (hx : 0 ≤ x) : (1 - R.u) * x ≤ R.fl x := by
  have := abs_le.mp (R.err x)
  rw [abs_of_nonneg hx] at this
  linarith [this.1]

theorem fl_upper {x : ℝ} (hx : 0 ≤ x) : R.fl x ≤ (1 + R.u) * x := by
  have := abs_le.mp (R.err x)
  rw [abs_of_nonneg hx] at this
  linarith [this.2]

theorem fl_zero' : R.fl 0 = 0 := by
  have := R.err 0
  simpa using this

/-- What becomes of the step for the limit `m`. -/
theorem adapt_spec (hu : R.u ≤ 1 / 2) {m dt : ℝ} (hm : 0 < m) (hdt : 0 < dt) :
    0 < adapt R m dt ∧ adapt R m dt ≤ m ∧ adapt R m dt ≤ 2 * (1 + R.u) * dt ∧ (1 - R.u) * (2 * dt ⊓ m / 2) ≤ adapt R m dt := by
  have h0 := R.nonneg
  have a1 := fl_lower (R := R) (x := dt / 2) (by linarith)
  have a2 := fl_upper (R := R) (x := dt / 2) (by linarith)
  have a3 := fl_lower (R := R) (x := 2 * dt) (by linarith)
  have a4 := fl_upper (R := R) (x := 2 * dt) (by linarith)
  have hv : 0 < 1 - R.u := by linarith
  have i1 : (2 * dt ⊓ m / 2) ≤ 2 * dt := inf_le_left
  have i2 : (2 * dt ⊓ m / 2) ≤ m / 2 := inf_le_right
  have i3 := mul_le_mul_of_nonneg_left i1 hv.le
  have i4 := mul_le_mul_of_nonneg_left i2 hv.le
  have j1 : 0 < (1 - R.u) * dt := mul_pos hv hdt
  have j2 : (1 - R.u) * m ≤ m := by nlinarith
  have j3 : 0 ≤ R.u * dt := by positivity
  simp only [adapt]
  by_cases h1 : m < dt
  · rw [if_pos h1]
    obtain ⟨D, hD⟩ : ∃ D, D = m ⊓ R.fl (dt / 2) := ⟨_, rfl⟩
    have d1 : 0 < D := by rw [hD]; exact lt_min hm (by linarith)
    have d2 : D ≤ m := by rw [hD]; exact inf_le_left
    have d3 : D ≤ R.fl (dt / 2) := by rw [hD]; exact inf_le_right
    have d4 : (1 - R.u) * (m / 2) ≤ D := by
      rw [hD]
      refine le_min (by linarith) ?_
      have := mul_le_mul_of_nonneg_left h1.le hv.le
      linarith
    have b1 := fl_lower (R := R) (x := D * 2) (by linarith)
    have b2 := fl_upper (R := R) (x := D * 2) (by linarith)
    rw [← hD]
    split_ifs with h2
    · rw [mul_comm 2 D] at h2
      have c1 : 0 < (1 - R.u) * D := mul_pos hv d1
      refine ⟨by linarith, h2.le, ?_, ?_⟩
      · have : R.fl (D * 2) < m := h2
        nlinarith
      · have c2 := mul_le_mul_of_nonneg_left d4 hv.le
        have c3 : 0 ≤ (1 - R.u) * m * (1 / 2 - R.u) := mul_nonneg (mul_pos hv hm).le (by linarith)
        nlinarith
    · exact ⟨d1, d2, by linarith, by linarith⟩
  · rw [if_neg h1]
    split_ifs with h2
    · rw [mul_comm dt 2]
      exact ⟨by linarith, h2.le, by linarith, by linarith⟩
    · refine ⟨hdt, not_lt.mp h1, by linarith, ?_⟩
      have h3 : m ≤ (1 + R.u) * (2 * dt) := (not_lt.mp h2).trans a4
      have h4 := mul_le_mul_of_nonneg_left h3 hv.le
      have h5 : (1 - R.u) * ((1 + R.u) * (2 * dt)) ≤ 2 * dt := by nlinarith [mul_nonneg h0 h0, mul_nonneg (mul_nonneg h0 h0) hdt.le]
      linarith

theorem smallest_ge {l : ℝ} (ls : List (List ℝ)) (h0 : l ≤ 10 ^ 24) (h : ∀ q ∈ ls, ∀ x ∈ q, l ≤ x) : l ≤ smallest ls := by
  rcases smallest_mem ls with h1 | ⟨q, hq, h1⟩
  · rw [h1]; exact h0
  · exact h q hq _ h1

/-- With no timed output. -/
theorem setAdaptive_none (o : Outputs) (ho : ∀ k, ¬ o.interval k > 0) (ls : List (List ℝ)) (c : Clock) :
    setAdaptive R o ls c = { c with totaltimeNext := R.fl (c.totaltime + adapt R (smallest ls) c.dt)
                                    dt := R.fl (R.fl (c.totaltime + adapt R (smallest ls) c.dt) - c.totaltime) } := by
  simp only [setAdaptive, block, if_neg (ho _)]

/-- With one timed output only its block acts. -/
theorem setAdaptive_one (o : Outputs) (k : Kind) (ho : ∀ k', o.interval k' > 0 ↔ k' = k) (ls : List (List ℝ)) (c : Clock) :
    setAdaptive R o ls c =
      let c1 : Clock := align R o k (catchUp R o k { c with dt := adapt R (smallest ls) c.dt, totaltimeNext := R.fl (c.totaltime + adapt R (smallest ls) c.dt) })
      { c1 with dt := R.fl (c1.totaltimeNext - c1.totaltime) } := by
  have hn : ∀ k', k' ≠ k → ∀ c, block R o k' c = c := fun k' h c => by rw [block, if_neg (fun h2 => h ((ho k').mp h2))]
  have hy : ∀ c, block R o k c = align R o k (catchUp R o k c) := fun c => by rw [block, if_pos ((ho k).mpr rfl)]
  simp only [setAdaptive]
  cases k
  · rw [hn .h5 (by decide), hn .scalar (by decide), hy]
  · rw [hn .h5 (by decide), hy, hn .screen (by decide)]
  · rw [hy, hn .scalar (by decide), hn .screen (by decide)]

end FleCSPH.RoundedClock

import Verif.Lemmas.RoundingNear
import Verif.Lemmas.Morton
/-! Rounded coordinates of cells. -/
namespace FleCSPH.Rounded
open FleCSPH.Spec FleCSPH.Key FleCSPH.Morton

variable {R : Rounding}

theorem near_cell (hu : R.u < 1) (m : Nat) {lo hi p : ℝ} (h : lo < hi) (h1 : lo ≤ p) : 0 < R.fl (hi - lo) ∧ 0 ≤ R.fl (R.fl (R.fl (p - lo) / R.fl (hi - lo)) * 2 ^ m) ∧
    Near R 4 ((p - lo) / (hi - lo) * 2 ^ m) (R.fl (R.fl (R.fl (p - lo) / R.fl (hi - lo)) * 2 ^ m)) := by
  have hs : 0 < hi - lo := by linarith
  have hv : 0 < 1 - R.u := by linarith
  have hp0 : 0 ≤ p - lo := by linarith
  have s0 : 0 < R.fl (hi - lo) := lt_of_lt_of_le (mul_pos hv hs) (fl_ge hs.le)
  have s1 := near_fl (R := R) hs.le hu.le
  have t0 := fl_nonneg (R := R) hu.le hp0
  have t1 := near_fl (R := R) hp0 hu.le
  have s2 : Near R 1 (1 / (hi - lo)) (1 / R.fl (hi - lo)) := by
    obtain ⟨a, b⟩ := s1
    rw [pow_one] at a b
    constructor
    · rw [pow_one, mul_one_div, div_le_div_iff₀ hs s0]; linarith
    · rw [pow_one, mul_one_div, div_le_div_iff₀ s0 hs]; linarith
  have q := t1.mul hu.le hp0 t0 (one_div_nonneg.mpr hs.le) (one_div_nonneg.mpr s0.le) s2
  rw [mul_one_div, mul_one_div] at q
  have q0 : 0 ≤ R.fl (p - lo) / R.fl (hi - lo) := div_nonneg t0 s0.le
  have r := q.trans hu.le (near_fl (R := R) q0 hu.le)
  have r0 := fl_nonneg (R := R) hu.le q0
  have hm : (0 : ℝ) ≤ 2 ^ m := by positivity
  have w := r.mul hu.le (div_nonneg hp0 hs.le) r0 hm hm (Near.rfl' (x := 2 ^ m))
  have w0 := mul_nonneg r0 hm
  exact ⟨s0, fl_nonneg hu.le w0, w.trans hu.le (near_fl w0 hu.le)⟩

theorem cellCoord_spec {bits dim : Nat} (hb : 0 < bits) (hdim : 0 < dim) (hu : R.u ≤ 1 / 16) {lo hi p : ℝ} (h : lo < hi) (h1 : lo ≤ p) (h2 : p ≤ hi) :
    ∃ c, cellCoord R bits dim lo hi p = some c ∧ c < 2 ^ maxDepth bits dim ∧
      (8 * R.u * 2 ^ maxDepth bits dim ≤ 1 → lo + (hi - lo) * (c - 1) / 2 ^ maxDepth bits dim ≤ p ∧ p ≤ lo + (hi - lo) * (c + 2) / 2 ^ maxDepth bits dim) := by
  have hmb : maxDepth bits dim < bits := by
    have h3 := maxDepth_mul_lt (dim := dim) hb
    have := Nat.le_mul_of_pos_right (maxDepth bits dim) hdim
    omega
  have hu0 := R.nonneg
  obtain ⟨m, hm⟩ : ∃ m, m = maxDepth bits dim := ⟨_, rfl⟩
  obtain ⟨s0, x0, xn⟩ := near_cell (R := R) (by linarith) m h h1
  obtain ⟨x, hx⟩ : ∃ x, x = R.fl (R.fl (R.fl (p - lo) / R.fl (hi - lo)) * 2 ^ m) := ⟨_, rfl⟩
  obtain ⟨t, ht⟩ : ∃ t, t = (p - lo) / (hi - lo) * 2 ^ m := ⟨_, rfl⟩
  rw [← hx] at x0 xn
  rw [← ht] at xn
  have hs : 0 < hi - lo := by linarith
  have hP : (0 : ℝ) < 2 ^ m := by positivity
  have t0 : 0 ≤ t := by rw [ht]; exact mul_nonneg (div_nonneg (by linarith) hs.le) hP.le
  have t1 : t ≤ 2 ^ m := by
    rw [ht]
    exact mul_le_of_le_one_left hP.le ((div_le_one hs).mpr (by linarith))
  have hv : 1 - 4 * R.u ≤ (1 - R.u) ^ 4 := by have := bernoulli (R := R) (by linarith) 4; exact_mod_cast this
  obtain ⟨n1, n2⟩ := xn
  have n3 := (mul_le_mul_of_nonneg_right hv t0).trans n1
  have n4 := (mul_le_mul_of_nonneg_right hv x0).trans n2
  have xlt : x < 2 * 2 ^ m := by nlinarith
  have hbits : (2 : ℝ) * 2 ^ m ≤ 2 ^ bits := by
    rw [← pow_succ']
    exact pow_le_pow_right₀ (by norm_num) (by omega)
  have hpn : 0 < 2 ^ m := Nat.two_pow_pos m
  refine ⟨Nat.min (2 ^ m - 1) ⌊x⌋₊, ?_, ?_, ?_⟩
  · rw [cellCoord]
    simp only []
    rw [if_neg s0.ne', ← hm, ← hx, if_neg (by push Not; exact ⟨by linarith, by linarith⟩)]
  · rw [← hm]
    exact lt_of_le_of_lt (Nat.min_le_left _ _) (by omega)
  · rw [← hm]
    intro h8
    have a1 : R.u * t ≤ R.u * 2 ^ m := mul_le_mul_of_nonneg_left t1 hu0
    have a2 : R.u * x ≤ R.u * (2 * 2 ^ m) := mul_le_mul_of_nonneg_left xlt.le hu0
    have hpx : p = lo + (hi - lo) * t / 2 ^ m := by rw [ht]; field_simp; ring
    have c1 : ((Nat.min (2 ^ m - 1) ⌊x⌋₊ : Nat) : ℝ) ≤ x := le_trans (by exact_mod_cast Nat.min_le_right _ _) (Nat.floor_le x0)
    have c2 : t ≤ (Nat.min (2 ^ m - 1) ⌊x⌋₊ : Nat) + 2 := by
      rcases le_total (2 ^ m - 1) ⌊x⌋₊ with g | g
      · have e : Nat.min (2 ^ m - 1) ⌊x⌋₊ = 2 ^ m - 1 := Nat.min_eq_left g
        rw [e, Nat.cast_sub hpn]
        push_cast
        linarith
      · have e : Nat.min (2 ^ m - 1) ⌊x⌋₊ = ⌊x⌋₊ := Nat.min_eq_right g
        rw [e]
        have := Nat.lt_floor_add_one x
        linarith
    constructor
    · rw [hpx]
      have : (hi - lo) * ((Nat.min (2 ^ m - 1) ⌊x⌋₊ : Nat) - 1 : ℝ) / 2 ^ m ≤ (hi - lo) * t / 2 ^ m := by
        rw [div_le_div_iff_of_pos_right hP]; exact mul_le_mul_of_nonneg_left (by linarith) hs.le
      linarith
    · rw [hpx]
      have : (hi - lo) * t / 2 ^ m ≤ (hi - lo) * ((Nat.min (2 ^ m - 1) ⌊x⌋₊ : Nat) + 2 : ℝ) / 2 ^ m := by
        rw [div_le_div_iff_of_pos_right hP]; exact mul_le_mul_of_nonneg_left c2 hs.le
      linarith

/-- Rounding which keeps the order gives coordinates which keep the order. -/
theorem cellCoord_mono {bits dim : Nat} (hu : R.u < 1) (hmono : Monotone R.fl) {lo hi p q : ℝ} (h : lo < hi) (hpq : p ≤ q) {a b : Nat}
    (ha : cellCoord R bits dim lo hi p = some a) (hb : cellCoord R bits dim lo hi q = some b) : a ≤ b := by
  obtain ⟨s0, -, -⟩ := near_cell (R := R) hu 0 h le_rfl
  unfold cellCoord at ha hb
  dsimp only at ha hb
  rw [if_neg s0.ne'] at ha hb
  split_ifs at ha hb with h1 h2
  rw [← Option.some.inj ha, ← Option.some.inj hb]
  have hP : (0 : ℝ) ≤ 2 ^ maxDepth bits dim := by positivity
  refine min_le_min le_rfl (Nat.floor_le_floor (hmono (mul_le_mul_of_nonneg_right (hmono (div_le_div_of_nonneg_right (hmono (by linarith)) s0.le)) hP)))

end FleCSPH.Rounded

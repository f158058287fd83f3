import Verif.Props.C84
/-! Values of the rounding of `double`. -/
namespace FleCSPH.Rounded

theorem roundEven_of_near {x : ℝ} {m : ℤ} (h : |x - m| < 1 / 2) : roundEven x = m := by
  obtain ⟨h1, h2⟩ := abs_lt.mp h
  have hf : Int.fract x ≠ 1 / 2 := by
    intro hf
    have e := Int.floor_add_fract x
    rw [hf] at e
    have h3 : (⌊x⌋ : ℝ) < m := by linarith
    have h4 : (m : ℝ) < ⌊x⌋ + 1 := by linarith
    have h3' : ⌊x⌋ < m := by exact_mod_cast h3
    have h4' : m < ⌊x⌋ + 1 := by exact_mod_cast h4
    omega
  rw [roundEven, if_neg hf, round_eq, Int.floor_eq_iff]
  constructor <;> linarith

theorem roundEven_int (m : ℤ) : roundEven (m : ℝ) = m := roundEven_of_near (by simp)

theorem fl_eq (p : Nat) (x : ℝ) : (tiesToEven p).fl x = roundEven (x * 2 ^ ((p : ℤ) - 1 - Int.log 2 |x|)) * 2 ^ (Int.log 2 |x| + 1 - p) := rfl

/-- A number of at most `p` binary digits is not changed. -/
theorem fl_exact {p : Nat} (hp : 1 ≤ p) {m : ℤ} (hm : |m| ≤ 2 ^ p) (e : ℤ) : (tiesToEven p).fl (m * 2 ^ e) = m * 2 ^ e := by
  rcases eq_or_ne m 0 with rfl | h0
  · rw [Int.cast_zero, zero_mul]; exact fl_zero
  obtain ⟨x, hx⟩ : ∃ x : ℝ, x = m * 2 ^ e := ⟨_, rfl⟩
  obtain ⟨L, hL⟩ : ∃ L, L = Int.log 2 |x| := ⟨_, rfl⟩
  have hpow : (0 : ℝ) < 2 ^ e := by positivity
  have hx0 : 0 < |x| := by rw [hx, abs_mul]; positivity
  have hxle : |x| ≤ 2 ^ ((p : ℤ) + e) := by
    rw [hx, abs_mul, abs_of_pos hpow, zpow_add₀ (by norm_num)]
    refine mul_le_mul_of_nonneg_right ?_ hpow.le
    have : ((|m| : ℤ) : ℝ) ≤ ((2 ^ p : ℤ) : ℝ) := by exact_mod_cast hm
    rw [Int.cast_abs] at this
    rw [zpow_natCast]
    exact_mod_cast this
  have hLle : (2 : ℝ) ^ L ≤ |x| := by
    rw [hL]
    have := Int.zpow_log_le_self (b := 2) (by norm_num) hx0
    exact_mod_cast this
  have hLpe : L ≤ (p : ℤ) + e := (zpow_le_zpow_iff_right₀ (by norm_num : (1 : ℝ) < 2)).mp (hLle.trans hxle)
  have hint : ∃ k : ℤ, x * 2 ^ ((p : ℤ) - 1 - L) = k := by
    rcases lt_or_eq_of_le hLpe with hlt | heq
    · obtain ⟨n, hn⟩ := Int.eq_ofNat_of_zero_le (show 0 ≤ e + ((p : ℤ) - 1 - L) by omega)
      refine ⟨m * 2 ^ n, ?_⟩
      rw [hx, mul_assoc, ← zpow_add₀ (by norm_num), hn]
      push_cast
      rw [zpow_natCast]
    · have hxe : |x| = 2 ^ ((p : ℤ) + e) := le_antisymm hxle (heq ▸ hLle)
      obtain ⟨n, hn⟩ := Int.eq_ofNat_of_zero_le (show 0 ≤ (p : ℤ) - 1 by omega)
      have e1 : (2 : ℝ) ^ ((p : ℤ) + e) * 2 ^ ((p : ℤ) - 1 - L) = 2 ^ n := by
        rw [← zpow_add₀ (by norm_num), heq, show (p : ℤ) + e + ((p : ℤ) - 1 - (p + e)) = (p : ℤ) - 1 by ring, hn, zpow_natCast]
      rcases abs_choice x with h | h
      · refine ⟨2 ^ n, ?_⟩
        rw [← h, hxe, e1]; push_cast; rfl
      · refine ⟨-2 ^ n, ?_⟩
        rw [show x = -|x| by rw [h]; ring, hxe, neg_mul, e1]; push_cast; rfl
  obtain ⟨k, hk⟩ := hint
  rw [← hx, fl_eq, ← hL, hk, roundEven_int, ← hk, mul_assoc, ← zpow_add₀ (by norm_num), show (p : ℤ) - 1 - L + (L + 1 - p) = 0 by ring, zpow_zero, mul_one]

/-- A number closer to a double `v` than half of its last digit is rounded to it. -/
theorem fl_absorb {x v : ℝ} {L m : ℤ} (hx : (2 : ℝ) ^ L ≤ |x|) (hx' : |x| < 2 ^ (L + 1)) {p : Nat} (hv : v = m * 2 ^ (L + 1 - p)) (h : |x - v| < 1 / 2 * 2 ^ (L + 1 - (p : ℤ))) : (tiesToEven p).fl x = v := by
  have hx0 : 0 < |x| := lt_of_lt_of_le (by positivity) hx
  have hlog : Int.log 2 |x| = L := by
    refine le_antisymm ?_ ?_
    · have h1 := Int.zpow_log_le_self (b := 2) (by norm_num) hx0
      have h2 : (2 : ℝ) ^ Int.log 2 |x| < 2 ^ (L + 1) := lt_of_le_of_lt (by exact_mod_cast h1) hx'
      have := (zpow_lt_zpow_iff_right₀ (by norm_num : (1 : ℝ) < 2)).mp h2
      omega
    · have h1 := Int.lt_zpow_succ_log_self (b := 2) (by norm_num) |x|
      have h2 : (2 : ℝ) ^ L < 2 ^ (Int.log 2 |x| + 1) := lt_of_le_of_lt hx (by exact_mod_cast h1)
      have := (zpow_lt_zpow_iff_right₀ (by norm_num : (1 : ℝ) < 2)).mp h2
      omega
  have h2 : (2 : ℝ) ^ ((p : ℤ) - 1 - L) * 2 ^ (L + 1 - (p : ℤ)) = 1 := by
    rw [← zpow_add₀ (by norm_num)]
    rw [show (p : ℤ) - 1 - L + (L + 1 - p) = 0 by ring, zpow_zero]
  have h3 : (0 : ℝ) < 2 ^ (L + 1 - (p : ℤ)) := by positivity
  rw [fl_eq, hlog, roundEven_of_near (m := m), hv]
  rw [show x * 2 ^ ((p : ℤ) - 1 - L) - m = (x - v) * 2 ^ ((p : ℤ) - 1 - L) by rw [hv, sub_mul, mul_assoc, mul_comm ((2 : ℝ) ^ (L + 1 - (p : ℤ))), h2, mul_one]]
  rw [abs_mul, abs_of_pos (by positivity : (0 : ℝ) < 2 ^ ((p : ℤ) - 1 - L))]
  calc |x - v| * 2 ^ ((p : ℤ) - 1 - L) < 1 / 2 * 2 ^ (L + 1 - (p : ℤ)) * 2 ^ ((p : ℤ) - 1 - L) := mul_lt_mul_of_pos_right h (by positivity)
    _ = 1 / 2 := by rw [mul_assoc, mul_comm ((2 : ℝ) ^ (L + 1 - (p : ℤ))), h2, mul_one]

/-- `1` plus something tiny, in `double`. -/
theorem double_one {y : ℝ} (h0 : 0 ≤ y) (h1 : y ≤ 2 ^ (-54 : ℤ)) : (tiesToEven 53).fl (1 + y) = 1 := by
  have h2 : y ≤ 1 / 2 := h1.trans (by norm_num)
  refine fl_absorb (L := 0) (m := 2 ^ 52) (p := 53) ?_ ?_ (by norm_num) ?_
  · rw [abs_of_pos (by linarith)]; norm_num; linarith
  · rw [abs_of_pos (by linarith)]; norm_num; linarith
  · rw [show 1 + y - 1 = y by ring, abs_of_nonneg h0]
    refine lt_of_le_of_lt h1 ?_
    norm_num

/-- Something tiny minus `3`, in `double`. -/
theorem double_three {y : ℝ} (h0 : 0 ≤ y) (h1 : y ≤ 2 ^ (-54 : ℤ)) : (tiesToEven 53).fl (y - 3) = -3 := by
  have h2 : y ≤ 1 / 2 := h1.trans (by norm_num)
  refine fl_absorb (L := 1) (m := -3 * 2 ^ 51) (p := 53) ?_ ?_ (by norm_num) ?_
  · rw [abs_of_neg (by linarith)]; norm_num; linarith
  · rw [abs_of_neg (by linarith)]; norm_num; linarith
  · rw [show y - 3 - -3 = y by ring, abs_of_nonneg h0]
    refine lt_of_le_of_lt h1 ?_
    norm_num

/-- `γ - 1` is exact for a `double` between 1 and 2. -/
theorem double_sub_one {m : ℤ} (h1 : 2 ^ 52 ≤ m) (h2 : m ≤ 2 ^ 53) : (tiesToEven 53).fl (m / 2 ^ 52 - 1) = m / 2 ^ 52 - 1 := by
  have h := fl_exact (p := 53) (by norm_num) (m := m - 2 ^ 52) (by rw [abs_of_nonneg (by omega)]; omega) (-52)
  have e : ((m - 2 ^ 52 : ℤ) : ℝ) * 2 ^ (-52 : ℤ) = m / 2 ^ 52 - 1 := by
    push_cast
    rw [zpow_neg, sub_mul, div_eq_mul_inv]
    norm_num
  rwa [e] at h

end FleCSPH.Rounded

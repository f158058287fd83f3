import Verif.Lemmas.RoundedDensity
import Mathlib.Analysis.Calculus.MeanValue
/-! Rounding errors of the density. -/
namespace FleCSPH.Rounded
open FleCSPH.Geometry FleCSPH.Cofm FleCSPH.Kernels

variable {R : Rounding}

private theorem dprof_bound {κ : Kernel} (hκ : Poly κ) (i : Fin 3) {x : ℝ} (hx : 0 ≤ x) : scale κ * |dprof κ i x| ≤ 25 * prof κ i 0 := by
  have t1 : tp 1 0 = 1 := by rw [tp_of_lt one_pos, sub_zero]
  have t2 : tp 2 0 = 2 := by rw [tp_of_lt two_pos, sub_zero]
  have t3 : tp 3 0 = 3 := by rw [tp_of_lt three_pos, sub_zero]
  rw [abs_of_nonpos (dprof_nonpos hκ i hx)]
  rcases le_or_gt (scale κ) x with hs | hs
  · rw [dprof_zero hκ i hs, neg_zero, mul_zero]
    exact mul_nonneg (by norm_num) (prof_pos hκ i le_rfl (by cases hκ <;> norm_num [scale])).le
  cases hκ with
  | cubicSpline =>
    simp only [scale, prof, dprof, t1, t2] at hs ⊢
    have h1 := pow_le_pow_left₀ (tp_nonneg 2 x) (max_le (by linarith) (by norm_num) : tp 2 x ≤ 2) 2
    have h2 := pow_nonneg (tp_nonneg 1 x) 2
    norm_num at h1 ⊢
    linarith
  | quinticSpline =>
    simp only [scale, prof, dprof, t1, t2, t3] at hs ⊢
    have h1 := pow_le_pow_left₀ (tp_nonneg 3 x) (max_le (by linarith) (by norm_num) : tp 3 x ≤ 3) 4
    have h2 := pow_nonneg (tp_nonneg 2 x) 4
    have h3 := pow_le_pow_left₀ (tp_nonneg 1 x) (max_le (by linarith) (by norm_num) : tp 1 x ≤ 1) 4
    norm_num at h1 h3 ⊢
    linarith
  | wendlandC2 =>
    simp only [scale] at hs
    have hxt : x * (1 - x) ≤ 1 / 4 := by nlinarith [sq_nonneg (x - 1 / 2)]
    have h0 : 0 ≤ 1 - x := by linarith
    have hp : ∀ n : ℕ, 0 ≤ (1 - x) ^ n ∧ (1 - x) ^ n ≤ 1 := fun n => ⟨pow_nonneg h0 n, pow_le_one₀ h0 (by linarith)⟩
    have m : ∀ n : ℕ, x * (1 - x) ^ (n + 1) ≤ 1 / 4 := fun n => by
      calc x * (1 - x) ^ (n + 1) = x * (1 - x) * (1 - x) ^ n := by ring
        _ ≤ 1 / 4 * 1 := mul_le_mul hxt (hp n).2 (hp n).1 (by norm_num)
        _ = 1 / 4 := mul_one _
    rcases fin3 i with rfl | rfl | rfl <;> simp only [scale, prof, dprof, t1, tp_of_lt hs]
    · have := m 1; norm_num at this ⊢; linarith
    · have := m 2; norm_num at this ⊢; linarith
    · have := m 2; norm_num at this ⊢; linarith
  | wendlandC4 =>
    simp only [scale] at hs
    have hxt : x * (1 - x) ≤ 1 / 4 := by nlinarith [sq_nonneg (x - 1 / 2)]
    have h0 : 0 ≤ 1 - x := by linarith
    have hp : ∀ n : ℕ, 0 ≤ (1 - x) ^ n ∧ (1 - x) ^ n ≤ 1 := fun n => ⟨pow_nonneg h0 n, pow_le_one₀ h0 (by linarith)⟩
    have m : ∀ (n : ℕ) (q : ℝ), 0 ≤ q → (1 - x) * q ≤ 2 → x * (1 - x) ^ (n + 2) * q ≤ 1 / 2 := fun n q hq h => by
      calc x * (1 - x) ^ (n + 2) * q = x * (1 - x) * ((1 - x) ^ n * ((1 - x) * q)) := by ring
        _ ≤ 1 / 4 * (1 * 2) := mul_le_mul hxt (mul_le_mul (hp n).2 h (mul_nonneg h0 hq) zero_le_one) (mul_nonneg (hp n).1 (mul_nonneg h0 hq)) (by norm_num)
        _ = 1 / 2 := by norm_num
    rcases fin3 i with rfl | rfl | rfl <;> simp only [scale, prof, dprof, t1, tp_of_lt hs]
    · have := m 2 (1 + 4 * x) (by linarith) (by nlinarith [sq_nonneg (x - 3 / 8)]); norm_num at this ⊢; linarith
    · have := m 3 (1 + 5 * x) (by linarith) (by nlinarith [sq_nonneg (x - 2 / 5)]); norm_num at this ⊢; linarith
    · have := m 3 (1 + 5 * x) (by linarith) (by nlinarith [sq_nonneg (x - 2 / 5)]); norm_num at this ⊢; linarith
  | wendlandC6 =>
    simp only [scale] at hs
    have hxt : x * (1 - x) ≤ 1 / 4 := by nlinarith [sq_nonneg (x - 1 / 2)]
    have h0 : 0 ≤ 1 - x := by linarith
    have hp : ∀ n : ℕ, 0 ≤ (1 - x) ^ n ∧ (1 - x) ^ n ≤ 1 := fun n => ⟨pow_nonneg h0 n, pow_le_one₀ h0 (by linarith)⟩
    have m : ∀ (n : ℕ) (q c : ℝ), 0 ≤ q → (1 - x) * q ≤ c → x * (1 - x) ^ (n + 2) * q ≤ c / 4 := fun n q c hq h => by
      calc x * (1 - x) ^ (n + 2) * q = x * (1 - x) * ((1 - x) ^ n * ((1 - x) * q)) := by ring
        _ ≤ 1 / 4 * (1 * c) := mul_le_mul hxt (mul_le_mul (hp n).2 h (mul_nonneg h0 hq) zero_le_one) (mul_nonneg (hp n).1 (mul_nonneg h0 hq)) (by norm_num)
        _ = c / 4 := by ring
    have q0 : 0 ≤ 3 + x * (18 + x * 35) := by positivity
    have q1 : 0 ≤ 1 + x * (7 + x * 16) := by positivity
    have b0 : (1 - x) * (3 + x * (18 + x * 35)) ≤ 12 := by nlinarith [sq_nonneg (x - 7 / 10), mul_nonneg hx (sq_nonneg (x - 7 / 10))]
    have b1 : (1 - x) * (1 + x * (7 + x * 16)) ≤ 9 / 2 := by nlinarith [sq_nonneg (x - 13 / 20), mul_nonneg hx (sq_nonneg (x - 13 / 20))]
    rcases fin3 i with rfl | rfl | rfl <;> simp only [scale, prof, dprof, t1, tp_of_lt hs]
    · have := m 4 _ 12 q0 b0; norm_num at this ⊢; linarith
    · have := m 5 _ (9 / 2) q1 b1; norm_num at this ⊢; linarith
    · have := m 5 _ (9 / 2) q1 b1; norm_num at this ⊢; linarith

private theorem sigma_nonneg {κ : Kernel} (hκ : Poly κ) (i : Fin 3) : 0 < Kernels.sigma κ i := by
  have := Real.pi_pos
  cases hκ <;> fin_cases i <;> simp [Kernels.sigma, cubicSplineSigma, quinticSplineSigma, wendlandC2Sigma, wendlandC4Sigma, wendlandC6Sigma] <;> positivity

theorem kernel_zero_pos {κ : Kernel} (hκ : Poly κ) (i : Fin 3) {h : ℝ} (hh : 0 < h) : 0 < Kernels.kernel κ i 0 h := by
  rw [kernel_eq hκ, mul_zero, zero_div]
  exact mul_pos (div_pos (sigma_nonneg hκ i) (pow_pos hh _)) (prof_pos hκ i le_rfl (by cases hκ <;> norm_num [scale]))

theorem kernel_nonneg {κ : Kernel} (hκ : Poly κ) (i : Fin 3) {r h : ℝ} (hr : 0 ≤ r) (hh : 0 < h) : 0 ≤ Kernels.kernel κ i r h := by
  rw [kernel_eq hκ]
  have hs : 0 ≤ scale κ * r / h := div_nonneg (mul_nonneg (by cases hκ <;> norm_num [scale]) hr) hh.le
  refine mul_nonneg (div_pos (sigma_nonneg hκ i) (pow_pos hh _)).le ?_
  rcases le_or_gt (scale κ) (scale κ * r / h) with h1 | h1
  · rw [prof_zero hκ i h1]
  · exact (prof_pos hκ i hs h1).le

theorem kernel_le {κ : Kernel} (hκ : Poly κ) (i : Fin 3) {r h : ℝ} (hr : 0 ≤ r) (hh : 0 < h) : Kernels.kernel κ i r h ≤ Kernels.kernel κ i 0 h := by
  rw [kernel_eq hκ, kernel_eq hκ, mul_zero, zero_div]
  have hs : 0 ≤ scale κ * r / h := div_nonneg (mul_nonneg (by cases hκ <;> norm_num [scale]) hr) hh.le
  exact mul_le_mul_of_nonneg_left (antitoneOn_prof hκ i (Set.mem_Ici.mpr le_rfl) hs hs) (div_pos (sigma_nonneg hκ i) (pow_pos hh _)).le

theorem kernel_beyond {κ : Kernel} (hκ : Poly κ) (i : Fin 3) {r h : ℝ} (hh : 0 < h) (hr : h ≤ r) : Kernels.kernel κ i r h = 0 := by
  rw [kernel_eq hκ, prof_zero hκ i, mul_zero]
  rw [le_div_iff₀ hh]
  exact mul_le_mul_of_nonneg_left hr (by cases hκ <;> norm_num [scale])

/-- The kernels are Lipschitz. -/
theorem kernel_lipschitz {κ : Kernel} (hκ : Poly κ) (i : Fin 3) {r s h : ℝ} (hr : 0 ≤ r) (hs : 0 ≤ s) (hh : 0 < h) :
    |Kernels.kernel κ i r h - Kernels.kernel κ i s h| ≤ 25 * (|r - s| / h) * Kernels.kernel κ i 0 h := by
  have hc : 0 < scale κ := by cases hκ <;> norm_num [scale]
  have hf := (div_pos (sigma_nonneg hκ i) (pow_pos hh (i + 1 : ℕ)))
  have key : |prof κ i (scale κ * r / h) - prof κ i (scale κ * s / h)| ≤ 25 * prof κ i 0 / scale κ * |scale κ * r / h - scale κ * s / h| := by
    have := Convex.norm_image_sub_le_of_norm_hasDerivWithin_le (f := prof κ i) (f' := dprof κ i) (s := Set.Ici 0) (C := 25 * prof κ i 0 / scale κ)
      (fun x _ => (hasDerivAt_prof hκ i x).hasDerivWithinAt) (fun x hx => by rw [Real.norm_eq_abs, le_div_iff₀ hc, mul_comm]; exact dprof_bound hκ i hx) (convex_Ici 0)
      (x := scale κ * s / h) (y := scale κ * r / h) (Set.mem_Ici.mpr (by positivity)) (Set.mem_Ici.mpr (by positivity))
    simpa only [Real.norm_eq_abs] using this
  rw [kernel_eq hκ, kernel_eq hκ, kernel_eq hκ, mul_zero, zero_div, ← mul_sub, abs_mul, abs_of_pos hf]
  refine (mul_le_mul_of_nonneg_left key hf.le).trans (le_of_eq ?_)
  have e : |scale κ * r / h - scale κ * s / h| = scale κ * (|r - s| / h) := by
    rw [← sub_div, ← mul_sub, abs_div, abs_mul, abs_of_pos hc, abs_of_pos hh, mul_div_assoc]
  rw [e]
  field_simp

/-- The kernels hardly change when the distance has a small relative error. -/
theorem kernel_near {κ : Kernel} (hκ : Poly κ) (i : Fin 3) {r s h : ℝ} (hh : 0 < h) (hu : 22 * R.u ≤ 1) (hn : NN R 11 r s) :
    |Kernels.kernel κ i s h - Kernels.kernel κ i r h| ≤ 550 * R.u * Kernels.kernel κ i 0 h := by
  have hu0 := R.nonneg
  have hu1 : R.u ≤ 1 := by linarith
  have h0 := (kernel_zero_pos hκ i hh).le
  have step : ∀ {r s : ℝ}, NN R 11 r s → r ≤ h → |Kernels.kernel κ i s h - Kernels.kernel κ i r h| ≤ 550 * R.u * Kernels.kernel κ i 0 h := by
    intro r s hn hr
    have h1 := kernel_lipschitz hκ i hn.2.1 hn.1 hh
    have h2 := hn.err (by push_cast; linarith) hu1
    push_cast at h2
    refine h1.trans (mul_le_mul_of_nonneg_right ?_ h0)
    have h3 : |s - r| / h ≤ 22 * R.u := by
      rw [div_le_iff₀ hh]
      refine h2.trans ?_
      have := mul_le_mul_of_nonneg_left hr hu0
      linarith
    linarith
  rcases le_or_gt r h with hr | hr
  · exact step hn hr
  · rcases le_or_gt s h with hs | hs
    · rw [abs_sub_comm]
      exact step ⟨hn.2.1, hn.1, hn.2.2.2, hn.2.2.1⟩ hs
    · rw [kernel_beyond hκ i hh hr.le, kernel_beyond hκ i hh hs.le, sub_self, abs_zero]
      positivity

/-- The distance at which the exact kernel is near the rounded one. -/
noncomputable def moved (R : Rounding) (κ : Kernel) {i : Fin 3} (a b : Body (i + 1)) : ℝ :=
  argument R κ (distance R a.pos b.pos) (R.fl (1 / 2 * R.fl (a.h + b.h))) * ((a.h + b.h) / 2) / scale κ

section
variable {κ : Kernel} (hκ : Poly κ) (hu : (2 * (loss κ + 1)) * R.u ≤ 1) {i : Fin 3} {a b : Body (i + 1)} (ha : 0 < a.h) (hb : 0 < b.h) (hm : 0 ≤ b.mass)
include hκ hu ha hb

omit hκ ha hb in
theorem small_of_loss : 82 * R.u ≤ 1 := by
  have h40 : (40 : ℝ) ≤ loss κ := by
    have : 40 ≤ loss κ := by cases κ <;> simp [loss]
    exact_mod_cast this
  have := R.nonneg
  nlinarith

omit hκ in
private theorem nn_mean : NN R 2 ((a.h + b.h) / 2) (R.fl (1 / 2 * R.fl (a.h + b.h))) := by
  have hu1 : R.u ≤ 1 := by have := small_of_loss hu; have := R.nonneg; linarith
  have := ((NN.refl (R := R) (show (0 : ℝ) ≤ 1 / 2 by norm_num)).mul hu1 (nn_fl hu1 (add_pos ha hb).le)).fl hu1
  rw [show (a.h + b.h) / 2 = 1 / 2 * (a.h + b.h) by ring]
  exact this.mono hu1 (by omega)

theorem nn_moved : NN R 11 (Geometry.distance a.pos b.pos) (moved R κ a b) := by
  have hu1 : R.u < 1 := by have := small_of_loss hu; have := R.nonneg; linarith
  have hh : 0 < (a.h + b.h) / 2 := by linarith
  have hc : 0 < scale κ := by cases hκ <;> norm_num [scale]
  have hd := near_distance hu1.le (by omega : (i : ℕ) + 1 ≤ 3) a.pos b.pos (R := R)
  have h1 := nn_argument hu1 hκ hh ⟨distance_nonneg _ _, hd⟩ (nn_mean hu ha hb)
  have h2 := h1.mul hu1.le (NN.refl (R := R) hh.le) |>.div hu1 hc (NN.refl hc.le)
  convert h2 using 1
  · field_simp
  · rfl

include hm in
theorem nn_term : NN R (loss κ + 1) (b.mass * Kernels.kernel κ i (moved R κ a b) ((a.h + b.h) / 2)) (term R κ a b) := by
  have hu1 : R.u < 1 := by have := small_of_loss hu; have := R.nonneg; linarith
  have hh : 0 < (a.h + b.h) / 2 := by linarith
  have hc : 0 < scale κ := by cases hκ <;> norm_num [scale]
  have hd := near_distance hu1.le (by omega : (i : ℕ) + 1 ≤ 3) a.pos b.pos (R := R)
  have hl : loss κ * R.u ≤ 1 := by have := R.nonneg; have : 0 ≤ loss κ * R.u := by positivity
                                   linarith
  have h1 := nn_kernel hu1 hκ hl hh ⟨distance_nonneg _ _, hd⟩ (nn_mean hu ha hb) i
  have h2 := ((NN.refl (R := R) hm).mul hu1.le h1).fl hu1.le
  rw [Nat.zero_add] at h2
  unfold term
  convert h2 using 2
  rw [kernel_eq hκ, moved]
  congr 2
  field_simp

end

/-- The exact sum. -/
noncomputable def exact (κ : Kernel) {i : Fin 3} (a : Body (i + 1)) (nbs : List (Body (i + 1))) : ℝ := (nbs.map fun b => b.mass * Kernels.kernel κ i (Geometry.distance a.pos b.pos) ((a.h + b.h) / 2)).sum

/-- The same sum with all neighbours at the place of `a`. -/
noncomputable def central (κ : Kernel) {i : Fin 3} (a : Body (i + 1)) (nbs : List (Body (i + 1))) : ℝ := (nbs.map fun b => b.mass * Kernels.kernel κ i 0 ((a.h + b.h) / 2)).sum

/-- The rounded sum. -/
noncomputable def rounded (R : Rounding) (κ : Kernel) {i : Fin 3} (a : Body (i + 1)) (nbs : List (Body (i + 1))) : ℝ := (nbs.map (term R κ a)).foldl (fun s y => R.fl (s + y)) 0

section
variable {κ : Kernel} (hκ : Poly κ) {i : Fin 3} {a : Body (i + 1)} {nbs : List (Body (i + 1))} (hu : (2 * (loss κ + 1 + nbs.length)) * R.u ≤ 1) (ha : 0 < a.h) (hb : ∀ b ∈ nbs, 0 < b.h ∧ 0 ≤ b.mass)
include hκ hu ha hb

omit hκ ha hb in
theorem loss_of_length : (2 * (loss κ + 1)) * R.u ≤ 1 := by
  have h1 := R.nonneg
  have h2 : 0 ≤ (nbs.length : ℝ) * R.u := by positivity
  nlinarith

theorem nn_rounded : NN R (loss κ + 1 + nbs.length) (nbs.map fun b => b.mass * Kernels.kernel κ i (moved R κ a b) ((a.h + b.h) / 2)).sum (rounded R κ a nbs) := by
  have hl := loss_of_length hu
  have hu1 : R.u ≤ 1 := by have := small_of_loss hl; have := R.nonneg; linarith
  have h := near_fold hu1 (a := loss κ + 1) (nbs.map fun b => (b.mass * Kernels.kernel κ i (moved R κ a b) ((a.h + b.h) / 2), term R κ a b)) le_rfl le_rfl
    (Near.rfl'.mono hu1 (Nat.zero_le _) le_rfl le_rfl) (by
      intro z hz
      obtain ⟨b, hbm, rfl⟩ := List.mem_map.mp hz
      exact nn_term hκ hl ha (hb b hbm).1 (hb b hbm).2)
  rw [List.map_map, List.map_map, List.length_map, zero_add] at h
  refine ⟨List.sum_nonneg ?_, h.1, h.2⟩
  intro x hx
  obtain ⟨b, hbm, rfl⟩ := List.mem_map.mp hx
  exact (nn_term hκ hl ha (hb b hbm).1 (hb b hbm).2).1

theorem rounded_error : |rounded R κ a nbs - exact κ a nbs| ≤ (2 * nbs.length + 2 * loss κ + 552) * R.u * central κ a nbs := by
  have hl := loss_of_length hu
  have hu82 := small_of_loss hl
  have hu0 := R.nonneg
  have hu1 : R.u ≤ 1 := by linarith
  have h1 := nn_rounded hκ hu ha hb
  have h2 := h1.err (by push_cast; exact hu) hu1
  obtain ⟨M, hM⟩ : ∃ M, M = (nbs.map fun b => b.mass * Kernels.kernel κ i (moved R κ a b) ((a.h + b.h) / 2)).sum := ⟨_, rfl⟩
  rw [← hM] at h1 h2
  have h3 : M ≤ central κ a nbs := by
    rw [hM]
    refine List.sum_le_sum fun b hbm => mul_le_mul_of_nonneg_left ?_ (hb b hbm).2
    exact kernel_le hκ i (nn_moved hκ hl ha (hb b hbm).1).2.1 (by linarith [(hb b hbm).1])
  have h4 : |M - exact κ a nbs| ≤ 550 * R.u * central κ a nbs := by
    have gen : ∀ l : List (Body (i + 1)), (∀ b ∈ l, 0 < b.h ∧ 0 ≤ b.mass) →
        |(l.map fun b => b.mass * Kernels.kernel κ i (moved R κ a b) ((a.h + b.h) / 2)).sum - exact κ a l| ≤ 550 * R.u * central κ a l := by
      intro l
      induction l with
      | nil => intro _; simp [exact, central]
      | cons b l ih =>
        intro hl'
        have ihl := ih fun b hb => hl' b (List.mem_cons_of_mem _ hb)
        obtain ⟨b1, b2⟩ := hl' b List.mem_cons_self
        have hk := kernel_near hκ i (h := (a.h + b.h) / 2) (by linarith) (by linarith) (nn_moved hκ hl ha b1)
        unfold exact central at ihl ⊢
        rw [List.map_cons, List.map_cons, List.map_cons, List.sum_cons, List.sum_cons, List.sum_cons, mul_add]
        have hk' : |b.mass * Kernels.kernel κ i (moved R κ a b) ((a.h + b.h) / 2) - b.mass * Kernels.kernel κ i (Geometry.distance a.pos b.pos) ((a.h + b.h) / 2)| ≤
            550 * R.u * (b.mass * Kernels.kernel κ i 0 ((a.h + b.h) / 2)) := by
          rw [← mul_sub, abs_mul, abs_of_nonneg b2]
          have := mul_le_mul_of_nonneg_left hk b2
          linarith
        rw [add_sub_add_comm]
        exact (abs_add_le _ _).trans (add_le_add hk' ihl)
    rw [hM]
    exact gen nbs hb
  have h5 : rounded R κ a nbs - exact κ a nbs = (rounded R κ a nbs - M) + (M - exact κ a nbs) := by ring
  rw [h5]
  refine (abs_add_le _ _).trans ?_
  push_cast at h2
  have h6 : 0 ≤ 2 * ((loss κ : ℝ) + 1 + nbs.length) * R.u := by positivity
  have h7 := mul_le_mul_of_nonneg_left h3 h6
  linarith

/-- The density is positive as soon as the particle is in its own list. -/
theorem rounded_pos (hmem : a ∈ nbs) (hma : 0 < a.mass) : 0 < rounded R κ a nbs := by
  have hl := loss_of_length hu
  have hu82 := small_of_loss hl
  have hu0 := R.nonneg
  have h1 := nn_rounded hκ hu ha hb
  have h2 : 0 < (nbs.map fun b => b.mass * Kernels.kernel κ i (moved R κ a b) ((a.h + b.h) / 2)).sum := by
    have hz : moved R κ a a = 0 := by
      have hn := nn_moved hκ hl ha ha (a := a) (b := a)
      rw [distance_self] at hn
      have hv : 0 < (1 - R.u) ^ 11 := pow_pos (by linarith) 11
      have := hn.2.2.2
      have h0 := hn.2.1
      nlinarith
    have hpos : 0 < a.mass * Kernels.kernel κ i (moved R κ a a) ((a.h + a.h) / 2) := by
      rw [hz]; exact mul_pos hma (kernel_zero_pos hκ i (by linarith))
    refine lt_of_lt_of_le hpos ?_
    refine List.single_le_sum ?_ _ (List.mem_map_of_mem (f := fun b : Body (i + 1) => b.mass * Kernels.kernel κ i (moved R κ a b) ((a.h + b.h) / 2)) hmem)
    intro x hx
    obtain ⟨b, hbm, rfl⟩ := List.mem_map.mp hx
    exact (nn_term hκ hl ha (hb b hbm).1 (hb b hbm).2).1
  exact lt_of_lt_of_le (mul_pos (pow_pos (by linarith) _) h2) h1.2.2.1

end

end FleCSPH.Rounded

import Verif.Spec.ForceSizes
import Verif.Lemmas.RoundedReach
import Verif.Lemmas.RoundedDensity
/-! Lemmas for C85: rounding errors of the gradients of the kernels. -/
namespace FleCSPH.Rounded
open FleCSPH.Spec FleCSPH.Geometry FleCSPH.Kernels FleCSPH.Sph

variable {R : Rounding}

/-! ### From relative errors to signed errors -/

theorem Err.of_le {k : Nat} {x y m : ℝ} (hx : |x| ≤ m) (h : |y - x| ≤ k * R.u * m) : Err R k x y m := by
  refine ⟨hx, h.trans (mul_le_mul_of_nonneg_right ?_ ((abs_nonneg x).trans hx))⟩
  have := one_add_mul_le_pow (show -2 ≤ R.u by linarith [R.nonneg]) k
  linarith

theorem NN.to_err {k : Nat} (hk : 2 * k * R.u ≤ 1) (hu : R.u ≤ 1) {x y : ℝ} (h : NN R k x y) : Err R (2 * k) x y x :=
  Err.of_le (by rw [abs_of_nonneg h.1]) (by push_cast; exact h.err hk hu)

theorem Err.pow {a : Nat} {x y m : ℝ} (h : Err R a x y m) (n : Nat) : Err R (n * a) (x ^ n) (y ^ n) (m ^ n) := by
  induction n with
  | zero => rw [pow_zero, pow_zero, pow_zero, Nat.zero_mul]; simpa using Err.refl (R := R) 1
  | succ n ih => rw [pow_succ, pow_succ, pow_succ, Nat.succ_mul]; exact ih.mul h

/-! ### The profile -/

/-- `f` is bounded by `F` and Lipschitz with constant `A` on `[0, w]`. -/
structure Lip (w : ℝ) (f : ℝ → ℝ) (F A : ℝ) : Prop where
  bound : ∀ x, 0 ≤ x → x ≤ w → |f x| ≤ F
  lip : ∀ x y, 0 ≤ x → x ≤ w → 0 ≤ y → y ≤ w → |f x - f y| ≤ A * |x - y|

namespace Lip
variable {w F A F' A' : ℝ} {f g : ℝ → ℝ}

theorem const (c : ℝ) : Lip w (fun _ => c) |c| 0 := ⟨fun _ _ _ => le_rfl, fun _ _ _ _ _ _ => by simp⟩

theorem id : Lip w (fun x => x) w 1 := ⟨fun x h0 h1 => by rwa [abs_of_nonneg h0], fun x y _ _ _ _ => by rw [one_mul]⟩

theorem tp {a : ℝ} (ha : 0 ≤ a) : Lip w (tp a) a 1 := by
  constructor
  · intro x h0 _
    rw [abs_of_nonneg (tp_nonneg a x)]
    exact max_le (by linarith) ha
  · intro x y _ _ _ _
    rw [one_mul]
    refine (abs_max_sub_max_le_abs _ _ _).trans (le_of_eq ?_)
    rw [show a - x - (a - y) = -(x - y) by ring, abs_neg]

theorem add (hf : Lip w f F A) (hg : Lip w g F' A') : Lip w (fun x => f x + g x) (F + F') (A + A') := by
  constructor
  · intro x h0 h1
    exact (abs_add_le _ _).trans (add_le_add (hf.bound x h0 h1) (hg.bound x h0 h1))
  · intro x y h0 h1 h2 h3
    rw [add_sub_add_comm, add_mul]
    exact (abs_add_le _ _).trans (add_le_add (hf.lip x y h0 h1 h2 h3) (hg.lip x y h0 h1 h2 h3))

theorem mul (hf : Lip w f F A) (hg : Lip w g F' A') : Lip w (fun x => f x * g x) (F * F') (A * F' + F * A') := by
  constructor
  · intro x h0 h1
    rw [abs_mul]
    exact mul_le_mul (hf.bound x h0 h1) (hg.bound x h0 h1) (abs_nonneg _) ((abs_nonneg _).trans (hf.bound x h0 h1))
  · intro x y h0 h1 h2 h3
    have e : f x * g x - f y * g y = (f x - f y) * g x + f y * (g x - g y) := by ring
    rw [e]
    refine (abs_add_le _ _).trans ?_
    rw [abs_mul, abs_mul]
    have k1 := mul_le_mul (hf.lip x y h0 h1 h2 h3) (hg.bound x h0 h1) (abs_nonneg _) ((abs_nonneg _).trans (hf.lip x y h0 h1 h2 h3))
    have k2 := mul_le_mul (hf.bound y h2 h3) (hg.lip x y h0 h1 h2 h3) (abs_nonneg _) ((abs_nonneg _).trans (hf.bound y h2 h3))
    linarith

theorem weaken {B C : ℝ} (hf : Lip w f F A) (hB : F ≤ B) (hC : A ≤ C) : Lip w f B C :=
  ⟨fun x h0 h1 => (hf.bound x h0 h1).trans hB, fun x y h0 h1 h2 h3 => (hf.lip x y h0 h1 h2 h3).trans (mul_le_mul_of_nonneg_right hC (abs_nonneg _))⟩

theorem congr (hf : Lip w f F A) (h : ∀ x, 0 ≤ x → x ≤ w → g x = f x) : Lip w g F A :=
  ⟨fun x h0 h1 => by rw [h x h0 h1]; exact hf.bound x h0 h1, fun x y h0 h1 h2 h3 => by rw [h x h0 h1, h y h2 h3]; exact hf.lip x y h0 h1 h2 h3⟩

end Lip

/-- A Lipschitz constant of the derivative of the profile. -/
def bend : Kernel → Nat
  | .cubicSpline => 9
  | .quinticSpline => 1800
  | .wendlandC2 => 80
  | .wendlandC4 => 766
  | _ => 5082

theorem lip_dprof {κ : Kernel} (hκ : Poly κ) (i : Fin 3) : Lip (scale κ) (dprof κ i) (steep κ) (bend κ) := by
  have t1 : Lip 1 (tp 1) 1 1 := Lip.tp zero_le_one
  have x1 : Lip 1 (fun x : ℝ => x) 1 1 := Lip.id
  have t2 := t1.mul t1
  have t3 := t2.mul t1
  have t4 := t2.mul t2
  cases hκ with
  | cubicSpline =>
    have a := Lip.tp (w := 2) (zero_le_two (α := ℝ))
    have b := Lip.tp (w := 2) (zero_le_one (α := ℝ))
    refine (((Lip.const (-3 / 4)).mul (a.mul a)).add ((Lip.const 3).mul (b.mul b)) |>.congr fun x _ _ => ?_).weaken ?_ ?_
    · simp only [dprof]; ring
    all_goals norm_num [steep, bend, abs_of_pos]
  | quinticSpline =>
    have a := Lip.tp (w := 3) (zero_le_three (α := ℝ))
    have b := Lip.tp (w := 3) (zero_le_two (α := ℝ))
    have c := Lip.tp (w := 3) (zero_le_one (α := ℝ))
    refine ((((Lip.const (-5)).mul ((a.mul a).mul (a.mul a))).add ((Lip.const 30).mul ((b.mul b).mul (b.mul b)))).add ((Lip.const (-75)).mul ((c.mul c).mul (c.mul c))) |>.congr fun x _ _ => ?_).weaken ?_ ?_
    · simp only [dprof]; ring
    all_goals norm_num [steep, bend]
  | wendlandC2 =>
    rcases fin3 i with rfl | rfl | rfl
    · refine (((Lip.const (-12)).mul x1).mul t2 |>.congr fun x _ _ => ?_).weaken ?_ ?_
      · simp only [dprof]; ring
      all_goals norm_num [steep, bend]
    all_goals
      refine (((Lip.const (-20)).mul x1).mul t3 |>.congr fun x _ _ => ?_).weaken ?_ ?_
      · simp only [dprof]; ring
      all_goals norm_num [steep, bend]
  | wendlandC4 =>
    rcases fin3 i with rfl | rfl | rfl
    · refine ((((Lip.const (-14)).mul x1).mul t4).mul ((Lip.const 1).add ((Lip.const 4).mul x1)) |>.congr fun x _ _ => ?_).weaken ?_ ?_
      · simp only [dprof]; ring
      all_goals norm_num [steep, bend]
    all_goals
      refine ((((Lip.const (-56 / 3)).mul x1).mul (t4.mul t1)).mul ((Lip.const 1).add ((Lip.const 5).mul x1)) |>.congr fun x _ _ => ?_).weaken ?_ ?_
      · simp only [dprof]; ring
      all_goals norm_num [steep, bend, abs_of_pos]
  | wendlandC6 =>
    rcases fin3 i with rfl | rfl | rfl
    · refine ((((Lip.const (-6)).mul x1).mul (t3.mul t3)).mul ((Lip.const 3).add (x1.mul ((Lip.const 18).add (x1.mul (Lip.const 35))))) |>.congr fun x _ _ => ?_).weaken ?_ ?_
      · simp only [dprof]; ring
      all_goals norm_num [steep, bend]
    all_goals
      refine ((((Lip.const (-22)).mul x1).mul (t4.mul t3)).mul ((Lip.const 1).add (x1.mul ((Lip.const 7).add (x1.mul (Lip.const 16))))) |>.congr fun x _ _ => ?_).weaken ?_ ?_
      · simp only [dprof]; ring
      all_goals norm_num [steep, bend]

/-! ### The computed gradients -/

theorem err_along {d : Nat} {p : Point d} {j : Fin d} {a b c : Nat} {x s g e σ w r S M E : ℝ} (hp : Err R 1 x (p j) |x|) (hs : Err R a s σ S) (hg : Err R b g w M) (he : Err R c e (R.fl (r + tinyR R))⁻¹ E) :
    Err R (a + b + c + 4) (x * s * g * e) (along R p σ w r j) (|x| * S * M * E) := by
  rw [along, div_eq_mul_inv]
  exact (((((hp.mul hs).fl).mul hg).fl.mul he).fl).mono (by omega)

theorem err_scaled {d : Nat} {p : Point d} {j : Fin d} {a b c : Nat} {x s g e σ w r S M E : ℝ} {C : Prop} [Decidable C] (hC : C) (hp : Err R 1 x (p j) |x|) (hs : Err R a s σ S) (hg : Err R b g w M)
    (he : Err R c e (R.fl (r + tinyR R))⁻¹ E) : Err R (a + b + c + 4) (x * s * g * e) (scaled R p C σ w r j) (|x| * S * M * E) := by
  rw [scaled, div_eq_mul_inv, fac, if_pos hC, one_mul]
  exact (((hp.mul ((((hs.mul hg).fl).mul he).fl)).fl).mono (by omega)).congr (by ring) (by ring)

private theorem tiny_pos : 0 < tiny := by unfold tiny; positivity

/-- The denominator. -/
theorem err_denominator (hu : 100 * R.u ≤ 1) {r r' : ℝ} (hr : NN R 7 r r') : Err R 16 (r + tiny)⁻¹ (R.fl (r' + tinyR R))⁻¹ (r + tiny)⁻¹ := by
  have h0 := R.nonneg
  have hu1 : R.u < 1 := by linarith
  have h1 : NN R 8 (r + tiny) (R.fl (r' + tinyR R)) := (hr.add hu1.le le_rfl (by omega) (nn_fl hu1.le tiny_pos.le)).fl hu1.le
  exact (h1.inv hu1 (add_pos_of_nonneg_of_pos hr.1 tiny_pos)).2.to_err (by push_cast; linarith) hu1.le

theorem nn_volume1 (hu : R.u ≤ 1) {h h' : ℝ} (hn : NN R 2 h h') (i : Fin 3) : NN R 11 (h ^ (i + 2 : ℕ)) (volume1 R i h') := by
  fin_cases i <;> simp [volume1]
  · rw [pow_two]; exact ((hn.mul hu hn).fl hu).mono hu (by omega)
  · rw [pow_succ, pow_two]; exact (((((hn.mul hu hn).fl hu)).mul hu hn).fl hu).mono hu (by omega)
  · rw [pow_succ, pow_succ, pow_two]; exact (((((((hn.mul hu hn).fl hu)).mul hu hn).fl hu).mul hu hn).fl hu).mono hu (by omega)

section
variable (hu : 100 * R.u ≤ 1) {κ : Kernel} (hκ : Poly κ) {h h' : ℝ} (hh : 0 < h) (hn : NN R 2 h h') (i : Fin 3)
include hu hκ hh hn

/-- The constant in front, with a power. -/
theorem err_front_pow {c : ℝ} (hc : 0 ≤ c) : Err R 30 (c * Kernels.sigma κ i / h ^ (i + 2 : ℕ)) (R.fl (R.fl (c * sigma R κ i) / R.fl (h' ^ (i + 2 : ℕ)))) (c * Kernels.sigma κ i / h ^ (i + 2 : ℕ)) := by
  have h0 := R.nonneg
  have hu1 : R.u < 1 := by linarith
  have h1 := (hn.pow hu1.le (i + 2)).fl hu1.le
  have h2 := ((((NN.refl hc).mul hu1.le (nn_sigma hu1 hκ i)).fl hu1.le).div hu1 (pow_pos hh _) h1).fl hu1.le
  exact ((h2.mono hu1.le (show _ ≤ 15 by omega)).to_err (by push_cast; linarith) hu1.le)

/-- The constant in front, with products. -/
theorem err_front_volume {c : ℝ} (hc : 0 ≤ c) : Err R 34 (c * Kernels.sigma κ i / h ^ (i + 2 : ℕ)) (R.fl (R.fl (c * sigma R κ i) / volume1 R i h')) (c * Kernels.sigma κ i / h ^ (i + 2 : ℕ)) := by
  have h0 := R.nonneg
  have hu1 : R.u < 1 := by linarith
  have h2 := ((((NN.refl hc).mul hu1.le (nn_sigma hu1 hκ i)).fl hu1.le).div hu1 (pow_pos hh _) (nn_volume1 hu1.le hn i)).fl hu1.le
  exact ((h2.mono hu1.le (show _ ≤ 17 by omega)).to_err (by push_cast; linarith) hu1.le)

theorem err_front_volume' : Err R 34 (Kernels.sigma κ i / h ^ (i + 2 : ℕ)) (R.fl (sigma R κ i / volume1 R i h')) (Kernels.sigma κ i / h ^ (i + 2 : ℕ)) := by
  have h0 := R.nonneg
  have hu1 : R.u < 1 := by linarith
  have h2 := ((nn_sigma hu1 hκ i).div hu1 (pow_pos hh _) (nn_volume1 hu1.le hn i)).fl hu1.le
  exact ((h2.mono hu1.le (show _ ≤ 17 by omega)).to_err (by push_cast; linarith) hu1.le)
end

/-- The computed gradient is near the exact one with the derivative of the profile at the computed argument. -/
theorem err_gradient_at (hu : 100 * R.u ≤ 1) {κ : Kernel} (hκ : Poly κ) {h h' r : ℝ} (hh : 0 < h) (hn : NN R 2 h h') (i : Fin 3) {p : Point (i + 1)} {x : Point (i + 1)} (hr : NN R 7 r (magnitude R p))
    (hp : ∀ j, Err R 1 (x j) (p j) |x j|) (j : Fin (i + 1)) :
    Err R 80 (x j * (scale κ * Kernels.sigma κ i / h ^ (i + 2 : ℕ) * dprof κ i (argument R κ (magnitude R p) h')) * (r + tiny)⁻¹) (gradient R κ i p h' j)
      (|x j| * (scale κ * Kernels.sigma κ i / h ^ (i + 2 : ℕ) * steep κ) * (r + tiny)⁻¹) := by
  have h0 := R.nonneg
  have hu1 : R.u < 1 := by linarith
  have hx0 := (nn_argument hu1 hκ hh hr hn).2.1
  have he := err_denominator hu hr
  have hE : 0 ≤ (r + tiny)⁻¹ := inv_nonneg.mpr (add_nonneg hr.1 tiny_pos.le)
  have hS : 0 ≤ Kernels.sigma κ i / h ^ (i + 2 : ℕ) := div_nonneg (sigma_pos hκ i).le (pow_pos hh _).le
  have hj := hp j
  have zero : 0 ≤ |x j| * (scale κ * Kernels.sigma κ i / h ^ (i + 2 : ℕ) * steep κ) * (r + tiny)⁻¹ :=
    mul_nonneg (mul_nonneg (abs_nonneg _) (mul_nonneg (by rw [mul_div_assoc]; exact mul_nonneg scale_pos.le hS) (Nat.cast_nonneg _))) hE
  have hz : Err R 80 0 0 (|x j| * (scale κ * Kernels.sigma κ i / h ^ (i + 2 : ℕ) * steep κ) * (r + tiny)⁻¹) := (((Err.refl (R := R) 0).mono (Nat.zero_le 80)).size (by rwa [abs_zero]))
  -- the last step of all cases
  have fin : ∀ {s g M y : ℝ} {k : Nat}, k ≤ 80 → Err R k (x j * s * g * (r + tiny)⁻¹) y (|x j| * s * M * (r + tiny)⁻¹) → s * g = scale κ * Kernels.sigma κ i / h ^ (i + 2 : ℕ) * dprof κ i (argument R κ (magnitude R p) h') →
      s * M ≤ scale κ * Kernels.sigma κ i / h ^ (i + 2 : ℕ) * steep κ →
      Err R 80 (x j * (scale κ * Kernels.sigma κ i / h ^ (i + 2 : ℕ) * dprof κ i (argument R κ (magnitude R p) h')) * (r + tiny)⁻¹) y
        (|x j| * (scale κ * Kernels.sigma κ i / h ^ (i + 2 : ℕ) * steep κ) * (r + tiny)⁻¹) := by
    intro s g M y k hk h1 h2 h3
    rw [← h2]
    refine ((h1.mono hk).congr (by ring) rfl).size ?_
    rw [mul_assoc |x j|]
    exact mul_le_mul_of_nonneg_right (mul_le_mul_of_nonneg_left h3 (abs_nonneg _)) hE
  cases hκ with
  | cubicSpline =>
    have ha : argument R .cubicSpline (magnitude R p) h' = R.fl (R.fl (2 * magnitude R p) / h') := rfl
    simp only [gradient, cubicGradient]
    rw [ha] at hx0 fin ⊢
    obtain ⟨y, hy⟩ : ∃ y, y = R.fl (R.fl (2 * magnitude R p) / h') := ⟨_, rfl⟩
    rw [← hy] at hx0 fin ⊢
    have hf := err_front_pow hu .cubicSpline hh hn i (zero_le_two (α := ℝ))
    by_cases h2 : y < 2
    · rw [if_pos h2]
      by_cases h1 : y < 1
      · rw [if_pos h1]
        have hX : Err R 0 y y 1 := (Err.refl (R := R) y).size (by rw [abs_of_nonneg hx0]; exact h1.le)
        have hg := ((((Err.refl (R := R) (-3)).mul hX).fl).add (c := 2) (by omega) le_rfl ((((Err.refl (R := R) (9 / 4)).mul hX).fl.mul hX).fl)).fl
        refine fin (by omega) (err_along hj hf hg he) ?_ ?_
        · simp only [dprof, scale]; rw [tp_of_lt h1, tp_of_lt h2]; ring
        · refine mul_le_mul_of_nonneg_left ?_ (by rw [mul_div_assoc]; exact mul_nonneg (by norm_num) hS)
          norm_num [steep, abs_of_pos]
      · rw [if_neg h1]
        have hT : Err R 1 (2 - y) (R.fl (2 - y)) 1 := (Err.refl (R := R) (2 - y)).fl.size (by rw [abs_of_pos (by linarith)]; linarith [not_lt.mp h1])
        have hg := ((((Err.refl (R := R) (-3 / 4)).mul hT).fl).mul hT).fl
        refine fin (by omega) (err_along hj hf hg he) ?_ ?_
        · simp only [dprof, scale]; rw [tp_of_ge (not_lt.mp h1), tp_of_lt h2]; ring
        · refine mul_le_mul_of_nonneg_left ?_ (by rw [mul_div_assoc]; exact mul_nonneg (by norm_num) hS)
          norm_num [steep, abs_of_pos]
    · rw [if_neg h2, dprof_zero .cubicSpline i (not_lt.mp h2), mul_zero, mul_zero, zero_mul]
      exact hz
  | quinticSpline =>
    have ha : argument R .quinticSpline (magnitude R p) h' = R.fl (R.fl (3 * magnitude R p) / h') := rfl
    simp only [gradient, quinticGradient]
    rw [ha] at hx0 fin ⊢
    obtain ⟨y, hy⟩ : ∃ y, y = R.fl (R.fl (3 * magnitude R p) / h') := ⟨_, rfl⟩
    rw [← hy] at hx0 fin ⊢
    have hf := err_front_pow hu .quinticSpline hh hn i (zero_le_three (α := ℝ))
    by_cases h3 : y < 3
    · rw [if_pos h3]
      have hT : ∀ {a : ℝ}, 0 ≤ a → y < a → Err R 5 ((a - y) ^ 4) (R.fl (R.fl (a - y) ^ 4)) (a ^ 4) := fun {a} h0 h1 =>
        ((((Err.refl (R := R) (a - y)).fl.size (show _ ≤ a by rw [abs_of_pos (by linarith)]; linarith)).pow 4).fl).mono (by omega)
      have g3 := ((Err.refl (R := R) (-5)).mul (hT zero_le_three h3)).fl
      by_cases h2 : y < 2
      · rw [if_pos h2]
        have g2 := (g3.add (c := 6) (by omega) le_rfl (((Err.refl (R := R) 30).mul (hT zero_le_two h2)).fl.mono (by omega))).fl
        by_cases h1 : y < 1
        · rw [if_pos h1]
          have g1 := (g2.add (c := 7) (by omega) le_rfl (((Err.refl (R := R) (-75)).mul (hT zero_le_one h1)).fl.mono (by omega))).fl
          refine fin (by omega) (err_along hj hf g1 he) ?_ ?_
          · simp only [dprof, scale]; rw [tp_of_lt h1, tp_of_lt h2, tp_of_lt h3]; ring
          · refine mul_le_mul_of_nonneg_left ?_ (by rw [mul_div_assoc]; exact mul_nonneg (by norm_num) hS)
            norm_num [steep]
        · rw [if_neg h1]
          refine fin (by omega) (err_along hj hf g2 he) ?_ ?_
          · simp only [dprof, scale]; rw [tp_of_ge (not_lt.mp h1), tp_of_lt h2, tp_of_lt h3]; ring
          · refine mul_le_mul_of_nonneg_left ?_ (by rw [mul_div_assoc]; exact mul_nonneg (by norm_num) hS)
            norm_num [steep]
      · rw [if_neg h2, if_neg (show ¬y < 1 from fun h => h2 (by linarith))]
        refine fin (by omega) (err_along hj hf g3 he) ?_ ?_
        · simp only [dprof, scale]; rw [tp_of_ge (not_lt.mp h2), tp_of_ge (show (1 : ℝ) ≤ y by linarith [not_lt.mp h2]), tp_of_lt h3]; ring
        · refine mul_le_mul_of_nonneg_left ?_ (by rw [mul_div_assoc]; exact mul_nonneg (by norm_num) hS)
          norm_num [steep]
    · rw [if_neg h3, dprof_zero .quinticSpline i (not_lt.mp h3), mul_zero, mul_zero, zero_mul]
      exact hz
  | wendlandC2 =>
    have ha : argument R .wendlandC2 (magnitude R p) h' = R.fl (magnitude R p / h') := rfl
    simp only [gradient, wendlandC2Gradient]
    rw [ha] at hx0 fin ⊢
    obtain ⟨y, hy⟩ : ∃ y, y = R.fl (magnitude R p / h') := ⟨_, rfl⟩
    rw [← hy] at hx0 fin ⊢
    by_cases h1 : y < 1
    · have hX : Err R 0 y y 1 := (Err.refl (R := R) y).size (by rw [abs_of_nonneg hx0]; exact h1.le)
      have hT : Err R 1 (1 - y) (R.fl (1 - y)) 1 := (Err.refl (R := R) (1 - y)).fl.size (by rw [abs_of_pos (by linarith)]; linarith)
      have hT2 := (hT.mul hT).fl
      rcases fin3 i with rfl | rfl | rfl
      · have hg := ((((Err.refl (R := R) (-12)).mul hX).fl).mul hT2).fl
        refine fin (by omega) (err_scaled h1 hj (err_front_volume' hu .wendlandC2 hh hn 0) hg he) ?_ ?_
        · simp only [dprof, scale]; rw [tp_of_lt h1]; ring
        · rw [show (scale .wendlandC2 : ℝ) = 1 from rfl, one_mul (Kernels.sigma _ _)]
          refine mul_le_mul_of_nonneg_left ?_ hS
          norm_num [steep]
      all_goals
        have hg := ((((((Err.refl (R := R) (-10)).mul hX).fl).mul hT2).fl).mul hT).fl
        refine fin (by omega) (err_scaled h1 hj (err_front_volume hu .wendlandC2 hh hn _ (zero_le_two (α := ℝ))) hg he) ?_ ?_
        · simp only [dprof, scale]; rw [tp_of_lt h1]; ring
        · rw [show (scale .wendlandC2 : ℝ) = 1 from rfl, one_mul (Kernels.sigma _ _), mul_div_assoc, mul_comm 2, mul_assoc]
          refine mul_le_mul_of_nonneg_left ?_ hS
          norm_num [steep]
    · rw [scaled_zero _ _ h1, dprof_zero .wendlandC2 i (not_lt.mp h1), mul_zero, mul_zero, zero_mul]
      exact hz
  | wendlandC4 =>
    have ha : argument R .wendlandC4 (magnitude R p) h' = R.fl (magnitude R p / h') := rfl
    simp only [gradient, wendlandC4Gradient]
    rw [ha] at hx0 fin ⊢
    obtain ⟨y, hy⟩ : ∃ y, y = R.fl (magnitude R p / h') := ⟨_, rfl⟩
    rw [← hy] at hx0 fin ⊢
    by_cases h1 : y < 1
    · have hX : Err R 0 y y 1 := (Err.refl (R := R) y).size (by rw [abs_of_nonneg hx0]; exact h1.le)
      have hT : Err R 1 (1 - y) (R.fl (1 - y)) 1 := (Err.refl (R := R) (1 - y)).fl.size (by rw [abs_of_pos (by linarith)]; linarith)
      have hT2 := (hT.mul hT).fl
      have hf := err_front_volume hu .wendlandC4 hh hn i (show (0 : ℝ) ≤ 14 by norm_num)
      have hP : ∀ c : ℝ, Err R 2 (1 + c * y) (R.fl (1 + R.fl (c * y))) (|1| + |c| * 1) := fun c => ((Err.refl (R := R) 1).add (c := 1) (by omega) le_rfl (((Err.refl c).mul hX).fl)).fl
      rcases fin3 i with rfl | rfl | rfl
      · have hg := ((((hX.neg.mul hT2).fl).mul hT2).fl.mul (hP 4)).fl
        refine fin (by omega) (err_scaled h1 hj hf hg he) ?_ ?_
        · simp only [dprof, scale]; rw [tp_of_lt h1]; ring
        · rw [show (scale .wendlandC4 : ℝ) = 1 from rfl, one_mul (Kernels.sigma _ _), mul_div_assoc, mul_comm 14, mul_assoc]
          refine mul_le_mul_of_nonneg_left ?_ hS
          norm_num [steep]
      all_goals
        have hg := (((((((Err.refl (R := R) (-4 / 3)).fl.mul hX).fl).mul ((hT2.mul hT).fl)).fl.mul hT2).fl).mul (hP 5)).fl
        refine fin (by omega) (err_scaled h1 hj hf hg he) ?_ ?_
        · simp only [dprof, scale]; rw [tp_of_lt h1]; ring
        · rw [show (scale .wendlandC4 : ℝ) = 1 from rfl, one_mul (Kernels.sigma _ _), mul_div_assoc, mul_comm 14, mul_assoc]
          refine mul_le_mul_of_nonneg_left ?_ hS
          norm_num [steep, abs_of_pos]
    · rw [scaled_zero _ _ h1, dprof_zero .wendlandC4 i (not_lt.mp h1), mul_zero, mul_zero, zero_mul]
      exact hz
  | wendlandC6 =>
    have ha : argument R .wendlandC6 (magnitude R p) h' = R.fl (magnitude R p / h') := rfl
    simp only [gradient, wendlandC6Gradient]
    rw [ha] at hx0 fin ⊢
    obtain ⟨y, hy⟩ : ∃ y, y = R.fl (magnitude R p / h') := ⟨_, rfl⟩
    rw [← hy] at hx0 fin ⊢
    by_cases h1 : y < 1
    · have hX : Err R 0 y y 1 := (Err.refl (R := R) y).size (by rw [abs_of_nonneg hx0]; exact h1.le)
      have hT : Err R 1 (1 - y) (R.fl (1 - y)) 1 := (Err.refl (R := R) (1 - y)).fl.size (by rw [abs_of_pos (by linarith)]; linarith)
      have hT2 := (hT.mul hT).fl
      have hT3 := (hT2.mul hT).fl
      have hf := err_front_volume' hu .wendlandC6 hh hn i
      have hP : ∀ a b c : ℝ, Err R 4 (a + y * (b + y * c)) (R.fl (a + R.fl (y * R.fl (b + R.fl (y * c))))) (|a| + 1 * (|b| + 1 * |c|)) := fun a b c =>
        ((Err.refl (R := R) a).add (c := 3) (by omega) le_rfl ((hX.mul (((Err.refl b).add (c := 1) (by omega) le_rfl ((hX.mul (Err.refl c)).fl)).fl)).fl)).fl
      rcases fin3 i with rfl | rfl | rfl
      · have hg := ((((((Err.refl (R := R) (-6)).mul hX).fl.mul hT3).fl).mul hT3).fl.mul (hP 3 18 35)).fl
        refine fin (by omega) (err_scaled h1 hj hf hg he) ?_ ?_
        · simp only [dprof, scale]; rw [tp_of_lt h1]; ring
        · rw [show (scale .wendlandC6 : ℝ) = 1 from rfl, one_mul (Kernels.sigma _ _)]
          refine mul_le_mul_of_nonneg_left ?_ hS
          norm_num [steep]
      all_goals
        have hg := ((((((Err.refl (R := R) (-22)).mul hX).fl.mul ((hT2.mul hT2).fl)).fl).mul hT3).fl.mul (hP 1 7 16)).fl
        refine fin (by omega) (err_scaled h1 hj hf hg he) ?_ ?_
        · simp only [dprof, scale]; rw [tp_of_lt h1]; ring
        · rw [show (scale .wendlandC6 : ℝ) = 1 from rfl, one_mul (Kernels.sigma _ _)]
          refine mul_le_mul_of_nonneg_left ?_ hS
          norm_num [steep]
    · rw [scaled_zero _ _ h1, dprof_zero .wendlandC6 i (not_lt.mp h1), mul_zero, mul_zero, zero_mul]
      exact hz

theorem NN.symm {k : Nat} {x y : ℝ} (h : NN R k x y) : NN R k y x := ⟨h.2.1, h.1, h.2.2.2, h.2.2.1⟩

/-- The derivative of the profile at the computed argument. -/
theorem dprof_near (hu : 100 * R.u ≤ 1) {κ : Kernel} (hκ : Poly κ) (i : Fin 3) {x x' : ℝ} (h : NN R 11 x x') : |dprof κ i x' - dprof κ i x| ≤ bend κ * (22 * R.u * scale κ) := by
  have h0 := R.nonneg
  have hL := lip_dprof hκ i
  have hw : 0 < scale κ := scale_pos
  have e1 := h.err (by push_cast; linarith) (by linarith)
  have e2 := h.symm.err (by push_cast; linarith) (by linarith)
  push_cast at e1 e2
  have key : ∀ {a b : ℝ}, 0 ≤ a → a ≤ scale κ → 0 ≤ b → |b - a| ≤ 22 * R.u * a → |dprof κ i a - dprof κ i b| ≤ bend κ * (22 * R.u * scale κ) := by
    intro a b ha haw hb hab
    have h1 : 22 * R.u * a ≤ 22 * R.u * scale κ := mul_le_mul_of_nonneg_left haw (by linarith)
    rcases le_total b (scale κ) with hbw | hbw
    · refine (hL.lip a b ha haw hb hbw).trans (mul_le_mul_of_nonneg_left ?_ (Nat.cast_nonneg _))
      rw [abs_sub_comm]
      linarith
    · rw [dprof_zero hκ i hbw, ← dprof_zero hκ i le_rfl]
      refine (hL.lip a (scale κ) ha haw hw.le le_rfl).trans (mul_le_mul_of_nonneg_left ?_ (Nat.cast_nonneg _))
      rw [abs_sub_comm, abs_of_nonneg (by linarith)]
      have := le_abs_self (b - a)
      linarith
  rcases le_total x (scale κ) with hx | hx
  · rw [abs_sub_comm]
    exact key h.1 hx h.2.1 (by linarith)
  · rcases le_total x' (scale κ) with hx' | hx'
    · exact key h.2.1 hx' h.1 (by linarith)
    · rw [dprof_zero hκ i hx, dprof_zero hκ i hx', sub_zero, abs_zero]
      positivity

theorem steepest_pos {κ : Kernel} (hκ : Poly κ) (i : Fin 3) {h : ℝ} (hh : 0 < h) : 0 < steepest κ i h := by
  have := sigma_pos hκ i
  have h1 : 0 < steep κ := by cases hκ <;> decide
  have h2 : (0 : ℝ) < steep κ := Nat.cast_pos.mpr h1
  have h3 : 0 < scale κ := scale_pos
  unfold steepest
  positivity

theorem bend_le {κ : Kernel} (hκ : Poly κ) : bend κ * (22 * scale κ) ≤ 212 * (steep κ : ℝ) := by
  cases hκ <;> norm_num [bend, steep, scale]

theorem nn_mean_h (hu : R.u ≤ 1) {x y : ℝ} (hx : 0 ≤ x) (hy : 0 ≤ y) : NN R 2 (1 / 2 * (x + y)) (mean R x y) :=
  (((NN.refl (by norm_num : (0 : ℝ) ≤ 1 / 2)).mul hu ((NN.refl (add_nonneg hx hy)).fl hu)).fl hu).mono hu (by omega)

/-- The error of the computed gradient, relative to the largest slope. -/
theorem err_gradR (hu : 100 * R.u ≤ 1) {i : Fin 3} (p : Params i) (hκ : Poly p.kernel) (a b : Particle (i + 1)) (ha : 0 < a.h) (hb : 0 < b.h) (j : Fin (i + 1)) :
    Err R 372 (gradOf p a b j) (gradR R p a b j) (steepest p.kernel i (1 / 2 * (a.h + b.h))) := by
  have h0 := R.nonneg
  have hu1 : R.u < 1 := by linarith
  have hh : 0 < 1 / 2 * (a.h + b.h) := by linarith
  have hn := nn_mean_h hu1.le ha.le hb.le
  obtain ⟨r0, r1⟩ := near_distance (R := R) hu1.le (show (i : ℕ) + 1 ≤ 3 by omega) a.pos b.pos
  have er : Geometry.distance a.pos b.pos = Kernels.magnitude (a.pos - b.pos) := by
    unfold Geometry.distance Kernels.magnitude; rfl
  have hr : NN R 7 (Kernels.magnitude (a.pos - b.pos)) (magnitude R (diff R a.pos b.pos)) := by
    rw [magnitude_diff, ← er]; exact ⟨Real.sqrt_nonneg _, r0, r1⟩
  have hp : ∀ j, Err R 1 ((a.pos - b.pos) j) (diff R a.pos b.pos j) |(a.pos - b.pos) j| := fun j => (Err.refl _).fl
  have h1 := err_gradient_at hu hκ hh hn i hr hp j
  have h2 := dprof_near hu hκ i (nn_argument hu1 hκ hh hr hn)
  obtain ⟨r, hrd⟩ : ∃ r, r = Kernels.magnitude (a.pos - b.pos) := ⟨_, rfl⟩
  obtain ⟨h, hhd⟩ : ∃ h, h = 1 / 2 * (a.h + b.h) := ⟨_, rfl⟩
  obtain ⟨x', hx'⟩ : ∃ x', x' = argument R p.kernel (magnitude R (diff R a.pos b.pos)) (mean R a.h b.h) := ⟨_, rfl⟩
  obtain ⟨F, hF⟩ : ∃ F, F = scale p.kernel * Kernels.sigma p.kernel i / h ^ (i + 2 : ℕ) := ⟨_, rfl⟩
  have hsig := sigma_pos hκ i
  rw [← hhd] at hh
  have hF0 : 0 < F := by rw [hF]; have := scale_pos (κ := p.kernel); positivity
  have eg : gradOf p a b j = (a.pos - b.pos) j * (F * dprof p.kernel i (scale p.kernel * r / h)) * (r + tiny)⁻¹ := by
    rw [gradOf, kernelGradient, ← hhd, slope_eq hκ i _ hh, ← hrd, hF, div_eq_mul_inv]
    congr 2
    rw [pow_succ h (i + 1)]
    field_simp
  have hT : (0 : ℝ) < r + tiny := by
    rw [hrd]
    exact add_pos_of_nonneg_of_pos (Real.sqrt_nonneg _) tiny_pos
  have hq : |(a.pos - b.pos) j| * (r + tiny)⁻¹ ≤ 1 := by
    rw [← div_eq_mul_inv, div_le_one hT, hrd]
    have : |(a.pos - b.pos) j| ≤ Kernels.magnitude (a.pos - b.pos) := by
      unfold Kernels.magnitude
      apply Real.abs_le_sqrt
      rw [sq]
      exact Finset.single_le_sum (f := fun l => (a.pos - b.pos) l * (a.pos - b.pos) l) (fun l _ => mul_self_nonneg _) (Finset.mem_univ j)
    linarith [tiny_pos]
  have hq0 : 0 ≤ |(a.pos - b.pos) j| * (r + tiny)⁻¹ := by positivity
  rw [← hrd, ← hhd, ← hx'] at h2
  rw [← hrd, ← hhd, ← hx', ← hF] at h1
  have hst : steepest p.kernel i (1 / 2 * (a.h + b.h)) = F * steep p.kernel := by rw [← hhd, hF]; rfl
  have hs0 : (0 : ℝ) ≤ steep p.kernel := Nat.cast_nonneg _
  rw [hst]
  have xr : 0 ≤ scale p.kernel * r / h := by rw [hrd]; have := scale_pos (κ := p.kernel); have := Real.sqrt_nonneg (∑ l, (a.pos - b.pos) l * (a.pos - b.pos) l); unfold Kernels.magnitude; positivity
  have bnd : |dprof p.kernel i (scale p.kernel * r / h)| ≤ steep p.kernel := by
    rcases le_total (scale p.kernel * r / h) (scale p.kernel) with hx | hx
    · exact (lip_dprof hκ i).bound _ xr hx
    · rw [dprof_zero hκ i hx, abs_zero]; exact hs0
  have size : ∀ {c y : ℝ}, |y| ≤ c → |(a.pos - b.pos) j * (F * y) * (r + tiny)⁻¹| ≤ F * c := by
    intro c y hy
    have e : |(a.pos - b.pos) j * (F * y) * (r + tiny)⁻¹| = |(a.pos - b.pos) j| * (r + tiny)⁻¹ * (F * |y|) := by
      rw [abs_mul, abs_mul, abs_mul, abs_of_pos hF0, abs_of_pos (inv_pos.mpr hT)]; ring
    rw [e]
    have h3 : F * |y| ≤ F * c := mul_le_mul_of_nonneg_left hy hF0.le
    have h4 : 0 ≤ F * |y| := by positivity
    calc _ ≤ 1 * (F * |y|) := mul_le_mul_of_nonneg_right hq h4
      _ ≤ _ := by linarith
  refine Err.of_le ?_ ?_
  · rw [eg]; exact size bnd
  · have e1 : |gradR R p a b j - (a.pos - b.pos) j * (F * dprof p.kernel i x') * (r + tiny)⁻¹| ≤ 160 * R.u * (F * steep p.kernel) := by
      refine h1.2.trans ?_
      have g := growth_le (R := R) 80 (by push_cast; linarith)
      push_cast at g
      have h3 : |(a.pos - b.pos) j| * (F * steep p.kernel) * (r + tiny)⁻¹ ≤ F * steep p.kernel := by
        have : 0 ≤ F * (steep p.kernel : ℝ) := by positivity
        calc _ = |(a.pos - b.pos) j| * (r + tiny)⁻¹ * (F * steep p.kernel) := by ring
          _ ≤ 1 * (F * steep p.kernel) := mul_le_mul_of_nonneg_right hq this
          _ = _ := one_mul _
      exact mul_le_mul (by linarith) h3 h1.size_nonneg (by positivity)
    have e2 : |(a.pos - b.pos) j * (F * dprof p.kernel i x') * (r + tiny)⁻¹ - gradOf p a b j| ≤ F * (212 * steep p.kernel * R.u) := by
      rw [eg, ← sub_mul, ← mul_sub, ← mul_sub]
      refine (size h2).trans (mul_le_mul_of_nonneg_left ?_ hF0.le)
      have := mul_le_mul_of_nonneg_right (bend_le hκ) h0
      linarith
    have e3 := abs_add_le (gradR R p a b j - (a.pos - b.pos) j * (F * dprof p.kernel i x') * (r + tiny)⁻¹) ((a.pos - b.pos) j * (F * dprof p.kernel i x') * (r + tiny)⁻¹ - gradOf p a b j)
    rw [sub_add_sub_cancel] at e3
    push_cast
    linarith

end FleCSPH.Rounded

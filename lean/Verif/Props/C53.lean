import Verif.Lemmas.Wvt
/-!
C53: operations on positions of the weighted Voronoi relaxation.
-/
namespace FleCSPH
open Wvt Geometry

namespace Wvt

/-- Distance from the centre of the sphere. -/
noncomputable def radius {d : Nat} (p : Point d) : ℝ := √(∑ j, p j ^ 2)

theorem radius_eq {d : Nat} (p : Point d) : radius p = mag p := by
  unfold radius mag
  simp only [sq]

/-- `t` is the part of `a` tangential to the sphere through `p`: it is orthogonal to `p`, and `a` differs from it by a multiple of `p`. -/
def Tangential {d : Nat} (p a t : Point d) : Prop := ∑ j, t j * p j = 0 ∧ ∃ c, ∀ j, a j = t j + c * p j

end Wvt

/-- Spherical coordinates and back is the identity in the plane, in space except at the origin, and on the line for points which are not negative. The first coordinate is the distance from
the centre. -/
theorem C53_round_trip_partial (i : Fin 3) (p : Point (i + 1)) (h0 : i = 0 → 0 ≤ p 0) (h2 : i = 2 → p ≠ 0) :
    ∃ s, toSpherical i p = some s ∧ s 0 = radius p ∧ toCartesian i s = p := by
  obtain ⟨s, h, hs, h3, h4⟩ := round i p h2
  refine ⟨s, h, by rw [hs, radius_eq], ?_⟩
  by_cases hi : i = 0
  · subst hi
    rw [h4 rfl]
    funext j
    have hj : j = (0 : Fin 1) := Subsingleton.elim (α := Fin 1) _ _
    subst hj
    exact abs_of_nonneg (h0 rfl)
  · exact h3 hi

example : ∃ p : Point 3, p 0 = -1 ∧ p 1 = 2 ∧ p 2 = -3 ∧ p ≠ 0 :=
  ⟨![-1, 2, -3], rfl, rfl, rfl, fun h => by have := congrFun h 1; simp at this⟩

/-- On the line the sign of a negative coordinate is lost. -/
theorem C53_line_violated (p : Point 1) (h : p 0 < 0) : ∃ s, toSpherical 0 p = some s ∧ toCartesian 0 s ≠ p ∧ (toCartesian 0 s) 0 = -p 0 := by
  obtain ⟨s, hs, -, -, h4⟩ := round 0 p (fun h => absurd h (by decide))
  refine ⟨s, hs, ?_, ?_⟩
  · rw [h4 rfl]
    intro hp
    have h1 : |p (0 : Fin 1)| = p (0 : Fin 1) := congrFun hp (0 : Fin 1)
    have := abs_nonneg (p (0 : Fin 1))
    rw [h1] at this
    linarith
  · rw [h4 rfl]
    exact abs_of_neg h

/-- At the origin of space the code divides by zero. -/
theorem C53_origin_violated : toSpherical 2 (0 : Point 3) = none := by
  show toSpherical3 0 = none
  unfold toSpherical3
  rw [if_pos ((mag_eq_zero _).2 rfl)]

/-- `remove_radial_acc` returns a vector without radial part: twice the tangential part. -/
theorem C53_tangential_partial {d : Nat} (p a : Point d) (hp : p ≠ 0) :
    ∃ q, removeRadialAcc p a = some q ∧ ∑ j, q j * p j = 0 ∧ ∃ t, Tangential p a t ∧ q = fun j => 2 * t j := by
  have hm : mag p ≠ 0 := fun h => hp ((mag_eq_zero p).1 h)
  obtain ⟨c, hc⟩ : ∃ c, c = dot (fun j => 1 / mag p * p j) a / mag p := ⟨_, rfl⟩
  have hsum : dot (fun j => 1 / mag p * p j) a = 1 / mag p * ∑ j, p j * a j := by
    unfold dot
    rw [Finset.mul_sum]
    exact Finset.sum_congr rfl fun j _ => by ring
  have ht : ∑ j, (a j - c * p j) * p j = 0 := by
    have e : ∀ j, (a j - c * p j) * p j = p j * a j - c * (p j * p j) := fun j => by ring
    simp only [e]
    rw [Finset.sum_sub_distrib, ← Finset.mul_sum, ← mag_sq, hc, hsum]
    field_simp
    ring
  refine ⟨fun j => 2 * (a j - c * p j), ?_, ?_, fun j => a j - c * p j, ⟨ht, c, fun j => by ring⟩, rfl⟩
  · unfold removeRadialAcc
    rw [if_neg hm]
    show some (fun j => 2 * (a j - dot (fun j => 1 / mag p * p j) a * (1 / mag p * p j))) = _
    congr 1
    funext j
    rw [hc]
    field_simp
  · have e : ∀ j, 2 * (a j - c * p j) * p j = 2 * ((a j - c * p j) * p j) := fun j => by ring
    simp only [e]
    rw [← Finset.mul_sum, ht, mul_zero]

/-- It is not the tangential part, unless that is zero; in particular an acceleration which is already tangential is doubled. -/
theorem C53_tangential_violated {d : Nat} (p a t : Point d) (hp : p ≠ 0) (ht : Tangential p a t) (h : t ≠ 0) :
    ∃ q, removeRadialAcc p a = some q ∧ q ≠ t ∧ q = fun j => 2 * t j := by
  obtain ⟨q, h1, -, t', ht', rfl⟩ := C53_tangential_partial p a hp
  have hm : mag p ≠ 0 := fun h => hp ((mag_eq_zero p).1 h)
  have heq : t' = t := by
    obtain ⟨hz, c, hc⟩ := ht
    obtain ⟨hz', c', hc'⟩ := ht'
    have hd : ∀ j, t' j - t j = (c - c') * p j := fun j => by have := hc j; have := hc' j; linarith
    have hs : (c - c') * (mag p * mag p) = 0 := by
      rw [mag_sq, Finset.mul_sum]
      calc ∑ j, (c - c') * (p j * p j) = ∑ j, (t' j * p j - t j * p j) := Finset.sum_congr rfl fun j _ => by rw [← sub_mul, hd j]; ring
        _ = 0 := by rw [Finset.sum_sub_distrib, hz', hz, sub_zero]
    have hcc : c - c' = 0 := by
      rcases mul_eq_zero.1 hs with h | h
      · exact h
      · exact absurd (mul_self_eq_zero.1 h) hm
    funext j
    have := hd j
    rw [hcc, zero_mul] at this
    linarith
  subst heq
  refine ⟨_, h1, ?_, rfl⟩
  intro hq
  apply h
  funext j
  have h2 : 2 * t' j = t' j := congrFun hq j
  show t' j = 0
  linarith

example : Tangential (![1, 0] : Point 2) ![3, 4] ![0, 4] ∧ (![1, 0] : Point 2) ≠ 0 ∧ (![0, 4] : Point 2) ≠ 0 :=
  ⟨⟨by simp, 3, fun j => by fin_cases j <;> simp⟩, fun h => by have := congrFun h 0; simp at this, fun h => by have := congrFun h 1; simp at this⟩

/-- `wvt_displacement` ends, and leaves the particle in the sphere, if the particle was at most at three times its radius and the acceleration is not enormous. -/
theorem C53_stays_partial (i : Fin 3) (b : ℝ) (hb : 0 < b) (x a : Point (i + 1)) (mu : ℝ) (hmu : 0 ≤ mu) (h : radius x + 1 / 10 ^ 10 * radius a ≤ 3 * b) :
    ∃ q fuel0, (∀ fuel, fuel0 ≤ fuel → displace i b x a mu fuel = some q) ∧ radius q ≤ b := by
  obtain ⟨f0, m, h1, h2, -, h3, -⟩ := shrink_ends b x a mu hmu
  simp only [radius_eq] at h ⊢
  have hr : mag (moved x a m) ≤ 3 * b := by
    rcases h3 with h3 | h3
    · rw [div_le_iff₀ hb] at h3
      linarith
    · have h4 := mag_moved_le x a m h2
      have h5 : m * mag a ≤ 1 / 10 ^ 10 * mag a := mul_le_mul_of_nonneg_right h3 (mag_nonneg a)
      linarith
  by_cases hlt : mag (moved x a m) < b
  · exact ⟨moved x a m, f0, fun fuel hf => (displace_eq i b hb x a mu fuel m (h1 fuel hf)).1 hlt, hlt.le⟩
  · push Not at hlt
    obtain ⟨q, hq, hq2, -⟩ := (displace_eq i b hb x a mu f0 m (h1 f0 le_rfl)).2 hlt
    refine ⟨q, f0, fun fuel hf => ?_, ?_⟩
    · have e : displace i b x a mu fuel = displace i b x a mu f0 := by
        unfold displace
        rw [h1 fuel hf, h1 f0 le_rfl]
      rw [e, hq]
    · rw [hq2, abs_le]
      constructor <;> linarith

example : ∃ (x a : Point 3), radius x + 1 / 10 ^ 10 * radius a ≤ 3 * (1 : ℝ) ∧ radius a ≠ 0 := by
  have h : ∀ z : ℝ, 0 ≤ z → radius (![0, 0, z] : Point 3) = z := fun z hz => by
    unfold radius
    rw [Fin.sum_univ_three]
    show √((0 : ℝ) ^ 2 + (0 : ℝ) ^ 2 + z ^ 2) = z
    rw [zero_pow (by norm_num), zero_add, zero_add, Real.sqrt_sq hz]
  refine ⟨![0, 0, 1], ![0, 0, 2], ?_, ?_⟩
  · rw [h 1 (by norm_num), h 2 (by norm_num)]
    norm_num
  · rw [h 2 (by norm_num)]
    norm_num

/-- A particle further away is not brought back: its distance from the centre is only reduced by twice the radius. -/
theorem C53_far_violated (i : Fin 3) (b : ℝ) (hb : 0 < b) (x : Point (i + 1)) (mu : ℝ) (hmu : 0 ≤ mu) (h : 3 * b < radius x) :
    ∃ q fuel0, (∀ fuel, fuel0 ≤ fuel → displace i b x 0 mu fuel = some q) ∧ radius q = radius x - 2 * b ∧ b < radius q := by
  obtain ⟨f0, m, h1, -⟩ := shrink_ends b x 0 mu hmu
  simp only [radius_eq] at h ⊢
  have hx : ∀ m, moved x 0 m = x := fun m => by
    funext j
    simp [moved]
  obtain ⟨q, hq, hq2, -⟩ := (displace_eq i b hb x 0 mu f0 m (h1 f0 le_rfl)).2 (by rw [hx]; linarith)
  rw [hx] at hq2
  rw [abs_of_neg (by linarith)] at hq2
  refine ⟨q, f0, fun fuel hf => ?_, by linarith, by linarith⟩
  have e : displace i b x 0 mu fuel = displace i b x 0 mu f0 := by
    unfold displace
    rw [h1 fuel hf, h1 f0 le_rfl]
  rw [e, hq]

/-- A particle at the centre with a large acceleration leaves the sphere: the step is not reduced below 1e-10 / 2. -/
theorem C53_fast_violated (i : Fin 3) (b : ℝ) (hb : 0 < b) (a : Point (i + 1)) (mu : ℝ) (hmu : 1 / 10 ^ 10 ≤ mu) (h : 6 * 10 ^ 10 * b ≤ radius a) :
    ∃ q fuel0, (∀ fuel, fuel0 ≤ fuel → displace i b 0 a mu fuel = some q) ∧ b < radius q := by
  obtain ⟨f0, m, h1, h2, -, -, h5⟩ := shrink_ends b 0 a mu (le_trans (by norm_num) hmu)
  simp only [radius_eq] at h ⊢
  have hm : 1 / 10 ^ 10 / 2 < m := by
    rcases h5 with rfl | h5
    · norm_num at hmu ⊢
      linarith
    · exact h5
  have hx : mag (moved 0 a m) = m * mag a := by
    have : moved 0 a m = fun j => m * a j := by
      funext j
      simp [moved]
    rw [this, mag_smul, abs_of_nonneg h2]
  have hbig : 3 * b < m * mag a := by
    have e1 : 1 / 10 ^ 10 / 2 * (6 * 10 ^ 10 * b) = 3 * b := by
      norm_num
      ring
    have hpos : 0 < mag a := lt_of_lt_of_le (by positivity) h
    have e2 : 1 / 10 ^ 10 / 2 * (6 * 10 ^ 10 * b) ≤ 1 / 10 ^ 10 / 2 * mag a := mul_le_mul_of_nonneg_left h (by norm_num)
    have e3 : 1 / 10 ^ 10 / 2 * mag a < m * mag a := mul_lt_mul_of_pos_right hm hpos
    linarith
  obtain ⟨q, hq, hq2, -⟩ := (displace_eq i b hb 0 a mu f0 m (h1 f0 le_rfl)).2 (by rw [hx]; linarith)
  rw [hx, abs_of_neg (by linarith)] at hq2
  refine ⟨q, f0, fun fuel hf => ?_, by rw [hq2]; linarith⟩
  have e : displace i b 0 a mu fuel = displace i b 0 a mu f0 := by
    unfold displace
    rw [h1 fuel hf, h1 f0 le_rfl]
  rw [e, hq]

example : ∃ a : Point 2, 6 * 10 ^ 10 * (1 : ℝ) ≤ radius a := by
  refine ⟨![10 ^ 12, 0], ?_⟩
  unfold radius
  rw [Fin.sum_univ_two]
  show _ ≤ √((10 ^ 12 : ℝ) ^ 2 + (0 : ℝ) ^ 2)
  rw [zero_pow (by norm_num), add_zero, Real.sqrt_sq (by norm_num)]
  norm_num

/-- In the plane and in space a particle which would leave the sphere by less than a hundredth of the radius is reflected along its ray: the new position is as far inside as the old one was
outside. -/
theorem C53_reflected (i : Fin 3) (hi : i ≠ 0) (b : ℝ) (hb : 0 < b) (x a : Point (i + 1)) (mu : ℝ) (fuel : Nat) (h : b ≤ radius (moved x a mu)) (h' : radius (moved x a mu) ≤ 101 / 100 * b) :
    ∃ q c, displace i b x a mu (fuel + 1) = some q ∧ 0 < c ∧ (∀ j, q j = c * (x j + mu * a j)) ∧ b - radius q = radius (moved x a mu) - b := by
  simp only [radius_eq] at h h' ⊢
  have hs : shrink b x a (fuel + 1) mu = some mu := by
    unfold shrink
    rw [if_neg]
    rintro ⟨h1, -⟩
    rw [gt_iff_lt, lt_div_iff₀ hb] at h1
    linarith
  obtain ⟨q, hq, hq2, hq3, -⟩ := (displace_eq i b hb x a mu (fuel + 1) mu hs).2 h
  refine ⟨q, _, hq, ?_, fun j => congrFun (hq3 hi) j, ?_⟩
  · exact div_pos (by linarith) (by linarith)
  · rw [hq2, abs_of_nonneg (by linarith)]
    ring

/-- On the line a particle which leaves the interval on the left comes back on the right. -/
theorem C53_line_reflected_violated (b : ℝ) (hb : 0 < b) (x a : Point 1) (mu : ℝ) (fuel : Nat) (h : x 0 + mu * a 0 ≤ -b) (h' : -(101 / 100 * b) ≤ x 0 + mu * a 0) :
    ∃ q, displace 0 b x a mu (fuel + 1) = some q ∧ q 0 = 2 * b + (x 0 + mu * a 0) ∧ 0 < q 0 := by
  have hr : mag (moved x a mu) = -(x 0 + mu * a 0) := by
    have : mag (moved x a mu) = |x 0 + mu * a 0| := spherical1 (moved x a mu)
    rw [this, abs_of_neg (by linarith)]
  have hs : shrink b x a (fuel + 1) mu = some mu := by
    unfold shrink
    rw [if_neg]
    rintro ⟨h1, -⟩
    rw [gt_iff_lt, lt_div_iff₀ hb, hr] at h1
    linarith
  obtain ⟨q, hq, -, -, hq4⟩ := (displace_eq 0 b hb x a mu (fuel + 1) mu hs).2 (by rw [hr]; linarith)
  refine ⟨q, hq, ?_⟩
  have h5 := congrFun (hq4 rfl) (0 : Fin 1)
  rw [hr] at h5
  constructor
  · rw [show q 0 = _ from h5]
    ring
  · rw [show q 0 = _ from h5]
    linarith

end FleCSPH

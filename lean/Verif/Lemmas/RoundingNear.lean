import Verif.Lemmas.RoundingTree
/-! The rounded tests of the search pass for particles which are near. -/
namespace FleCSPH.Rounded
open FleCSPH.Geometry FleCSPH.Cofm

variable {d D : Nat} {R : Rounding} {X : ℝ} {body : Nat → Body d}

/-- Coordinates and smoothing lengths are bounded by `X`. -/
def Bounded (X : ℝ) (b : Body d) : Prop := 0 ≤ b.h ∧ b.h ≤ X ∧ ∀ i, |b.pos i| ≤ X

theorem corner_lo (hu : R.u ≤ 1) {b : Body d} (hb : Bounded X b) (i : Fin d) : R.fl (b.pos i - R.fl (b.h / 2)) ≤ b.pos i - b.h / 2 + 3 * R.u * X := by
  obtain ⟨h0, h1, h2⟩ := hb
  have a1 := R.err (b.h / 2)
  rw [abs_of_nonneg (by linarith : 0 ≤ b.h / 2)] at a1
  obtain ⟨a2, a3⟩ := abs_le.mp a1
  obtain ⟨-, a4⟩ := abs_le.mp (R.err (b.pos i - R.fl (b.h / 2)))
  have hu0 := R.nonneg
  have a5 : |b.pos i - R.fl (b.h / 2)| ≤ 2 * X := by
    have p := abs_le.mp (h2 i)
    have q : R.u * (b.h / 2) ≤ 1 * (b.h / 2) := mul_le_mul_of_nonneg_right hu (by linarith)
    rw [abs_le]; constructor <;> linarith
  have a6 : R.u * |b.pos i - R.fl (b.h / 2)| ≤ R.u * (2 * X) := mul_le_mul_of_nonneg_left a5 hu0
  have a7 : R.u * (b.h / 2) ≤ R.u * (X / 2) := mul_le_mul_of_nonneg_left (by linarith) hu0
  have a8 : 0 ≤ R.u * X := mul_nonneg hu0 (by linarith)
  linarith

theorem corner_hi (hu : R.u ≤ 1) {b : Body d} (hb : Bounded X b) (i : Fin d) : b.pos i + b.h / 2 - 3 * R.u * X ≤ R.fl (b.pos i + R.fl (b.h / 2)) := by
  obtain ⟨h0, h1, h2⟩ := hb
  have a1 := R.err (b.h / 2)
  rw [abs_of_nonneg (by linarith : 0 ≤ b.h / 2)] at a1
  obtain ⟨a2, a3⟩ := abs_le.mp a1
  obtain ⟨a4, -⟩ := abs_le.mp (R.err (b.pos i + R.fl (b.h / 2)))
  have hu0 := R.nonneg
  have a5 : |b.pos i + R.fl (b.h / 2)| ≤ 2 * X := by
    have p := abs_le.mp (h2 i)
    have q : R.u * (b.h / 2) ≤ 1 * (b.h / 2) := mul_le_mul_of_nonneg_right hu (by linarith)
    rw [abs_le]; constructor <;> linarith
  have a6 : R.u * |b.pos i + R.fl (b.h / 2)| ≤ R.u * (2 * X) := mul_le_mul_of_nonneg_left a5 hu0
  have a7 : R.u * (b.h / 2) ≤ R.u * (X / 2) := mul_le_mul_of_nonneg_left (by linarith) hu0
  have a8 : 0 ≤ R.u * X := mul_nonneg hu0 (by linarith)
  linarith

section
variable {S S' : Finset Nat} {N N' : Node d} {x y : Nat} (hD : 0 < D) (huD : 68 * D * R.u ≤ 1) (hd : d ≤ 3) (hx : Bounded X (body x)) (hy : Bounded X (body y))
  (hdist : Geometry.distance (body x).pos (body y).pos ≤ ((body x).h + (body y).h) / 2 - 100 * D * R.u * X)
include hD huD

theorem small : R.u ≤ 1 / 68 := by
  have h1 : (1 : ℝ) ≤ D := by exact_mod_cast hD
  nlinarith [R.nonneg]

include hx in
omit huD in
theorem slack : 0 ≤ R.u * X ∧ R.u * X ≤ D * R.u * X := by
  have h1 : (1 : ℝ) ≤ D := by exact_mod_cast hD
  have h2 : 0 ≤ X := hx.1.trans hx.2.1
  have h3 := mul_nonneg R.nonneg h2
  refine ⟨h3, ?_⟩
  rw [mul_assoc]
  exact le_mul_of_one_le_left h3 h1

include hx hy hdist in
/-- The boxes of two nodes holding the particles meet. -/
theorem box_box_near (hN : Sums R X body D S N) (hN' : Sums R X body D S' N') (hyS : y ∈ S) (hxS : x ∈ S') : intersectsBoxBox N.bmin N.bmax N'.bmin N'.bmax := by
  have hu1 : R.u ≤ 1 := (small hD huD).trans (by norm_num)
  obtain ⟨s0, s1⟩ := slack hD hx
  have hc : ∀ i, |(body x).pos i - (body y).pos i| ≤ Geometry.distance (body x).pos (body y).pos := fun i => by
    have := coord_le_distance (body x).pos (body y).pos i
    exact this
  unfold intersectsBoxBox
  rintro (⟨i, hi⟩ | ⟨i, hi⟩)
  · have h1 := (hN.box y hyS i).2
    have h2 := (hN'.box x hxS i).1
    have h3 := corner_hi hu1 hy i
    have h4 := corner_lo hu1 hx i
    have h5 := abs_le.mp ((hc i).trans hdist)
    linarith
  · have h1 := (hN.box y hyS i).1
    have h2 := (hN'.box x hxS i).2
    have h3 := corner_lo hu1 hy i
    have h4 := corner_hi hu1 hx i
    have h5 := abs_le.mp ((hc i).trans hdist)
    linarith

include hd hx hy hdist in
/-- The sphere of a particle meets the box of a node which holds the other. -/
theorem sphere_box_near {tol : ℝ} (htol : 0 ≤ tol) (hN : Sums R X body D S N) (hyS : y ∈ S) : intersectsSphereBox R tol N.bmin N.bmax (body x).pos (body x).h := by
  have hu68 := small hD huD
  have hu1 : R.u < 1 := hu68.trans_lt (by norm_num)
  have hu0 := R.nonneg
  obtain ⟨s0, s1⟩ := slack hD hx
  obtain ⟨c, hcdef⟩ : ∃ c, c = clamp N.bmin N.bmax (body x).pos := ⟨_, rfl⟩
  obtain ⟨τ, hτ⟩ : ∃ τ, τ = (body y).h / 2 - 3 * R.u * X := ⟨_, rfl⟩
  obtain ⟨ρ, hρ⟩ : ∃ ρ, ρ = Geometry.distance (body x).pos (body y).pos := ⟨_, rfl⟩
  rw [← hρ] at hdist
  have hρ0 : 0 ≤ ρ := by rw [hρ]; exact distance_nonneg _ _
  have hc : ∀ i, |(body x).pos i - (body y).pos i| ≤ ρ := fun i => by rw [hρ]; exact coord_le_distance _ _ i
  have hcl : ∀ i, |c i - (body x).pos i| ≤ max 0 (|(body x).pos i - (body y).pos i| - τ) := by
    intro i
    rw [hcdef]
    refine (clamp_near N.bmin N.bmax (body x).pos i).trans (max_le_max le_rfl (max_le ?_ ?_))
    · have h1 := (hN.box y hyS i).1
      have h2 := corner_lo hu1.le hy i
      have h3 := neg_abs_le ((body x).pos i - (body y).pos i)
      linarith
    · have h1 := (hN.box y hyS i).2
      have h2 := corner_hi hu1.le hy i
      have h3 := le_abs_self ((body x).pos i - (body y).pos i)
      linarith
  have hx0 := hx.1
  have hy0 := hy.1
  have hmain : Geometry.distance c (body x).pos ≤ (body x).h / 2 := by
    rcases le_or_gt 0 τ with ht | ht
    · rcases hρ0.eq_or_lt with h0 | h0
      · have : Geometry.distance c (body x).pos ≤ 0 * Geometry.distance (body x).pos (body y).pos := distance_scale le_rfl fun i => by
          rw [zero_mul]
          refine (hcl i).trans (max_le le_rfl ?_)
          have := hc i
          linarith
        linarith
      · have : Geometry.distance c (body x).pos ≤ max 0 (1 - τ / ρ) * Geometry.distance (body x).pos (body y).pos := distance_scale (le_max_left _ _) fun i => by
          have ha := abs_nonneg ((body x).pos i - (body y).pos i)
          refine (hcl i).trans (max_le (mul_nonneg (le_max_left _ _) ha) ?_)
          refine le_trans ?_ (mul_le_mul_of_nonneg_right (le_max_right _ _) ha)
          have h2 : τ / ρ * |(body x).pos i - (body y).pos i| ≤ τ := by
            rw [div_mul_eq_mul_div, div_le_iff₀ h0]
            exact mul_le_mul_of_nonneg_left (hc i) ht
          linarith
        rw [← hρ] at this
        refine this.trans ?_
        rw [max_mul_of_nonneg _ _ hρ0, zero_mul, sub_mul, one_mul, div_mul_cancel₀ _ h0.ne']
        refine max_le (by linarith) ?_
        linarith
    · have : Geometry.distance c (body x).pos ≤ Geometry.distance (body x).pos (body y).pos + 2 * (3 * R.u * X) := distance_add hd (by linarith) fun i => by
        have ha := abs_nonneg ((body x).pos i - (body y).pos i)
        refine (hcl i).trans (max_le (by linarith) (by linarith))
      rw [← hρ] at this
      linarith
  have hv : ∀ k : Nat, k ≤ 7 → 1 / 2 ≤ (1 - R.u) ^ k := by
    intro k hk
    refine le_trans ?_ (bernoulli hu1.le k)
    have : (k : ℝ) ≤ 7 := by exact_mod_cast hk
    nlinarith
  unfold intersectsSphereBox
  rw [← hcdef]
  split_ifs with h3
  · refine within_of hu1 hd ?_
    have := mul_le_mul_of_nonneg_right (hv 4 (by omega)) hx0
    linarith
  · refine (fl_nonpos hu1.le ?_).trans htol
    have h4 := (near_distance hu1.le hd c (body x).pos (R := R)).2.2
    have h5 := (near_distance hu1.le hd c (body x).pos (R := R)).1
    have h6 := mul_le_mul_of_nonneg_right (hv 7 le_rfl) h5
    linarith

include hd hx hy hdist in
/-- A particle is not dropped by the test against the node of the group. -/
theorem leaf_near (hN : Sums R X body D S N) (hxS : x ∈ S) : withinDistance2 R (body y).pos N.coords (R.fl (max (body y).h N.lap + N.radius)) := by
  have hu68 := small hD huD
  have hu1 : R.u < 1 := hu68.trans_lt (by norm_num)
  have hu0 := R.nonneg
  have hD1 : (1 : ℝ) ≤ D := by exact_mod_cast hD
  have hX0 : 0 ≤ X := hx.1.trans hx.2.1
  obtain ⟨s0, s1⟩ := slack hD hx
  have hv : 0 < 1 - R.u := by linarith
  have hp : ∀ k, 0 < (1 - R.u) ^ k := fun k => pow_pos hv k
  have hx0 := hx.1
  have hy0 := hy.1
  obtain ⟨a, ha⟩ : ∃ a, a = Geometry.distance N.coords (body x).pos := ⟨_, rfl⟩
  obtain ⟨w, hw⟩ : ∃ w, w = max (body x).h (body y).h := ⟨_, rfl⟩
  have ha0 : 0 ≤ a := by rw [ha]; exact distance_nonneg _ _
  have hxw : (body x).h ≤ w := by rw [hw]; exact le_max_left _ _
  have hyw : (body y).h ≤ w := by rw [hw]; exact le_max_right _ _
  have hwX : w ≤ X := by rw [hw]; exact max_le hx.2.1 hy.2.1
  have hcoord : ∀ i, |N.coords i| ≤ 2 * X := by
    intro i
    have h1 := hN.coords i
    have h2 : 1 / 2 ≤ (1 - R.u) ^ (34 * D) := by
      refine le_trans ?_ (bernoulli hu1.le _)
      push_cast
      linarith
    have h3 := mul_le_mul_of_nonneg_right h2 (abs_nonneg (N.coords i))
    linarith
  have ha6 : a ≤ 6 * X := by
    have := distance_bound (p := N.coords) (q := (body x).pos) hd (by linarith : 0 ≤ 3 * X) fun i => by
      have h1 := abs_sub (N.coords i) ((body x).pos i)
      have h2 := hcoord i
      have h3 := hx.2.2 i
      linarith
    linarith
  have hr := hN.radius x hxS
  have hl := hN.lap x hxS
  rw [← ha] at hr hl
  have hm : (1 - R.u) ^ (9 * D) * w ≤ max (body y).h N.lap := by
    rcases le_total (body x).h (body y).h with h | h
    · rw [hw, max_eq_right h]
      exact (mul_le_of_le_one_left hy0 (pow_le_one' hu1.le _)).trans (le_max_left _ _)
    · rw [hw, max_eq_left h]
      refine le_trans ?_ (hl.trans (le_max_right _ _))
      exact mul_le_mul_of_nonneg_left (by linarith) (hp _).le
  have hfl := fl_ge (R := R) (add_nonneg (hy0.trans (le_max_left _ N.lap)) hN.pos)
  have htri := distance_triangle (body y).pos (body x).pos N.coords
  rw [distance_comm (body x).pos N.coords, ← ha, distance_comm (body y).pos (body x).pos] at htri
  refine within_of hu1 hd ?_
  have h5 : (1 - R.u) ^ (9 * D + 5) * (w + a) ≤ (1 - R.u) ^ 4 * R.fl (max (body y).h N.lap + N.radius) := by
    calc (1 - R.u) ^ (9 * D + 5) * (w + a) = (1 - R.u) ^ 4 * ((1 - R.u) * ((1 - R.u) ^ (9 * D) * w + (1 - R.u) ^ (9 * D) * a)) := by ring
      _ ≤ (1 - R.u) ^ 4 * ((1 - R.u) * (max (body y).h N.lap + N.radius)) :=
        mul_le_mul_of_nonneg_left (mul_le_mul_of_nonneg_left (add_le_add hm hr) hv.le) (hp _).le
      _ ≤ _ := mul_le_mul_of_nonneg_left hfl (hp _).le
  refine le_trans ?_ h5
  have h6 := bernoulli hu1.le (9 * D + 5) (R := R)
  push_cast at h6
  have hwa : 0 ≤ w + a := add_nonneg (hx0.trans hxw) ha0
  have h7 := mul_le_mul_of_nonneg_right h6 hwa
  have h8 : (9 * (D : ℝ) + 5) * R.u * (w + a) ≤ 14 * D * R.u * (7 * X) := by
    refine mul_le_mul ?_ (by linarith) hwa (by positivity)
    exact mul_le_mul_of_nonneg_right (by linarith) hu0
  nlinarith

include hd hx hy hdist in
/-- The test of the pair. -/
theorem pair_near : withinDistance2 R (body x).pos (body y).pos (max (body x).h (body y).h) := by
  have hu68 := small hD huD
  have hu1 : R.u < 1 := hu68.trans_lt (by norm_num)
  have hu0 := R.nonneg
  obtain ⟨s0, s1⟩ := slack hD hx
  refine within_of hu1 hd ?_
  have h1 := le_max_left (body x).h (body y).h
  have h2 := le_max_right (body x).h (body y).h
  have h3 : max (body x).h (body y).h ≤ X := max_le hx.2.1 hy.2.1
  have h0 := hx.1.trans h1
  have h4 := mul_le_mul_of_nonneg_right (bernoulli hu1.le 4 (R := R)) h0
  have h5 := mul_le_mul_of_nonneg_left h3 hu0
  push_cast at h4
  nlinarith

end

end FleCSPH.Rounded

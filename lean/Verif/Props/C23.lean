import Verif.Lemmas.Sph
import Verif.Spec.Shapes
/-! C23: the geometry predicates decide the geometric relations. -/
namespace FleCSPH
open Geometry Spec Traversal

variable {d : Nat}

private theorem mem_ball (x c : Point d) (r : ℝ) : x ∈ ball c r ↔ distance x c ≤ r := by
  unfold ball distance
  simp only [Set.mem_setOf_eq, sq]

/-- `within_distance2` with a radius which is not negative decides membership in the closed ball. -/
theorem C23_within_distance2 (p c : Point d) (r : ℝ) (hr : 0 ≤ r) : withinDistance2 p c r ↔ p ∈ ball c r := by
  rw [mem_ball]; exact within_iff p c hr

/-- With a negative radius it does not: the ball is empty but its centre is reported inside. -/
theorem C23_within_distance2_violated (c : Point d) (r : ℝ) (hr : r < 0) : withinDistance2 c c r ∧ ball c r = ∅ := by
  refine ⟨?_, ?_⟩
  · rw [withinDistance2, distance2_eq, distance_self]; nlinarith
  · ext x
    rw [mem_ball]
    have := distance_nonneg x c
    simp only [Set.mem_empty_iff_false, iff_false, not_le]; linarith

/-- `within` decides membership in the ball enlarged by the tolerance. -/
theorem C23_within_partial (tol : ℝ) (p c : Point d) (r : ℝ) : within tol p c r ↔ p ∈ ball c (r + tol) := by
  rw [mem_ball, within]; constructor <;> intro h <;> linarith

/-- Hence not in the ball itself: in every dimension but 0 there are points outside which are reported inside. -/
theorem C23_within_violated (tol : ℝ) (htol : 0 < tol) (c : Point (d + 1)) (r : ℝ) (hr : 0 ≤ r) : ∃ p, within tol p c r ∧ p ∉ ball c r := by
  refine ⟨fun i => c i + if i = 0 then r + tol else 0, ?_⟩
  have : distance (fun i => c i + if i = 0 then r + tol else 0) c = r + tol := by
    unfold distance
    rw [Finset.sum_eq_single 0 (by intro b _ hb; simp [hb]) (by simp)]
    simp only [if_true, add_sub_cancel_left]
    exact Real.sqrt_mul_self (by linarith)
  rw [mem_ball, within, this]
  constructor <;> linarith

/-- `within_square` decides membership in the larger of the two concentric balls. -/
theorem C23_within_square (p c : Point d) (r1 r2 : ℝ) : withinSquare p c r1 r2 ↔ p ∈ ball c r1 ∨ p ∈ ball c r2 := by
  rw [mem_ball, mem_ball, withinSquare, le_max_iff]

/-- `within_box` in one dimension decides membership in the closed box. -/
theorem C23_within_box_1d (lo hi p : Point 1) : withinBox1 lo hi p ↔ p ∈ box lo hi := by
  unfold withinBox1 box
  simp only [Set.mem_setOf_eq, Fin.forall_fin_one]
  tauto

/-- In two and three dimensions the lower faces are left out. -/
theorem C23_within_box_partial (lo hi p : Point d) : withinBox lo hi p ↔ p ∈ box lo hi ∧ ∀ i, p i ≠ lo i := by
  unfold withinBox box
  simp only [Set.mem_setOf_eq]
  constructor
  · intro h; exact ⟨fun i => ⟨(h i).2.le, (h i).1⟩, fun i => (h i).2.ne'⟩
  · intro h i; exact ⟨(h.1 i).2, lt_of_le_of_ne (h.1 i).1 (h.2 i).symm⟩

/-- So every point on a lower face is in the box but not reported. -/
theorem C23_within_box_violated (lo hi p : Point d) (hp : p ∈ box lo hi) (i : Fin d) (hpi : p i = lo i) : ¬ withinBox lo hi p := by
  rw [C23_within_box_partial]; exact fun h => h.2 i hpi

/-- `intersects_box_box` decides whether two boxes which are not empty share a point. -/
theorem C23_box_box (lo1 hi1 lo2 hi2 : Point d) (h1 : ∀ i, lo1 i ≤ hi1 i) (h2 : ∀ i, lo2 i ≤ hi2 i) :
    intersectsBoxBox lo1 hi1 lo2 hi2 ↔ Meet (box lo1 hi1) (box lo2 hi2) := by
  unfold intersectsBoxBox Meet box
  push Not
  constructor
  · intro ⟨ha, hb⟩
    exact ⟨fun i => max (lo1 i) (lo2 i), fun i => ⟨le_max_left _ _, max_le (h1 i) (ha i)⟩, fun i => ⟨le_max_right _ _, max_le (hb i) (h2 i)⟩⟩
  · rintro ⟨x, hx1, hx2⟩
    exact ⟨fun i => (hx2 i).1.trans (hx1 i).2, fun i => (hx1 i).1.trans (hx2 i).2⟩

/-- Two balls of radii which are not negative share a point if and only if the centres are at most the sum of the radii apart. -/
private theorem balls_meet (c1 c2 : Point d) (r1 r2 : ℝ) (h1 : 0 ≤ r1) (h2 : 0 ≤ r2) : Meet (ball c1 r1) (ball c2 r2) ↔ distance c1 c2 ≤ r1 + r2 := by
  constructor
  · rintro ⟨x, hx1, hx2⟩
    rw [mem_ball] at hx1 hx2
    have := distance_triangle c1 x c2
    rw [distance_comm c1 x] at this
    linarith
  · intro h
    rcases eq_or_lt_of_le (add_nonneg h1 h2) with h0 | h0
    · have e : r1 = 0 := by linarith
      have e' : r2 = 0 := by linarith
      refine ⟨c1, ?_, ?_⟩
      · rw [mem_ball, distance_self]; exact h1
      · rw [mem_ball]; linarith
    · -- the point which divides the segment in the ratio of the radii
      have ht : r2 / (r1 + r2) ≤ 1 := (div_le_one h0).mpr (by linarith)
      refine ⟨fun i => c2 i + r2 / (r1 + r2) * (c1 i - c2 i), ?_, ?_⟩
      · rw [mem_ball]
        have := distance_line c2 c1 (r2 / (r1 + r2)) ht
        rw [this]
        have e : 1 - r2 / (r1 + r2) = r1 / (r1 + r2) := by field_simp; ring
        rw [e, distance_comm]
        calc r1 / (r1 + r2) * distance c1 c2 ≤ r1 / (r1 + r2) * (r1 + r2) := mul_le_mul_of_nonneg_left h (by positivity)
          _ = r1 := by field_simp
      · rw [mem_ball]
        have e : distance (fun i => c2 i + r2 / (r1 + r2) * (c1 i - c2 i)) c2 = r2 / (r1 + r2) * distance c1 c2 := by
          unfold distance
          have : ∑ i, (c2 i + r2 / (r1 + r2) * (c1 i - c2 i) - c2 i) * (c2 i + r2 / (r1 + r2) * (c1 i - c2 i) - c2 i) =
              (r2 / (r1 + r2)) ^ 2 * ∑ i, (c1 i - c2 i) * (c1 i - c2 i) := by
            rw [Finset.mul_sum]; refine Finset.sum_congr rfl fun i _ => by ring
          rw [this, Real.sqrt_mul (sq_nonneg _), Real.sqrt_sq (by positivity)]
        rw [e]
        calc r2 / (r1 + r2) * distance c1 c2 ≤ r2 / (r1 + r2) * (r1 + r2) := mul_le_mul_of_nonneg_left h (by positivity)
          _ = r2 := by field_simp

/-- `intersects_sphere_sphere` in three dimensions is exact for radii which are not negative. -/
theorem C23_sphere_sphere_3d (c1 c2 : Point 3) (r1 r2 : ℝ) (h1 : 0 ≤ r1) (h2 : 0 ≤ r2) :
    intersectsSphereSphere c1 r1 c2 r2 ↔ Meet (ball c1 r1) (ball c2 r2) := by
  rw [balls_meet c1 c2 r1 r2 h1 h2, distance_comm, ← within_iff c2 c1 (add_nonneg h1 h2)]
  rfl

/-- In one and two dimensions it decides whether the balls meet after one is enlarged by the tolerance. -/
theorem C23_sphere_sphere_partial (tol : ℝ) (htol : 0 ≤ tol) (c1 c2 : Point d) (r1 r2 : ℝ) (h1 : 0 ≤ r1) (h2 : 0 ≤ r2) :
    intersectsSphereSphereTol tol c1 r1 c2 r2 ↔ Meet (ball c1 (r1 + tol)) (ball c2 r2) := by
  rw [balls_meet c1 c2 _ _ (by linarith) h2, intersectsSphereSphereTol]
  constructor <;> intro h <;> linarith

/-- `intersects_sphere_box` in three dimensions is exact for a box which is not empty and a radius which is not negative. -/
theorem C23_sphere_box_3d (tol : ℝ) (lo hi c : Point 3) (r : ℝ) (hr : 0 ≤ r) (hb : ∀ i, lo i ≤ hi i) :
    intersectsSphereBox tol lo hi c r ↔ Meet (ball c r) (box lo hi) := by
  unfold intersectsSphereBox
  rw [if_pos rfl]
  rw [show (distance2 (clamp lo hi c) c ≤ r * r) = withinDistance2 (clamp lo hi c) c r from rfl, within_iff _ _ hr]
  constructor
  · intro h
    exact ⟨clamp lo hi c, (mem_ball _ _ _).mpr h, fun i => ⟨le_max_left _ _, max_le (hb i) (min_le_right _ _)⟩⟩
  · rintro ⟨x, hx, hbx⟩
    rw [mem_ball] at hx
    exact (clamp_nearest hbx).trans hx

/-- In one and two dimensions it decides whether the ball enlarged by the tolerance meets the box. -/
theorem C23_sphere_box_partial (hd : d ≠ 3) (tol : ℝ) (lo hi c : Point d) (r : ℝ) (hb : ∀ i, lo i ≤ hi i) :
    intersectsSphereBox tol lo hi c r ↔ Meet (ball c (r + tol)) (box lo hi) := by
  unfold intersectsSphereBox
  rw [if_neg hd]
  constructor
  · intro h
    exact ⟨clamp lo hi c, (mem_ball _ _ _).mpr (by linarith), fun i => ⟨le_max_left _ _, max_le (hb i) (min_le_right _ _)⟩⟩
  · rintro ⟨x, hx, hbx⟩
    rw [mem_ball] at hx
    have := (clamp_nearest hbx (c := c)).trans hx
    linarith

/-- Non-vacuity: the unit box and a ball which touches it at a corner. -/
example : Meet (ball (![2, 1, 1] : Point 3) 1) (box ![0, 0, 0] ![1, 1, 1]) ∧ (∀ i, (![0, 0, 0] : Point 3) i ≤ (![1, 1, 1] : Point 3) i) := by
  refine ⟨⟨![1, 1, 1], ?_, ?_⟩, ?_⟩
  · simp [ball, Fin.sum_univ_three]; norm_num
  · intro i; fin_cases i <;> simp
  · intro i; fin_cases i <;> simp

end FleCSPH

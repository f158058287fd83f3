import Verif.Model.Geometry
/-! The distance is the Euclidean one. -/
namespace FleCSPH.Geometry

variable {d : Nat}

/-- The point as an element of Euclidean space. -/
noncomputable def euc (p : Point d) : EuclideanSpace ℝ (Fin d) := WithLp.toLp 2 p

theorem distance_euc (p q : Point d) : distance p q = dist (euc p) (euc q) := by
  rw [EuclideanSpace.dist_eq, distance]
  congr 1
  apply Finset.sum_congr rfl
  intro i _
  rw [Real.dist_eq, sq_abs, sq]
  rfl

theorem distance_nonneg (p q : Point d) : 0 ≤ distance p q := Real.sqrt_nonneg _

theorem distance_comm (p q : Point d) : distance p q = distance q p := by
  rw [distance_euc, distance_euc, dist_comm]

theorem distance_self (p : Point d) : distance p p = 0 := by
  rw [distance_euc, dist_self]

theorem distance_triangle (p q r : Point d) : distance p r ≤ distance p q + distance q r := by
  rw [distance_euc, distance_euc, distance_euc]; exact dist_triangle _ _ _

theorem distance_one (p q : Point 1) : distance p q = |p 0 - q 0| := by
  rw [distance, Fin.sum_univ_one, Real.sqrt_mul_self_eq_abs]

theorem distance2_eq (p q : Point d) : distance2 p q = distance p q ^ 2 := by
  rw [distance, Real.sq_sqrt, distance2]
  exact Finset.sum_nonneg fun i _ => mul_self_nonneg _

theorem distance2_nonneg (p q : Point d) : 0 ≤ distance2 p q := by rw [distance2_eq]; positivity

/-- A coordinate difference is at most the distance. -/
theorem coord_le_distance (p q : Point d) (i : Fin d) : |p i - q i| ≤ distance p q := by
  rw [distance]
  apply Real.le_sqrt_of_sq_le
  rw [sq_abs, sq]
  exact Finset.single_le_sum (f := fun i => (p i - q i) * (p i - q i)) (fun i _ => mul_self_nonneg _) (Finset.mem_univ i)

theorem within_iff (p q : Point d) {r : ℝ} (hr : 0 ≤ r) : withinDistance2 p q r ↔ distance p q ≤ r := by
  rw [withinDistance2, distance2_eq, ← sq]
  exact pow_le_pow_iff_left₀ (distance_nonneg p q) hr (by norm_num)

end FleCSPH.Geometry

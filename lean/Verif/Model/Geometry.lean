import Mathlib.Analysis.InnerProductSpace.PiL2
/-!
Model of the geometry of the tree: `space_vector.h` distances and `tree_geometry<T, D>`
(include/tree_topology/tree_geometry.h), in exact real arithmetic. `tol` is `10 * epsilon` (tree_geometry.h:57-58, 158-159,
262-263), a parameter here. The three specialisations are written out per coordinate in the code; the model uses one
formula over the coordinates and a separate definition where the specialisations differ.
-/
namespace FleCSPH.Geometry

abbrev Point (d : Nat) := Fin d → ℝ

/-- `tree_geometry::distance2`, tree_geometry.h:60-62, 161-164, 265-269. -/
noncomputable def distance2 {d : Nat} (p q : Point d) : ℝ := ∑ i, (p i - q i) * (p i - q i)

/-- `flecsi::distance`, space_vector.h:46-58. For one dimension the code takes the absolute value, which is the same
(`distance_one`). -/
noncomputable def distance {d : Nat} (p q : Point d) : ℝ := √(∑ i, (p i - q i) * (p i - q i))

/-- `within_distance2`, tree_geometry.h:65-69, 167-171, 272-276. -/
def withinDistance2 {d : Nat} (p q : Point d) (r : ℝ) : Prop := distance2 p q ≤ r * r

/-- `within`, tree_geometry.h:73-78, 175-180, 280-285. -/
def within {d : Nat} (tol : ℝ) (origin center : Point d) (r1 : ℝ) : Prop := distance origin center - r1 ≤ tol

/-- `within_square`, tree_geometry.h:81-86, 183-188, 288-293. -/
def withinSquare {d : Nat} (origin center : Point d) (r1 r2 : ℝ) : Prop := distance origin center ≤ max r1 r2

/-- `within_box` in one dimension, tree_geometry.h:90-95: both ends belong to the box. -/
def withinBox1 (min max origin : Point 1) : Prop := origin 0 ≤ max 0 ∧ origin 0 ≥ min 0

/-- `within_box` in two and three dimensions, tree_geometry.h:192-198, 297-303: the lower faces do not belong. -/
def withinBox {d : Nat} (min max origin : Point d) : Prop := ∀ i, origin i ≤ max i ∧ origin i > min i

/-- `intersects_sphere_sphere` in one and two dimensions, tree_geometry.h:98-103, 210-215. -/
def intersectsSphereSphereTol {d : Nat} (tol : ℝ) (c1 : Point d) (r1 : ℝ) (c2 : Point d) (r2 : ℝ) : Prop :=
  distance c1 c2 - (r1 + r2) ≤ tol

/-- `intersects_sphere_sphere` in three dimensions, tree_geometry.h:317-325. -/
def intersectsSphereSphere {d : Nat} (c1 : Point d) (r1 : ℝ) (c2 : Point d) (r2 : ℝ) : Prop :=
  ∑ i, (c2 i - c1 i) * (c2 i - c1 i) ≤ (r1 + r2) * (r1 + r2)

/-- The point of the box closest to `c` used by `intersects_sphere_box`. -/
noncomputable def clamp {d : Nat} (min max c : Point d) : Point d := fun i => Max.max (min i) (Min.min (c i) (max i))

/-- `intersects_sphere_box`, tree_geometry.h:107-114, 219-227 (distance and tolerance) and, in three dimensions, 329-342 (squares,
no tolerance). The three-dimensional code takes the minimum and maximum with `<`, which gives the same point. -/
def intersectsSphereBox {d : Nat} (tol : ℝ) (min max c : Point d) (r : ℝ) : Prop :=
  if d = 3 then distance2 (clamp min max c) c ≤ r * r else distance (clamp min max c) c - r ≤ tol

/-- `intersects_box_box`, tree_geometry.h:117-122, 201-207, 306-314. -/
def intersectsBoxBox {d : Nat} (min1 max1 min2 max2 : Point d) : Prop :=
  ¬ ((∃ i, max1 i < min2 i) ∨ (∃ i, max2 i < min1 i))

/-- `mac`, tree_geometry.h:124-131, 229-236, 343-350. -/
def mac {d : Nat} (source : Point d) (sourceRadius : ℝ) (sink : Point d) (radius macAngle : ℝ) : Prop :=
  sourceRadius + radius < macAngle * distance source sink

end FleCSPH.Geometry

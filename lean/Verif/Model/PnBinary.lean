import Mathlib.Analysis.SpecialFunctions.Complex.Arg
/-!
Model of tools/starID_tools/nsID_tov/binary.py, which makes the initial data of two neutron stars on a post-newtonian orbit. Data sets are lists of real numbers. The switches `USE_PN`, `USE_TIDALLY_LOCKED`, `FLIP_Z_1` and `FLIP_Z_2` have the
values of lines 16-19 (all true). The electron fractions and particle types, which are read and not written, and the printed values are left out. `none` is a Python exception (arrays of lengths that do not match).
-/
namespace FleCSPH.PnBinary

/-- The data sets of a star which are used, binary.py:146-174. -/
structure Star where
  x : List ℝ
  y : List ℝ
  z : List ℝ
  h : List ℝ
  u : List ℝ
  m : List ℝ

/-- The data sets which are written, binary.py:276-285. -/
structure File where
  x : List ℝ
  y : List ℝ
  z : List ℝ
  vx : List ℝ
  vy : List ℝ
  vz : List ℝ
  u : List ℝ
  m : List ℝ
  h : List ℝ
  state : List ℕ

/-- An operation on two numpy arrays: element by element, where an array of length 1 is repeated; other lengths raise `ValueError`. -/
def bcast (f : ℝ → ℝ → ℝ) (a b : List ℝ) : Option (List ℝ) :=
  if a.length = b.length then some (List.zipWith f a b)
  else match a, b with
    | [v], b => some (b.map (f v))
    | a, [w] => some (a.map fun v => f v w)
    | _, _ => none

/-- Units, binary.py:27, 28, 32 (`u_cu_to_cgs`, `distance_cu_to_cgs`, `mass_cu_to_cgs`). -/
def scale (c : ℝ) (a : List ℝ) : List ℝ := a.map fun v => v * c

/-- `center_star`, one coordinate, binary.py:49-63. `none`: the masses and coordinates do not match. -/
noncomputable def centre (m x : List ℝ) : Option (List ℝ) :=
  (bcast (fun v w => v * w) x m).map fun xm => x.map fun v => v - xm.sum / m.sum

/-- `get_pn_velocity_angular` without the factor `r_mine`, binary.py:65-72. -/
noncomputable def omega (G c mine other sep : ℝ) : ℝ :=
  let mtot := mine + other
  let eta := (mine / mtot) * (other / mtot)
  let factor := G * mtot / (sep * c ^ 2)
  Real.sqrt (G * mtot / sep ^ 3) * (1 - 0.5 * factor * (3 - eta) + factor ^ 2 * (15 + 47 * eta + 3 * eta ^ 2) / 8)

/-- `get_pn_rdot`, binary.py:77-82. -/
noncomputable def rdot (G c mine other sep : ℝ) : ℝ :=
  let mtot := mine + other
  let eta := (mine / mtot) * (other / mtot);
  -(64 / 5) * G ^ 3 * mtot ^ 2 * other * eta / (sep ^ 3 * c ^ 5)

/-- `get_offsets`, binary.py:89-94, called at line 245 with the arrays of the masses of the particles. -/
noncomputable def offsets (m1 m2 : List ℝ) (sep : ℝ) : Option (List ℝ × List ℝ) :=
  (bcast (fun a b => sep * a / (a + b)) m1 m2).map fun r2 => (r2.map fun r => r - sep, r2)

/-- `np.arctan2(y, x)`. -/
noncomputable def arctan2 (y x : ℝ) : ℝ := Complex.arg ⟨x, y⟩

/-- `vx` of `get_velocities` for one particle, binary.py:113-124. -/
noncomputable def velX (G c mine other sep x y : ℝ) : ℝ :=
  rdot G c mine other sep * Real.cos (arctan2 y x) - omega G c mine other sep * Real.sqrt (x ^ 2 + y ^ 2) * Real.sin (arctan2 y x)

/-- `vy` of `get_velocities` for one particle, binary.py:113-125. -/
noncomputable def velY (G c mine other sep x y : ℝ) : ℝ :=
  rdot G c mine other sep * Real.sin (arctan2 y x) + omega G c mine other sep * Real.sqrt (x ^ 2 + y ^ 2) * Real.cos (arctan2 y x)

/-- `get_initial_data`, binary.py:129-285, with the separation in kilometres (line 290). `vz` is the number 0 for each star (line 126), and `hstack` makes an array of two numbers of them (line 264). -/
noncomputable def make (G c km : ℝ) (s t : Star) : Option File := do
  let sep := km * 10 ^ 5
  let m1 := scale (10 ^ 27) s.m
  let m2 := scale (10 ^ 27) t.m
  let x1 ← centre m1 (scale (10 ^ 5) s.x)
  let y1 ← centre m1 (scale (10 ^ 5) s.y)
  let z1 ← centre m1 (scale (10 ^ 5) s.z)
  let x2 ← centre m2 (scale (10 ^ 5) t.x)
  let y2 ← centre m2 (scale (10 ^ 5) t.y)
  let z2 ← centre m2 (scale (10 ^ 5) t.z)
  let r ← offsets m1 m2 sep
  let x1 ← bcast (fun a b => a + b) (scale (-1) x1) r.1
  let y1 := scale (-1) y1
  let z1 := scale (-1) z1
  let x2 ← bcast (fun a b => a + b) x2 r.2
  let z2 := scale (-1) z2
  let vx1 ← bcast (velX G c m1.sum m2.sum sep) x1 y1
  let vy1 ← bcast (velY G c m1.sum m2.sum sep) x1 y1
  let vx2 ← bcast (velX G c m2.sum m1.sum sep) x2 y2
  let vy2 ← bcast (velY G c m2.sum m1.sum sep) x2 y2
  return { x := x1 ++ x2, y := y1 ++ y2, z := z1 ++ z2, vx := vx1 ++ vx2, vy := vy1 ++ vy2, vz := [0] ++ [0],
           u := scale (10 ^ 10) s.u ++ scale (10 ^ 10) t.u, m := m1 ++ m2, h := scale (10 ^ 5) s.h ++ scale (10 ^ 5) t.h,
           state := List.replicate x1.length 1 ++ List.replicate x2.length 2 }

end FleCSPH.PnBinary

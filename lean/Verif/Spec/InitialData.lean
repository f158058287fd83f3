import Verif.Model.IdGen
import Verif.Spec.Profiles
import Mathlib.MeasureTheory.Measure.Lebesgue.VolumeOfBalls
import Mathlib.LinearAlgebra.Matrix.Determinant.Basic
import Mathlib.LinearAlgebra.Matrix.Notation
/-! What initial data should be: regions and their volumes, lattice cells. -/
namespace FleCSPH.Spec
open MeasureTheory FleCSPH.Lattice

/-- The content of the box with the given edges, centred at the origin. -/
noncomputable def boxVolume {d : Nat} (edges : Fin d → ℝ) : ℝ := (volume (Set.Icc (fun i => -edges i / 2) (fun i => edges i / 2))).toReal

/-- The content of the ball of radius `R`. -/
noncomputable def ballVolume (d : Nat) (R : ℝ) : ℝ := (volume (Metric.ball (0 : EuclideanSpace ℝ (Fin d)) R)).toReal

/-- Vectors spanning a cell with one particle: cubic lattices for type 0, triangular lattices and close packings for others. (Hexagonal packing has two particles in a cell of twice this volume.) -/
noncomputable def cell1 (sep : ℝ) : Matrix (Fin 1) (Fin 1) ℝ := !![sep]
noncomputable def cell2 (lattice : Int) (sep : ℝ) : Matrix (Fin 2) (Fin 2) ℝ :=
  if lattice = 0 then !![sep, 0; 0, sep] else !![sep, 0; sep / 2, √3 / 2 * sep]
noncomputable def cell3 (lattice : Int) (sep : ℝ) : Matrix (Fin 3) (Fin 3) ℝ :=
  if lattice = 0 then !![sep, 0, 0; 0, sep, 0; 0, 0, sep] else !![sep, 0, 0; sep / 2, √3 / 2 * sep, 0; sep / 2, √3 / 6 * sep, √(2 / 3) * sep]

/-- The content of a cell with one particle. -/
noncomputable def cellVolume (d : Nat) (lattice : Int) (sep : ℝ) : ℝ :=
  if d = 1 then |(cell1 sep).det| else if d = 2 then |(cell2 lattice sep).det| else |(cell3 lattice sep).det|

/-- The content of the parallelogram, of the parallelepiped with a corner `p` and the corners `q` next to it. -/
noncomputable def span2 (p q1 q2 : Pos) : ℝ := |(!![q1.x - p.x, q1.y - p.y; q2.x - p.x, q2.y - p.y] : Matrix (Fin 2) (Fin 2) ℝ).det|
noncomputable def span3 (p q1 q2 q3 : Pos) : ℝ :=
  |(!![q1.x - p.x, q1.y - p.y, q1.z - p.z; q2.x - p.x, q2.y - p.y, q2.z - p.z; q3.x - p.x, q3.y - p.y, q3.z - p.z] : Matrix (Fin 3) (Fin 3) ℝ).det|

/-- An ideal gas. -/
def IdealGas (gamma rho u P : ℝ) : Prop := P = (gamma - 1) * rho * u

end FleCSPH.Spec

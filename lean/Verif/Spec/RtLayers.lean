import Mathlib.Data.Real.Basic
/-! Layers of particles in a box. -/
namespace FleCSPH.RtLayers
noncomputable section

/-- The positions of `r` rows: row `j` has the height `y0 + j * d`, begins `shift j` distances to the right of `x0` and has `n j` particles, which are `s` apart. -/
def rows (r : ℕ) (n : ℕ → ℕ) (x0 s y0 d : ℝ) (shift : ℕ → ℝ) : List (ℝ × ℝ) :=
  (List.range r).flatMap fun j => (List.range (n j)).map fun i : ℕ => (x0 + (shift j + i) * s, y0 + j * d)

/-- Rectangular lattices. -/
def straight : ℕ → ℝ := fun _ => 0

/-- Triangular lattices: every second row is moved by half a distance. -/
def staggered (j : ℕ) : ℝ := if j % 2 = 1 then 1 / 2 else 0

end
end FleCSPH.RtLayers

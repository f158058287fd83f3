import Mathlib.Data.Real.Basic
/-! Layers of particles in a box which is periodic in `x`. -/
namespace FleCSPH.KhLayers
noncomputable section

/-- The positions of `r` rows with `n` particles each in a box from `-L/2` to `L/2`: the particles of a row are `L/n` apart, also across the boundary; row `j` has the height `height j` and begins `shift j` distances behind
the lower boundary. -/
def layer (L : ℝ) (n r : ℕ) (shift height : ℕ → ℝ) : List (ℝ × ℝ) :=
  (List.range r).flatMap fun j => (List.range n).map fun i : ℕ => (-L / 2 + (i + shift j) * (L / n), height j)

/-- Rectangular lattices: every particle in the middle of its cell. -/
def straight : ℕ → ℝ := fun _ => 1 / 2

/-- Triangular lattices: every second row is moved by half a distance. -/
def staggered (j : ℕ) : ℝ := if j % 2 = 1 then 3 / 4 else 1 / 4

end
end FleCSPH.KhLayers

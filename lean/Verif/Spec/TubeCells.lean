import Mathlib.Data.Real.Basic
/-! Particles on a line which stand for a piecewise constant profile. -/
namespace FleCSPH.TubeCells
noncomputable section

/-- State of a gas: velocity, density, pressure. -/
structure Gas where
  v : ℝ
  rho : ℝ
  P : ℝ

/-- The initial states of a shock tube in a periodic box: `inner` for `-a ≤ x < a`, `outer` elsewhere. -/
def profile (inner outer : Gas) (a x : ℝ) : Gas := if -a ≤ x ∧ x < a then inner else outer

/-- The six tests: the states of the middle and of the outer part (Sod's problem; double rarefaction; left and right half of the strong blast waves; collision of two shocks; collision of two streams). -/
def states : ℕ → Gas × Gas
  | 1 => (⟨0, 1, 1⟩, ⟨0, 1 / 8, 1 / 10⟩)
  | 2 => (⟨-2, 1, 2 / 5⟩, ⟨2, 1, 2 / 5⟩)
  | 3 => (⟨0, 1, 1000⟩, ⟨0, 1, 1 / 100⟩)
  | 4 => (⟨0, 1, 1 / 100⟩, ⟨0, 1, 100⟩)
  | 5 => (⟨19.5975, 5.99924, 460.894⟩, ⟨-6.19633, 5.99242, 46.095⟩)
  | 6 => (⟨1, 1, 1 / 1000000⟩, ⟨-1, 1, 1 / 1000000⟩)
  | _ => (⟨0, 1, 1⟩, ⟨0, 1, 1⟩)

end
end FleCSPH.TubeCells

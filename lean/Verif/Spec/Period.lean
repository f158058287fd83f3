import Mathlib.Data.Real.Basic
/-! Lattices in a periodic box. -/
namespace FleCSPH.Spec

/-- A lattice with period `a` fits into a box of extent `W` with periodic boundaries up to an error of `e`: the box holds a positive whole number of periods, and at most `e` of the last one is cut off. -/
def FitsPeriod (W a e : ℝ) : Prop := ∃ n : Nat, 0 < n ∧ W ≤ n * a ∧ n * a < W + e

end FleCSPH.Spec

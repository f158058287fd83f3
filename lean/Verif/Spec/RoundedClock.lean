import Verif.Model.Rounding
/-! What a rounding to the nearest number of a fixed format does, beside the bound on its error. -/
namespace FleCSPH.RoundedClock
open FleCSPH.Rounded (Rounding)

/-- Rounding keeps the order, and numbers of the format stay as they are. -/
structure Format (R : Rounding) : Prop where
  mono : ∀ x y, x ≤ y → R.fl x ≤ R.fl y
  idem : ∀ x, R.fl (R.fl x) = R.fl x

/-- The number is one of the format. -/
def Representable (R : Rounding) (x : ℝ) : Prop := R.fl x = x

/-- The times of output: the first, then one interval more each time, the sum rounded. -/
noncomputable def outputTime (R : Rounding) (first interval : ℝ) : Nat → ℝ
  | 0 => first
  | m + 1 => R.fl (outputTime R first interval m + interval)

end FleCSPH.RoundedClock

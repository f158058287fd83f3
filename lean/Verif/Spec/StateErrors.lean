import Verif.Model.RoundedEos
import Verif.Lemmas.RoundedDensity
/-! For C90: the conditions on gases, and how many roundings the errors of pressures and sound speeds stand for. -/
namespace FleCSPH.Spec
open FleCSPH.Sph FleCSPH.Kernels FleCSPH.Rounded

/-- A gas whose pressure and sound speed are numbers: polytropic with an adiabatic invariant, or ideal with an internal energy, which is not negative. The exponent is between 1 and `g`; `γ - 1`, which is used as an exponent
by the polytropic gas, is exact in floating-point arithmetic. -/
def Gas (R : Rounding) (q : Eos.Params) (g : Nat) {d : Nat} : Eos.Kind → Particle d → Prop
  | .polytropic, a => 0 ≤ a.K ∧ 1 ≤ q.gamma ∧ q.gamma ≤ g ∧ R.fl (q.gamma - 1) = q.gamma - 1
  | .ideal, a => 0 ≤ a.u ∧ 1 ≤ q.gamma ∧ q.gamma ≤ g
  | _, _ => False

/-- Roundings which bound the error of a density with at most `N` neighbours, if the density of the neighbours put at one place is at most `C` times as large. -/
def denseLoss (κ : Kernel) (N C : Nat) : Nat := 2 * (C * (2 * N + 2 * loss κ + 552))

/-- Roundings which bound the errors of pressure and sound speed. -/
def stateLoss (κ : Kernel) (N C g : Nat) : Nat := g * denseLoss κ N C + 4

end FleCSPH.Spec

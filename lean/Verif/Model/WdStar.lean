import Mathlib.Analysis.SpecialFunctions.Arsinh
import Mathlib.Analysis.SpecialFunctions.Pow.Real
import Mathlib.Data.Sign.Basic
/-!
Model of tools/starID_tools/wdID/WDtov_solver.py: the pressure of the white dwarf matter, the search of the density of a given pressure, the derivatives of pressure and mass, and the values at the centre. Numbers are real numbers; `none` is a
Python exception (a variable that was not assigned). The integration is that of `TovStar.rk4` and is not repeated; the printed table is left out.
-/
namespace FleCSPH.WdStar

/-- The constants of the equation of state, WDtov_solver.py:61-62: `A_wd` and `B_wd`; the values do not matter. -/
structure Consts where
  A : ℝ
  B : ℝ
  G : ℝ
  c : ℝ

/-- `eos(rho, 0)`, WDtov_solver.py:59-66. -/
noncomputable def pressure (k : Consts) (rho : ℝ) : ℝ :=
  let x := (rho / k.B) ^ (1 / 3 : ℝ)
  k.A * (x * (2 * x * x - 3) * Real.sqrt (x * x + 1) + 3 * Real.arsinh x)

/-- `eos_e`, WDtov_solver.py:69-76. -/
noncomputable def energy (k : Consts) (rho : ℝ) : ℝ :=
  let x := (rho / k.B) ^ (1 / 3 : ℝ)
  rho * k.c * k.c + 3 * k.A * (x * (2 * x * x + 1) * Real.sqrt (x * x + 1) - Real.arsinh x)

/-- The loop of `bisection`, WDtov_solver.py:82-90, with `xmid` (`none` before the first round); the first argument is the number of rounds which `NMAX` leaves. -/
noncomputable def bisectLoop (e : ℝ → ℝ) (tol : ℝ) : ℕ → ℝ → ℝ → Option ℝ → Option ℝ
  | 0, _, _, mid => mid
  | n + 1, xl, xr, mid =>
    if tol < |(xl - xr) / 2| then
      let xmid := (xl + xr) / 2
      if SignType.sign (e xmid) = SignType.sign (e xl) then bisectLoop e tol n xmid xr (some xmid) else bisectLoop e tol n xl xmid (some xmid)
    else mid

/-- `bisection`, WDtov_solver.py:79-91, for the pressure `P`: `n` runs from 1 to `NMAX`, 10000. -/
noncomputable def bisection (k : Consts) (xl xr tol P : ℝ) : Option ℝ := bisectLoop (fun rho => pressure k rho - P) tol 9999 xl xr none

/-- The search of the density near the density `rho` of the last shell, WDtov_solver.py:104, 148. -/
noncomputable def density (k : Consts) (rho P : ℝ) : Option ℝ := bisection k (2 * rho) (0.1 * rho) (1 / 10 ^ 8) P

/-- The derivative of the pressure for the energy density `en`, WDtov_solver.py:106-115. -/
noncomputable def dPdr (k : Consts) (TOV : Bool) (P m r en : ℝ) : ℝ :=
  let GR1 := if TOV then 1 + P / en else 1
  let GR2 := if TOV then 1 + 4 * Real.pi * r ^ 3 * P / (m * k.c * k.c) else 1
  let GR3 := if TOV then 1 / (1 + 2 * k.G * m / (k.c * k.c * r)) else 1;
  -k.G * en * m / (k.c ^ 2 * r ^ 2) * GR1 * GR2 * GR3

/-- The derivative of the mass, WDtov_solver.py:116. -/
noncomputable def dmdr (k : Consts) (r en : ℝ) : ℝ := 4 * Real.pi * en * r ^ 2 / k.c ^ 2

/-- The mass of the first shell, WDtov_solver.py:139. -/
noncomputable def firstMass (dr _rhoC : ℝ) : ℝ := 4 / 3 * Real.pi * dr ^ 3

/-- `get_dfdr`, WDtov_solver.py:120-125: the entry `i` of the slopes of the `n` values `f`. The last entry is written after the first; for the one value at which both would be meant numpy raises an exception, which is left out. -/
noncomputable def slope (f : ℕ → ℝ) (dr : ℝ) (n i : ℕ) : ℝ :=
  if i = 0 then (f 2 - f 0) / dr else if i = n - 1 then (f (n - 1) - f (i - 1)) / dr else (f (i + 1) - f (i - 1)) / (2 * dr)

end FleCSPH.WdStar

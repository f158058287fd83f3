import Verif.Model.Geometry
import Mathlib.Analysis.SpecialFunctions.Trigonometric.Basic
/-!
Model of include/physics/density_profiles.h in exact real arithmetic. `i : Fin 3` stands for `gdimension - 1`. Reading the
table from its file (`read_input_density_file`) is not modelled; a table is a list of columns.
-/
namespace FleCSPH.DensityProfiles
open Real

/-- `rho_constant_density`, density_profiles.h:69-81. -/
noncomputable def rhoConstant (i : Fin 3) (_r : ℝ) : ℝ :=
  if i = 0 then 1 / 2 else if i = 1 then 1 / π else 3 / 4 / π

/-- `mass_constant_density`, density_profiles.h:83-96. -/
noncomputable def massConstant (i : Fin 3) (r : ℝ) : ℝ :=
  if i = 0 then r else if i = 1 then r * r else r * r * r

/-- `drhodr_constant_density`, density_profiles.h:98-101. -/
def drhoConstant (_i : Fin 3) (_r : ℝ) : ℝ := 0

/-- `rho_parabolic_density`, density_profiles.h:107-120. -/
noncomputable def rhoParabolic (i : Fin 3) (r : ℝ) : ℝ :=
  if i = 0 then 3 / 4 * (1 - r * r) else if i = 1 then 2 / π * (1 - r * r) else 15 / (8 * π) * (1 - r * r)

/-- `mass_parabolic_density`, density_profiles.h:122-135. -/
noncomputable def massParabolic (i : Fin 3) (r : ℝ) : ℝ :=
  if i = 0 then 1 / 2 * r * (3 - r * r) else if i = 1 then r * r * (2 - r * r) else 1 / 2 * (r * r * r) * (5 - 3 * (r * r))

/-- `drhodr_parabolic_density`, density_profiles.h:137-150. -/
noncomputable def drhoParabolic (i : Fin 3) (r : ℝ) : ℝ :=
  if i = 0 then -(3 / 2) * r else if i = 1 then -4 / π * r else -15 / (4 * π) * r

/-- `mesa_mass_helper`, density_profiles.h:163-177. `q` is `mesa_q`. -/
noncomputable def mesaMassHelper (i : Fin 3) (q r : ℝ) : ℝ :=
  let dr := q
  let r0 := 1 - q
  if i = 0 then 0
  else if i = 1 then
    r * r * (1 - (1 / 2 * (r * r) + r0 * r0) / (dr * dr)) + (1 / 2 * (r0 * r0 * r0) + 4 * (r * r * r)) * r0 / (3 * (dr * dr))
  else
    r0 * r0 * r0 / 3 + (r * r * r - r0 * r0 * r0) / 3 * (1 - r0 * r0 / (dr * dr)) +
      r0 * (r * r - r0 * r0) * (r * r + r0 * r0) / (2 * (dr * dr)) -
      (r * r * (r * r * r) - r0 * r0 * (r0 * r0 * r0)) / (5 * (dr * dr))

/-- The central density `select` stores in `mesa_rho0`, density_profiles.h:374-382. -/
noncomputable def mesaRho0 (i : Fin 3) (q : ℝ) : ℝ :=
  if i = 0 then 1 / 2 / (1 - q / 3) else if i = 1 then 1 / (π * mesaMassHelper i q 1) else 1 / (4 * π * mesaMassHelper i q 1)

/-- `rho_mesa_density`, density_profiles.h:179-188. -/
noncomputable def rhoMesa (q rho0 r : ℝ) : ℝ :=
  let r0 := 1 - q
  if r < 1 - q then rho0 else if r < 9999 / 10000 then rho0 * (1 - (r - r0) * (r - r0) / (q * q)) else 0

/-- `mass_mesa_density`, density_profiles.h:190-213. -/
noncomputable def massMesa (i : Fin 3) (q rho0 r : ℝ) : ℝ :=
  let r0 := 1 - q
  if i = 0 then
    if r < 1 - q then 2 * rho0 * r
    else if r - 1 < 1 / 10 ^ 12 then 2 * rho0 * (r - (r - r0) * (r - r0) * (r - r0) / (3 * (q * q))) else 0
  else if i = 1 then
    if r < 1 - q then π * rho0 * (r * r) else if r - 1 < 1 / 10 ^ 12 then π * rho0 * mesaMassHelper i q r else 0
  else
    if r < 1 - q then 4 * π / 3 * rho0 * (r * r * r) else if r - 1 < 1 / 10 ^ 12 then 4 * π * rho0 * mesaMassHelper i q r else 0

/-- `drhodr_mesa_density`, density_profiles.h:215-222. -/
noncomputable def drhoMesa (q rho0 r : ℝ) : ℝ :=
  let r0 := 1 - q
  if r > 1 - q ∧ r < 9999 / 10000 then -2 * rho0 * (r - r0) / (q * q) else 0

open Classical in
/-- The loop of `get_interval_index`, density_profiles.h:296-302. -/
noncomputable def intervalLoop (x : ℝ) (xp : List ℝ) (i1 i2 : Nat) : Option Nat :=
  if i2 - i1 > 1 then
    match xp[(i1 + i2) / 2]? with
    | none => none
    | some y => if x < y then intervalLoop x xp i1 ((i1 + i2) / 2) else intervalLoop x xp ((i1 + i2) / 2) i2
  else some i1
termination_by i2 - i1

open Classical in
/-- `get_interval_index`, density_profiles.h:288-304; `none` is a read outside of the table. -/
noncomputable def getIntervalIndex (x : ℝ) (xp : List ℝ) : Option Int :=
  match xp.head?, xp.getLast? with
  | some lo, some hi =>
    if x * (1 + 1 / 10 ^ 15) < lo then some (-1)
    else if x * (1 - 1 / 10 ^ 15) > hi then some ((xp.length : Int) - 1)
    else (intervalLoop x xp 0 (xp.length - 1)).map fun i : Nat => (i : Int)
  | _, _ => none

/-- A read of a table at a signed index; `none` outside of it. -/
def at? (l : List ℝ) (i : Int) : Option ℝ := if 0 ≤ i then l[i.toNat]? else none

/-- `cubic_interp`, density_profiles.h:314-332. -/
noncomputable def cubicInterp (x : ℝ) (xp yp : List ℝ) : Option ℝ := do
  let i2 ← getIntervalIndex x xp
  let n : Int := xp.length
  let i2 := if i2 = 0 then 1 else i2
  let i2 := if i2 > n - 3 then n - 3 else i2
  let x1 ← at? xp (i2 - 1)
  let x2 ← at? xp i2
  let x3 ← at? xp (i2 + 1)
  let x4 ← at? xp (i2 + 2)
  let y1 ← at? yp (i2 - 1)
  let y2 ← at? yp i2
  let y3 ← at? yp (i2 + 1)
  let y4 ← at? yp (i2 + 2)
  let xx1 := x - x1
  let xx2 := x - x2
  let xx3 := x - x3
  let xx4 := x - x4
  return y1 * xx2 / (xx2 - xx1) * xx3 / (xx3 - xx1) * xx4 / (xx4 - xx1) +
    y2 * xx1 / (xx1 - xx2) * xx3 / (xx3 - xx2) * xx4 / (xx4 - xx2) +
    y3 * xx1 / (xx1 - xx3) * xx2 / (xx2 - xx3) * xx4 / (xx4 - xx3) +
    y4 * xx1 / (xx1 - xx4) * xx2 / (xx2 - xx4) * xx3 / (xx3 - xx4)

/-- The profiles `select` can install, density_profiles.h:357-396. -/
inductive Profile
  | constant
  | parabolic
  | mesa (rimWidth : ℝ)
  | table (rad rho mass drhodr : List ℝ)

/-- `spherical_density_profile` as installed by `select`. -/
noncomputable def rho (i : Fin 3) : Profile → ℝ → Option ℝ
  | .constant, r => some (rhoConstant i r)
  | .parabolic, r => some (rhoParabolic i r)
  | .mesa q, r => some (rhoMesa q (mesaRho0 i q) r)
  | .table rad rho _ _, r => cubicInterp r rad rho

/-- `spherical_mass_profile` as installed by `select`. -/
noncomputable def mass (i : Fin 3) : Profile → ℝ → Option ℝ
  | .constant, r => some (massConstant i r)
  | .parabolic, r => some (massParabolic i r)
  | .mesa q, r => some (massMesa i q (mesaRho0 i q) r)
  | .table rad _ mass _, r => cubicInterp r rad mass

/-- `spherical_drho_dr` as installed by `select`. -/
noncomputable def drho (i : Fin 3) : Profile → ℝ → Option ℝ
  | .constant, r => some (drhoConstant i r)
  | .parabolic, r => some (drhoParabolic i r)
  | .mesa q, r => some (drhoMesa q (mesaRho0 i q) r)
  | .table rad _ _ drhodr, r => cubicInterp r rad drhodr

end FleCSPH.DensityProfiles

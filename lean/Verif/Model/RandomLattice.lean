import Verif.Model.Lattice
import Verif.Model.IdGen
/-!
Model of `generator_random_lattice`, include/lattice.h:603-664. The random numbers are an arbitrary sequence of draws, four per attempt: two executions (counting and generating) seed their engines with the clock and see
different sequences. Numbers are real numbers. `prof` is `density_profiles::spherical_density_profile` where it is defined.
-/
namespace FleCSPH.RandomLattice
noncomputable section
open FleCSPH.Lattice

/-- The numbers drawn in one round of the inner loop: `x_p`, `y_p`, `z_p` and `random`, lattice.h:637-647. -/
structure Draw where
  x : ℝ
  y : ℝ
  z : ℝ
  random : ℝ

/-- `sphere_radius`, lattice.h:624-625. -/
def radius (lo hi : Pos) : ℝ := (hi.x - lo.x) / 2

/-- `npart`, lattice.h:628. -/
def npart (lo hi : Pos) (sep : ℝ) : Int :=
  let c := 2 * radius lo hi / sep + 1
  IdGen.truncate (c * c * c)

/-- The position drawn. -/
def Draw.pos (d : Draw) : Pos := ⟨d.x, d.y, d.z⟩

/-- The condition of lattice.h:651-652 with `r` and `exact` of 640, 648-649. -/
def accepted (prof : ℝ → ℝ) (domain : Int) (lo hi : Pos) (d : Draw) : Prop :=
  let r := √(d.x * d.x + d.y * d.y + d.z * d.z)
  let exact := prof (r / radius lo hi)
  d.random ≤ exact ∧ inDomain3 domain lo hi d.pos

open Classical in
/-- The loop `while(rejected == true)`, lattice.h:633-661: from the draw `k` on; the next draw and the new state. `none`: not ended after `fuel` rounds. -/
def attempt (prof : ℝ → ℝ) (domain : Int) (countOnly : Bool) (lo hi : Pos) (draws : ℕ → Draw) : ℕ → ℕ → Lattice.State → Option (ℕ × Lattice.State)
  | 0, _, _ => none
  | fuel + 1, k, st =>
    if accepted prof domain lo hi (draws k) then some (k + 1, { posid := st.posid + 1, pos := if countOnly then st.pos else Function.update st.pos st.posid (draws k).pos })
    else attempt prof domain countOnly lo hi draws fuel (k + 1) st

/-- The loop over the particles, lattice.h:631-662. -/
def rounds (prof : ℝ → ℝ) (domain : Int) (countOnly : Bool) (lo hi : Pos) (draws : ℕ → Draw) (fuel : ℕ) : ℕ → ℕ → Lattice.State → Option Lattice.State
  | 0, _, st => some st
  | n + 1, k, st => do
    let (k, st) ← attempt prof domain countOnly lo hi draws fuel k st
    rounds prof domain countOnly lo hi draws fuel n k st

/-- `generator_random_lattice`, lattice.h:603-664, in three dimensions; the assertion on the type (615) is `none`. The returned count is the growth of `posid`. -/
def generate (fuel : ℕ) (prof : ℝ → ℝ) (lattice domain : Int) (countOnly : Bool) (lo hi : Pos) (sep : ℝ) (draws : ℕ → Draw) (st : Lattice.State) : Option Lattice.State :=
  if lattice = 4 then rounds prof domain countOnly lo hi draws fuel (npart lo hi sep).toNat 0 st else none

end
end FleCSPH.RandomLattice

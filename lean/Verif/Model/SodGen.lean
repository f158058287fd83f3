import Verif.Model.IdGen
/-!
Model of the generator of shock tubes, app/id_generators/sodtube/main.cc, in one dimension, from the parameters to the data of the file: derived parameters, counting, allocation, the adjustment of the length to
periodic boundaries, the lattice loops (`Lattice`) and the fields of the particles. Numbers are real numbers. Left out: two and three dimensions (their parts are in `IdGen`), reading the parameters, the messages on the
screen, the arrays which are only zero (`vy`) or not written, the calls of HDF5. `pow(m / rho, 1. / gdimension)` is `m / rho`.
-/
namespace FleCSPH.SodGen
noncomputable section
open FleCSPH.Lattice FleCSPH.IdGen

/-- The parameters read by the generator: `box_length`, `lattice_nx`, `sodtest_num`, `poly_gamma`, `sph_eta`, `kernels::kernel_width`, `equal_mass`, `periodic_boundary_x`. -/
structure Params where
  box_length : ℝ
  nx : ℕ
  test : Int
  gamma : ℝ
  eta : ℝ
  width : ℝ
  equal_mass : Bool
  periodic : Bool

/-- The fields of a particle in the file. -/
structure Particle where
  x : ℝ
  vx : ℝ
  rho : ℝ
  P : ℝ
  u : ℝ
  m : ℝ
  h : ℝ
  id : ℕ

/-- The data of the file, and the length of the box the user is told to use (sodtube/main.cc:374-378). -/
structure File where
  particles : List Particle
  nparticles : ℕ
  timestep : ℝ
  box_length : ℝ

/-- `lattice_nx` after sodtube/main.cc:124. -/
def adjusted (nx : ℕ) : ℕ := (nx - 1) / 3 * 3 + 1

/-- `sph_separation`, sodtube/main.cc:127; `none`: division by zero. -/
def separation (P : Params) : Option ℝ := if adjusted P.nx - 1 = 0 then none else some (P.box_length / ((adjusted P.nx - 1 : ℕ) : ℝ))

/-- Three intervals: `cbox`, `rbox`, `lbox`. -/
structure Blocks where
  cmin : ℝ
  cmax : ℝ
  rmin : ℝ
  rmax : ℝ
  lmin : ℝ
  lmax : ℝ

/-- sodtube/main.cc:133-138. -/
def blocks (L : ℝ) : Blocks := ⟨-L / 6, L / 6, L / 6, -(-L / 2), -L / 2, -L / 6⟩

/-- The new length and the outer blocks with periodic boundaries, sodtube/main.cc:327-332. -/
def adjust (P : Params) (lrsep : ℝ) (b : Blocks) : ℝ × Blocks :=
  if P.periodic then
    let L := P.box_length / 3 + 2 * truncate (P.box_length / (3 * lrsep)) * lrsep
    (L, { b with rmax := L / 2, lmin := -L / 2 })
  else (P.box_length, b)

/-- A point on the line. -/
def pt (x : ℝ) : Pos := ⟨x, 0, 0⟩

/-- `particle_lattice::count` and `particle_lattice::generate` in one dimension, lattice.h:143-173, 667-690 and 808-815. -/
def fill (fuel : ℕ) (countOnly : Bool) (lo hi sep : ℝ) (st : Lattice.State) : Option Lattice.State := generate1 fuel countOnly (pt lo) (pt hi) sep st

/-- The number of particles of one block, a call of `particle_lattice::count` with the first number `posid`. -/
def count (fuel : ℕ) (lo hi sep : ℝ) (posid : ℕ) : Option ℕ := (fill fuel true lo hi sep ⟨posid, fun _ => pt 0⟩).map fun s => s.posid - posid

/-- Counting the three blocks, sodtube/main.cc:223-232 (equal separations, first numbers `tparticles - 1`) and 429-434 (equal masses): all particles, those of the middle and those of the right block. -/
def counted (fuel : ℕ) (equalMass : Bool) (b : Blocks) (sep lrsep : ℝ) : Option (ℕ × ℕ × ℕ) := do
  let mid ← count fuel b.cmin b.cmax sep 0
  let right ← count fuel b.rmin b.rmax lrsep (if equalMass then mid else mid - 1)
  let left ← count fuel b.lmin b.lmax lrsep (if equalMass then mid + right else mid + right - 1)
  return (mid + right + left, mid, right)

/-- Filling the arrays, sodtube/main.cc:466-481. `none`: an entry behind the end of the arrays of length `size` (437-440) is written. -/
def filled (fuel size : ℕ) (b : Blocks) (sep lrsep : ℝ) : Option Lattice.State := do
  let s1 ← fill fuel false b.cmin b.cmax sep ⟨0, fun _ => pt 0⟩
  let s2 ← fill fuel false b.rmin b.rmax lrsep s1
  let s3 ← fill fuel false b.lmin b.lmax lrsep s2
  if s3.posid ≤ size then return s3 else none

open Classical in
/-- One particle, sodtube/main.cc:494-516 and 520-542; `m1`, `m2` are the masses in the middle and at the sides. -/
def particle (P : Params) (t : Tube) (b : Blocks) (m1 m2 : ℝ) (pos : ℕ → Pos) (part : ℕ) : Particle :=
  let mid := inDomain1 (pt b.cmin) (pt b.cmax) (pos part)
  let p := if mid then t.P1 else t.P2
  let rho := if mid then t.rho1 else t.rho2
  let m := if mid then m1 else m2
  { x := (pos part).x
    vx := if mid then t.v1 else t.v2
    rho := rho
    P := p
    u := p / (P.gamma - 1) / rho
    m := m
    h := P.eta * P.width * (m / rho)
    id := part }

/-- `timestep`, sodtube/main.cc:487-491. -/
def timestep (P : Params) (t : Tube) (sep : ℝ) : ℝ := 1 / 2 * sep / √(P.gamma * max (t.P1 / t.rho1) (t.P2 / t.rho2))

/-- `main`, sodtube/main.cc:175-590. `none`: an unknown test (113-118), a division by zero in the separation, a loop which does not end, a write behind the end of an array. -/
def generate (P : Params) (fuel : ℕ) : Option File := do
  let t ← tube P.test
  let sep ← separation P
  let b := blocks P.box_length
  if P.equal_mass then
    let mass := t.rho1 * sep
    let lrsep := mass / t.rho2
    let (L, b) := adjust P lrsep b
    let (size, _, _) ← counted fuel true b sep lrsep
    let s ← filled fuel size b sep lrsep
    return ⟨(List.range s.posid).map (particle P t b mass mass s.pos), s.posid, timestep P t sep, L⟩
  else
    let (size, mid, right) ← counted fuel false b sep sep
    let s ← filled fuel size b sep sep
    return ⟨(List.range s.posid).map (particle P t b (t.rho1 / mid) (t.rho2 / right) s.pos), s.posid, timestep P t sep, P.box_length⟩

end
end FleCSPH.SodGen
